import Verif.Props.Brisk
import Verif.Props.ToldKit
import Verif.Props.FlowLive
import Verif.Props.ProgramKit
/-
C100: liveness of the robot kit with a careful host that asks for no crawling speeds: no assumption about what the firmware commands.
-/
set_option linter.unusedSimpArgs false
namespace Mrc.Props
open Mrc Mrc.Spec Mrc.Prog Mrc.Host Mrc.Kine Mrc.Brisk XR
open scoped Mrc.Num

/-- the ranges of the arm servos of the kit in radians. -/
noncomputable def kitLo (i : Fin 6) : ℝ := (Kit.minDeg (armServo i) : ℝ) * (Real.pi / 180)
noncomputable def kitHi (i : Fin 6) : ℝ := (Kit.maxDeg (armServo i) : ℝ) * (Real.pi / 180)

theorem kit_range (i : Fin 6) : -4 ≤ kitLo i ∧ kitHi i ≤ 4 := by
  have hp := Real.two_le_pi
  have hp4 := Real.pi_le_four
  have h1 : (-180 : ℝ) ≤ (Kit.minDeg (armServo i) : ℝ) := by
    have : -180 ≤ Kit.minDeg (armServo i) := by fin_cases i <;> decide +kernel
    exact_mod_cast this
  have h2 : (Kit.maxDeg (armServo i) : ℝ) ≤ 180 := by
    have : Kit.maxDeg (armServo i) ≤ 180 := by fin_cases i <;> decide +kernel
    exact_mod_cast this
  unfold kitLo kitHi
  constructor <;> nlinarith

theorem kit_compact : Compact (Kit.cfg : Cfg XR).toRCfg kitLo kitHi where
  p2l a h := by
    refine ⟨kitLogical a, kit_p2l a, fun i => ?_⟩
    have k := fun i => (⟨(kit_range i).1.trans (h i).1, (h i).2.trans (kit_range i).2⟩ : -4 ≤ a i ∧ a i ≤ 4)
    unfold kitLogical
    rw [abs_le]
    split
    · constructor <;> linarith [(k 1).1, (k 1).2, (k 2).1, (k 2).2]
    · constructor <;> linarith [(k i).1, (k i).2]
  lim a h i := by
    have lo : ∀ i, (Kit.cfg : Cfg XR).lo i = fin (kitLo i) := fun i => deg_fin _
    have hi : ∀ i, (Kit.cfg : Cfg XR).hi i = fin (kitHi i) := fun i => deg_fin _
    have := h i
    simp only [lo, hi, flt, fgt, ops_lt, decide_eq_false_iff_not, not_lt] at this
    have k := kit_range i
    rw [abs_le]
    constructor <;> linarith [this.1, this.2, k.1, k.2]
  range i := by
    have := kit_range i
    constructor <;> linarith [this.1, this.2]

theorem kit_servos2 {w0 : World XR} (hw : w0.servos = Kit.servos) : Servos2 kitLo kitHi w0 := by
  refine ⟨kit_servos hw, fun i => ⟨(Kit.velDeg (armServo i) : ℝ) * (Real.pi / 180), ?_, ?_⟩⟩
  · rw [hw]; simp only [Kit.servos, deg_fin, lit, Servo.new]
  · have hp := Real.two_le_pi
    have : (1 : ℝ) ≤ (Kit.velDeg (armServo i) : ℝ) := by
      have : 1 ≤ Kit.velDeg (armServo i) := by fin_cases i <;> decide
      exact_mod_cast this
    nlinarith

theorem kit_fit {w0 : World XR} (hw : w0.servos = Kit.servos) (i : Fin 6) : Fit (w0.servos (armServo i)) := by
  obtain ⟨m, e, hm⟩ := (kit_servos2 hw).fast i
  rw [hw] at e ⊢
  simp only [Kit.servos, deg_fin, lit, Servo.new] at e ⊢
  injection e with e
  refine ⟨_, _, _, rfl, rfl, rfl, ?_, ?_⟩
  · rw [e]; linarith
  · rw [e, sub_self, abs_zero]; unfold T; positivity

theorem careful_of_briskInstr {m : List Byte} (h : BriskInstr m) : CarefulInstr m := by
  obtain ⟨cs, h1, h2, h3⟩ := h
  exact ⟨cs, h1, fun c hc => (h2 c hc).1, h3⟩

theorem careful_of_briskStorage {mem : Nat → Byte} (h : BriskStorage mem) : CarefulStorage mem := by
  obtain ⟨L, h1, h2⟩ := h
  exact ⟨L, h1, fun m hm => careful_of_briskInstr (h2 m hm)⟩

section
variable {w0 : World XR} (hw : w0.servos = Kit.servos) {junk : Nat → Byte} {σ : ℕ → Sys XR} {ev : ℕ → Ev XR} (h : Endless Kit.cfg w0 junk σ ev)
  (hmem : BriskStorage w0.ee) (hc : ∀ n, BrisklySent (w0.rxq ++ arrivals (sofar ev n))) (hu : Undivided ev)
include hw h hmem hc hu

theorem brisk_settles : ∀ n s, Between σ n s → ∀ i, Settles ((σ n).w.servos (armServo i)) := fun n s hb i =>
  (fit_between kit_compact (robotFin_kit _ _) rfl (kit_servos2 hw) (kit_fit hw) (program_of hmem) h hc hu n s hb i).settles

/-- **C100**: a careful host that never tells a speed between 0 and 1/1000, and interrupts that do not divide the command of a slow servo: the arm of the kit comes to rest whenever
no instruction begins any more. No assumption about the speeds the firmware commands. -/
theorem C100_rest (n0 : ℕ) (hq : ∀ n, n0 ≤ n → ¬ Orders ev n) :
    ∃ n1, n0 ≤ n1 ∧ ∀ n, n1 ≤ n → (∀ (i : Fin 6) m, ev n ≠ .act (.micro (armServo i) m)) ∧ (∀ i, ((σ n).w.servos (armServo i)).atTarget = true) ∧
      ∀ s, Between σ n s → s.core.rc.isMoving = false :=
  C77_rest h parts_XR n0 hq fun n s _ hb i => brisk_settles hw h hmem hc hu n s hb i

variable (hf : Fair σ ev)
include hf

/-- C80: every numbered instruction from queue or storage is reported as finished. -/
theorem C100_reported {k : ℕ} {src : Src} {m : List Byte} {n : Int} (hk : ev k = .act (.out (.ghost src m))) (hsrc : src ≠ .immediate) (hm : Numbered m n) (hi : OnlyAsksNow ev (k + 1)) :
    ∃ j, k < j ∧ ev j = .act (.out (.msg (.n1 n))) ∧ ∀ i, k < i → i < j → ¬ Orders ev i :=
  C80_reported h parts_XR hk hsrc hm hi hf fun n s _ hb i => brisk_settles hw h hmem hc hu n s hb i

/-- C79: the queue is worked off. -/
theorem C100_drained (q : List (List Byte)) {n0 : ℕ} (hrun : ∃ k ≤ n0, ev k = .next) (hsel : (view ev n0).sel = .queue) (hq : ∃ x, (view ev n0).queue = q ++ x)
    (hk : KeepsQueue ev n0) (hi : OnlyAsksNow ev n0) : ∃ n, n0 ≤ n ∧ (view ev n).started = (view ev n0).started ++ q :=
  C79_drained h parts_XR hf q hrun hsel hq hk hi fun n s _ hb i => brisk_settles hw h hmem hc hu n s hb i

/-- C90: everything a counting host has sent is executed. -/
theorem C100_executed (hh : ∀ n, CountingHost w0.rxq (sofar ev n)) (hq : ∀ n, QueueOnly (sent w0.rxq (sofar ev n))) (n : ℕ) :
    ∃ m, n ≤ m ∧ puts (sent w0.rxq (sofar ev n)) <+: (view ev m).started :=
  C90_executed h parts_XR hf hh hq (fun n s hb i => brisk_settles hw h hmem hc hu n s hb i) n

/-- C95: a stored program runs forever. -/
theorem C100_again {L : List (List Byte)} (h0 : StoredProgram w0.ee L) {n0 : ℕ} (hrun : ∃ k ≤ n0, ev k = .next) (hsel : (view ev n0).sel = .storage)
    (hL : 2 ≤ (program L (rxBytes (acts (sofar ev n0)))).length) (hk : KeepsStorage ev n0) (hi : OnlyAsksNow ev n0) {m : List Byte}
    (hm : m ∈ (program L (rxBytes (acts (sofar ev n0)))).tail) (n1 : ℕ) : ∃ n, n1 ≤ n ∧ ev n = .act (.out (.ghost .eeprom m)) :=
  C95_again h parts_XR (storedProgram_has h0) hrun hsel hL hk hi hf (fun n s _ hb i => brisk_settles hw h hmem hc hu n s hb i) hm n1

/-- C88: a move in the queue is started, goes where it was told to go, and is reported as finished. -/
theorem C100_queue {n0 : ℕ} (hrun : ∃ k ≤ n0, ev k = .next) (hsel : (view ev n0).sel = .queue) {cs : List Cmd} {q : List (List Byte)} (hq : (view ev n0).queue = text cs :: q)
    (hkq : KeepsQueue ev n0) (ht : TellsAngles cs) (hM : Chooses 48 cs) {n : Int} (hm : Numbered (text cs) n) {d : Fin 6 → Dec} (hd : ∀ i, Last NamesAngle cs i (d i))
    (hfit : KitFits fun i => radians (d i)) (hi : OnlyAsksNow ev n0) :
    ∃ k j, n0 ≤ k ∧ ev k = .act (.out (.ghost .queue (text cs))) ∧ (∀ i, n0 ≤ i → i < k → ¬ Orders ev i) ∧
      k < j ∧ ev j = .act (.out (.msg (.n1 n))) ∧ (∀ i, k < i → i < j → ¬ Orders ev i) ∧
      ∃ b, SeenAt (acts ((sofar ev j).drop (k + 1))) b ∧ ∀ i, |kitLogical b i - radians (d i)| < 1 / 10000 :=
  C88_queue_settles hw h (careful_of_briskStorage hmem) (fun n => (hc n).well) (brisk_settles hw h hmem hc hu) hf hrun hsel hq hkq ht hM hm hd hfit hi
end

end Mrc.Props
