import Verif.Proof.Calm
import Verif.Proof.RestTold
import Verif.Props.BriskKit
/-
C108, C109 over the exact numbers: when an instruction is reported as finished the arm is at rest, and where it was told to be, and remains there until it is commanded
again.
-/
set_option linter.unusedSimpArgs false
set_option linter.unusedSectionVars false
namespace Mrc.Rest
open Mrc Mrc.Spec Mrc.Prog Mrc.Props Mrc.Host Mrc.Brisk XR
open scoped Mrc.Num

theorem undivided_of {ev : ℕ → Ev XR} (h : Unbroken ev) : Undivided ev := fun i s v t k m n h1 h2 _ _ h5 h6 h7 h8 h9 h10 => h i s _ t k m n h1 h2 h5 h6 h7 h8 h9 h10

/-- on its way, or there: the position is the one the timer computes. -/
def Steady (s : Servo XR) : Prop := ∃ a t v c : ℝ, s.start = fin a ∧ s.target = fin t ∧ s.vel = fin v ∧ s.cur = fin c ∧ 0 < v ∧ |t - a| ≤ v * T ∧
  (a = t ∧ c = t ∨ s.elapsed < 4294967296 ∧ v * s.elapsed / 1000 ≤ |t - a| ∧ c = if a < t then a + v * s.elapsed / 1000 else a - v * s.elapsed / 1000)

/-- what the timer does to such a servo: it is there, or comes nearer. -/
theorem Steady.step {s : Servo XR} (h : Steady s) : Steady (s.tick 20) ∧ ∃ t c c' : ℝ, s.target = fin t ∧ (s.tick 20).target = fin t ∧ s.cur = fin c ∧ (s.tick 20).cur = fin c' ∧ |c' - t| ≤ |c - t| := by
  obtain ⟨a, t, v, c, h1, h2, h3, h4, h5, h6, h7⟩ := h
  have e := tick_fin s a t v 20 h1 h2 h3
  have hlt : u32 (s.elapsed + 20) < 4294967296 := Nat.mod_lt _ (by norm_num)
  have h0 : 0 ≤ v * ((u32 (s.elapsed + 20) : ℕ) : ℝ) / 1000 := by positivity
  rw [abs_of_nonneg h0] at e
  by_cases g : |t - a| < v * ((u32 (s.elapsed + 20) : ℕ) : ℝ) / 1000
  · rw [if_pos g, if_pos g] at e
    rw [e]
    refine ⟨⟨t, t, v, t, rfl, h2, h3, rfl, h5, ?_, .inl ⟨rfl, rfl⟩⟩, t, c, t, h2, h2, h4, rfl, ?_⟩
    · rw [sub_self, abs_zero]; unfold T; positivity
    · rw [sub_self, abs_zero]; exact abs_nonneg _
  · rw [if_neg g, if_neg g] at e
    rw [not_lt] at g
    have hcur : (s.tick 20).cur = fin (if a < t then a + v * ((u32 (s.elapsed + 20) : ℕ) : ℝ) / 1000 else a - v * ((u32 (s.elapsed + 20) : ℕ) : ℝ) / 1000) := by rw [e]
    refine ⟨⟨a, t, v, _, by rw [e], by rw [e]; exact h2, by rw [e]; exact h3, hcur, h5, h6, .inr ⟨by rw [e]; exact hlt, by rw [e]; exact g, by rw [e]⟩⟩,
      t, c, _, h2, by rw [tick_target]; exact h2, h4, hcur, ?_⟩
    rcases h7 with ⟨rfl, rfl⟩ | ⟨k1, k2, k3⟩
    · rw [sub_self, abs_zero] at g
      have : v * ((u32 (s.elapsed + 20) : ℕ) : ℝ) / 1000 = 0 := le_antisymm g h0
      rw [this]; simp
    · -- the timer does not overflow
      have hno : s.elapsed + 20 < 4294967296 := by
        by_contra hcon
        have : (4294967276 : ℝ) ≤ s.elapsed := by exact_mod_cast (show 4294967276 ≤ s.elapsed by omega)
        have : v * 4294967 ≤ v * s.elapsed / 1000 := by
          rw [le_div_iff₀ (by norm_num)]
          have := mul_le_mul_of_nonneg_left this h5.le
          linarith
        have : v * 4294967 ≤ v * 2000000 := by unfold T at h6; linarith
        linarith
      have eu : u32 (s.elapsed + 20) = s.elapsed + 20 := Nat.mod_eq_of_lt hno
      rw [eu] at g ⊢
      have hmono : v * s.elapsed / 1000 ≤ v * ((s.elapsed + 20 : ℕ) : ℝ) / 1000 := by
        apply div_le_div_of_nonneg_right _ (by norm_num)
        apply mul_le_mul_of_nonneg_left _ h5.le
        push_cast; linarith
      have h0' : 0 ≤ v * s.elapsed / 1000 := by positivity
      rw [k3]
      generalize v * ((s.elapsed + 20 : ℕ) : ℝ) / 1000 = δ' at *
      generalize v * s.elapsed / 1000 = δ at *
      split
      · rename_i hat
        rw [abs_of_pos (by linarith)] at g k2
        rw [abs_of_nonpos (by linarith), abs_of_nonpos (by linarith)]
        linarith
      · rename_i hat
        rw [not_lt] at hat
        rw [abs_of_nonpos (by linarith)] at g k2
        rw [abs_of_nonneg (by linarith), abs_of_nonneg (by linarith)]
        linarith

theorem Steady.tick {s : Servo XR} (h : Steady s) : Steady (s.tick 20) := h.step.1

theorem atTarget_iff {s : Servo XR} {c t : ℝ} (hc : s.cur = fin c) (ht : s.target = fin t) : s.atTarget = true ↔ |c - t| < 1 / 1000000 := by
  unfold Servo.atTarget
  rw [hc, ht]
  simp [flt]

theorem Steady.stays {s : Servo XR} (h : Steady s) (hat : s.atTarget = true) : (s.tick 20).atTarget = true := by
  obtain ⟨_, t, c, c', e1, e2, e3, e4, hle⟩ := h.step
  rw [atTarget_iff e3 e1] at hat
  rw [atTarget_iff e4 e2]
  linarith

variable {cfg : Cfg XR} {w0 : World XR} {junk : Nat → Byte} {σ : ℕ → Sys XR} {ev : ℕ → Ev XR} {lo hi : Fin 6 → ℝ}

/-- the commands of a move that fits its time. -/
def Timed (x _y : Servo XR) (v t : XR) : Prop := ∃ c t' τ : ℝ, x.cur = fin c ∧ 0 < τ ∧ τ ≤ T ∧ v = fin (|t' - c| / τ) ∧ t = fin t'

theorem blk_of {l : List (Act XR)} (h : Blocks l) : Blk Timed l := by
  induction h with
  | nil => exact .nil
  | plain hp _ ih => exact .plain hp ih
  | command hg _ ih =>
    obtain ⟨i, x, y, c, t, τ, h1, h2, h3, rfl⟩ := hg
    exact .command ⟨c, t, τ, h1, h2, h3, rfl, rfl⟩ ih

/-- a command that is not broken leaves the servo on its way. -/
theorem steady_command (h : Endless cfg w0 junk σ ev) (hS : ∀ n, Servos2 lo hi (σ n).w) (hr : ∀ i, -10 ≤ lo i ∧ hi i ≤ 10) (hu : Unbroken ev) {i : Fin 6} {x y : Servo XR} {v t : XR}
    {n1 n2 n3 n4 n5 n6 : ℕ} (hq : Timed x y v t) (hc : CommandAt ev i x y v t n1 n2 n3 n4 n5 n6) : Steady ((σ (n6 + 1)).w.servos (armServo i)) := by
  obtain ⟨c, t', τ, h1, h2, h3, rfl, rfl⟩ := hq
  have hfit := fit_command h hS hr (undivided_of hu) h1 h2 h3 hc.o12 hc.o23 hc.o34 hc.o45 hc.o56 hc.e1 hc.e2 hc.e3 hc.e4 hc.e5 hc.e6 hc.q12 hc.q23 hc.q34 hc.q45 hc.q56 hc.qn
  have hno := hc.quiet hu
  obtain ⟨a, t, v, f1, f2, f3, f4, f5⟩ := hfit
  obtain ⟨hcur, hstart, hel⟩ := command_end h hc hno
  refine ⟨a, t, v, a, f1, f2, f3, by rw [hcur, ← hstart, f1], f4, f5, .inr ⟨by rw [hel]; norm_num, ?_, ?_⟩⟩ <;> rw [hel]
  · simp
  · simp

end Mrc.Rest

namespace Mrc.Props
open Mrc Mrc.Spec Mrc.Prog Mrc.Host Mrc.Kine Mrc.Brisk Mrc.Rest XR
open scoped Mrc.Num

theorem kit_steady {w0 : World XR} (hw : w0.servos = Kit.servos) (i : Fin 6) : Steady (w0.servos (armServo i)) ∧ (w0.servos (armServo i)).atTarget = true := by
  obtain ⟨a, t, v, h1, h2, h3, h4, h5⟩ := kit_fit hw i
  have e1 : (w0.servos (armServo i)).start = (w0.servos (armServo i)).target := by rw [hw]; rfl
  have e2 : (w0.servos (armServo i)).cur = (w0.servos (armServo i)).target := by rw [hw]; rfl
  have : a = t := by rw [e1, h2] at h1; injection h1 with h1; exact h1.symm
  subst this
  have hc : (w0.servos (armServo i)).cur = fin a := e2.trans h2
  refine ⟨⟨a, a, v, a, h1, h2, h3, hc, h4, h5, .inl ⟨rfl, rfl⟩⟩, ?_⟩
  rw [Rest.atTarget_iff hc h2, sub_self, abs_zero]; norm_num

section
variable {w0 : World XR} (hw : w0.servos = Kit.servos) {junk : Nat → Byte} {σ : ℕ → Sys XR} {ev : ℕ → Ev XR} (h : Endless Kit.cfg w0 junk σ ev)
  (hmem : BriskStorage w0.ee) (hc : ∀ n, BrisklySent (w0.rxq ++ arrivals (sofar ev n))) (hu : Unbroken ev)
include hw h hmem hc hu

theorem steady_cmd (i : Fin 6) (x y : Servo XR) (v t : XR) (n1 n2 n3 n4 n5 n6 : ℕ) (hq : Timed x y v t) (hcm : CommandAt ev i x y v t n1 n2 n3 n4 n5 n6) :
    Steady ((σ (n6 + 1)).w.servos (armServo i)) :=
  steady_command h (fun n => (brisk_run kit_compact (robotFin_kit _ _) rfl (kit_servos2 hw) (program_of hmem) (h.run n) (hc n)).1) kit_compact.range hu hq hcm

theorem kit_passes (a b : ℕ) (s' : FW XR) (ha : ev a = .next) (hab : a < b) (hb : Between σ b s') (hn : ∀ j, a < j → j < b → ev j ≠ .next) :
    Blk Timed (acts (span ev (a + 1) (b - (a + 1)))) := by
  have hrun := fun n => brisk_run kit_compact (robotFin_kit _ _) rfl (kit_servos2 hw) (program_of hmem) (h.run n) (hc n)
  have hS := fun n => (hrun n).1
  obtain ⟨s0, hb0, hp, _⟩ := h.atNext ha
  have hx := h.exec (a + 1) (b - (a + 1)) fun j g1 g2 => hn j (by omega) (by omega)
  rw [hp, show a + 1 + (b - (a + 1)) = b by omega, show (σ b).p = .ret s' from hb] at hx
  refine blk_of (pass_blocks kit_compact (robotFin_kit _ _) hx ((hrun a).2.1 s0 hb0) fun x hx => ?_)
  obtain ⟨j, _, _, e⟩ := mem_span.1 (acts_mem.1 hx)
  cases x with
  | servo i s =>
    have := h.read e
    subst this
    refine ⟨⟨((hS j).servos.all i).cur, fun j' e => by
      subst e
      exact ⟨((hS j).servos.arm j').1.minA, ((hS j).servos.arm j').1.maxA, ((hS j).servos.arm j').1.cur, ((hS j).servos.arm j').2⟩⟩, fun j' s e => by
      injection e with e1 e2; subst e1; subst e2; exact (hS j).fast j'⟩
  | _ => exact ⟨trivial, fun j s e => by cases e⟩

variable (hi : CalmImmediates ev)
include hi

theorem rest_kit {k : ℕ} (hr : ReportsAt ev k) (i : Fin 6) : Steady ((σ k).w.servos (armServo i)) ∧ ((σ k).w.servos (armServo i)).atTarget = true :=
  rest_report h (fun _ => Steady.tick) (fun _ => Steady.stays) (steady_cmd hw h hmem hc hu) (kit_passes hw h hmem hc hu) (fun i => (kit_steady hw i).1) (fun i => (kit_steady hw i).2) hi hr i

/-- **C108**: the robot kit over the exact numbers, with a careful host that asks for no crawling speeds and gives immediate instructions that name a place only while the arm is at rest, and
interrupts that do not fall into the command of a servo: at the moment an instruction is reported as finished, or the next one from queue or storage begins, every arm servo is at its
target, and it stays there until something is stored into it again. -/
theorem C108_rest {k : ℕ} (hr : ReportsAt ev k) (i : Fin 6) {n : ℕ} (hkn : k ≤ n) (hn : Untouched ev (armServo i) k n) : ((σ n).w.servos (armServo i)).atTarget = true :=
  (stays_there h (fun _ => Steady.tick) (fun _ => Steady.stays) (steady_cmd hw h hmem hc hu) (kit_passes hw h hmem hc hu) (fun i => (kit_steady hw i).1) hkn hn
    (rest_kit hw h hmem hc hu hi hr i).1 (rest_kit hw h hmem hc hu hi hr i).2).2

/-- a servo that rests at a report, at any later time before it is commanded again. -/
theorem rest_later {k : ℕ} (hr : ReportsAt ev k) {n : ℕ} (hkn : k ≤ n) (i : Fin 6) (hn : Untouched ev (armServo i) k n) :
    ∃ c t, ((σ n).w.servos (armServo i)).cur = fin c ∧ ((σ n).w.servos (armServo i)).target = fin t ∧ ((σ k).w.servos (armServo i)).target = fin t ∧ |c - t| < 1 / 1000000 := by
  have hS := (brisk_run kit_compact (robotFin_kit _ _) rfl (kit_servos2 hw) (program_of hmem) (h.run n) (hc n)).1
  obtain ⟨c, ec, _⟩ := (hS.servos.arm i).1.cur
  obtain ⟨t, et, _⟩ := (hS.servos.arm i).1.target
  refine ⟨c, t, ec, et, ?_, (Rest.atTarget_iff ec et).1 (C108_rest hw h hmem hc hu hi hr i hkn hn)⟩
  rw [← et]
  exact (keep_stays (P := fun s => s.target = ((σ k).w.servos (armServo i)).target) h (fun s hs => by rw [tick_target]; exact hs) hkn hn rfl).symm

/-- where the arm of the kit is after a move that was begun at a report and is over at a report. -/
theorem kit_now {k0 k : ℕ} (hk : k0 < k) {x : Act XR} (h0 : ev k0 = .act x) (hx : ∀ (i : Fin 6) m, x ≠ .micro (armServo i) m) (hst : ∀ i : Fin 6, ((σ k0).w.servos (armServo i)).atTarget = true)
    (hst' : ∀ i : Fin 6, Steady ((σ k0).w.servos (armServo i))) (hr : ReportsAt ev k) {a : Fin 6 → ℝ} (hf : KitFits a)
    (hm : Moved (Kit.cfg : Cfg XR).toRCfg kitL kitU (finS a) (acts (span ev (k0 + 1) (k - (k0 + 1))))) {n : ℕ} (hkn : k ≤ n) (hn : ∀ i : Fin 6, Untouched ev (armServo i) k n) :
    ∃ b, ArmAt (σ n).w b ∧ ∀ i, |kitLogical b i - a i| < 11 / 100000 := by
  obtain ⟨y, h1, hy⟩ := reportsAt_iff.1 hr
  choose c t ec _ et hct using fun i => rest_later hw h hmem hc hu hi hr hkn i (hn i)
  refine ⟨c, ec, ?_⟩
  have key := moved_now h hk h0 h1 hx (fun i n' g1 g2 => (stays_there h (fun _ => Steady.tick) (fun _ => Steady.stays) (steady_cmd hw h hmem hc hu) (kit_passes hw h hmem hc hu) (fun i => (kit_steady hw i).1) g1 g2
    (hst' i) (hst i)).2) ((kit_fits a).2 hf) hm
  have hl2p : (Kit.cfg : Cfg XR).l2p (finS a) = finS fun i => if i = 2 then a 2 + a 1 else a i := kit_l2p a
  -- servos near these angles
  have near : ∀ (b : Fin 6 → ℝ) (ε : ℝ), (∀ i, |kitLogical b i - a i| < ε) → (∀ i, |c i - b i| < 2 / 1000000) → ∀ i, |kitLogical c i - a i| < ε + 4 / 1000000 := by
    intro b ε h1 h2 i
    have k1 := abs_lt.1 (h1 i)
    have l1 := abs_lt.1 (h2 1)
    have l2 := abs_lt.1 (h2 2)
    have li := abs_lt.1 (h2 i)
    rw [abs_lt]
    unfold kitLogical at k1 ⊢
    by_cases hi : i = 2
    · subst hi
      simp only [if_true] at k1 ⊢
      constructor <;> linarith [k1.1, k1.2, l1.1, l1.2, l2.1, l2.2]
    · simp only [if_neg hi] at k1 ⊢
      constructor <;> linarith [k1.1, k1.2, li.1, li.2]
  have back : ∀ i, kitLogical (fun i => if i = 2 then a 2 + a 1 else a i) i - a i = 0 := by
    intro i
    unfold kitLogical
    by_cases hi : i = 2
    · subst hi; simp
    · simp [hi]
  rcases key with key | ⟨v, h2, h3⟩
  · intro i
    have := near (fun i => if i = 2 then a 2 + a 1 else a i) (1 / 1000000) (fun i => by rw [back, abs_zero]; norm_num) (fun i => by
      have e := (et i).symm.trans (key i)
      rw [hl2p] at e
      have e : t i = if i = 2 then a 2 + a 1 else a i := by injection e
      rw [← e]; linarith [hct i]) i
    linarith
  · have hg : ∀ i, (∃ x, (v i).cur = fin x) ∧ (∃ m, (v i).maxVel = fin m ∧ 0 < m) := fun i => by
      obtain ⟨⟨x, ex, _⟩, _, m, em, m0⟩ := Told.reading_good (kit_arm hw) (h.run k) (kit_noNaN hw (careful_of_briskStorage hmem) (h.run k) (hc k).well) (h2 i).1
      exact ⟨⟨x, ex⟩, m, em, m0⟩
    choose x ex using fun i => (hg i).1
    choose m em m0 using fun i => (hg i).2
    have hcx : ∀ i, |c i - x i| < 2 / 1000000 := fun i => by
      have k1 := (Rest.atTarget_iff (ex i) ((h2 i).2.2.trans (et i))).1 (h2 i).2.1
      have := abs_lt.1 k1
      have := abs_lt.1 (hct i)
      rw [abs_lt]; constructor <;> linarith
    rcases h3 with h3 | ⟨mt, h3⟩
    · have e : (fun i => (v i).cur) = finS x := funext ex
      rw [e] at h3
      have h3 : RC.anglesEqual (Kit.p2l (finS x)) (finS a) = true := h3
      rw [kit_p2l] at h3
      have h3 := (RC.anglesEqual_fin _ _).1 h3
      intro i
      have := near x _ h3 hcx i
      linarith
    · rw [hl2p] at h3
      have h4 := Told.timeFor_zero ex em m0 h3
      intro i
      have := near x (1 / 1000000) (fun i => by rw [show x = fun i => if i = 2 then a 2 + a 1 else a i from funext h4, back, abs_zero]; norm_num) hcx i
      linarith

theorem quiet_mid {k0 k : ℕ} (hq : ∀ i, k0 < i → i < k → ¬ Directs ev i) : ∀ x ∈ acts (span ev (k0 + 1) (k - (k0 + 1))), ¬ DirectsI x := by
  rintro x hx ⟨src, m, rfl, hm⟩
  obtain ⟨j, h1, h2, h3⟩ := mem_span.1 (acts_mem.1 hx)
  exact hq j (by omega) (by omega) ⟨src, m, h3, hm⟩

/-- **C110**: the same setting. Whenever no move is under way, every servo of the arm is at its target. -/
theorem C110_rest {k : ℕ} (hk : CalmAt ev k) (i : Fin 6) : Steady ((σ k).w.servos (armServo i)) ∧ ((σ k).w.servos (armServo i)).atTarget = true :=
  Calm.rest h (fun _ => Steady.tick) (fun _ => Steady.stays) (steady_cmd hw h hmem hc hu) (kit_passes hw h hmem hc hu) (fun i => (kit_steady hw i).1) (fun i => (kit_steady hw i).2) hi hk i

/-- at rest when an instruction from queue or storage begins, or one at once while no move is under way. -/
theorem rest_begin {k : ℕ} {src : Src} {m : List Byte} (hb : ev k = .act (.out (.ghost src m))) (hs : src ≠ .immediate ∨ CalmAt ev k) (i : Fin 6) :
    Steady ((σ k).w.servos (armServo i)) ∧ ((σ k).w.servos (armServo i)).atTarget = true := by
  rcases hs with hs | hs
  · exact rest_kit hw h hmem hc hu hi (.inr ⟨src, m, hs, hb⟩) i
  · exact C110_rest hw h hmem hc hu hi hs i

/-- **C110**: C109_told for instructions from queue or storage, and for immediate ones begun while no move is under way. -/
theorem C110_told {k0 k : ℕ} {src : Src} {cs : List Cmd} (hb : ev k0 = .act (.out (.ghost src (text cs)))) (hs : src ≠ .immediate ∨ CalmAt ev k0) (ht : TellsAngles cs) (hM : Chooses 48 cs)
    {d : Fin 6 → Dec} (hd : ∀ i, Last NamesAngle cs i (d i)) (hfit : KitFits fun i => radians (d i)) (hk : k0 < k) (hr : ReportsAt ev k) (hq : ∀ i, k0 < i → i < k → ¬ Directs ev i)
    {n : ℕ} (hkn : k ≤ n) (hn : ∀ i : Fin 6, Untouched ev (armServo i) k n) : ∃ b, ArmAt (σ n).w b ∧ ∀ i, |kitLogical b i - radians (d i)| < 11 / 100000 := by
  obtain ⟨y, h1, hy⟩ := reportsAt_iff.1 hr
  obtain ⟨t, g1, g2⟩ := C110_angles (h.run (k + 1)).trace (kit_limits hw (h.run (k + 1))) ht hM hs (acts_between hk hb h1) (quiet_mid hw h hmem hc hu hi hq) hy
  have : t = finS fun i => radians (d i) := funext fun i => (g1 i _ (hd i)).trans (angle_fin (last_ok (fun _ _ _ h => h.1) (hd i)))
  subst this
  exact kit_now hw h hmem hc hu hi hk hb (by simp) (fun i => (rest_begin hw h hmem hc hu hi hb hs i).2) (fun i => (rest_begin hw h hmem hc hu hi hb hs i).1) hr hfit g2 hkn hn

/-- **C109**: the same setting. An instruction from queue or storage told all six angles, within the ranges, with M0. From the moment it is reported as finished, or the next one
begins (and nothing else that concerns the arm was started in between), the arm is at these angles, to 1.1e-4 radians, until a servo is commanded again. -/
theorem C109_told {k0 k : ℕ} {src : Src} {cs : List Cmd} (hb : ev k0 = .act (.out (.ghost src (text cs)))) (hs : src ≠ .immediate) (ht : TellsAngles cs) (hM : Chooses 48 cs)
    {d : Fin 6 → Dec} (hd : ∀ i, Last NamesAngle cs i (d i)) (hfit : KitFits fun i => radians (d i)) (hk : k0 < k) (hr : ReportsAt ev k) (hq : ∀ i, k0 < i → i < k → ¬ Directs ev i)
    {n : ℕ} (hkn : k ≤ n) (hn : ∀ i : Fin 6, Untouched ev (armServo i) k n) : ∃ b, ArmAt (σ n).w b ∧ ∀ i, |kitLogical b i - radians (d i)| < 11 / 100000 :=
  C110_told hw h hmem hc hu hi hb (.inl hs) ht hM hd hfit hk hr hq hkn hn

/-- **C110**: C109_pose for instructions from queue or storage, and for immediate ones begun while no move is under way. -/
theorem C110_pose_at {k0 k : ℕ} {src : Src} {cs : List Cmd} (hb : ev k0 = .act (.out (.ghost src (text cs)))) (hs : src ≠ .immediate ∨ CalmAt ev k0) (ht : TellsPose cs) (hM : Chooses 48 cs)
    {d : Fin 6 → Dec} (hd : ∀ i, Last NamesPose cs i (d i)) (hr' : InReach kitG (poseOfDec d)) (hk : k0 < k) (hr : ReportsAt ev k) (hq : ∀ i, k0 < i → i < k → ¬ Directs ev i) :
    ∃ A : Fin 6 → ℝ, (Real.cos (A 4) ≠ 0 → jointPos kitG A 5 = ![poseOfDec d 0, poseOfDec d 1, poseOfDec d 2] ∧ toolFrame A = orientOf (poseOfDec d)) ∧
      (KitFits A → ∀ n, k ≤ n → (∀ i : Fin 6, Untouched ev (armServo i) k n) → ∃ b, ArmAt (σ n).w b ∧ ∀ i, |kitLogical b i - A i| < 11 / 100000) := by
  obtain ⟨y, h1, hy⟩ := reportsAt_iff.1 hr
  obtain ⟨P, g1, g2⟩ := C110_pose (h.run (k + 1)).trace (kit_limits hw (h.run (k + 1))) ht hM hs (acts_between hk hb h1) (quiet_mid hw h hmem hc hu hi hq) hy
  have : P = finS (poseOfDec d) := funext fun i => (g1 i _ (hd i)).trans (coordinate_fin (last_ok (fun _ _ _ h => h.1) (hd i)))
  subst this
  have hu' : 0 < upperLen kitG := by rw [kitG_upper]; norm_num
  have hl : 0 < foreLen kitG := by have := kitG_fore; linarith
  obtain ⟨A, hA⟩ := (C57_range hu' hl (poseOfDec d)).1 hr'
  have hA' : (Kit.cfg : Cfg XR).inv (finS (poseOfDec d)) = some (finS A) := by rw [← hA, kitG_eq]; rfl
  obtain ⟨B, hB, h3⟩ := C56_inverse kitG_supported hu' hl hA
  have : A = B := funext fun i => XR.fin.inj (congrFun hB i)
  subst this
  refine ⟨A, fun h4 => ⟨(h3 h4).1, (h3 h4).2.1⟩, fun hf n hkn hn => ?_⟩
  rcases g2 with g2 | ⟨t, g2, g4⟩
  · rw [hA'] at g2; cases g2
  · rw [hA'] at g2; cases g2
    exact kit_now hw h hmem hc hu hi hk hb (by simp) (fun i => (rest_begin hw h hmem hc hu hi hb hs i).2) (fun i => (rest_begin hw h hmem hc hu hi hb hs i).1) hr hf g4 hkn hn

/-- **C109**: the same for all six coordinates of a pose within reach: the arm is at angles that put the tool at the position and orientation told, to 1.1e-4 radians of each axis. -/
theorem C109_pose {k0 k : ℕ} {src : Src} {cs : List Cmd} (hb : ev k0 = .act (.out (.ghost src (text cs)))) (hs : src ≠ .immediate) (ht : TellsPose cs) (hM : Chooses 48 cs)
    {d : Fin 6 → Dec} (hd : ∀ i, Last NamesPose cs i (d i)) (hr' : InReach kitG (poseOfDec d)) (hk : k0 < k) (hr : ReportsAt ev k) (hq : ∀ i, k0 < i → i < k → ¬ Directs ev i) :
    ∃ A : Fin 6 → ℝ, (Real.cos (A 4) ≠ 0 → jointPos kitG A 5 = ![poseOfDec d 0, poseOfDec d 1, poseOfDec d 2] ∧ toolFrame A = orientOf (poseOfDec d)) ∧
      (KitFits A → ∀ n, k ≤ n → (∀ i : Fin 6, Untouched ev (armServo i) k n) → ∃ b, ArmAt (σ n).w b ∧ ∀ i, |kitLogical b i - A i| < 11 / 100000) :=
  C110_pose_at hw h hmem hc hu hi hb (.inl hs) ht hM hd hr' hk hr hq

/-- **C109**, total correctness (C100): a numbered move to six angles at the front of the queue is started and reported as finished, and from then on the arm is at these angles until
a servo is commanded again. -/
theorem C109_queue (hfair : Fair σ ev) {n0 : ℕ} (hrun : ∃ k ≤ n0, ev k = .next) (hsel : (view ev n0).sel = .queue) {cs : List Cmd} {q : List (List Byte)} (hq : (view ev n0).queue = text cs :: q)
    (hkq : KeepsQueue ev n0) (ht : TellsAngles cs) (hM : Chooses 48 cs) {m : Int} (hm : Numbered (text cs) m) {d : Fin 6 → Dec} (hd : ∀ i, Last NamesAngle cs i (d i))
    (hfit : KitFits fun i => radians (d i)) (hi0 : OnlyAsksNow ev n0) :
    ∃ k j, n0 ≤ k ∧ ev k = .act (.out (.ghost .queue (text cs))) ∧ k < j ∧ ev j = .act (.out (.msg (.n1 m))) ∧ (∀ i, k < i → i < j → ¬ Orders ev i) ∧
      ∀ n, j ≤ n → (∀ i : Fin 6, Untouched ev (armServo i) j n) → ∃ b, ArmAt (σ n).w b ∧ ∀ i, |kitLogical b i - radians (d i)| < 11 / 100000 := by
  obtain ⟨k, j, h1, h2, _, h4, h5, h6, _⟩ := C100_queue hw h hmem hc (undivided_of hu) hfair hrun hsel hq hkq ht hM hm hd hfit hi0
  exact ⟨k, j, h1, h2, h4, h5, h6, fun n hn hun => C109_told hw h hmem hc hu hi h2 (by simp) ht hM hd hfit h4 (.inl ⟨m, h5⟩) (undirected h6) hn hun⟩

end

end Mrc.Props
