import Verif.Proof.DemoL
import Verif.Props.Progress
import Verif.Props.LivenessX
/-
Endless runs that satisfy the hypotheses of C77-C80.
-/
set_option maxRecDepth 100000
namespace Mrc.Props
open Mrc Mrc.Prog Mrc.Spec Mrc.Demo

/-- one movement, and nothing after it. -/
def rx1 : String := ":QN5M0R01\x0d"
/-- a movement, and an instruction queued behind it. -/
def rx2 : String := ":QN5M0R01\x0d:QV20\x0d"

theorem rx1_run : @Endless Rat toyFloat (@Kit.cfg Rat toyFloat) (demoWorld (@Kit.servos Rat toyFloat 0) (str rx1)) (fun _ => 0) (kσ rx1) (kev rx1) ∧
    (∀ n, 100 ≤ n → ∀ i, @Settles Rat toyFloat ((kσ rx1 n).w.servos (armServo i))) ∧ @Fair Rat (kσ rx1) (kev rx1) ∧
    (∀ n, 100 ≤ n → quietEv (kev rx1 n) = true) ∧ ∀ n, 100 + 79 ≤ n → ¬ Begins (kev rx1) n :=
  kit_endless rx1 100 79 (by decide +kernel) (by decide +kernel) (by decide +kernel)

theorem rx2_run : @Endless Rat toyFloat (@Kit.cfg Rat toyFloat) (demoWorld (@Kit.servos Rat toyFloat 0) (str rx2)) (fun _ => 0) (kσ rx2) (kev rx2) ∧
    (∀ n, 34 ≤ n → ∀ i, @Settles Rat toyFloat ((kσ rx2 n).w.servos (armServo i))) ∧ @Fair Rat (kσ rx2) (kev rx2) ∧
    (∀ n, 34 ≤ n → quietEv (kev rx2 n) = true) ∧ ∀ n, 34 + 303 ≤ n → ¬ Begins (kev rx2) n :=
  kit_endless rx2 34 303 (by decide +kernel) (by decide +kernel) (by decide +kernel)

/-- C77: at time 100 the arm moves, and all hypotheses hold from there on. -/
example : @Endless Rat toyFloat (@Kit.cfg Rat toyFloat) (demoWorld (@Kit.servos Rat toyFloat 0) (str rx1)) (fun _ => 0) (kσ rx1) (kev rx1) ∧ @Parts Rat toyFloat ∧
    (∀ n, 100 ≤ n → ¬ Begins (kev rx1) n) ∧ (∀ n s, 100 ≤ n → Between (kσ rx1) n s → ∀ i, @Settles Rat toyFloat ((kσ rx1 n).w.servos (armServo i))) ∧
    ∃ s, Between (kσ rx1) 100 s ∧ s.core.rc.isMoving = true := by
  obtain ⟨h1, h2, _, _, h5⟩ := rx1_run
  refine ⟨h1, parts_toy, ?_, fun n s hn _ => h2 n hn, ?_⟩
  · intro n hn hb
    rcases Nat.lt_or_ge n 179 with h | h
    · have := allFrom_spec (fun e _ => !isBegin e) rx1 79 100 (by decide +kernel) n hn (by omega)
      obtain ⟨src, m, e⟩ := hb
      rw [e] at this; cases this
    · exact h5 n h hb
  · have : (match (kσ rx1 100).p with | .ret s => s.core.rc.isMoving | _ => false) = true := by decide +kernel
    unfold Between
    cases hp : (kσ rx1 100).p with
    | ret s => rw [hp] at this; exact ⟨s, rfl, this⟩
    | _ => rw [hp] at this; cases this

theorem rx2_keeps : KeepsQueue (kev rx2) 34 ∧ OnlyAsksNow (kev rx2) 35 ∧ OnlyAsksNow (kev rx2) 34 := by
  obtain ⟨-, -, -, h4, -⟩ := rx2_run
  have hi : OnlyAsksNow (kev rx2) 34 := fun k hk m e => by
    have := h4 k hk
    rw [e] at this; cases this
  refine ⟨fun k hk e => ?_, fun k hk => hi k (by omega), hi⟩
  have := h4 k hk
  rw [e] at this; cases this

/-- C78, C79: at time 37 the movement is under way and V20 waits in the queue. -/
example : (∃ k ≤ 37, kev rx2 k = .next) ∧ (view (kev rx2) 37).sel = .queue ∧ (view (kev rx2) 37).queue = [str "V20"] ∧ KeepsQueue (kev rx2) 37 ∧
    OnlyAsksNow (kev rx2) 37 ∧ @Fair Rat (kσ rx2) (kev rx2) ∧ (∀ n s, 37 ≤ n → Between (kσ rx2) n s → ∀ i, @Settles Rat toyFloat ((kσ rx2 n).w.servos (armServo i))) ∧
    ∃ s, Between (kσ rx2) 37 s ∧ s.core.rc.isMoving = true := by
  obtain ⟨h1, h2, h3, -, -⟩ := rx2_run
  have hv : ((view (kev rx2) 37).sel, (view (kev rx2) 37).queue) = (.queue, [str "V20"]) := by decide +kernel
  obtain ⟨hv1, hv2⟩ := Prod.mk.inj hv
  refine ⟨⟨14, by omega, ?_⟩, hv1, hv2, fun k hk => rx2_keeps.1 k (by omega), fun k hk => rx2_keeps.2.2 k (by omega), h3, fun n s hn _ => h2 n (by omega), ?_⟩
  · have : (match kev rx2 14 with | .next => true | _ => false) = true := by decide +kernel
    cases he : kev rx2 14 with
    | next => rfl
    | _ => rw [he] at this; cases this
  · have : (match (kσ rx2 37).p with | .ret s => s.core.rc.isMoving | _ => false) = true := by decide +kernel
    unfold Between
    cases hp : (kσ rx2 37).p with
    | ret s => rw [hp] at this; exact ⟨s, rfl, this⟩
    | _ => rw [hp] at this; cases this

/-- C80: N5M0R01 begins at time 34. -/
example : kev rx2 34 = .act (.out (.ghost .queue (str "N5M0R01"))) ∧ Numbered (str "N5M0R01") 5 ∧ OnlyAsksNow (kev rx2) (34 + 1) ∧ @Fair Rat (kσ rx2) (kev rx2) ∧
    ∀ n s, 34 ≤ n → Between (kσ rx2) n s → ∀ i, @Settles Rat toyFloat ((kσ rx2 n).w.servos (armServo i)) := by
  obtain ⟨h1, h2, h3, -, -⟩ := rx2_run
  refine ⟨?_, ?_, rx2_keeps.2.1, h3, fun n s hn _ => h2 n hn⟩
  · have : (match kev rx2 34 with | .act (.out (.ghost .queue m)) => m == str "N5M0R01" | _ => false) = true := by decide +kernel
    split at this
    · rename_i m he
      rw [he, eq_of_beq this]
    · cases this
  · exact ⟨[], [⟨77, str "0"⟩], str "5", ⟨82, str "01"⟩, by decide +kernel, by
      intro c hc
      simp at hc
      rcases hc with rfl | rfl | rfl
      · exact ⟨by decide, by decide, by decide⟩
      · exact ⟨by decide, by decide, by decide⟩
      · exact ⟨by decide, by decide, by decide⟩, by simp, ⟨by decide, by decide, by decide⟩, by decide, by decide⟩

/-- the arm servos of the kit settle. -/
theorem settles_kit {cfg : Cfg XR} {w0 : World XR} (hw : w0.servos = Kit.servos) {junk : Nat → Byte} {σ : ℕ → Sys XR} {ev : ℕ → Ev XR} (h : Endless cfg w0 junk σ ev)
    (hn : ∀ n i, ev n ≠ .act (.micro (armServo i) (.setTarget .nan)) ∧ ev n ≠ .act (.micro (armServo i) (.setVel .nan)))
    (hv : ∀ n i x, ev n = .act (.micro (armServo i) (.setVel (.fin x))) → x ≤ 0 ∨ 1/1000 ≤ x)
    (n : ℕ) (i : Fin 6) : Settles ((σ n).w.servos (armServo i)) := by
  have hp := Real.two_le_pi
  have hp4 := Real.pi_le_four
  refine settles_exact (lo := fun i => (Kit.minDeg (armServo i) : ℝ) * (Real.pi / 180)) (hi := fun i => (Kit.maxDeg (armServo i) : ℝ) * (Real.pi / 180)) (c := 1/1000)
    (by norm_num) (by norm_num) (fun i => ?_) (fun i => ?_) h hn hv n i
  · have : (Kit.maxDeg (armServo i) : ℝ) - (Kit.minDeg (armServo i) : ℝ) ≤ 360 := by
      have : Kit.maxDeg (armServo i) - Kit.minDeg (armServo i) ≤ 360 := by fin_cases i <;> decide +kernel
      exact_mod_cast this
    nlinarith
  · obtain ⟨pin, m, home, e, _, h1, h2⟩ := kit_ready w0 hw i
    refine ⟨pin, m, _, _, home, e, ?_, h1, h2⟩
    have em : m = (Kit.velDeg (armServo i) : ℝ) * (Real.pi / 180) := by
      have := congrArg Servo.maxVel e
      rw [hw] at this
      simp only [Kit.servos, deg_fin, lit, Servo.new] at this
      injection this with this
      exact this.symm
    have : (1 : ℝ) ≤ (Kit.velDeg (armServo i) : ℝ) := by
      have : 1 ≤ Kit.velDeg (armServo i) := by fin_cases i <;> decide
      exact_mod_cast this
    rw [em]
    nlinarith

/-- **C77/3**: the robot kit, exact arithmetic: if the firmware never stores a NaN as target or speed of an arm servo, nor a positive speed below
1/1000 rad/s, then the arm comes to rest whenever no instruction begins any more. -/
theorem C77_kit {cfg : Cfg XR} {w0 : World XR} (hw : w0.servos = Kit.servos) {junk : Nat → Byte} {σ : ℕ → Sys XR} {ev : ℕ → Ev XR} (h : Endless cfg w0 junk σ ev)
    (hn : ∀ n i, ev n ≠ .act (.micro (armServo i) (.setTarget .nan)) ∧ ev n ≠ .act (.micro (armServo i) (.setVel .nan)))
    (hv : ∀ n i x, ev n = .act (.micro (armServo i) (.setVel (.fin x))) → x ≤ 0 ∨ 1/1000 ≤ x)
    (n0 : ℕ) (hq : ∀ n, n0 ≤ n → ¬ Orders ev n) :
    ∃ n1, n0 ≤ n1 ∧ ∀ n, n1 ≤ n → (∀ (i : Fin 6) m, ev n ≠ .act (.micro (armServo i) m)) ∧ (∀ i, ((σ n).w.servos (armServo i)).atTarget = true) ∧
      ∀ s, Between σ n s → s.core.rc.isMoving = false := by
  exact C77_rest h parts_XR n0 hq fun n s _ _ i => settles_kit hw h hn hv n i

/-- a run of the kit in exact arithmetic to which C77_kit applies: nothing on the line. -/
example : ∃ (w0 : World XR) (σ : ℕ → Sys XR) (ev : ℕ → Ev XR), w0.servos = Kit.servos ∧ Endless Kit.cfg w0 (fun _ => 0) σ ev ∧ (∀ n i m, ev n ≠ .act (.micro (armServo i) m)) ∧
    ∀ n, ¬ Begins ev n := by
  let w0 : World XR := { servos := Kit.servos, now := 1, pins := fun _ => false, rxq := [], ee := fun _ => 0, outs := [] }
  have hc : StaysCalm (after (Kit.cfg : Cfg XR) ⟨w0, setup Kit.cfg fun _ => 0⟩ 0) := ⟨rfl, rfl, calm_setup Kit.cfg fun _ => 0⟩
  have hstay := fun n => (calm_after (Kit.cfg : Cfg XR) ⟨w0, setup Kit.cfg fun _ => 0⟩ hc n (Nat.zero_le n)).1
  have hs := fun n => (calm_sched (Kit.cfg : Cfg XR) _ (hstay n)).2
  refine ⟨w0, _, _, rfl, endless (Kit.cfg : Cfg XR) w0 (fun _ => 0) fun n f hf => ?_, fun n i m => (hs n).2.2.1 _ m, fun n hb => ?_⟩
  · have := (hstay n).prog
    rw [show (after (Kit.cfg : Cfg XR) ⟨w0, setup Kit.cfg fun _ => 0⟩ n).1.p = .fault f from hf] at this
    exact this
  · obtain ⟨src, m, e⟩ := hb
    exact (hs n).1 src m e

end Mrc.Props
