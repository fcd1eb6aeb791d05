import Verif.Proof.Motion
import Verif.Proof.Demo
/- Runs of a small robot over the exact numbers, used only in examples. -/
namespace Mrc.Demo
open Mrc Mrc.Prog Mrc.Spec XR

variable {F : Type} [FloatOps F] {α : Type}

theorem play_end (p : Prog F α) (w : World F) : (∃ a, (p.play w).2.1 = .ret a) ∨ ∃ f, (p.play w).2.1 = .fault f := by
  induction p generalizing w with
  | ret a => exact .inl ⟨a, rfl⟩
  | fault f => exact .inr ⟨f, rfl⟩
  | servo i k ih => exact ih _ _
  | micro i m k ih => exact ih _
  | now k ih => exact ih _ _
  | pin p k ih => exact ih _ _
  | rx k ih => simp only [play]; split <;> exact ih _ _
  | eeRead k ih => exact ih _ _
  | eeWrite a b k ih => exact ih _
  | out o k ih => exact ih _

theorem play_reads (p : Prog F α) (w : World F) (sv : Fin 8 → Servo F)
    (hw : ∀ i, (w.servos i).cur = (sv i).cur ∧ (w.servos i).minA = (sv i).minA ∧ (w.servos i).maxA = (sv i).maxA ∧ (w.servos i).maxVel = (sv i).maxVel) :
    ∀ i s, .servo i s ∈ (p.play w).1 → s.cur = (sv i).cur ∧ s.minA = (sv i).minA ∧ s.maxA = (sv i).maxA ∧ s.maxVel = (sv i).maxVel := by
  induction p generalizing w with
  | ret a => intro i s h; cases h
  | fault f => intro i s h; cases h
  | servo j k ih =>
    intro i s h
    rcases List.mem_cons.1 h with h | h
    · injection h with h1 h2; subst h1 h2; exact hw _
    · refine ih _ _ ?_ i s h; exact hw
  | micro j m k ih =>
    intro i s h
    rcases List.mem_cons.1 h with h | h
    · cases h
    · refine ih _ ?_ i s h
      intro a
      have := hw a
      simp only [World.setServo]
      split
      · rename_i e; subst e; cases m <;> exact this
      · exact this
  | now k ih => intro i s h; rcases List.mem_cons.1 h with h | h; cases h; refine ih _ _ ?_ i s h; exact hw
  | pin p k ih => intro i s h; rcases List.mem_cons.1 h with h | h; cases h; refine ih _ _ ?_ i s h; exact hw
  | rx k ih =>
    intro i s h
    simp only [play] at h
    split at h
    · rcases List.mem_cons.1 h with h | h; cases h; refine ih _ _ ?_ i s h; exact hw
    · rcases List.mem_cons.1 h with h | h; cases h; refine ih _ _ ?_ i s h; exact hw
  | eeRead k ih => intro i s h; rcases List.mem_cons.1 h with h | h; cases h; refine ih _ _ ?_ i s h; exact hw
  | eeWrite a b k ih => intro i s h; rcases List.mem_cons.1 h with h | h; cases h; refine ih _ ?_ i s h; exact hw
  | out o k ih => intro i s h; rcases List.mem_cons.1 h with h | h; cases h; refine ih _ ?_ i s h; exact hw

/-- kinematics and couplings are the identity; poses with X > 5 are unreachable; logical limits ±10. -/
noncomputable def plainX : RCfg XR where
  fwd p := p
  inv p := if fgt (p 0) (fin 5) then none else some p
  lo _ := fin (-10)
  hi _ := fin 10
  l2p a := a
  p2l a := a
noncomputable def plainServoX : Servo XR := Servo.new 0 (fin 1) 500 2500 (fin (-8)) (fin 8) (fin 0)
noncomputable def plainWorldX : World XR := { servos := fun _ => plainServoX, now := 1, pins := fun _ => false, rxq := [], ee := fun _ => 0, outs := [] }
noncomputable def plainRCX : RC XR := { startAngles := finS 0, targetAngles := finS 0, targetPose := finS 0, startPose := finS 0, anglesChanged := false, poseChanged := false, inTransaction := false, state := .idle, maxVelocity := fin 70, method := .p2p, step := 0, total := 0 }

/-- any call of process() of the small robot at rest ends, and reads what it should, if it does not fault. -/
theorem runX (r : RC XR) : ∃ tr q, Exec (RC.process plainX r) tr q ∧ ((∃ r', q = .ret r') ∨ ∃ f, q = .fault f) ∧ Limits (finS fun _ => -8) (finS fun _ => 8) tr ∧ Rest (fun _ => 0) (fun _ => 1) tr := by
  have hr := play_reads (RC.process plainX r) plainWorldX (fun _ => plainServoX) (fun _ => ⟨rfl, rfl, rfl, rfl⟩)
  refine ⟨_, _, play_exec _ plainWorldX, play_end _ _, ?_, ?_⟩
  · intro i s hs; have := hr _ _ hs; exact ⟨this.2.1, this.2.2.1⟩
  · intro i s hs; have := hr _ _ hs; exact ⟨this.1, this.2.2.2⟩

theorem rest_reading {c mv : Fin 6 → ℝ} {tr : List (Act XR)} (h : Rest c mv tr) {a : Six XR} (ha : Reading tr a) : a = finS c := by
  funext i; obtain ⟨s, hs, e⟩ := ha i; rw [e, (h i s hs).1]; rfl

theorem rest_numeric {c mv : Fin 6 → ℝ} {tr : List (Act XR)} (h : Rest c mv tr) : Numeric mv tr := fun i s hs => ⟨⟨_, (h i s hs).1⟩, (h i s hs).2⟩

theorem fitsX (t : Fin 6 → ℝ) (h : ∀ i, -8 ≤ t i ∧ t i ≤ 8) : Fits plainX (finS fun _ => -8) (finS fun _ => 8) (finS t) := by
  constructor
  · intro i
    have := h i
    simp only [plainX, finS, flt, fgt, ops_lt, decide_eq_false_iff_not, not_lt]
    constructor <;> linarith
  · intro i
    have := h i
    simp only [plainX, finS, flt, fgt, ops_lt, decide_eq_false_iff_not, not_lt]
    constructor <;> linarith

end Mrc.Demo
