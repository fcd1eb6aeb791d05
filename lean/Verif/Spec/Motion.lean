import Verif.Spec.Controller
import Verif.Model.XR
/- Vocabulary for the numeric properties of the motion controller (C43, C45-C48), over the exact numbers XR. -/
namespace Mrc.Spec
open Mrc XR

/-- six finite numbers. -/
noncomputable def finS (a : Fin 6 → ℝ) : Six XR := fun i => fin (a i)

/-- all readings of arm servos in `tr` are numbers, the maximum speeds are `mv`. -/
def Numeric (mv : Fin 6 → ℝ) (tr : List (Act XR)) : Prop :=
  ∀ i s, .servo (armServo i) s ∈ tr → (∃ c, s.cur = fin c) ∧ s.maxVel = fin (mv i)

/-- the arm stands still at the angles `c` in `tr`. -/
def Rest (c mv : Fin 6 → ℝ) (tr : List (Act XR)) : Prop :=
  ∀ i s, .servo (armServo i) s ∈ tr → s.cur = fin (c i) ∧ s.maxVel = fin (mv i)

/-- Euclidean distance of the positions of two poses. -/
noncomputable def dist3 (p q : Fin 6 → ℝ) : ℝ := Real.sqrt ((q 0 - p 0) ^ 2 + (q 1 - p 1) ^ 2 + (q 2 - p 2) ^ 2)

/-- one common time `T` for all axes, at least `mt` and at least what each servo needs at its maximum speed `mv` (from the angles `a` read); each axis is given the
speed of its way (from the angles `b` read to `p`) divided by `T`. -/
def Timed (p mv : Fin 6 → ℝ) (mt : ℝ) (tr : List (Act XR)) : Prop :=
  ∃ (T : ℝ) (a b : Fin 6 → ℝ), Reading tr (finS a) ∧ Reading tr (finS b) ∧ mt ≤ T ∧ 0 < T ∧ (∀ i, |p i - a i| / mv i ≤ T) ∧
    speeds tr = (List.finRange 6).map fun i => (armServo i, fin (|p i - b i| / T))

/-- the controller found the robot within 10^-4 rad of the angles `t`: nothing moved, idle. -/
def AlreadyThere (cfg : RCfg XR) (t : Fin 6 → ℝ) (tr : List (Act XR)) (r' : RC XR) : Prop :=
  Still tr ∧ r'.isMoving = false ∧ ∃ b s, Reading tr b ∧ cfg.p2l b = finS s ∧ ∀ i, |s i - t i| < 1 / 10000

/-- the point after `k` of `n` equal parts of the straight way from `p` to `q`, with the orientation of `q`. -/
noncomputable def onLine (p q : Fin 6 → ℝ) (k n : ℕ) : Fin 6 → ℝ := fun i => if i.val < 3 then p i + (q i - p i) * (k / n) else q i

/-- the process() calls of a history that give targets to servos. -/
def moves {F : Type} [FloatOps F] : List (CEv F) → List (List (Act F))
  | [] => []
  | .call _ :: es => moves es
  | .process tr :: es => match targets tr with
    | [] => moves es
    | _ :: _ => tr :: moves es

/-- a history of process() calls only. -/
def Undisturbed {F : Type} (es : List (CEv F)) : Prop := ∀ c, CEv.call c ∉ es

end Mrc.Spec
