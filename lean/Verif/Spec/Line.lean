import Verif.Spec.Told
import Verif.Spec.Kinematics
/-
Vocabulary for straight moves of the robot kit in numbers (C86, C88).
-/
namespace Mrc.Spec
open Mrc Matrix

/-- the angles put the wrist where it has to be for the pose `Q`; and, unless the hand is nearly in line with the forearm, the tool has position and orientation `Q`. -/
structure PutsAt (G : Fin 5 → Vec3) (A Q : Fin 6 → ℝ) : Prop where
  wrist : jointPos G A 4 = wristOf G Q
  tool : 5 / 100 ≤ |A 4 - Real.pi / 2| → Real.cos (A 4) ≠ 0 → jointPos G A 5 = ![Q 0, Q 1, Q 2] ∧ toolFrame A = orientOf Q

/-- `k` of the `n` points of the straight way from `S` to `P` have been passed, one after the other: at the end of each piece of `mid` every servo has been seen, to 1e-4 radians, at
angles within the ranges that put the tool at the point, and has not been touched since. -/
inductive Passed (G : Fin 5 → Vec3) (S P : Fin 6 → ℝ) (n : ℕ) : ℕ → List (Act XR) → Prop
  /-- before the arm was touched the servos were seen at the angles `a`, that put the tool at `S` -/
  | start {mid : List (Act XR)} (a : Fin 6 → ℝ) : ArmStill mid → Reading mid (finS a) → jointPos G (kitLogical a) 5 = ![S 0, S 1, S 2] → Passed G S P n 0 mid
  | point {k : ℕ} {mid : List (Act XR)} (tr : List (Act XR)) {A b : Fin 6 → ℝ} : Passed G S P n k mid → PutsAt G A (onLine S P (k + 1) n) → KitFits A →
      SeenAt (mid ++ tr) b → (∀ i, |kitLogical b i - A i| < 1 / 10000) → Passed G S P n (k + 1) (mid ++ tr)

/-- what has happened to the arm of the kit when a straight move to the pose `P` is over. -/
inductive KitLineMoved (G : Fin 5 → Vec3) (P : Fin 6 → ℝ) (mid : List (Act XR)) : Prop
  /-- it passed the whole way from where it was to `P`, in steps of less than half a unit -/
  | along (S : Fin 6 → ℝ) (n : ℕ) : 2 * dist3 S P < n → Passed G S P n n mid → KitLineMoved G P mid
  /-- it passed a part of the way and stopped: the next point is out of reach, or the angles for it are beyond the ranges -/
  | stopped (S : Fin 6 → ℝ) (n k : ℕ) : 2 * dist3 S P < n → k < n → Passed G S P n k mid →
      (¬ InReach G (onLine S P (k + 1) n) ∨ ∃ A, PutsAt G A (onLine S P (k + 1) n) ∧ ¬ KitFits A) → KitLineMoved G P mid
  /-- it was there already -/
  | there (A b : Fin 6 → ℝ) : PutsAt G A P → SeenAt mid b → (∀ i, |kitLogical b i - A i| < 1 / 10000) → ArmStill mid → KitLineMoved G P mid
  /-- the pose is out of reach, and the arm was left alone -/
  | refused : ¬ InReach G P → ArmStill mid → KitLineMoved G P mid

end Mrc.Spec
