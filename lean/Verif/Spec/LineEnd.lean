import Verif.Spec.Line
import Verif.Spec.Accuracy
import Verif.Spec.Motion
/-
C114: where the tool is when a straight move is reported as finished.
-/
namespace Mrc.Spec
open Mrc

/-- the arm is at the logical angles `A` up to `e` radians. -/
def ArmNear (w : World XR) (A : Fin 6 → ℝ) (e : ℝ) : Prop := ∃ b, ArmAt w b ∧ ∀ i, |kitLogical b i - A i| < e

/-- angles of the servos that are as near to the servos' targets as the servos are, or nearer. -/
def Nearer (w : World XR) (a : Fin 6 → ℝ) : Prop :=
  ∀ i, ∃ c t, (w.servos (armServo i)).cur = .fin c ∧ (w.servos (armServo i)).target = .fin t ∧ |a i - t| ≤ |c - t|

/-- the arm is where it was, up to 2e-6 radians of each servo. -/
def Stayed (w w' : World XR) : Prop := ∃ b b', ArmAt w b ∧ ArmAt w' b' ∧ ∀ i, |b' i - b i| < 2 / 1000000

/-- the next point of the straight way cannot be taken: it is out of reach, or the angles for it are beyond the ranges. -/
def Blocked (G : Fin 5 → Vec3) (Q : Fin 6 → ℝ) : Prop := ¬ InReach G Q ∨ ∃ A, PutsAt G A Q ∧ ¬ KitFits A

/-- the state of the arm, `w'`, after a straight move to the pose `P` that began in `w`. -/
inductive LineEnd (G : Fin 5 → Vec3) (P : Fin 6 → ℝ) (w w' : World XR) : Prop
  /-- at angles that put the tool at `P` -/
  | arrived (A : Fin 6 → ℝ) : PutsAt G A P → ArmNear w' A (11 / 100000) → LineEnd G P w w'
  /-- at the point `k` of the `n` equal parts of the way from where the tool was (`S`), because the next point cannot be taken -/
  | stopped (a S : Fin 6 → ℝ) (n k : ℕ) (A : Fin 6 → ℝ) : Nearer w a → jointPos G (kitLogical a) 5 = ![S 0, S 1, S 2] → 2 * dist3 S P < n → 0 < k → k < n →
      PutsAt G A (onLine S P k n) → KitFits A → ArmNear w' A (11 / 100000) → Blocked G (onLine S P (k + 1) n) → LineEnd G P w w'
  /-- where it was, because the first point of the way cannot be taken -/
  | blocked (a S : Fin 6 → ℝ) (n : ℕ) : Nearer w a → jointPos G (kitLogical a) 5 = ![S 0, S 1, S 2] → 2 * dist3 S P < n → Blocked G (onLine S P 1 n) → Stayed w w' → LineEnd G P w w'
  /-- where it was, because the pose is out of reach -/
  | refused : ¬ InReach G P → Stayed w w' → LineEnd G P w w'

/-- the point that lies the part `s` of the straight way from the position `S` to the pose `P`, with the orientation of `P`. -/
def partWay (S : Vec3) (P : Fin 6 → ℝ) (s : ℝ) : Fin 6 → ℝ :=
  ![S 0 + (P 0 - S 0) * s, S 1 + (P 1 - S 1) * s, S 2 + (P 2 - S 2) * s, P 3, P 4, P 5]

/-- the kit can take every point of the straight way from the position `S` to the pose `P`, with the orientation of `P`, in its ordinary posture. -/
def KitFree (G : Fin 5 → Vec3) (S : Vec3) (P : Fin 6 → ℝ) : Prop := ∀ s, 0 < s → s ≤ 1 → ∃ A, KitTakes G (partWay S P s) A

end Mrc.Spec
