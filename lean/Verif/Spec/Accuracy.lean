import Verif.Spec.Rest
import Verif.Spec.Kinematics
/-
C113: how exactly the tool is where it was told to be.
-/
namespace Mrc.Spec
open Mrc

/-- the tool is at the pose `P` up to `p` units, and its axes point in the directions of `P` up to `o` in every coordinate. -/
def ToolAt (G : Fin 5 → Vec3) (p o : ℝ) (A P : Fin 6 → ℝ) : Prop :=
  len3 (jointPos G A 5 - ![P 0, P 1, P 2]) < p ∧ ∀ i j, |toolFrame A i j - orientOf P i j| < o

/-- the kit can take the pose `P` with the angles `A`, in its ordinary posture: within the ranges; the shoulder less than 90 degrees forward, the elbow at most 90 degrees up, the forearm not
turned by -90 degrees, the hand not in line with the forearm, the wrist in front of the base axis. -/
structure KitTakes (G : Fin 5 → Vec3) (P A : Fin 6 → ℝ) : Prop where
  fits : KitFits A
  pos : jointPos G A 5 = ![P 0, P 1, P 2]
  orient : toolFrame A = orientOf P
  shoulder : A 1 < Real.pi / 2
  elbow : A 2 ≤ Real.pi / 2
  forearm : -(Real.pi / 2 - 1 / 10000) ≤ A 3
  hand : Real.cos (A 4) ≠ 0
  front : 0 < Real.cos (A 0) * jointPos G A 4 0 + Real.sin (A 0) * jointPos G A 4 1

end Mrc.Spec
