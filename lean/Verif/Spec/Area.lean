import Verif.Spec.LineEnd
import Verif.Spec.Turns
/-
C115: a working area of the robot kit.
-/
namespace Mrc.Spec
open Mrc

/-- a position in the working area, up to `e` units. -/
structure InArea (e : ℝ) (x y z : ℝ) : Prop where
  xl : 12 - e ≤ x
  xu : x ≤ 19 + e
  yl : -6 - e ≤ y
  yu : y ≤ 6 + e
  zl : 6 - e ≤ z
  zu : z ≤ 185 / 10 + e

/-- the tool points straight down, turned by at most 30 degrees. -/
structure Down (P : Fin 6 → ℝ) : Prop where
  a : P 3 = Real.pi
  b : P 4 = 0
  c : 5 * Real.pi / 6 ≤ P 5 ∧ P 5 ≤ 7 * Real.pi / 6

/-- an instruction that names all six coordinates of the pose `d`, a joint move (M0) or a straight move (M1); the position is in the working area and the tool points down. -/
structure AreaMove (cs : List Cmd) (d : Fin 6 → Dec) : Prop where
  tells : TellsPose cs
  mode : Chooses 48 cs ∨ Chooses 49 cs
  last : ∀ i, Last NamesPose cs i (d i)
  area : InArea 0 (poseOfDec d 0) (poseOfDec d 1) (poseOfDec d 2)
  down : Down (poseOfDec d)

/-- every instruction sent, for the queue or immediate, is such a move or leaves the arm alone; nothing is sent for the storage. -/
structure AreaOnly (r : List Byte) : Prop where
  moves : ∀ p ∈ decode r, ∀ m, frame p = .put m ∨ frame p = .now m → Aside m ∨ ∃ cs d, m = text cs ∧ AreaMove cs d
  stores : NeverStores r

end Mrc.Spec
