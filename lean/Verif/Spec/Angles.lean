import Verif.Spec.Joints
import Verif.Spec.Told
import Verif.Model.Binary32
/-
A host that moves the arm by joint angles only (C104).
-/
namespace Mrc.Spec

/-- no lines; arguments consist of digits, '.' and '-' in any order; X, Y, Z, A, B, C only as questions. -/
structure AngleText (m : List Byte) : Prop where
  joints : Joints m
  plain : ∀ t ∈ (commands [] (codePart m)).1, ∀ c ∈ t.tail, ¬ Cap c
  poses : ∀ t ∈ (commands [] (codePart m)).1, t.head? ∈ [some 88, some 89, some 90, some 65, some 66, some 67] → t.length = 1
instance (m : List Byte) : Decidable (AngleText m) :=
  decidable_of_iff (Joints m ∧ (∀ t ∈ (commands [] (codePart m)).1, ∀ c ∈ t.tail, ¬ Cap c) ∧
    (∀ t ∈ (commands [] (codePart m)).1, t.head? ∈ [some 88, some 89, some 90, some 65, some 66, some 67] → t.length = 1))
    ⟨fun h => ⟨h.1, h.2.1, h.2.2⟩, fun h => ⟨h.1, h.2, h.3⟩⟩

def AngleFrame : Frame → Prop
  | .now m => AngleText m
  | .put m => AngleText m
  | .store m => AngleText m
  | _ => True

/-- in binary32: every arm servo was seen at the angle `b i`, and has not been touched since. -/
def SeenAt32 (mid : List (Act (RX binary32))) (b : Fin 6 → ℝ) : Prop :=
  ∀ i, ∃ p1 s p2, mid = p1 ++ .servo (armServo i) s :: p2 ∧ s.cur.val = .fin (b i) ∧ ∀ m, .micro (armServo i) m ∉ p2

/-- the robot kit: the angles (radians) are within the ranges of the axes, and the servo of axis 2, that has to turn to the sum of angles 1 and 2, can do so,
with the margin `m` on either side (`KitFitsBy 0` is `KitFits`; with a negative margin the ranges are wider). -/
def KitFitsBy (m : ℝ) (a : Fin 6 → ℝ) : Prop :=
  (∀ i, (Kit.minDeg (armServo i) : ℝ) * (Real.pi / 180) + m ≤ a i ∧ a i ≤ (Kit.maxDeg (armServo i) : ℝ) * (Real.pi / 180) - m) ∧
  (Kit.minDeg 2 : ℝ) * (Real.pi / 180) + m ≤ a 2 + a 1 ∧ a 2 + a 1 ≤ (Kit.maxDeg 2 : ℝ) * (Real.pi / 180) - m

end Mrc.Spec
