import Verif.Spec.Reading
import Verif.Spec.Accuracy
/-
C117: what is said between a report and a question: instructions that name no place for the arm.
-/
namespace Mrc.Spec
open Mrc

/-- what begins between the times `a` and `b` names no place for the arm. -/
def OnlyNoPlace {F : Type} (ev : ℕ → Ev F) (a b : ℕ) : Prop := ∀ j, a ≤ j → j < b → ∀ src m, ev j = .act (.out (.ghost src m)) → NoPlace m

/-- an answer that agrees with the angles `A` of the axes (in degrees, up to `e`) and the position `T` of the tool (up to `p`); axes are numbered from 0 to 7. -/
def Says (A : Fin 6 → ℝ) (T : Fin 3 → ℝ) (e p : ℝ) : Part XR → Prop
  | .angle o v => o < 8 ∧ ∀ i : Fin 6, o = i.val → ∃ x, v = .fin x ∧ |x - A i * (180 / Real.pi)| < e
  | .pose sym v => ∀ i : Fin 3, sym = poseLetter ⟨i.val, by omega⟩ → ∃ x, v = .fin x ∧ |x - T i| < p
  | _ => True

end Mrc.Spec
