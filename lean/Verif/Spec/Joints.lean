import Verif.Spec.Legible
/-
A host that never uses the straight-line interpolation (C103).  The device starts with it selected, so an instruction
that tells the arm to move has to say "M0", too.
-/
namespace Mrc.Spec

/-- the command gives the arm a new target: X, Y, Z, A, B, C or R<axis> with a value. -/
def Moves (t : List Byte) : Prop :=
  (t.head? ∈ [some 88, some 89, some 90, some 65, some 66, some 67] ∧ 1 < t.length) ∨ (t.head? = some 82 ∧ 2 < t.length)
instance (t : List Byte) : Decidable (Moves t) := by unfold Moves; infer_instance

/-- every 'M' (77) command of the text is "M0" or the question "M"; if the text moves the arm, it says "M0". -/
structure Joints (m : List Byte) : Prop where
  lines : ∀ t ∈ (commands [] (codePart m)).1, t.head? = some 77 → t = [77, 48] ∨ t = [77]
  told : (∃ t ∈ (commands [] (codePart m)).1, Moves t) → [77, 48] ∈ (commands [] (codePart m)).1
instance (m : List Byte) : Decidable (Joints m) :=
  decidable_of_iff ((∀ t ∈ (commands [] (codePart m)).1, t.head? = some 77 → t = [77, 48] ∨ t = [77]) ∧
    ((∃ t ∈ (commands [] (codePart m)).1, Moves t) → [77, 48] ∈ (commands [] (codePart m)).1)) ⟨fun h => ⟨h.1, h.2⟩, fun h => ⟨h.1, h.2⟩⟩

def JointsFrame : Frame → Prop
  | .now m => Joints m
  | .put m => Joints m
  | .store m => Joints m
  | _ => True

end Mrc.Spec
