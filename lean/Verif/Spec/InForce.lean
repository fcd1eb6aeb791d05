import Verif.Spec.Told
import Verif.Spec.Speed
import Verif.Spec.Reading
/-
C123: what an instruction does not name stays as it was told.
-/
namespace Mrc.Spec
open Mrc

/-- the speed told (the text after V) after a command. -/
def spokenBy (v : Option (List Byte)) (c : Cmd) : Option (List Byte) := if c.letter = 86 ∧ c.arg ≠ [] then some c.arg else v

/-- M is followed by 0, 1 or nothing. -/
def ClearM (cs : List Cmd) : Prop := ∀ c ∈ cs, c.letter = 77 → c.arg = [] ∨ c.arg = [48] ∨ c.arg = [49]

/-- commands that can be read, at least one. -/
def Named (cs : List Cmd) : Prop := (∀ c ∈ cs, c.Ok) ∧ cs ≠ [] ∧ ClearM cs

/-- after everything that happened the movement method `k` and the speed `v` (nothing: never told) are in force: M1 at power-up, then whatever was named last. -/
inductive InForce {F : Type} : List (Act F) → ℕ → Option (List Byte) → Prop
  | boot : InForce [] 1 none
  | act {tr k v a} : InForce tr k v → ¬ BeginsI a → InForce (tr ++ [a]) k v
  | instr {tr k v src cs} : InForce tr k v → (∀ c ∈ cs, c.Ok) → cs ≠ [] → ClearM cs → InForce (tr ++ [.out (.ghost src (text cs))]) (cs.foldl chosenBy k) (cs.foldl spokenBy v)

/-- `v` says the speed `V`: 10 if none was told. -/
def SaysSpeed : Option (List Byte) → ℚ → Prop
  | none, V => V = 10
  | some a, V => ∃ d : Dec, d.Ok ∧ a = d.text ∧ V = d.val

end Mrc.Spec
