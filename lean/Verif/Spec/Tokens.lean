import Verif.Model.Text
/-
How an instruction text falls into commands — for EVERY text, well formed or not — and which texts the firmware can
read without leaving its tables.
-/
namespace Mrc.Spec

/-- what precedes the first '#' (35) or '(' (40). -/
def codePart (m : List Byte) : List Byte := m.takeWhile fun c => c != 35 && c != 40

/-- capital letters. -/
def Cap (c : Byte) : Prop := 65 ≤ c ∧ c ≤ 90
instance (c : Byte) : Decidable (Cap c) := by unfold Cap; infer_instance

/-- digits, '.', '-' and capital letters are kept; every other character is skipped. -/
def Kept (c : Byte) : Prop := (48 ≤ c ∧ c ≤ 57) ∨ c = 46 ∨ c = 45 ∨ Cap c
instance (c : Byte) : Decidable (Kept c) := by unfold Kept; infer_instance

/-- the text ends here, or the next character (kept or not does not matter) is a capital letter. -/
def Boundary : List Byte → Prop
  | [] => True
  | c :: _ => Cap c
instance (m : List Byte) : Decidable (Boundary m) := by cases m <;> unfold Boundary <;> infer_instance

/-- the finished commands of a code part and the characters left over at its end.  A command is finished by a kept
character with a boundary behind it. -/
def commands : List Byte → List Byte → List (List Byte) × List Byte
  | acc, [] => ([], acc)
  | acc, c :: cs =>
    if Kept c then
      if Boundary cs then ((acc ++ [c]) :: (commands [] cs).1, (commands [] cs).2)
      else commands (acc ++ [c]) cs
    else commands acc cs

/-- a command the firmware can execute: it has room in the buffer (with its terminator, 20 bytes), names an existing axis
R0..R7, an existing pin I0..I9, O0..O9. -/
def Executable (t : List Byte) : Prop :=
  t.length ≤ 19 ∧
  (t.head? = some 82 → ∃ d, t[1]? = some d ∧ 48 ≤ d ∧ d ≤ 55) ∧
  (t.head? = some 73 ∨ t.head? = some 79 → ∃ d, t[1]? = some d ∧ 48 ≤ d ∧ d ≤ 57)

/-- number of commands that wait for an input. -/
def inputTests (ts : List (List Byte)) : Nat := (ts.filter fun t => t.head? == some 73).length

/-- texts that are safe when `pending` input conditions are pending already. -/
structure SafeText (pending : Nat) (m : List Byte) : Prop where
  each : ∀ t ∈ (commands [] (codePart m)).1, Executable t
  rest : (commands [] (codePart m)).2.length ≤ 20
  room : pending + inputTests (commands [] (codePart m)).1 ≤ 10 ∨ inputTests (commands [] (codePart m)).1 = 0

end Mrc.Spec
