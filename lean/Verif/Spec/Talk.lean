import Verif.Spec.Reading
/-
C131: the conversation: what the device says, free-space reports aside, while it works off instructions.
-/
namespace Mrc.Spec
open Mrc

/-- what the device says: N0 (an instruction was begun), N1 (it is finished), an answer (its number, and what the answer is about: the letters and, for M, the method). -/
inductive Word where
  | begun (n : Int)
  | finished (n : Int)
  | answer (num : Option Int) (about : List (List Byte × Option Nat))
  deriving DecidableEq, Repr

/-- what is said by an access. -/
def wordOf {F : Type} : Act F → Option Word
  | .out (.msg (.n0 n)) => some (.begun n)
  | .out (.msg (.n1 n)) => some (.finished n)
  | .out (.msg (.reply num ps)) => some (.answer num (ps.map Part.tag))
  | _ => none

/-- everything said. -/
def words {F : Type} (tr : List (Act F)) : List Word := tr.filterMap wordOf

/-- N0 for every N. -/
def begins (cs : List Cmd) : List Word := cs.filterMap fun c => if c.letter = 78 then some (.begun (atol c.arg)) else none

/-- how the conversation about an instruction ends, while the movement method is `k`: the answer, if its last command is a question; otherwise N1, if it has a number and this is not its last command. -/
def ending (k : Nat) (cs : List Cmd) : List Word :=
  match cs.getLast? with
  | none => []
  | some c =>
    if (c.letter ≠ 78 ∧ c.arg = []) ∨ (c.letter = 82 ∧ c.arg.length = 1) then [.answer (if 0 < numberOf cs then some (numberOf cs) else none) (asked k cs)]
    else if c.letter ≠ 78 ∧ 0 < numberOf cs then [.finished (numberOf cs)]
    else []

/-- the conversation about a sequence of instructions. -/
def talk (k : Nat) : List (List Cmd) → List Word
  | [] => []
  | cs :: rest => begins cs ++ ending k cs ++ talk (cs.foldl chosenBy k) rest

/-- the instructions that were begun, from whatever source. -/
def begunTexts {F : Type} (tr : List (Act F)) : List (List Byte) := tr.filterMap fun | .out (.ghost _ m) => some m | _ => none

/-- no immediate instruction was begun. -/
def NoNow {F : Type} (tr : List (Act F)) : Prop := ∀ m, .out (.ghost .immediate m) ∉ tr

end Mrc.Spec
