import Verif.Spec.Talk
/-
C133: the whole conversation, immediate instructions included.
-/
namespace Mrc.Spec
open Mrc

/-- what can be heard: an instruction begins (immediately, or from queue or storage), or the device says something. -/
inductive Heard where
  | begun (now : Bool) (m : List Byte)
  | said (w : Word)
  deriving DecidableEq

/-- what was heard. -/
def heard {F : Type} (tr : List (Act F)) : List Heard := tr.filterMap fun
  | .out (.ghost src m) => some (.begun (src == .immediate) m)
  | a => (wordOf a).map .said

/-- the same, with the commands of the instructions. -/
inductive Turn where
  | begun (now : Bool) (cs : List Cmd)
  | said (w : Word)

def Turn.heard : Turn → Heard
  | .begun now cs => .begun now (text cs)
  | .said w => .said w

/-- instructions whose axes and methods are digits. -/
def Turn.Plain : Turn → Prop
  | .begun _ cs => Simple cs
  | .said _ => True

/-- the state of a conversation: what remains to be said about the instruction begun last, the number whose N1 is due (if positive), and the movement method chosen. -/
structure Dialogue where
  left : List Word := []
  due : Int := 0
  method : Nat := 1

/-- the last command is a question. -/
def poses (cs : List Cmd) : Bool := match cs.getLast? with
  | some c => (c.letter ≠ 78 ∧ c.arg = []) ∨ (c.letter = 82 ∧ c.arg.length = 1)
  | none => false

/-- the last command is an order (neither a question nor N). -/
def demands (cs : List Cmd) : Bool := match cs.getLast? with
  | some c => !poses cs && c.letter ≠ 78
  | none => false

/-- the rules. An instruction begins only when everything is said about the one before, and if it comes from queue or storage, only when no N1 is due. Then N0 is said for every N, and if it ends with a question, the
answer is given; if it ends with an order, from now on N1 with its number is due (instead of what was due before). When nothing else remains to be said, what is due may be said, once. -/
def Dialogue.step (d : Dialogue) : Turn → Option Dialogue
  | .begun now cs =>
    if d.left = [] ∧ (now = true ∨ d.due ≤ 0) then some
      { left := begins cs ++ if poses cs then [.answer (if 0 < numberOf cs then some (numberOf cs) else none) (asked d.method cs)] else []
        due := if demands cs then numberOf cs else d.due
        method := cs.foldl chosenBy d.method }
    else none
  | .said w =>
    match d.left with
    | x :: rest => if w = x then some { d with left := rest } else none
    | [] => if w = .finished d.due ∧ 0 < d.due then some { d with due := -1 } else none

/-- a conversation that follows the rules, from the beginning; its state at the end. -/
def dialogue (ts : List Turn) : Option Dialogue := ts.foldlM Dialogue.step {}

end Mrc.Spec
