import Verif.Spec.Dialogue
/-
C134: a host that works off a program and watches it.
-/
namespace Mrc.Spec
open Mrc

/-- the instructions heard to begin from queue or storage. -/
def begunLater (hs : List Heard) : List (List Byte) := hs.filterMap fun
  | .begun false m => some m
  | _ => none

/-- the instructions heard to begin at once. -/
def begunNow (hs : List Heard) : List (List Byte) := hs.filterMap fun
  | .begun true m => some m
  | _ => none

/-- what was heard the device say. -/
def saidBy (hs : List Heard) : List Word := hs.filterMap fun
  | .said w => some w
  | .begun _ _ => none

/-- an answer to the question with this number (none: without number). -/
def answersTo (num : Option Int) : Word → Bool
  | .answer x _ => x == num
  | _ => false

/-- the number of an instruction, if it has one. -/
def numberOf? (cs : List Cmd) : Option Int := if 0 < numberOf cs then some (numberOf cs) else none

end Mrc.Spec
