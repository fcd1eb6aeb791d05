import Verif.Model.Num
/-
Specification of the program storage (C14-C19): a list of messages with a limited total size.
-/
namespace Mrc.Spec

/-- requests to the storage. -/
inductive EOp where
  | append (msg : List Byte)
  | clear
  | count
  | get (i : Nat)

/-- answers. -/
inductive EOut where
  | unit
  | num (n : Nat)
  | msg (m : List Byte)
  deriving DecidableEq

/-- bytes a stored program occupies: one length byte per message. -/
def eSize (L : List (List Byte)) : Nat := (L.map fun m => m.length + 1).sum

/-- the abstract storage of 2048 bytes. -/
def eStep (L : List (List Byte)) : EOp → List (List Byte) × EOut
  | .append m => (if eSize L + m.length + 1 ≤ 2048 then L ++ [m] else L, .unit)
  | .clear => ([], .unit)
  | .count => (L, .num L.length)
  | .get i => (L, .msg (L.getD i []))

/-- state and answers after a history. -/
def eRun : List (List Byte) → List EOp → List (List Byte) × List EOut
  | L, [] => (L, [])
  | L, o :: os => ((eRun (eStep L o).1 os).1, (eStep L o).2 :: (eRun (eStep L o).1 os).2)

/-- messages that can be stored: 1 to 255 bytes (a frame payload has at most 79). -/
def eOk : EOp → Prop
  | .append m => m ≠ [] ∧ m.length ≤ 255
  | _ => True

end Mrc.Spec
