import Verif.Model.Num
/-
Independent specification of the instruction queue (properties C01-C04): a list of messages, a list of bytes.
Nothing here mentions positions, wrap-around or the separator handling of the implementation.
-/
namespace Mrc.Spec

/-- operations on the queue. -/
inductive QOp where
  | put (m : List Byte)     -- putBytes
  | get                     -- getMessage
  | clear
  | size                    -- getSize

/-- their results. -/
inductive QOut where
  | accepted
  | refused
  | msg (m : List Byte)
  | unit
  | size (n : Nat)
  deriving DecidableEq

/-- bytes used by the queued messages: one separator per message. -/
def qSize (q : List (List Byte)) : Nat := (q.map fun m => m.length + 1).sum

/-- first-in first-out list of messages, bounded by `cap` bytes. -/
def qStep (cap : Nat) (q : List (List Byte)) : QOp → List (List Byte) × QOut
  | .put m => if qSize q + (m.length + 1) ≤ cap then (q ++ [m], .accepted) else (q, .refused)
  | .get => match q with
    | [] => ([], .msg [])
    | m :: q => (q, .msg m)
  | .clear => ([], .unit)
  | .size => (q, .size (qSize q))

/-- outputs of a history. -/
def qRun (cap : Nat) : List (List Byte) → List QOp → List QOut
  | _, [] => []
  | q, o :: os => (qStep cap q o).2 :: qRun cap (qStep cap q o).1 os

/-- byte level operations. -/
inductive BOp where
  | get            -- get() / getByte()
  | back           -- getFromBack()
  | peek (i : Nat) -- peek(i), i < size
  | put (m : List Byte)
  | clear
  | size

inductive BOut where
  | byte (b : Byte)
  | status (ok : Bool)
  | nat (n : Nat)
  | unit
  deriving DecidableEq

/-- plain byte sequence; `sep` is the separator appended by put and returned by get on empty. -/
def bStep (cap : Nat) (sep : Byte) (l : List Byte) : BOp → List Byte × BOut
  | .get => match l with
    | [] => ([], .byte sep)
    | b :: l => (l, .byte b)
  | .back => match l.getLast? with
    | none => ([], .byte 0)
    | some b => (l.dropLast, .byte b)
  | .peek i => (l, .byte (l[i]?.getD 0))
  | .put m => if l.length + m.length + 1 ≤ cap then (l ++ m ++ [sep], .status true) else (l, .status false)
  | .clear => ([], .unit)
  | .size => (l, .nat l.length)

/-- peek is only specified for existing indices. -/
def bValid (l : List Byte) : BOp → Prop
  | .peek i => i < l.length
  | .put m => m.length < 2147483648
  | _ => True

def bRun (cap : Nat) (sep : Byte) : List Byte → List BOp → List BOut
  | _, [] => []
  | l, o :: os => (bStep cap sep l o).2 :: bRun cap sep (bStep cap sep l o).1 os

/-- a history respects the precondition of peek (judged on the specification state). -/
def bValidRun (cap : Nat) (sep : Byte) : List Byte → List BOp → Prop
  | _, [] => True
  | l, o :: os => bValid l o ∧ bValidRun cap sep (bStep cap sep l o).1 os

end Mrc.Spec
