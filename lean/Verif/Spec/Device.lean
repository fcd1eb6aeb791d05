import Verif.Model.Exec
import Verif.Spec.Framing
import Verif.Spec.Queue
/-
What a host knows about the controller's queue from the bytes the controller has read and the instructions it has started
(properties C11-C13, C61).  Uses only the frame format (`Spec.payload`), the bounded message queue (`Spec.qSize`) and the first
letter of a frame.
-/
namespace Mrc.Spec

/-- the kinds of frames. -/
inductive Frame where
  | free                      -- B
  | now (m : List Byte)       -- E<m>
  | clear                     -- Q
  | put (m : List Byte)       -- Q<m>, or <m> starting with any other letter
  | erase                     -- W
  | store (m : List Byte)     -- W<m>
  | empty
  deriving DecidableEq

/-- the meaning of a payload. -/
def frame : List Byte → Frame
  | [] => .empty
  | c :: m =>
    if c = 66 then .free
    else if c = 69 then .now m
    else if c = 81 then (if m = [] then .clear else .put m)
    else if c = 87 then (if m = [] then .erase else .store m)
    else .put (c :: m)

/-- where instructions are taken from: nowhere (only immediate ones), the queue, the storage. -/
inductive Sel where
  | immediate | queue | storage
  deriving DecidableEq

structure Dev where
  line : List Byte := []               -- bytes since the last CR
  queue : List (List Byte) := []       -- instructions accepted and not yet started, oldest first
  booted : Bool := false               -- the storage has been looked at after power-up
  sel : Sel := .immediate
  accepted : List (List Byte) := []    -- all instructions accepted for the queue so far
  started : List (List Byte) := []     -- all instructions started from the queue so far
  cleared : Bool := false              -- a clear frame has been received

/-- the queue holds 300 bytes (main.cpp:116). -/
def QUEUE : Nat := 300

def Dev.frame (d : Dev) : Frame → Dev
  | .put m =>
    if qSize d.queue + (m.length + 1) ≤ QUEUE then { d with queue := d.queue ++ [m], accepted := d.accepted ++ [m], sel := .queue }
    else { d with sel := .queue }
  | .clear => { d with queue := [], sel := .queue, cleared := true }
  | .store _ => { d with sel := .storage }
  | _ => d

/-- one more byte has been read. -/
def Dev.recv (d : Dev) (b : Byte) : Dev :=
  if b = 13 then
    if overlong d.line then { d with line := [] }
    else { d with line := [] }.frame (Spec.frame (payload d.line))
  else { d with line := d.line ++ [b] }

/-- one access of the firmware, as seen from outside. -/
def Dev.act {F : Type} (d : Dev) : Act F → Dev
  | .rx (some b) => d.recv b
  | .eeRead m =>
    if d.booted then d else { d with booted := true, sel := if m 0 = 0 then .immediate else .storage }
  | .out (.ghost .queue m) => { d with queue := d.queue.tail, started := d.started ++ [m] }
  | _ => d

/-- after a history. -/
def Dev.after {F : Type} (tr : List (Act F)) : Dev := tr.foldl Dev.act {}

end Mrc.Spec
