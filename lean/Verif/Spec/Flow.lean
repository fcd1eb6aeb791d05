import Verif.Spec.Device
import Verif.Model.Run
import Verif.Spec.Aside
/-
Vocabulary for flow control (C89-C90): what a host can count.
-/
namespace Mrc.Spec
open Mrc

/-- the instructions for the queue in a byte stream, in order. -/
def puts (r : List Byte) : List (List Byte) := (decode r).filterMap fun p => match frame p with | .put m => some m | _ => none

/-- the number of questions for the free space in a byte stream. -/
def asks (r : List Byte) : Nat := (decode r).countP fun p => decide (frame p = .free)

/-- the number of free-space reports sent by the controller. -/
def freeReports {F : Type} (tr : List (Act F)) : Nat := tr.countP fun | .out (.msg (.free _)) => true | _ => false

/-- the immediate instructions in a byte stream, in order. -/
def nows (r : List Byte) : List (List Byte) := (decode r).filterMap fun p => match frame p with | .now m => some m | _ => none

/-- the immediate instructions started, in order. -/
def nowStarts {F : Type} (tr : List (Act F)) : List (List Byte) := tr.filterMap fun | .out (.ghost .immediate m) => some m | _ => none

/-- everything sent to the controller up to now (`r0`: what was on the line at power-up). -/
def sent {F : Type} (r0 : List Byte) (evs : List (Ev F)) : List Byte := r0 ++ arrivals evs

/-- a host that counts: every free-space report that does not answer a question means that the controller takes the next instruction from the queue. At every time the
instructions sent and not known to be taken need at most the 300 bytes of the queue (one byte more than its text for each). -/
def CountingHost {F : Type} (r0 : List Byte) (evs : List (Ev F)) : Prop :=
  ∀ a b, evs = a ++ b → qSize ((puts (sent r0 a)).drop (freeReports (acts a) - asks (sent r0 a))) ≤ QUEUE

/-- the only frames the host sends: instructions for the queue, questions (for the free space, or immediate instructions that only ask), erase, and empty ones. -/
def QueueOnly (r : List Byte) : Prop := ∀ p ∈ decode r, frame p = .free ∨ frame p = .empty ∨ frame p = .erase ∨ (∃ m, frame p = .put m) ∨ ∃ m, frame p = .now m ∧ Asks m

end Mrc.Spec
