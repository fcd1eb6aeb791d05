import Verif.Spec.Flow
import Verif.Spec.Rest
/-
C112: a host that sends an immediate instruction (other than a question) only when everything sent before has been reported as finished. Only what passes over the line is counted.
-/
namespace Mrc.Spec
open Mrc

open Classical in
/-- the number of instructions (for the queue or immediate) among some frames; immediate questions are not counted. -/
noncomputable def instrs (ps : List (List Byte)) : Nat := ps.countP fun p => match frame p with | .put _ => true | .now m => decide (¬ Asks m) | _ => false

/-- the number of reports of completion (N1...) sent by the controller. -/
def finished {F : Type} (tr : List (Act F)) : Nat := tr.countP fun | .out (.msg (.n1 _)) => true | _ => false

/-- Whenever a frame E... that is not a question has been sent, the controller has sent as many reports of completion as instructions were sent before this frame. -/
def TakesTurns {F : Type} (r0 : List Byte) (ev : ℕ → Ev F) : Prop :=
  ∀ n ps p qs m, decode (sent r0 (sofar ev n)) = ps ++ p :: qs → frame p = .now m → ¬ Asks m → instrs ps ≤ finished (acts (sofar ev n))

/-- immediate instructions other than questions begin only while everything begun before is reported as finished. -/
def DoneStarts {F : Type} [FloatOps F] (ev : ℕ → Ev F) : Prop := ∀ k m, ev k = .act (.out (.ghost .immediate m)) → ¬ Asks m → AllDoneAt ev k

/-- no instruction is sent for the storage. -/
def NeverStores (r : List Byte) : Prop := ∀ p ∈ decode r, ∀ m, frame p ≠ .store m

end Mrc.Spec
