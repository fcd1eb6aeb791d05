import Verif.Spec.Instruction
import Verif.Model.Run
/-
Instructions that do not concern the arm: they may be given at any time, even during a move (C117, C118).
-/
namespace Mrc.Spec
open Mrc

/-- the command names no place for the arm: pose letters only as questions, R only as a question or for an additional axis. -/
def NamesNoPlace (c : Cmd) : Prop :=
  (c.letter ∈ str "XYZABC" → c.arg = []) ∧ (c.letter = 82 → c.arg.length = 1 ∨ ∃ (o : Fin 10) (rest : List Byte), 6 ≤ o.val ∧ c.arg = digitChar o :: rest)

/-- an instruction that names no place for the arm. -/
def NoPlace (m : List Byte) : Prop := ∃ cs : List Cmd, (∀ c ∈ cs, c.Ok) ∧ (∀ c ∈ cs, NamesNoPlace c) ∧ m = text cs

/-- the command leaves the arm alone: it names no place, and chooses neither method nor speed. -/
def LeavesArm (c : Cmd) : Prop := NamesNoPlace c ∧ (c.letter = 77 ∨ c.letter = 86 → c.arg = [])

/-- an instruction that leaves the arm alone: questions, waiting, inputs, outputs, additional axes. -/
def Aside (m : List Byte) : Prop := ∃ cs : List Cmd, (∀ c ∈ cs, c.Ok) ∧ (∀ c ∈ cs, LeavesArm c) ∧ m = text cs

/-- a question: a letter of X Y Z A B C V M alone, or R with only the digit of the axis; or the number of the instruction (N). -/
def OnlyAsks (c : Cmd) : Prop := (c.letter ∈ str "XYZABCVM" ∧ c.arg = []) ∨ (c.letter = 82 ∧ c.arg.length = 1) ∨ c.letter = 78

/-- an instruction that only asks. -/
def Asks (m : List Byte) : Prop := ∃ cs : List Cmd, (∀ c ∈ cs, c.Ok) ∧ (∀ c ∈ cs, OnlyAsks c) ∧ m = text cs

/-- an instruction begins that is more than a question asked at once. -/
def OrdersI {F : Type} (a : Act F) : Prop := ∃ src m, a = .out (.ghost src m) ∧ ¬ (src = .immediate ∧ Asks m)

/-- at time `n` an instruction begins that is more than a question asked at once. -/
def Orders {F : Type} (ev : ℕ → Ev F) (n : ℕ) : Prop := ∃ src m, ev n = .act (.out (.ghost src m)) ∧ ¬ (src = .immediate ∧ Asks m)

/-- an instruction begins that concerns the arm. -/
def DirectsI {F : Type} (a : Act F) : Prop := ∃ src m, a = .out (.ghost src m) ∧ ¬ Aside m

/-- at time `n` an instruction begins that concerns the arm. -/
def Directs {F : Type} (ev : ℕ → Ev F) (n : ℕ) : Prop := ∃ src m, ev n = .act (.out (.ghost src m)) ∧ ¬ Aside m

/-- at time `n` an instruction begins that names a place for the arm. -/
def Places {F : Type} (ev : ℕ → Ev F) (n : ℕ) : Prop := ∃ src m, ev n = .act (.out (.ghost src m)) ∧ ¬ NoPlace m

end Mrc.Spec
