import Verif.Spec.Pins
/-
C127: what an instruction waits for.
-/
namespace Mrc.Spec
open Mrc

/-- the inputs an instruction waits for, command by command: I<pin><0|1> names a pin of the board and its level; with another state nothing is waited for. -/
inductive Awaits (map : List ℕ) : List Cmd → List (ℕ × Bool) → Prop
  | nil : Awaits map [] []
  | input {p : Fin 10} {b : Bool} {x c cs l} : NamesPin 73 p (if b then 1 else 0) c → map[p.val]? = some x → Awaits map cs l → Awaits map (c :: cs) ((x, b) :: l)
  | odd {p s : Fin 10} {c cs l} : NamesPin 73 p s c → 2 ≤ s.val → Awaits map cs l → Awaits map (c :: cs) l
  | other {c cs l} : c.letter ≠ 73 → Awaits map cs l → Awaits map (c :: cs) l

/-- the command D with a number of milliseconds (at most 2147483647, about 25 days). -/
def NamesDelay (ms : ℕ) (c : Cmd) : Prop := c.letter = 68 ∧ ∃ ds : List (Fin 10), ds ≠ [] ∧ c.arg = ds.map digitChar ∧ natVal ds = ms ∧ ms ≤ 2147483647

/-- the last D of an instruction names this time. -/
def Delays (ms : ℕ) (cs : List Cmd) : Prop := ∃ a c b, cs = a ++ c :: b ∧ NamesDelay ms c ∧ ∀ d ∈ b, d.letter ≠ 68

variable {F : Type}

/-- at some time all these inputs were read, one directly after the other, and had these levels. -/
def SeenTogether (tr : List (Act F)) (l : List (ℕ × Bool)) : Prop := ∃ u v, tr = u ++ l.map (fun x => Act.pin x.1 x.2) ++ v

/-- the clock was read twice, and between the readings more than `ms` milliseconds passed (unless the time to wait for does not fit the 32 bits of the clock). -/
def TimePassed (tr : List (Act F)) (ms : ℕ) : Prop := ∃ t t' u v w, tr = u ++ .now t :: v ++ .now t' :: w ∧ (t + ms < 4294967296 → t + ms < t')

/-- an instruction is reported as finished, or one from the queue or the storage begins. -/
def Proceeds : Act F → Prop
  | .out (.msg (.n1 _)) => True
  | .out (.ghost src _) => src ≠ .immediate
  | _ => False

/-- an instruction that does not wait. -/
def WaitsNot (m : List Byte) : Prop := ∃ cs, (∀ c ∈ cs, c.Ok) ∧ m = text cs ∧ ∀ c ∈ cs, c.letter ≠ 73 ∧ c.letter ≠ 68

/-- the only instructions that began are immediate ones that do not wait. -/
def OnlyBrief (tr : List (Act F)) : Prop := ∀ src m, .out (.ghost src m) ∈ tr → src = .immediate ∧ WaitsNot m

end Mrc.Spec
