import Verif.Spec.Reading
/-
C126: what instructions do to the pins.
-/
namespace Mrc.Spec
open Mrc

/-- what can be done to a pin: its mode is set, or it is switched. -/
inductive PinOp where
  | mode (p : ℕ) (m : PinMode)
  | write (p : ℕ) (level : Bool)

def PinOp.pin : PinOp → ℕ
  | .mode p _ => p
  | .write p _ => p

/-- everything that was done to pins. -/
def pinOps {F : Type} (tr : List (Act F)) : List PinOp := tr.filterMap fun
  | .out (.pinMode p m) => some (.mode p m)
  | .out (.digitalWrite p b) => some (.write p b)
  | _ => none

/-- commands as they should be: I and O are followed by two digits, the number of a pin and a state. -/
structure PinsOk (cs : List Cmd) : Prop where
  ok : ∀ c ∈ cs, c.Ok
  pin : ∀ c ∈ cs, c.letter = 73 ∨ c.letter = 79 → ∃ (p s : Fin 10) (rest : List Byte), c.arg = digitChar p :: digitChar s :: rest

/-- a command for the pin `p` and the state `s`, with the letter `l` (I or O). -/
def NamesPin (l : Byte) (p s : Fin 10) (c : Cmd) : Prop := c.letter = l ∧ ∃ rest, c.arg = digitChar p :: digitChar s :: rest

/-- what has to be done for a command; `map` are the numbers of the pins on the board. O: made an output and switched on (1) or off (0); I: made an input, pulled down to wait for 1, else up. -/
inductive PinTold (map : List ℕ) : Cmd → List PinOp → Prop
  | off {p x c} : NamesPin 79 p 0 c → map[p.val]? = some x → PinTold map c [.mode x .output, .write x false]
  | on {p x c} : NamesPin 79 p 1 c → map[p.val]? = some x → PinTold map c [.mode x .output, .write x true]
  | other {p s x c} : NamesPin 79 p s c → 2 ≤ s.val → map[p.val]? = some x → PinTold map c [.mode x .output]
  | input {p s x c} : NamesPin 73 p s c → map[p.val]? = some x → PinTold map c [.mode x (if s = 1 then .input_pulldown else .input_pullup)]
  | none {c} : c.letter ≠ 73 → c.letter ≠ 79 → PinTold map c []

/-- what has to be done for an instruction: command by command. -/
inductive PinsTold (map : List ℕ) : List Cmd → List PinOp → Prop
  | nil : PinsTold map [] []
  | cons {c cs a b} : PinTold map c a → PinsTold map cs b → PinsTold map (c :: cs) (a ++ b)

/-- a pin is an output, switched to `b`, after all of this. -/
def Driven (ops : List PinOp) (p : ℕ) (b : Bool) : Prop :=
  ∃ x y, ops = x ++ [.mode p .output, .write p b] ++ y ∧ ∀ o ∈ y, o.pin ≠ p

/-- the command concerns the pin `x` of the board. -/
def Concerns (map : List ℕ) (x : ℕ) (c : Cmd) : Prop := ∃ (l : Byte) (p s : Fin 10), (l = 73 ∨ l = 79) ∧ NamesPin l p s c ∧ map[p.val]? = some x

/-- the command switches the pin `x` of the board on or off. -/
def Switches (map : List ℕ) (x : ℕ) (b : Bool) (c : Cmd) : Prop := ∃ p : Fin 10, NamesPin 79 p (if b then 1 else 0) c ∧ map[p.val]? = some x

/-- an instruction as it should be which does not concern the pin. -/
def LeavesPin (map : List ℕ) (x : ℕ) (m : List Byte) : Prop := ∃ cs, m = text cs ∧ PinsOk cs ∧ ∀ c ∈ cs, ¬ Concerns map x c

end Mrc.Spec
