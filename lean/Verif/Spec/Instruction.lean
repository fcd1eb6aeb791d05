import Verif.Model.Text
/-
Instructions as lists of commands (C20-C29): a command is a capital letter and an argument made of digits, '.' and '-'.
-/
namespace Mrc.Spec

structure Cmd where
  letter : Byte
  arg : List Byte

/-- argument characters. -/
def argChar (c : Byte) : Bool := (48 ≤ c.toNat && c.toNat ≤ 57) || c == 46 || c == 45

/-- a command that fits the 20 byte token buffer (letter, argument, NUL). -/
structure Cmd.Ok (c : Cmd) : Prop where
  letter : 65 ≤ c.letter.toNat ∧ c.letter.toNat ≤ 90
  arg : ∀ b ∈ c.arg, argChar b = true
  len : c.arg.length ≤ 18

/-- its text. -/
def Cmd.text (c : Cmd) : List Byte := c.letter :: c.arg

/-- the text of an instruction. -/
def text (cs : List Cmd) : List Byte := cs.flatMap Cmd.text

/-- a plain decimal number: sign, integer digits, optional fraction digits. -/
structure Dec where
  neg : Bool
  ip : List (Fin 10)
  fp : Option (List (Fin 10))

def digitChar (d : Fin 10) : Byte := UInt8.ofNat (48 + d.val)

/-- its text. -/
def Dec.text (d : Dec) : List Byte :=
  (if d.neg then [45] else []) ++ d.ip.map digitChar ++
  match d.fp with
  | none => []
  | some f => 46 :: f.map digitChar

/-- value of a digit string read from the left. -/
def natVal : List (Fin 10) → Nat
  | [] => 0
  | d :: ds => d.val * 10 ^ ds.length + natVal ds

/-- its mathematical value. -/
def Dec.val (d : Dec) : Rat :=
  let v : Rat := natVal d.ip + match d.fp with
    | none => 0
    | some f => (natVal f : Rat) / ((10 ^ f.length : Nat) : Rat)
  if d.neg then -v else v

/-- at least one digit. -/
def Dec.Ok (d : Dec) : Prop := d.ip ≠ [] ∨ ∃ f, d.fp = some f ∧ f ≠ []

end Mrc.Spec
