import Verif.Spec.Wire
import Verif.Spec.Instruction
import Verif.Spec.Told
import Verif.Model.Exec
/-
How a host reads the texts it receives (C97): notices and answers. What answers have to say (C98).
-/
namespace Mrc.Spec
open Mrc

/-- value of a digit character. -/
def readDigit (c : Byte) : Option Nat := if 48 ≤ c.toNat ∧ c.toNat ≤ 57 then some (c.toNat - 48) else none

/-- value of a string of digits, most significant first, beginning with the value `v` of those already read. -/
def readDigits (v : Nat) : List Byte → Option Nat
  | [] => some v
  | c :: cs => match readDigit c with
    | some d => readDigits (10 * v + d) cs
    | none => none

/-- a natural number: one or more digits. -/
def readNat (t : List Byte) : Option Nat := if t = [] then none else readDigits 0 t

/-- an integer: digits, perhaps after a minus sign. -/
def readInt (t : List Byte) : Option Int :=
  if t.head? = some 45 then (readNat t.tail).map fun (n : Nat) => -(n : Int) else (readNat t).map fun (n : Nat) => (n : Int)

/-- a decimal number without sign: digits, perhaps a point and more digits. -/
def readAbs (t : List Byte) : Option Rat :=
  match t.dropWhile (· != 46) with
  | [] => (readNat t).map fun (n : Nat) => (n : Rat)
  | _ :: f => match readNat (t.takeWhile (· != 46)), readDigits 0 f with
    | some n, some k => some ((n : Rat) + (k : Rat) / ((10 ^ f.length : Nat) : Rat))
    | _, _ => none

/-- a decimal number, perhaps after a minus sign. -/
def readNum (t : List Byte) : Option Rat := if t.head? = some 45 then (readAbs t.tail).map fun x => -x else readAbs t

/-- capital letters. -/
def isLetter (c : Byte) : Bool := decide (65 ≤ c.toNat) && decide (c.toNat ≤ 90)

/-- a named value in an answer: the name is the letter, for R together with the number of the axis. -/
def readField (letter : Byte) (rest : List Byte) : Option (List Byte × Rat) :=
  if letter = 82 then (readNum rest.tail).map fun v => (82 :: rest.take 1, v) else (readNum rest).map fun v => ([letter], v)

/-- the named values: each extends up to the next letter. -/
def readFields (t : List Byte) : Option (List (List Byte × Rat)) :=
  match t with
  | [] => some []
  | c :: cs =>
    match readField c (cs.takeWhile fun b => !isLetter b), readFields (cs.dropWhile fun b => !isLetter b) with
    | some f, some fs => some (f :: fs)
    | _, _ => none
termination_by t.length
decreasing_by exact Nat.lt_succ_of_le (List.dropWhile_suffix _).length_le

/-- what a frame says. -/
inductive Note where
  | free (n : Int)                                               -- free space in the queue
  | accepted (n : Int)                                           -- instruction n is being executed
  | done (n : Int)                                               -- instruction n is done
  | answer (num : Option Int) (values : List (List Byte × Rat))  -- the values asked for, with the number of the instruction
  deriving DecidableEq

/-- meaning of the text of a frame. B with a whole number is the free space, with a decimal point an angle. -/
def readNote : List Byte → Option Note
  | 78 :: 48 :: t => (readInt t).map .accepted
  | 78 :: 49 :: t =>
    match t.dropWhile (· != 32) with
    | [] => (readInt t).map .done
    | _ :: fs => match readInt (t.takeWhile (· != 32)), readFields fs with
      | some n, some vs => some (.answer (some n) vs)
      | _, _ => none
  | 66 :: t => if t.contains 46 then (readFields (66 :: t)).map (.answer none) else (readInt t).map .free
  | t => (readFields t).map (.answer none)

/-- the printed form of a number: an optional minus sign, digits, a point and two more digits. -/
def Printed (text : List Byte) (v : Rat) : Prop := ∃ d : Dec, d.ip ≠ [] ∧ (∃ a b, d.fp = some [a, b]) ∧ text = d.text ∧ d.val = v

/-- a host that ignores everything outside of frames: the texts between ':' and CR LF. -/
def skim : Option (List Byte) → List Byte → List (List Byte)
  | _, [] => []
  | none, b :: bs => if b = 58 then skim (some []) bs else skim none bs
  | some t, b :: bs => if b = 10 ∧ t.getLast? = some 13 then t.dropLast :: skim none bs else skim (some (t ++ [b])) bs

section
variable {F : Type}

/-- name and value of an answer. -/
def Part.field (v : F → Rat) : Part F → List Byte × Rat
  | .method c => ([77], c)
  | .velocity x => ([86], v x)
  | .pose sym x => ([sym], v x)
  | .angle o x => ([82, UInt8.ofNat (48 + o)], v x)

/-- the meaning of a message. -/
def Msg.note (v : F → Rat) : Msg F → Note
  | .free n => .free n
  | .n0 n => .accepted n
  | .n1 n => .done n
  | .reply num ps => .answer num (ps.map (Part.field v))

/-- all numbers of an answer are printed as their values `v`. -/
def PartPrinted (fl : F → List Byte) (v : F → Rat) : Part F → Prop
  | .method _ => True
  | .velocity x | .pose _ x | .angle _ x => Printed (fl x) (v x)

/-! ### what answers have to say -/

/-- the six arm servos are read, one after the other. -/
def readArm (v : Fin 6 → Servo F) : List (Act F) := (List.finRange 6).map fun i => .servo (armServo i) (v i)

/-- the speed that was last given to the additional axes (every V command does that). -/
def lastSpeed (o : Option F) (tr : List (Act F)) : Option F := tr.foldl (fun o a => match a with | .micro 6 (.setVel v) => some v | _ => o) o

variable [FloatOps F]

/-- the answer `p` is true: it was computed from servo positions read in `mid`, or is the speed set at a moment during `mid` (`before`: what happened before; 10 at power-up). -/
def Honest (cfg : RCfg F) (before mid : List (Act F)) : Part F → Prop
  | .method _ => True
  | .velocity v => ∃ a b, mid = a ++ b ∧ v = (lastSpeed none (before ++ a)).getD (lit 10)
  | .pose sym v => ∃ (i : Fin 6) (s : Fin 6 → Servo F) (a b : List (Act F)), mid = a ++ readArm s ++ b ∧ sym = poseLetter i ∧
      v = if i.val < 3 then cfg.fwd (cfg.p2l fun j => (s j).cur) i else FloatOps.mul (cfg.fwd (cfg.p2l fun j => (s j).cur) i) radToDeg
  | .angle o v => (∃ (i : Fin 6) (s : Fin 6 → Servo F) (a b : List (Act F)), mid = a ++ readArm s ++ b ∧ o = i.val ∧ v = FloatOps.mul (cfg.p2l (fun j => (s j).cur) i) radToDeg) ∨
      ∃ (i : Fin 2) (s : Servo F), .servo ⟨6 + i.val, by omega⟩ s ∈ mid ∧ o = 6 + i.val ∧ v = FloatOps.mul s.cur radToDeg

/-! ### what an answer answers -/

omit [FloatOps F] in
/-- what an answer is about; the movement method with its value. -/
def Part.tag : Part F → List Byte × Option Nat
  | .method c => ([77], some c)
  | .velocity _ => ([86], none)
  | .pose sym _ => ([sym], none)
  | .angle o _ => ([82, UInt8.ofNat (48 + o)], none)
end

/-- commands as they should be: the axis of R and the movement method of M are digits. -/
structure Simple (cs : List Cmd) : Prop where
  ok : ∀ c ∈ cs, c.Ok
  axis : ∀ c ∈ cs, c.letter = 82 → ∃ (o : Fin 10) (rest : List Byte), c.arg = digitChar o :: rest
  method : ∀ c ∈ cs, c.letter = 77 → c.arg = [] ∨ ∃ d : Fin 10, c.arg = [digitChar d]

/-- what a command asks for while the method is `k`: a letter without number, or R with only the axis. -/
def askedBy (k : Nat) (c : Cmd) : List (List Byte × Option Nat) :=
  if c.letter = 77 then if c.arg = [] then [([77], some k)] else []
  else if c.letter = 82 then if c.arg.length = 1 then [(82 :: c.arg, none)] else []
  else if c.arg = [] ∧ c.letter ∈ str "VXYZABC" then [([c.letter], none)] else []

/-- the movement method after a command. -/
def chosenBy (k : Nat) (c : Cmd) : Nat := if c.letter = 77 ∧ c.arg = [48] then 0 else if c.letter = 77 ∧ c.arg = [49] then 1 else k

/-- what an instruction asks for. -/
def asked (k : Nat) : List Cmd → List (List Byte × Option Nat)
  | [] => []
  | c :: cs => askedBy k c ++ asked (chosenBy k c) cs

/-- the number of an instruction (none: -1). -/
def numberOf (cs : List Cmd) : Int := cs.foldl (fun n c => if c.letter = 78 then atol c.arg else n) (-1)

/-- a command that is taken for a question: no argument (except N), or R with only the axis. -/
def Question (c : Cmd) : Prop := (c.letter ≠ 78 ∧ c.arg = []) ∨ (c.letter = 82 ∧ c.arg.length = 1)

/-- the number of answers sent. -/
def answers {F : Type} (tr : List (Act F)) : Nat := tr.countP fun | .out (.msg (.reply _ _)) => true | _ => false

/-- the movement method after everything that happened: M1 at power-up, then the last one chosen. -/
inductive MethodIs {F : Type} : List (Act F) → Nat → Prop
  | boot : MethodIs [] 1
  | act {tr k a} : MethodIs tr k → ¬ BeginsI a → MethodIs (tr ++ [a]) k
  | instr {tr k src cs} : MethodIs tr k → Simple cs → MethodIs (tr ++ [.out (.ghost src (text cs))]) (cs.foldl chosenBy k)

example : asked 1 [⟨77, []⟩, ⟨82, str "3"⟩, ⟨82, str "345"⟩, ⟨77, str "0"⟩, ⟨88, []⟩, ⟨77, []⟩] = [(str "M", some 1), (str "R3", none), (str "X", none), (str "M", some 0)] := by decide +kernel

example : readNote (str "B297") = some (.free 297) := by decide +kernel
example : readNote (str "N012") = some (.accepted 12) := by decide +kernel
example : readNote (str "N112") = some (.done 12) := by decide +kernel
example : readNote (str "N112 X-1.50B30.00R245.25M1") = some (.answer (some 12) [(str "X", -3/2), (str "B", 30), (str "R2", 181/4), (str "M", 1)]) := by decide +kernel
example : readNote (str "B30.00") = some (.answer none [(str "B", 30)]) := by decide +kernel

end Mrc.Spec
