import Verif.Spec.Device
import Verif.Spec.Instruction
import Verif.Spec.Storage
import Verif.Spec.Motion
/-
What a careful host sends (C81-C83): frames that fit the buffers, made of plain commands with existing axes and pins and decimal arguments.
Also: storage contents such a host has produced, numbers that are neither NaN nor infinite. Nothing here refers to the implementation of parsing or dispatching.
-/
namespace Mrc.Spec

/-- no argument, or a decimal number whose value satisfies `P`. -/
def NumArg (P : Rat → Prop) (a : List Byte) : Prop := a = [] ∨ ∃ d : Dec, d.Ok ∧ a = d.text ∧ P d.val

/-- commands a careful host uses. -/
structure Careful (c : Cmd) : Prop where
  /-- a capital letter and at most 18 characters of argument -/
  ok : c.Ok
  /-- X Y Z: a position of at most 10^8 length units -/
  position : c.letter = 88 ∨ c.letter = 89 ∨ c.letter = 90 → NumArg (fun v => -100000000 ≤ v ∧ v ≤ 100000000) c.arg
  /-- A B C: any decimal number -/
  turn : c.letter = 65 ∨ c.letter = 66 ∨ c.letter = 67 → NumArg (fun _ => True) c.arg
  /-- V: not zero -/
  speed : c.letter = 86 → NumArg (fun v => v ≠ 0) c.arg
  /-- R: one of the eight axes, then any decimal number or nothing -/
  axis : c.letter = 82 → ∃ (o : Fin 10) (rest : List Byte), o.val < 8 ∧ c.arg = digitChar o :: rest ∧ NumArg (fun _ => True) rest
  /-- I O: a pin digit and a level digit -/
  pin : c.letter = 73 ∨ c.letter = 79 → ∃ (p st : Fin 10) (rest : List Byte), c.arg = digitChar p :: digitChar st :: rest

/-- number of input conditions. -/
def waits (cs : List Cmd) : Nat := (cs.filter fun c => c.letter == 73).length

/-- an instruction for queue or storage: careful commands, at most ten input conditions. -/
def CarefulInstr (m : List Byte) : Prop := ∃ cs, m = text cs ∧ (∀ c ∈ cs, Careful c) ∧ waits cs ≤ 10

/-- an immediate instruction: careful commands, no input condition. -/
def CarefulNow (m : List Byte) : Prop := ∃ cs, m = text cs ∧ (∀ c ∈ cs, Careful c) ∧ waits cs = 0

/-- frames a careful host sends. -/
def CarefulFrame : Frame → Prop
  | .now m => CarefulNow m
  | .put m => CarefulInstr m
  | .store m => CarefulInstr m
  | _ => True

/-- a byte stream of a careful host: every frame fits (at most 78 counting characters; nowhere more than 80 between two colons) and is careful. -/
structure WellSent (r : List Byte) : Prop where
  frames : ∀ l ∈ lines r, (payload l).length ≤ 78
  pieces : ∀ l ∈ lines r ++ [tail r], ∀ p ∈ split 58 (code l), (p.filter counts).length ≤ 80
  careful : ∀ p ∈ decode r, CarefulFrame (frame p)

/-- the storage (2048 bytes) contains the program `L`: for every message its length and its bytes, then a zero if there is room for it. -/
structure StoredProgram (mem : Nat → Byte) (L : List (List Byte)) : Prop where
  messages : ∀ m ∈ L, m ≠ [] ∧ m.length ≤ 80
  size : eSize L ≤ 2048
  image : ∀ k b, k < 2048 → (L.flatMap (fun m => UInt8.ofNat m.length :: m) ++ [0])[k]? = some b → mem k = b

/-- the storage contains careful instructions only (in particular: nothing). -/
def CarefulStorage (mem : Nat → Byte) : Prop := ∃ L, StoredProgram mem L ∧ ∀ m ∈ L, CarefulInstr m

open Mrc XR

/-- a number, neither NaN nor infinite. -/
def IsFin (x : XR) : Prop := ∃ t : ℝ, x = fin t

/-- position at most 10^8 units from the origin along each axis. -/
def Near (p : Fin 6 → ℝ) : Prop := ∀ i : Fin 6, i.val < 3 → |p i| ≤ 100000000

/-- kinematics and couplings that give numbers for numbers; `lo`, `hi`: the servo ranges. -/
structure RobotFin (cfg : RCfg XR) (lo hi : Fin 6 → ℝ) : Prop where
  fwd : ∀ a, ∃ p, cfg.fwd (finS a) = finS p ∧ Near p
  inv : ∀ p t, cfg.inv (finS p) = some t → ∃ a, t = finS a
  l2p : ∀ a, (∀ i, flt (fin (a i)) (cfg.lo i) = false ∧ fgt (fin (a i)) (cfg.hi i) = false) → ∃ b, cfg.l2p (finS a) = finS b
  p2l : ∀ a, (∀ i, lo i ≤ a i ∧ a i ≤ hi i) → ∃ b, cfg.p2l (finS a) = finS b

/-- all numbers of an answer are finite. -/
def PartFin : Part XR → Prop
  | .method _ => True
  | .velocity v | .pose _ v | .angle _ v => IsFin v

/-- the number stored into a servo record is finite. -/
def MicroFin : Servo.Micro XR → Prop
  | .setStart x | .setTarget x | .setVel x => IsFin x
  | .zeroElapsed => True

end Mrc.Spec
