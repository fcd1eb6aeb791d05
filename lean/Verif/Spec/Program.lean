import Verif.Spec.Device
import Verif.Spec.Storage
import Verif.Spec.Host
import Verif.Model.Run
/-
Vocabulary for the stored program of the running system (C92-C94).
-/
namespace Mrc.Spec
open Mrc

/-- the requests to the storage in a byte stream, in order: W erases, W<m> appends m. -/
def storeOps (r : List Byte) : List EOp := (decode r).filterMap fun p => match frame p with | .store m => some (.append m) | .erase => some .clear | _ => none

/-- the program after the bytes `r` have been received, if it was `L` before (2048 bytes, see `eStep`). -/
def program (L : List (List Byte)) (r : List Byte) : List (List Byte) := (eRun L (storeOps r)).1

/-- the bytes of a program: the length of every message, then its text. -/
def image (L : List (List Byte)) : List Byte := L.flatMap fun m => UInt8.ofNat m.length :: m

/-- the storage (2048 bytes) contains the program `L`: its bytes, and then a zero if there is room for it. -/
structure HasProgram (mem : Nat → Byte) (L : List (List Byte)) : Prop where
  messages : ∀ m ∈ L, m ≠ [] ∧ m.length ≤ 255
  size : eSize L ≤ 2048
  image : ∀ k b, k < 2048 → (image L ++ [0])[k]? = some b → mem k = b

/-- all messages of `L` are there (nothing is said about what follows). -/
def KeepsMessages (mem : Nat → Byte) (L : List (List Byte)) : Prop := ∀ k b, (image L)[k]? = some b → mem k = b

/-- the instructions started from the storage, in order. -/
def storeStarts {F : Type} (tr : List (Act F)) : List (List Byte) := tr.filterMap fun | .out (.ghost .eeprom m) => some m | _ => none

/-- `k` messages when `T` is played again and again, beginning with number `j`. -/
def cyc (T : List (List Byte)) (j k : Nat) : List (List Byte) := (List.range k).map fun i => T.getD ((j + i) % T.length) []

/-- the controller is switched on, used and switched off several times, always between two passes of the main loop; the storage keeps its contents in between.
`rs`: the bytes it has received each time. -/
inductive Lives {F : Type} [FloatOps F] (cfg : Cfg F) (m0 : Nat → Byte) : List (List Byte) → (Nat → Byte) → Prop
  | new : Lives cfg m0 [] m0
  | on {rs m w0 junk evs w s} (h : Lives cfg m0 rs m) (hw : w0.ee = m) (hr : Sys.Run cfg w0 junk evs ⟨w, .ret s⟩) : Lives cfg m0 (rs ++ [rxBytes (acts evs)]) w.ee

/-- the last byte read has completed a frame that stores an instruction. -/
def Storing (r : List Byte) : Prop := ∃ r' m, r = r' ++ [13] ∧ storeOps r = storeOps r' ++ [.append m]

/-- the lives of a controller with a careful host: it is switched on, gets only what a careful host sends, and is switched off between two passes
of the main loop, or at any other moment unless it is just executing a frame that stores an instruction. -/
inductive CarefulLives {F : Type} [FloatOps F] (cfg : Cfg F) (m0 : Nat → Byte) : (Nat → Byte) → Prop
  | new : CarefulLives cfg m0 m0
  | on {m w0 junk evs s} (h : CarefulLives cfg m0 m) (hw : w0.ee = m) (hr : Sys.Run cfg w0 junk evs s) (hc : WellSent (w0.rxq ++ arrivals evs))
      (hs : (∃ f, s.p = .ret f) ∨ ¬ Storing (rxBytes (acts evs))) : CarefulLives cfg m0 s.w.ee

end Mrc.Spec
