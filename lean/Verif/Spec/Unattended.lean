import Verif.Spec.Talk
import Verif.Spec.Program
/-
C132: a controller that is left alone and works off the program in its storage.
-/
namespace Mrc.Spec
open Mrc

/-- nobody sends instructions: of all bytes sent so far the only frames are questions for free space and empty ones (in particular: nothing is sent at all). -/
def Unattended (r : List Byte) : Prop := ∀ p ∈ decode r, frame p = .free ∨ frame p = .empty

/-- the first `k` instructions when `qs` is gone through again and again, from its beginning. -/
def rounds (qs : List (List Cmd)) (k : Nat) : List (List Cmd) := (List.range k).map fun i => qs.getD (i % qs.length) []

end Mrc.Spec
