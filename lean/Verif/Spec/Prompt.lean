import Verif.Spec.Flow
import Verif.Model.Run
/-
C130: how long things take, counted in accesses of the main program (to servos, clock, pins, serial line, storage).
-/
namespace Mrc.Spec
open Mrc
variable {F : Type} [FloatOps F]

/-- the events `evs` lead from one state of the running system to another. -/
inductive Later (cfg : Cfg F) (s : Sys F) : List (Ev F) → Sys F → Prop
  | now : Later cfg s [] s
  | step {evs t e u} : Later cfg s evs t → Sys.Do cfg t e u → Later cfg s (evs ++ [e]) u

/-- the number of passes of the main loop that began. -/
def passes (evs : List (Ev F)) : Nat := evs.countP fun | .next => true | _ => false

/-- accesses in a pass of the main loop. -/
def PASS : Nat := 1299

/-- accesses after which `n` bytes waiting on the serial line have been read. -/
def reading (n : Nat) : Nat := PASS * (n / 30 + 2)

end Mrc.Spec
