import Verif.Spec.Host
import Verif.Spec.Liveness
/-
C129: the additional axes (R6: the gripper of the kit, R7).
-/
namespace Mrc.Spec
open Mrc

/-- the servo of additional axis R6 (`0`) or R7 (`1`). -/
def axisNo (j : Fin 2) : Fin 8 := ⟨6 + j.val, by omega⟩

/-- the digit after R that names it. -/
def axisDigit (j : Fin 2) : Byte := digitChar ⟨6 + j.val, by omega⟩

/-- R6 or R7 with a decimal number: the angle in degrees. -/
def SendsAxis (j : Fin 2) (d : Dec) (c : Cmd) : Prop := c.letter = 82 ∧ c.arg = axisDigit j :: d.text ∧ d.Ok

/-- R6 or R7 with something behind it (without, it is a question). -/
def MovesAxis (j : Fin 2) (c : Cmd) : Prop := c.letter = 82 ∧ ∃ rest, c.arg = axisDigit j :: rest ∧ rest ≠ []

/-- a command as it should be for the additional axes: angles of at most a full turn, no crawling speed. -/
structure AxisFine (c : Cmd) : Prop where
  ok : c.Ok
  angle : ∀ j rest, c.letter = 82 → c.arg = axisDigit j :: rest → NumArg (fun v => -360 ≤ v ∧ v ≤ 360) rest
  speed : c.letter = 86 → NumArg (fun v => v ≤ 0 ∨ 1/1000 ≤ v) c.arg

/-- an instruction as it should be for the additional axes. -/
def AxisInstr (m : List Byte) : Prop := ∃ cs, m = text cs ∧ ∀ c ∈ cs, AxisFine c

/-- and that does not move axis `j`. -/
def LeavesAxis (j : Fin 2) (m : List Byte) : Prop := ∃ cs, m = text cs ∧ ∀ c ∈ cs, AxisFine c ∧ ¬ MovesAxis j c

end Mrc.Spec
