import Verif.Model.Robot
import Verif.Model.Exec
/-
Histories of a RobotController: calls of its methods in any order, `process()` executed against any behaviour of the servos.
-/
namespace Mrc
variable {F : Type} [FloatOps F]

/-- the methods that change the controller (RobotController.cpp:76-98, 163-231, 290-311). -/
inductive Call (F : Type) where
  | startTransaction
  | endTransaction
  | stop
  | setMaxVelocity (v : F)
  | setMovementMethod (m : Method)
  | setTargetPoseAt (i : Fin 6) (v : F)
  | setTargetPose (p : Six F)
  | setTargetLogicalAngle (i : Fin 6) (v : F)
  | setTargetLogicalAngles (a : Six F)

/-- effect of a method call. RobotController.cpp:76-98, 163-231, 290-311. -/
def RC.call (r : RC F) : Call F → RC F
  | .startTransaction => r.startTransaction
  | .endTransaction => r.endTransaction
  | .stop => r.stop
  | .setMaxVelocity v => r.setMaxVelocity v
  | .setMovementMethod m => r.setMovementMethod m
  | .setTargetPoseAt i v => r.setTargetPoseAt i v
  | .setTargetPose p => r.setTargetPose p
  | .setTargetLogicalAngle i v => r.setTargetLogicalAngle i v
  | .setTargetLogicalAngles a => r.setTargetLogicalAngles a

/-- one event: a method call, or a call of `process()` that performed the accesses `tr`.
RobotController.h:36-90; process() is RobotController.cpp:358-758. -/
inductive CEv (F : Type) where
  | call (c : Call F)
  | process (tr : List (Act F))

/-- `CHist cfg r es r'`: the events `es` lead from `r` to `r'`.
Calls come from MRILParser.cpp and main.cpp:200, 211. -/
inductive CHist (cfg : RCfg F) : RC F → List (CEv F) → RC F → Prop
  | nil (r) : CHist cfg r [] r
  | call {r c es r'} : CHist cfg (r.call c) es r' → CHist cfg r (.call c :: es) r'
  | process {r tr r1 es r'} : Prog.Exec (RC.process cfg r) tr (.ret r1) → CHist cfg r1 es r' → CHist cfg r (.process tr :: es) r'

end Mrc
