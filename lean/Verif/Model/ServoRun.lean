import Verif.Model.Servo
/-
Everything that can happen to one servo after its construction, in any order: the timer interrupt (main.cpp:175-188 calls
`process(dt)`) between any two single accesses of the main loop.  `load` is the read of `currentAngle` in
setTargetRadAngle (VarSpeedServo.cpp:112), `storeStart` the following store of the loaded value, `zeroElapsed` and
`setTarget` the stores of lines 113 and 114, `setVel` setCurrentAngleVelocity (125-133).  The order of these accesses is not
restricted, so that the histories of the code are among them.
-/
namespace Mrc
variable {F : Type} [FloatOps F]

/-- one event. VarSpeedServo.cpp:111-115, 125-133, 143-167. -/
inductive SEv (F : Type) where
  | tick (dt : Nat)
  | load
  | storeStart
  | zeroElapsed
  | setTarget (x : F)
  | setVel (v : F)

/-- the servo and the register of the main loop that holds the loaded angle. VarSpeedServo.cpp:111-115. -/
structure SSt (F : Type) where
  sv : Servo F
  reg : F

/-- effect of an event. VarSpeedServo.cpp:111-115, 125-133, 143-167. -/
def SSt.step (s : SSt F) : SEv F → SSt F
  | .tick dt => { s with sv := s.sv.tick dt }
  | .load => { s with reg := s.sv.cur }
  | .storeStart => { s with sv := s.sv.micro (.setStart s.reg) }
  | .zeroElapsed => { s with sv := s.sv.micro .zeroElapsed }
  | .setTarget x => { s with sv := s.sv.micro (.setTarget x) }
  | .setVel v => { s with sv := s.sv.micro (.setVel v) }

/-- a history. main.cpp:175-188 and RobotController.cpp:745-751. -/
def SSt.run (s : SSt F) (es : List (SEv F)) : SSt F := es.foldl SSt.step s

/-- a freshly constructed servo. VarSpeedServo.cpp:16-58. -/
def SSt.init (sv : Servo F) : SSt F := ⟨sv, sv.cur⟩

/-- `setTargetRadAngle x` without interruption. VarSpeedServo.cpp:111-115. -/
def SEv.command (x : F) : List (SEv F) := [.load, .storeStart, .zeroElapsed, .setTarget x]

/-- only ticks. main.cpp:175-188. -/
def SEv.ticks (ds : List Nat) : List (SEv F) := ds.map .tick

end Mrc
