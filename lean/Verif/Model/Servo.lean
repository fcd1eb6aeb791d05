import Verif.Model.Num
/-
src/VarSpeedServo.cpp / .h.
-/
namespace Mrc
open scoped Mrc.Num
variable {F : Type} [FloatOps F]

/-- object state, VarSpeedServo.h:60-85 (`lastUpdate`, `outOfRange` are never used / never set and left out;
`virtualServo` is `pin < 0`). -/
structure Servo (F : Type) where
  pin : Int
  home : F
  minFreq : Nat
  maxFreq : Nat
  elapsed : Nat          -- unsigned long, 32 bit
  start : F
  cur : F
  target : F
  minA : F
  maxA : F
  vel : F
  maxVel : F

namespace Servo

/-- constructor, VarSpeedServo.cpp:16-58 (log output and `attach` left out). -/
def new (pin : Int) (maxVel : F) (minFreq maxFreq : Nat) (minA maxA home : F) : Servo F :=
  { pin, home, minFreq, maxFreq, elapsed := 0, start := home, cur := home, target := home,
    minA, maxA, vel := maxVel, maxVel }

/-- VarSpeedServo.cpp:125-133. -/
def clampVel (maxVel v : F) : F :=
  if fgt v maxVel then maxVel
  else if fle v (lit 0) then lit (1/10)
  else v

/-- The single stores the main loop performs on a servo. `setTargetRadAngle` (111-115) is
`setStart (value read from currentAngle); zeroElapsed; setTarget`, each a separate store that the timer
interrupt can separate; `setCurrentAngleVelocity` (125-133) is one store. -/
inductive Micro (F : Type) where
  | setStart (x : F)
  | zeroElapsed
  | setTarget (x : F)
  | setVel (v : F)

/-- The stores of VarSpeedServo.cpp:111-115 and 125-133. -/
def micro (s : Servo F) : Micro F → Servo F
  | .setStart x => { s with start := x }
  | .zeroElapsed => { s with elapsed := 0 }
  | .setTarget x => { s with target := x }
  | .setVel v => { s with vel := clampVel s.maxVel v }

/-- VarSpeedServo.cpp:111-115, uninterrupted. -/
def setTargetRadAngle (s : Servo F) (x : F) : Servo F :=
  ((s.micro (.setStart s.cur)).micro .zeroElapsed).micro (.setTarget x)

/-- VarSpeedServo.cpp:125-133. -/
def setCurrentAngleVelocity (s : Servo F) (v : F) : Servo F := s.micro (.setVel v)

/-- conversion of an unsigned integer to float. E.g. VarSpeedServo.cpp:143-181. -/
def ofNat (n : Nat) : F := lit (n : Rat)

/-- VarSpeedServo.cpp:183-186. -/
def mapFloat (x inMin inMax outMin outMax : F) : F :=
  (x - inMin) * (outMax - outMin) / (inMax - inMin) + outMin

/-- VarSpeedServo.cpp:173-181: the pulse width in µs; `none` = the conversion `int(...)` is undefined. -/
def pulse (s : Servo F) : Option Int :=
  FloatOps.toInt (mapFloat s.cur s.minA s.maxA (ofNat s.minFreq) (ofNat s.maxFreq))

/-- VarSpeedServo.cpp:143-167 without the call of `move()` (see `pulse`). -/
def tick (s : Servo F) (dt : Nat) : Servo F :=
  let elapsed := u32 (s.elapsed + dt)
  let delta : F := s.vel * ofNat elapsed / lit 1000
  if fgt (FloatOps.abs delta) (FloatOps.abs (s.target - s.start)) then
    { s with elapsed := elapsed, cur := s.target, start := s.target }
  else if fgt s.target s.start then
    { s with elapsed := elapsed, cur := s.start + delta }
  else
    { s with elapsed := elapsed, cur := s.start - delta }

/-- VarSpeedServo.cpp:169-171. -/
def atTarget (s : Servo F) : Bool := flt (FloatOps.abs (s.cur - s.target)) (lit (1/1000000))

/-- VarSpeedServo.cpp:68-75 (log output left out). -/
def setAngleLimits (s : Servo F) (lo hi : F) : Servo F := { s with minA := lo, maxA := hi }

/-- VarSpeedServo.cpp:85-88. -/
def setCalibrationFreq (s : Servo F) (lo hi : Nat) : Servo F := { s with minFreq := lo, maxFreq := hi }

end Servo
end Mrc
