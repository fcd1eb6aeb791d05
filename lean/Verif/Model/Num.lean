/-
Numbers of the firmware.

/repo uses `float` (and `double` in mixed expressions such as `PI / 2.0`).  The model is polymorphic
in a type `F` with the operations below.  The class contains NO laws: theorems stated for an arbitrary
`F` hold in particular for IEEE single precision.  Numeric theorems are stated for the instance
`XR` (Verif/Model/XR.lean).
-/
namespace Mrc

/-- one `char` of the serial line / of a message (src/MRCPParser.cpp, src/MRILParser.cpp). -/
abbrev Byte := UInt8

/-- The floating point operations the code uses (libm and C operators; all of src/*.cpp).
`lt`, `le` are the C comparisons (false when an operand is NaN), `ofRat` a literal,
`toInt` the C conversion `int(x)` (truncation; `none` = undefined behaviour: NaN or out of range),
`hexFloat` the value `strtod` gives to hexadecimal floats (not interpreted). -/
class FloatOps (F : Type) where
  add : F → F → F
  sub : F → F → F
  mul : F → F → F
  div : F → F → F
  neg : F → F
  abs : F → F
  sqrt : F → F
  sin : F → F
  cos : F → F
  acos : F → F
  asin : F → F
  atan2 : F → F → F
  fmod : F → F → F
  lt : F → F → Bool
  le : F → F → Bool
  ofRat : Rat → F
  pi : F
  inf : F
  nan : F
  isNaN : F → Bool
  toInt : F → Option Int
  hexFloat : List Byte → F

namespace Num
scoped instance (priority := low) {F} [FloatOps F] : Add F := ⟨FloatOps.add⟩
scoped instance (priority := low) {F} [FloatOps F] : Sub F := ⟨FloatOps.sub⟩
scoped instance (priority := low) {F} [FloatOps F] : Mul F := ⟨FloatOps.mul⟩
scoped instance (priority := low) {F} [FloatOps F] : Div F := ⟨FloatOps.div⟩
scoped instance (priority := low) {F} [FloatOps F] : Neg F := ⟨FloatOps.neg⟩
end Num

variable {F : Type} [FloatOps F]

/-- a literal of the C++ source. E.g. RobotController.cpp:63-64. -/
abbrev lit (q : Rat) : F := FloatOps.ofRat q
/-- C `a < b`. E.g. VarSpeedServo.cpp:125-133. -/
abbrev flt (a b : F) : Bool := FloatOps.lt a b
/-- C `a <= b`. E.g. RobotController.cpp:769-776. -/
abbrev fle (a b : F) : Bool := FloatOps.le a b
/-- C `a > b`. E.g. RobotController.cpp:695-708. -/
abbrev fgt (a b : F) : Bool := FloatOps.lt b a
/-- C `a >= b`. E.g. RobotController.cpp:695-708. -/
abbrev fge (a b : F) : Bool := FloatOps.le b a
/-- C `a == b` (as `a <= b && b <= a`; false on NaN). E.g. RobotController.cpp:769-776. -/
abbrev feq (a b : F) : Bool := FloatOps.le a b && FloatOps.le b a

/-- Arduino.h `DEG_TO_RAD` = PI/180. -/
def degToRad : F := FloatOps.div FloatOps.pi (lit 180)
/-- Arduino.h `RAD_TO_DEG` = 180/PI. -/
def radToDeg : F := FloatOps.div (lit 180) FloatOps.pi

/-- `unsigned int` / `unsigned long` are 32 bit on the Teensy 3.2.
E.g. VarSpeedServo.cpp:143-181, RingBuffer.cpp, WaitController.h. -/
abbrev u32 (n : Nat) : Nat := n % 4294967296

/-- conversion of a (possibly negative) `int` to `unsigned int`. E.g. IOLogic.cpp, MRILParser.cpp:230. -/
def u32OfInt (i : Int) : Nat := (i % 4294967296).toNat

/-- Undefined behaviour, as a distinct outcome. E.g. MRCPParser.cpp:124, 143 and MRILParser.cpp:59, 92. -/
inductive Fault where
  | oobWrite      -- write outside an array
  | oobRead       -- read outside an array
  | uninit        -- use of an uninitialised variable
  | badConv       -- float to int conversion out of range / NaN
  deriving DecidableEq, Repr

end Mrc
