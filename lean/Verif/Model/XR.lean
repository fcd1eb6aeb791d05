import Verif.Model.Num
import Mathlib.Analysis.SpecialFunctions.Trigonometric.Inverse
import Mathlib.Analysis.SpecialFunctions.Complex.Arg
import Mathlib.Analysis.Real.Sqrt
/-
Floating point numbers without rounding: exact real numbers, two infinities, NaN.

Simplifications against IEEE 754 single precision (the `float` of /repo): no rounding, no overflow or underflow of
finite results, no signed zeros (so 1/0 = +inf, -1/0 = -inf).  Everything else (NaN propagation, comparisons with NaN,
infinities, domain errors of sqrt/acos/asin/fmod, atan2 special cases, undefined float to int conversions) is as in C.
-/
namespace Mrc

/-- a `float`/`double` of /repo without rounding. Models the `float`/`double` arithmetic of all of src/*.cpp,
e.g. VarSpeedServo.cpp:143-186, RobotController.cpp:510-640. -/
inductive XR where
  | fin (x : ℝ)
  | inf (neg : Bool)
  | nan

namespace XR

open Classical in
/-- sign bit of a finite number. Models the `float`/`double` arithmetic of all of src/*.cpp,
e.g. VarSpeedServo.cpp:143-186, RobotController.cpp:510-640. -/
noncomputable def isNeg (x : ℝ) : Bool := decide (x < 0)

/-- IEEE `+`; all float expressions of src/*.cpp, e.g. VarSpeedServo.cpp:143-186. -/
noncomputable def add : XR → XR → XR
  | nan, _ => nan
  | _, nan => nan
  | fin x, fin y => fin (x + y)
  | fin _, inf s => inf s
  | inf s, fin _ => inf s
  | inf s, inf t => if s = t then inf s else nan

/-- IEEE unary `-`; all float expressions of src/*.cpp, e.g. VarSpeedServo.cpp:143-186. -/
noncomputable def neg : XR → XR
  | nan => nan
  | fin x => fin (-x)
  | inf s => inf (!s)

/-- IEEE `-`; all float expressions of src/*.cpp, e.g. VarSpeedServo.cpp:143-186. -/
noncomputable def sub (a b : XR) : XR := add a (neg b)

open Classical in
/-- IEEE `*`; all float expressions of src/*.cpp, e.g. VarSpeedServo.cpp:143-186. -/
noncomputable def mul : XR → XR → XR
  | nan, _ => nan
  | _, nan => nan
  | fin x, fin y => fin (x * y)
  | fin x, inf s => if x = 0 then nan else inf (s != isNeg x)
  | inf s, fin x => if x = 0 then nan else inf (s != isNeg x)
  | inf s, inf t => inf (s != t)

open Classical in
/-- IEEE `/`; all float expressions of src/*.cpp, e.g. VarSpeedServo.cpp:143-186. -/
noncomputable def div : XR → XR → XR
  | nan, _ => nan
  | _, nan => nan
  | fin x, fin y => if y = 0 then (if x = 0 then nan else inf (isNeg x)) else fin (x / y)
  | fin _, inf _ => fin 0
  | inf s, fin x => inf (s != isNeg x)
  | inf _, inf _ => nan

/-- `fabs`, VarSpeedServo.cpp:152, 170. -/
noncomputable def abs : XR → XR
  | nan => nan
  | fin x => fin |x|
  | inf _ => inf false

open Classical in
/-- `sqrt`, Kinematic.cpp:20, 180, 500; RobotController.cpp:523-530. -/
noncomputable def sqrt : XR → XR
  | fin x => if x < 0 then nan else fin (Real.sqrt x)
  | inf false => inf false
  | _ => nan

/-- `sin`, Kinematic.cpp:59-71, 150, 354-432. -/
noncomputable def sin : XR → XR
  | fin x => fin (Real.sin x)
  | _ => nan
/-- `cos`, Kinematic.cpp:59-71, 150, 354-432. -/
noncomputable def cos : XR → XR
  | fin x => fin (Real.cos x)
  | _ => nan

open Classical in
/-- `acos`, Kinematic.cpp:126, 173; NaN outside of [-1, 1]. -/
noncomputable def acos : XR → XR
  | fin x => if |x| ≤ 1 then fin (Real.arccos x) else nan
  | _ => nan
open Classical in
/-- `asin`, Kinematic.cpp:441. -/
noncomputable def asin : XR → XR
  | fin x => if |x| ≤ 1 then fin (Real.arcsin x) else nan
  | _ => nan

/-- real atan2: the argument of the complex number x + iy, in (-π, π]; atan2 0 0 = 0. Kinematic.cpp:127, 489. -/
noncomputable def atan2R (y x : ℝ) : ℝ := Complex.arg ⟨x, y⟩

open Classical in
/-- `atan2`, Kinematic.cpp:127, 489. -/
noncomputable def atan2 : XR → XR → XR
  | nan, _ => nan
  | _, nan => nan
  | fin y, fin x => fin (atan2R y x)
  | fin _, inf false => fin 0
  | fin y, inf true => if y < 0 then fin (-Real.pi) else fin Real.pi
  | inf s, fin _ => fin (if s then -(Real.pi / 2) else Real.pi / 2)
  | inf s, inf t => let m := if t then 3 * Real.pi / 4 else Real.pi / 4; fin (if s then -m else m)

open Classical in
/-- truncation towards zero. VarSpeedServo.cpp:174. -/
noncomputable def trunc (x : ℝ) : ℤ := if 0 ≤ x then ⌊x⌋ else ⌈x⌉

open Classical in
/-- `fmod`, Kinematic.cpp:265, 283. -/
noncomputable def fmod : XR → XR → XR
  | fin x, fin y => if y = 0 then nan else fin (x - trunc (x / y) * y)
  | fin x, inf _ => fin x
  | _, _ => nan

open Classical in
/-- IEEE `<`. Models the `float`/`double` arithmetic of all of src/*.cpp,
e.g. VarSpeedServo.cpp:143-186, RobotController.cpp:510-640. -/
noncomputable def lt : XR → XR → Bool
  | nan, _ => false
  | _, nan => false
  | fin x, fin y => decide (x < y)
  | fin _, inf s => !s
  | inf s, fin _ => s
  | inf s, inf t => s && !t

open Classical in
/-- IEEE `<=`. Models the `float`/`double` arithmetic of all of src/*.cpp,
e.g. VarSpeedServo.cpp:143-186, RobotController.cpp:510-640. -/
noncomputable def le : XR → XR → Bool
  | nan, _ => false
  | _, nan => false
  | fin x, fin y => decide (x ≤ y)
  | fin _, inf s => !s
  | inf s, fin _ => s
  | inf s, inf t => s || !t

/-- `isnan`; all float expressions of src/*.cpp, e.g. VarSpeedServo.cpp:143-186. -/
def isNaN : XR → Bool
  | nan => true
  | _ => false

open Classical in
/-- `int(x)` on a 32 bit machine; `none`: undefined. VarSpeedServo.cpp:174, RobotController.cpp:532-538. -/
noncomputable def toInt : XR → Option Int
  | fin x => if -2147483648 ≤ trunc x ∧ trunc x ≤ 2147483647 then some (trunc x) else none
  | _ => none

/-- value of a hexadecimal float literal: anything (never interpreted). -/
opaque hexVal : List Byte → XR := fun _ => nan

/-- Models the `float`/`double` arithmetic of all of src/*.cpp,
e.g. VarSpeedServo.cpp:143-186, RobotController.cpp:510-640. -/
noncomputable instance : FloatOps XR where
  add := add
  sub := sub
  mul := mul
  div := div
  neg := neg
  abs := abs
  sqrt := sqrt
  sin := sin
  cos := cos
  acos := acos
  asin := asin
  atan2 := atan2
  fmod := fmod
  lt := lt
  le := le
  ofRat q := fin (q : ℝ)
  pi := fin Real.pi
  inf := inf false
  nan := nan
  isNaN := isNaN
  toInt := toInt
  hexFloat := hexVal

end XR
end Mrc
