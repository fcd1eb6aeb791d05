import Verif.Model.XR
/-
Floating point numbers WITH rounding: the numbers of a format (for instance IEEE binary32, `binary32` in Verif/Model/Binary32.lean), two
infinities, NaN.  Every arithmetic operation gives the rounded exact result, or an infinity if that is too large.  The functions of
libm (sqrt, sin, ...) are arbitrary functions on the format: nothing is assumed about them.
Simplifications: no signed zeros; expressions the C++ text computes partly in double precision are rounded to the one format at every step.
-/
namespace Mrc

/-- a rounding rule: monotone, symmetric, idempotent, with relative error `u` and absolute error `e` (gradual underflow); `big` is the
largest finite number. Models the `float`/`double` arithmetic of all of src/*.cpp,
e.g. VarSpeedServo.cpp:143-186, RobotController.cpp:510-640. -/
structure Rounding where
  rnd : ℝ → ℝ
  big : ℝ
  u : ℝ
  e : ℝ
  mono : Monotone rnd
  odd : ∀ x, rnd (-x) = -rnd x
  idem : ∀ x, rnd (rnd x) = rnd x
  err : ∀ x, |rnd x - x| ≤ u * |x| + e
  u_nonneg : 0 ≤ u
  u_le : u ≤ 1 / 1000
  e_nonneg : 0 ≤ e
  e_le : e ≤ 1 / 1000
  big_ge : 10000000000 ≤ big
  big_grid : rnd big = big

namespace Rounding
variable (R : Rounding)

/-- `x` is a number of the format, an infinity or NaN. Models the `float`/`double` arithmetic of all of src/*.cpp,
e.g. VarSpeedServo.cpp:143-186, RobotController.cpp:510-640. -/
def Grid : XR → Prop
  | .fin x => R.rnd x = x ∧ |x| ≤ R.big
  | _ => True

open Classical in
/-- round; overflow gives an infinity. Models the `float`/`double` arithmetic of all of src/*.cpp,
e.g. VarSpeedServo.cpp:143-186, RobotController.cpp:510-640. -/
noncomputable def post : XR → XR
  | .fin x => if |R.rnd x| ≤ R.big then .fin (R.rnd x) else .inf (XR.isNeg x)
  | y => y

theorem post_grid (x : XR) : R.Grid (R.post x) := by
  cases x with
  | fin x =>
    show R.Grid (if _ then _ else _)
    split
    · rename_i h; exact ⟨R.idem x, h⟩
    · trivial
  | inf s => trivial
  | nan => trivial

end Rounding

/-- the floating point numbers of a format. Models the `float`/`double` arithmetic of all of src/*.cpp,
e.g. VarSpeedServo.cpp:143-186, RobotController.cpp:510-640. -/
structure RX (R : Rounding) where
  val : XR
  grid : R.Grid val

namespace RX
variable {R : Rounding}

@[ext] theorem ext {a b : RX R} (h : a.val = b.val) : a = b := by
  cases a; cases b; cases h; rfl

/-- a rounded exact result. Models the `float`/`double` arithmetic of all of src/*.cpp,
e.g. VarSpeedServo.cpp:143-186, RobotController.cpp:510-640. -/
noncomputable def of (x : XR) : RX R := ⟨R.post x, R.post_grid x⟩

theorem grid_neg {x : XR} (h : R.Grid x) : R.Grid (XR.neg x) := by
  cases x with
  | fin x => exact ⟨by rw [R.odd, h.1], by rw [abs_neg]; exact h.2⟩
  | inf s => trivial
  | nan => trivial

theorem grid_abs {x : XR} (h : R.Grid x) : R.Grid (XR.abs x) := by
  cases x with
  | fin x =>
    refine ⟨?_, by rw [abs_abs]; exact h.2⟩
    rcases abs_cases x with ⟨e, _⟩ | ⟨e, _⟩
    · rw [e]; exact h.1
    · rw [e, R.odd, h.1]
  | inf s => trivial
  | nan => trivial

/-- the libm functions, arbitrary.
sqrt, sin, cos, acos, asin, atan2, fmod of Kinematic.cpp:20, 126, 127, 173, 265, 283, 441, 489. -/
class Libm (R : Rounding) where
  sqrt : RX R → RX R
  sin : RX R → RX R
  cos : RX R → RX R
  acos : RX R → RX R
  asin : RX R → RX R
  atan2 : RX R → RX R → RX R
  fmod : RX R → RX R → RX R
  hexFloat : List Byte → RX R

/-- IEEE arithmetic on the format, with the given libm. Models the `float`/`double` arithmetic of all of src/*.cpp,
e.g. VarSpeedServo.cpp:143-186, RobotController.cpp:510-640. -/
noncomputable instance [L : Libm R] : FloatOps (RX R) where
  add a b := of (XR.add a.val b.val)
  sub a b := of (XR.sub a.val b.val)
  mul a b := of (XR.mul a.val b.val)
  div a b := of (XR.div a.val b.val)
  neg a := ⟨XR.neg a.val, grid_neg a.grid⟩
  abs a := ⟨XR.abs a.val, grid_abs a.grid⟩
  sqrt := L.sqrt
  sin := L.sin
  cos := L.cos
  acos := L.acos
  asin := L.asin
  atan2 := L.atan2
  fmod := L.fmod
  lt a b := XR.lt a.val b.val
  le a b := XR.le a.val b.val
  ofRat q := of (.fin (q : ℝ))
  pi := of (.fin Real.pi)
  inf := ⟨.inf false, trivial⟩
  nan := ⟨.nan, trivial⟩
  isNaN a := XR.isNaN a.val
  toInt a := XR.toInt a.val
  hexFloat := L.hexFloat

end RX
end Mrc
