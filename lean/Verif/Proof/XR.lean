import Verif.Model.XR
import Mathlib.Tactic.NormNum
import Mathlib.Tactic.Linarith
import Mathlib.Tactic.Positivity
import Mathlib.Tactic.Ring
import Mathlib.Tactic.FieldSimp
/- Simplification lemmas for finite numbers. -/
namespace Mrc
open scoped Mrc.Num
namespace XR

@[simp] theorem fin_add (x y : ℝ) : (fin x + fin y : XR) = fin (x + y) := rfl
@[simp] theorem fin_neg (x : ℝ) : (-fin x : XR) = fin (-x) := rfl
@[simp] theorem fin_sub (x y : ℝ) : (fin x - fin y : XR) = fin (x - y) := by
  show fin (x + -y) = _; rw [sub_eq_add_neg]
@[simp] theorem fin_mul (x y : ℝ) : (fin x * fin y : XR) = fin (x * y) := rfl
theorem fin_div (x y : ℝ) (h : y ≠ 0) : (fin x / fin y : XR) = fin (x / y) := by
  show div _ _ = _; simp [div, h]
@[simp] theorem ops_div (x y : XR) : (FloatOps.div x y : XR) = x / y := rfl
@[simp] theorem ops_mul (x y : XR) : (FloatOps.mul x y : XR) = x * y := rfl
@[simp] theorem ops_abs (x : ℝ) : FloatOps.abs (fin x) = fin |x| := rfl
@[simp] theorem ops_sin (x : ℝ) : FloatOps.sin (fin x) = fin (Real.sin x) := rfl
@[simp] theorem ops_cos (x : ℝ) : FloatOps.cos (fin x) = fin (Real.cos x) := rfl
@[simp] theorem ops_atan2 (y x : ℝ) : FloatOps.atan2 (fin y) (fin x) = fin (atan2R y x) := rfl
theorem ops_sqrt (x : ℝ) (h : 0 ≤ x) : FloatOps.sqrt (fin x) = fin (Real.sqrt x) := by
  show sqrt _ = _; simp [sqrt, not_lt.2 h]
theorem ops_acos (x : ℝ) (h : |x| ≤ 1) : FloatOps.acos (fin x) = fin (Real.arccos x) := by
  show acos _ = _; simp [acos, h]
theorem ops_asin (x : ℝ) (h : |x| ≤ 1) : FloatOps.asin (fin x) = fin (Real.arcsin x) := by
  show asin _ = _; simp [asin, h]
@[simp] theorem ops_lit (q : Rat) : (FloatOps.ofRat q : XR) = fin (q : ℝ) := rfl
@[simp] theorem ops_pi : (FloatOps.pi : XR) = fin Real.pi := rfl
open Classical in
@[simp] theorem ops_lt (x y : ℝ) : FloatOps.lt (fin x) (fin y) = decide (x < y) := rfl
open Classical in
@[simp] theorem ops_le (x y : ℝ) : FloatOps.le (fin x) (fin y) = decide (x ≤ y) := rfl
theorem degToRad_eq : (degToRad : XR) = fin (Real.pi / 180) := by
  have : ((180 : Rat) : ℝ) ≠ 0 := by norm_num
  simp only [degToRad, lit, ops_pi, ops_lit, ops_div, fin_div _ _ this]; norm_num
theorem radToDeg_eq : (radToDeg : XR) = fin (180 / Real.pi) := by
  simp only [radToDeg, lit, ops_pi, ops_lit, ops_div, fin_div _ _ Real.pi_ne_zero]; norm_num

@[simp] theorem isNaN_fin (x : ℝ) : FloatOps.isNaN (fin x) = false := rfl
@[simp] theorem isNaN_nan : FloatOps.isNaN nan = true := rfl
@[simp] theorem isNaN_inf (s) : FloatOps.isNaN (inf s) = false := rfl

/-- NaN absorbs. -/
@[simp] theorem nan_add (x : XR) : (nan + x : XR) = nan := rfl
@[simp] theorem add_nan (x : XR) : (x + nan : XR) = nan := by cases x <;> rfl
@[simp] theorem neg_nan : (-nan : XR) = nan := rfl
@[simp] theorem nan_sub (x : XR) : (nan - x : XR) = nan := rfl
@[simp] theorem sub_nan (x : XR) : (x - nan : XR) = nan := by cases x <;> rfl
@[simp] theorem nan_mul (x : XR) : (nan * x : XR) = nan := rfl
@[simp] theorem mul_nan (x : XR) : (x * nan : XR) = nan := by cases x <;> rfl
@[simp] theorem nan_div (x : XR) : (nan / x : XR) = nan := rfl
@[simp] theorem div_nan (x : XR) : (x / nan : XR) = nan := by cases x <;> rfl
@[simp] theorem lt_nan (x : XR) : FloatOps.lt x nan = false := by cases x <;> rfl
@[simp] theorem nan_lt (x : XR) : FloatOps.lt nan x = false := rfl
@[simp] theorem le_nan (x : XR) : FloatOps.le x nan = false := by cases x <;> rfl
@[simp] theorem nan_le (x : XR) : FloatOps.le nan x = false := rfl
@[simp] theorem abs_nan : FloatOps.abs (nan : XR) = nan := rfl

end XR
end Mrc
