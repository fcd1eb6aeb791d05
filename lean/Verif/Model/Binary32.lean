import Verif.Model.RX
import Mathlib.Data.Int.Log
import Mathlib.Algebra.Order.Round
import Mathlib.Tactic.NormNum
import Mathlib.Tactic.Linarith
import Mathlib.Tactic.Positivity
import Mathlib.Tactic.FieldSimp
import Mathlib.Tactic.Ring
/-
IEEE 754 binary32 (`float` on the Teensy 3.2): round to nearest, ties to even, 24 significant bits, gradual underflow below 2^-126,
overflow above (2 - 2^-23) * 2^127.
-/
namespace Mrc.Binary32

open Classical in
/-- nearest integer, ties to even. `float` arithmetic, e.g. VarSpeedServo.cpp:143-186. -/
noncomputable def even (x : ℝ) : ℤ :=
  if Int.fract x < 1 / 2 then ⌊x⌋ else if 1 / 2 < Int.fract x then ⌊x⌋ + 1 else if ⌊x⌋ % 2 = 0 then ⌊x⌋ else ⌊x⌋ + 1

theorem even_mem (x : ℝ) : even x = ⌊x⌋ ∨ even x = ⌊x⌋ + 1 := by
  unfold even; split
  · exact .inl rfl
  · split
    · exact .inr rfl
    · split
      · exact .inl rfl
      · exact .inr rfl

theorem even_mono : Monotone even := by
  intro x y h
  have hf := Int.floor_mono h
  rcases lt_or_eq_of_le hf with hlt | heq
  · rcases even_mem x with hx | hx <;> rcases even_mem y with hy | hy <;> omega
  · have : Int.fract x ≤ Int.fract y := by
      unfold Int.fract; rw [heq]; linarith
    unfold even; rw [heq]
    split_ifs <;> first | omega | (exfalso; linarith) | skip

theorem even_int (n : ℤ) : even (n : ℝ) = n := by
  unfold even; simp

theorem even_err (x : ℝ) : |(even x : ℝ) - x| ≤ 1 / 2 := by
  have h1 := Int.self_sub_floor x
  have h2 := Int.fract_lt_one x
  have h3 := Int.fract_nonneg x
  have hx : x = ⌊x⌋ + Int.fract x := (Int.floor_add_fract x).symm
  unfold even
  rw [abs_le]
  split_ifs <;> push_cast <;> constructor <;> linarith

/-- exponent of the last significant bit of a positive number. `float` arithmetic, e.g. VarSpeedServo.cpp:143-186. -/
noncomputable def ulpExp (x : ℝ) : ℤ := max (Int.log 2 x - 23) (-149)

/-- rounding of a non-negative number. `float` arithmetic, e.g. VarSpeedServo.cpp:143-186. -/
noncomputable def rpos (x : ℝ) : ℝ := (even (x / (2 : ℝ) ^ ulpExp x) : ℝ) * (2 : ℝ) ^ ulpExp x

open Classical in
/-- IEEE rounding (without overflow, which `Rounding.post` adds).
`float` arithmetic, e.g. VarSpeedServo.cpp:143-186. -/
noncomputable def rnd (x : ℝ) : ℝ := if x < 0 then -rpos (-x) else rpos x


theorem two_zpow_pos (m : ℤ) : (0 : ℝ) < (2 : ℝ) ^ m := zpow_pos (by norm_num) m

theorem rpos_zero : rpos 0 = 0 := by
  unfold rpos; rw [zero_div, show (0 : ℝ) = ((0 : ℤ) : ℝ) by simp, even_int]; simp

theorem even_nonneg {x : ℝ} (h : 0 ≤ x) : 0 ≤ even x := by
  have := even_mono h
  rwa [show (0 : ℝ) = ((0 : ℤ) : ℝ) by simp, even_int] at this

theorem rpos_nonneg {x : ℝ} (h : 0 ≤ x) : 0 ≤ rpos x := by
  unfold rpos
  have h1 : 0 ≤ even (x / (2 : ℝ) ^ ulpExp x) := even_nonneg (div_nonneg h (two_zpow_pos _).le)
  have h1 : (0 : ℝ) ≤ even (x / (2 : ℝ) ^ ulpExp x) := by exact_mod_cast h1
  exact mul_nonneg h1 (two_zpow_pos _).le

theorem log_le {x : ℝ} (h : 0 < x) : (2 : ℝ) ^ Int.log 2 x ≤ x := by
  have := Int.zpow_log_le_self (b := 2) (by norm_num) h
  simpa using this

theorem lt_log {x : ℝ} : x < (2 : ℝ) ^ (Int.log 2 x + 1) := by
  have := Int.lt_zpow_succ_log_self (b := 2) (by norm_num) x
  simpa using this

theorem ulp_ge (x : ℝ) : -149 ≤ ulpExp x := le_max_right _ _

/-- at most 24 significant bits. -/
theorem scaled_lt {x : ℝ} : x / (2 : ℝ) ^ ulpExp x < ((2 ^ 24 : ℤ) : ℝ) := by
  rw [div_lt_iff₀ (two_zpow_pos _)]
  have h1 : Int.log 2 x + 1 ≤ 24 + ulpExp x := by
    have : Int.log 2 x - 23 ≤ ulpExp x := le_max_left _ _
    omega
  have h2 : (2 : ℝ) ^ (Int.log 2 x + 1) ≤ (2 : ℝ) ^ (24 + ulpExp x) := zpow_le_zpow_right₀ (by norm_num) h1
  rw [zpow_add₀ (by norm_num : (2 : ℝ) ≠ 0) 24] at h2
  have h3 := lt_log (x := x)
  have h4 : ((2 : ℝ) ^ (24 : ℤ)) = ((2 ^ 24 : ℤ) : ℝ) := by norm_num
  rw [h4] at h2
  linarith

theorem rpos_le {x : ℝ} : rpos x ≤ (2 : ℝ) ^ (24 + ulpExp x) := by
  have h := even_mono (scaled_lt (x := x)).le
  rw [even_int] at h
  have h : (even (x / (2 : ℝ) ^ ulpExp x) : ℝ) ≤ ((2 ^ 24 : ℤ) : ℝ) := by exact_mod_cast h
  have h4 : ((2 : ℝ) ^ (24 : ℤ)) = ((2 ^ 24 : ℤ) : ℝ) := by norm_num
  rw [zpow_add₀ (by norm_num), h4]
  exact mul_le_mul_of_nonneg_right h (two_zpow_pos _).le

theorem normal {x : ℝ} (h : -149 < ulpExp x) : ulpExp x = Int.log 2 x - 23 := by
  unfold ulpExp at *; omega

theorem le_rpos {x : ℝ} (hx : 0 < x) (h : -149 < ulpExp x) : (2 : ℝ) ^ (23 + ulpExp x) ≤ rpos x := by
  have e := normal h
  have h1 : ((2 ^ 23 : ℤ) : ℝ) ≤ x / (2 : ℝ) ^ ulpExp x := by
    rw [le_div_iff₀ (two_zpow_pos _)]
    have h2 := log_le hx
    rw [show Int.log 2 x = 23 + ulpExp x by omega, zpow_add₀ (by norm_num)] at h2
    have h4 : ((2 : ℝ) ^ (23 : ℤ)) = ((2 ^ 23 : ℤ) : ℝ) := by norm_num
    rwa [h4] at h2
  have h2 := even_mono h1
  rw [even_int] at h2
  have h2 : ((2 ^ 23 : ℤ) : ℝ) ≤ (even (x / (2 : ℝ) ^ ulpExp x) : ℝ) := by exact_mod_cast h2
  have h4 : ((2 : ℝ) ^ (23 : ℤ)) = ((2 ^ 23 : ℤ) : ℝ) := by norm_num
  rw [zpow_add₀ (by norm_num), h4]
  exact mul_le_mul_of_nonneg_right h2 (two_zpow_pos _).le

theorem ulp_mono {x y : ℝ} (hx : 0 < x) (h : x ≤ y) : ulpExp x ≤ ulpExp y := by
  have := Int.log_mono_right (b := 2) hx h
  unfold ulpExp; omega

theorem rpos_mono {x y : ℝ} (hx : 0 ≤ x) (h : x ≤ y) : rpos x ≤ rpos y := by
  rcases hx.eq_or_lt with rfl | hx
  · rw [rpos_zero]; exact rpos_nonneg h
  · rcases (ulp_mono hx h).lt_or_eq with hlt | heq
    · have h1 : -149 < ulpExp y := by have := ulp_ge x; omega
      have h2 := le_rpos (lt_of_lt_of_le hx h) h1
      have h3 := rpos_le (x := x)
      have h4 : (2 : ℝ) ^ (24 + ulpExp x) ≤ (2 : ℝ) ^ (23 + ulpExp y) := zpow_le_zpow_right₀ (by norm_num) (by omega)
      linarith
    · unfold rpos
      rw [heq]
      have h1 := even_mono (div_le_div_of_nonneg_right h (two_zpow_pos (ulpExp y)).le)
      have h1 : (even (x / (2 : ℝ) ^ ulpExp y) : ℝ) ≤ even (y / (2 : ℝ) ^ ulpExp y) := by exact_mod_cast h1
      exact mul_le_mul_of_nonneg_right h1 (two_zpow_pos _).le

/-- numbers with at most 24 significant bits and no bits below 2^-149 are not changed. -/
theorem rpos_grid {k m : ℤ} (hk : 0 ≤ k) (hk2 : k ≤ 2 ^ 24) (hm : -149 ≤ m) : rpos ((k : ℝ) * (2 : ℝ) ^ m) = (k : ℝ) * (2 : ℝ) ^ m := by
  have key : ∀ y : ℝ, (∃ j : ℤ, y = j * (2 : ℝ) ^ ulpExp y) → rpos y = y := by
    rintro y ⟨j, hj⟩
    have : y / (2 : ℝ) ^ ulpExp y = j := by rw [div_eq_iff (two_zpow_pos _).ne']; exact hj
    unfold rpos; rw [this, even_int]; exact hj.symm
  rcases hk.eq_or_lt with rfl | hk0
  · simp [rpos_zero]
  · have hk0' : (0 : ℝ) < k := by exact_mod_cast hk0
    have hy : 0 < (k : ℝ) * (2 : ℝ) ^ m := mul_pos hk0' (two_zpow_pos m)
    apply key
    generalize hm' : ulpExp ((k : ℝ) * (2 : ℝ) ^ m) = m'
    by_cases hle : m' ≤ m
    · refine ⟨k * 2 ^ (m - m').toNat, ?_⟩
      push_cast
      rw [mul_assoc, ← zpow_natCast, ← zpow_add₀ (by norm_num)]
      congr 2; omega
    · have h1 : -149 < m' := by omega
      have e := normal (x := (k : ℝ) * (2 : ℝ) ^ m) (by rw [hm']; exact h1)
      rw [hm'] at e
      have h2 := log_le hy
      rw [show Int.log 2 ((k : ℝ) * (2 : ℝ) ^ m) = m' + 23 by omega] at h2
      have h3 : (k : ℝ) * (2 : ℝ) ^ m ≤ (2 : ℝ) ^ (24 + m) := by
        rw [zpow_add₀ (by norm_num)]
        refine mul_le_mul_of_nonneg_right ?_ (two_zpow_pos m).le
        have : (k : ℝ) ≤ ((2 ^ 24 : ℤ) : ℝ) := by exact_mod_cast hk2
        calc (k : ℝ) ≤ _ := this
          _ = _ := by norm_num
      have h4 : m' + 23 ≤ 24 + m := (zpow_le_zpow_iff_right₀ (by norm_num : (1 : ℝ) < 2)).1 (h2.trans h3)
      have e2 : m' = m + 1 := by omega
      have h5 : (k : ℝ) * (2 : ℝ) ^ m = (2 : ℝ) ^ (24 + m) := by
        refine le_antisymm h3 ?_
        rw [show 24 + m = m' + 23 by omega]; exact h2
      refine ⟨2 ^ 23, ?_⟩
      rw [h5, e2, show (24 : ℤ) + m = 23 + (m + 1) by ring, zpow_add₀ (by norm_num : (2 : ℝ) ≠ 0) 23]
      norm_num

theorem rpos_idem {x : ℝ} (h : 0 ≤ x) : rpos (rpos x) = rpos x := by
  unfold rpos
  refine rpos_grid (even_nonneg (div_nonneg h (two_zpow_pos _).le)) ?_ (ulp_ge x)
  have h := even_mono (scaled_lt (x := x)).le
  rwa [even_int] at h

theorem rpos_err {x : ℝ} (h : 0 ≤ x) : |rpos x - x| ≤ 1 / 2 ^ 24 * x + 1 / 2 ^ 150 := by
  rcases h.eq_or_lt with rfl | hx
  · rw [rpos_zero]; simp
  · have h1 := even_err (x / (2 : ℝ) ^ ulpExp x)
    have hp := two_zpow_pos (ulpExp x)
    have h2 : |rpos x - x| ≤ 1 / 2 * (2 : ℝ) ^ ulpExp x := by
      have e : rpos x - x = ((even (x / (2 : ℝ) ^ ulpExp x) : ℝ) - x / (2 : ℝ) ^ ulpExp x) * (2 : ℝ) ^ ulpExp x := by
        unfold rpos; rw [sub_mul, div_mul_cancel₀ _ hp.ne']
      rw [e, abs_mul, abs_of_pos hp]
      exact mul_le_mul_of_nonneg_right h1 hp.le
    by_cases hn : -149 < ulpExp x
    · have e := normal hn
      have h3 := log_le hx
      rw [show Int.log 2 x = 23 + ulpExp x by omega, zpow_add₀ (by norm_num)] at h3
      have h5 : (0 : ℝ) ≤ 1 / 2 ^ 150 := by positivity
      have h4 : ((2 : ℝ) ^ (23 : ℤ)) = 8388608 := by norm_num
      rw [h4] at h3
      have : 1 / 2 * (2 : ℝ) ^ ulpExp x ≤ 1 / 2 ^ 24 * x := by
        have : (1 : ℝ) / 2 ^ 24 = 1 / 16777216 := by norm_num
        rw [this]; linarith
      linarith
    · have e : ulpExp x = -149 := by have := ulp_ge x; omega
      rw [e] at h2
      have h3 : (0 : ℝ) ≤ 1 / 2 ^ 24 * x := by positivity
      have h4 : 1 / 2 * (2 : ℝ) ^ (-149 : ℤ) = 1 / 2 ^ 150 := by
        rw [zpow_neg, show (149 : ℤ) = ((149 : ℕ) : ℤ) by norm_num, zpow_natCast]
        rw [show (2 : ℝ) ^ 150 = 2 ^ 149 * 2 by rw [pow_succ]]; field_simp
      rw [h4] at h2
      linarith

theorem rnd_nonneg {x : ℝ} (h : 0 ≤ x) : rnd x = rpos x := if_neg (not_lt.2 h)

theorem rnd_neg (x : ℝ) : rnd (-x) = -rnd x := by
  unfold rnd
  rcases lt_trichotomy x 0 with h | rfl | h
  · rw [if_neg (by linarith), if_pos h]; simp
  · simp [rpos_zero]
  · rw [if_pos (by linarith), if_neg (by linarith)]; simp

theorem rnd_mono : Monotone rnd := by
  intro x y h
  rcases lt_or_ge x 0 with hx | hx
  · rcases lt_or_ge y 0 with hy | hy
    · unfold rnd; rw [if_pos hx, if_pos hy]
      have := rpos_mono (x := -y) (y := -x) (by linarith) (by linarith)
      linarith
    · rw [rnd_nonneg hy]; unfold rnd; rw [if_pos hx]
      have := rpos_nonneg (x := -x) (by linarith)
      have := rpos_nonneg hy
      linarith
  · rw [rnd_nonneg hx, rnd_nonneg (hx.trans h)]; exact rpos_mono hx h

theorem rnd_idem (x : ℝ) : rnd (rnd x) = rnd x := by
  rcases le_total 0 x with h | h
  · rw [rnd_nonneg h, rnd_nonneg (rpos_nonneg h), rpos_idem h]
  · have h' : 0 ≤ -x := by linarith
    have e : rnd x = -rpos (-x) := by rw [← neg_neg x, rnd_neg, rnd_nonneg h', neg_neg]
    rw [e, rnd_neg, rnd_nonneg (rpos_nonneg h'), rpos_idem h']

theorem rnd_err (x : ℝ) : |rnd x - x| ≤ 1 / 2 ^ 24 * |x| + 1 / 2 ^ 150 := by
  rcases le_total 0 x with h | h
  · rw [rnd_nonneg h, abs_of_nonneg h]; exact rpos_err h
  · have h' : 0 ≤ -x := by linarith
    have e : rnd x = -rpos (-x) := by rw [← neg_neg x, rnd_neg, rnd_nonneg h', neg_neg]
    rw [e, abs_of_nonpos h]
    have := rpos_err h'
    rwa [show -rpos (-x) - x = -(rpos (-x) - -x) by ring, abs_neg]

/-- numbers with at most 24 significant bits are not changed. -/
theorem rnd_grid {k m : ℤ} (hk : |k| ≤ 2 ^ 24) (hm : -149 ≤ m) : rnd ((k : ℝ) * (2 : ℝ) ^ m) = (k : ℝ) * (2 : ℝ) ^ m := by
  rcases le_total 0 k with h | h
  · rw [abs_of_nonneg h] at hk
    rw [rnd_nonneg (mul_nonneg (by exact_mod_cast h) (two_zpow_pos m).le), rpos_grid h hk hm]
  · rw [abs_of_nonpos h] at hk
    have e : (k : ℝ) * (2 : ℝ) ^ m = -(((-k : ℤ) : ℝ) * (2 : ℝ) ^ m) := by push_cast; ring
    rw [e, rnd_neg, rnd_nonneg (mul_nonneg (by exact_mod_cast (by omega : 0 ≤ -k)) (two_zpow_pos m).le), rpos_grid (by omega) hk hm]

end Mrc.Binary32

namespace Mrc
/-- IEEE 754 binary32. The type `float` of VarSpeedServo.h:60-85, RobotController.h:91-124 and Kinematic.h. -/
noncomputable def binary32 : Rounding where
  rnd := Binary32.rnd
  big := ((2 ^ 24 - 1 : ℤ) : ℝ) * (2 : ℝ) ^ (104 : ℤ)
  u := 1 / 2 ^ 24
  e := 1 / 2 ^ 150
  mono := Binary32.rnd_mono
  odd := Binary32.rnd_neg
  idem := Binary32.rnd_idem
  err := Binary32.rnd_err
  u_nonneg := by positivity
  u_le := by norm_num
  e_nonneg := by positivity
  e_le := by norm_num
  big_ge := by norm_num
  big_grid := Binary32.rnd_grid (by norm_num) (by norm_num)
end Mrc
