import Verif.Spec.Area
import Verif.Props.RoundTrip
import Mathlib.Analysis.Real.Pi.Bounds
import Mathlib.Analysis.SpecialFunctions.Trigonometric.Bounds
/- The robot kit can take every pose of the working area (C115). -/
set_option linter.unusedSimpArgs false
namespace Mrc.Area
open Mrc Mrc.Spec Mrc.Props Mrc.Kine Real Matrix

/-- an angle with given cosine and sine, less than a right angle. -/
theorem exists_angle {c s : ℝ} (hc : 0 < c) (h : c ^ 2 + s ^ 2 = 1) : ∃ t, cos t = c ∧ sin t = s ∧ -(π / 2) < t ∧ t < π / 2 := by
  have h1 : -1 < s := by nlinarith
  have h2 : s < 1 := by nlinarith
  refine ⟨arcsin s, ?_, sin_arcsin h1.le h2.le, ?_, ?_⟩
  · rw [cos_arcsin, show 1 - s ^ 2 = c ^ 2 by linarith, sqrt_sq hc.le]
  · exact lt_of_le_of_ne (neg_pi_div_two_le_arcsin _) fun e => by rw [eq_comm, arcsin_eq_neg_pi_div_two] at e; linarith
  · exact lt_of_le_of_ne (arcsin_le_pi_div_two _) fun e => by rw [arcsin_eq_pi_div_two] at e; linarith

/-- `t` is at least -45 degrees. -/
theorem ge_neg_quarter {t : ℝ} (h1 : -(π / 2) < t) (h2 : t < π / 2) (h : 0 ≤ sin t + cos t) : -(π / 4) ≤ t := by
  by_contra hcon
  rw [not_le] at hcon
  have hp := pi_pos
  have e : sin (t + π / 4) = (sin t + cos t) * (√2 / 2) := by rw [sin_add, cos_pi_div_four, sin_pi_div_four]; ring
  have : sin (t + π / 4) < 0 := sin_neg_of_neg_of_neg_pi_lt (by linarith) (by linarith)
  have h3 : 0 < √2 := by positivity
  have : 0 ≤ (sin t + cos t) * (√2 / 2) := by positivity
  linarith

theorem shoulder_ge {u v D Tz Tx : ℝ} (u1 : 73 / 10 ≤ u) (v1 : 1 ≤ v) (hD : D = u ^ 2 + v ^ 2) (hTz : D = 234 / 10 * Tz + 382825 / 10000) (Tx0 : 0 ≤ Tx) (Tz0 : 0 ≤ Tz)
    (hTx2 : Tx ^ 2 = D - Tz ^ 2) : Tx * (v - u) ≤ (u + v) * Tz := by
  have key : v - u ≤ 14 / 10 * Tz := by nlinarith [sq_nonneg (v - 8)]
  rcases le_total v u with g | g
  · have : Tx * (v - u) ≤ 0 := mul_nonpos_of_nonneg_of_nonpos Tx0 (by linarith)
    have : 0 ≤ (u + v) * Tz := mul_nonneg (by linarith) Tz0
    linarith
  · refine (abs_le_of_sq_le_sq' ?_ (mul_nonneg (by linarith) Tz0)).2
    have k1 : (v - u) ^ 2 ≤ (14 / 10 * Tz) ^ 2 := pow_le_pow_left₀ (by linarith) key 2
    have k1 : (v - u) ^ 2 ≤ 2 * Tz ^ 2 := by
      have : (0 : ℝ) ≤ Tz ^ 2 := sq_nonneg _
      rw [mul_pow] at k1; linarith
    have k2 : (u + v) ^ 2 * Tz ^ 2 - Tx ^ 2 * (v - u) ^ 2 = D * (2 * Tz ^ 2 - (v - u) ^ 2) := by
      rw [hTx2, hD]; ring
    have : 0 ≤ D * (2 * Tz ^ 2 - (v - u) ^ 2) := mul_nonneg (by rw [hD]; positivity) (by linarith)
    rw [mul_pow, mul_pow]; linarith

theorem fore_ge {u v D Tz Tx M X Y : ℝ} (u1 : 73 / 10 ≤ u) (u2 : u ≤ 155 / 10) (v1 : 1 ≤ v) (v2 : v ≤ 137 / 10) (hD : D = u ^ 2 + v ^ 2) (hTz : D = 234 / 10 * Tz + 382825 / 10000)
    (hTx2 : Tx ^ 2 = D - Tz ^ 2) (Tx0 : 0 < Tx) (hM : M = D - 117 / 10 * Tz) (M1 : 46 ≤ M) (hX : X = 191500 / 40000 * u - 511000 / 40000 * v) (hY : Y = 511000 / 40000 * u + 191500 / 40000 * v) :
    0 < M * X + 117 / 10 * Tx * Y := by
  have D0 : 0 < D := by rw [hD]; positivity
  have Y0 : 0 < Y := by rw [hY]; linarith
  rcases le_or_gt 0 X with g | g
  · have : 0 ≤ M * X := mul_nonneg (by linarith) g
    have : 0 < 117 / 10 * Tx * Y := mul_pos (by linarith) Y0
    linarith
  · have k1 : M ≤ 96 / 100 * Y := by
      have : M = (u ^ 2 + v ^ 2 + 382825 / 10000) / 2 := by rw [hM, ← hD]; linarith
      rw [this, hY]
      have m1 := mul_nonneg (sub_nonneg.2 u1) (sub_nonneg.2 u2)
      have m2 := mul_nonneg (sub_nonneg.2 v1) (sub_nonneg.2 v2)
      linarith
    have k2 : (117 / 10 * Tx) ^ 2 = 1751725 / 10000 * D - M ^ 2 := by
      rw [hM]; linear_combination (117 / 10) ^ 2 * hTx2 + D * hTz
    have k3 : X ^ 2 + Y ^ 2 = (191500 ^ 2 + 511000 ^ 2) / 40000 ^ 2 * D := by rw [hX, hY, hD]; ring
    have k4 : (117 / 10 * Tx * Y) ^ 2 - (M * X) ^ 2 = D * (1751725 / 10000 * Y ^ 2 - (191500 ^ 2 + 511000 ^ 2) / 40000 ^ 2 * M ^ 2) := by
      linear_combination Y ^ 2 * k2 - M ^ 2 * k3
    have k5 : M ^ 2 ≤ (96 / 100 * Y) ^ 2 := pow_le_pow_left₀ (by linarith) k1 2
    have k6 : 0 < Y ^ 2 := by positivity
    rw [mul_pow] at k5
    have k7 : 0 < D * (1751725 / 10000 * Y ^ 2 - (191500 ^ 2 + 511000 ^ 2) / 40000 ^ 2 * M ^ 2) := mul_pos D0 (by norm_num at k5 ⊢; linarith)
    have k8 : (M * X) ^ 2 < (117 / 10 * Tx * Y) ^ 2 := by linarith
    have := abs_lt_of_sq_lt_sq' k8 (by positivity)
    linarith [this.1]

set_option maxHeartbeats 800000 in
/-- the lengths and the shape of the triangle shoulder - elbow - wrist. -/
theorem arm_angles {u v : ℝ} (u1 : 73 / 10 ≤ u) (u2 : u ≤ 155 / 10) (v1 : 1 ≤ v) (v2 : v ≤ 137 / 10) :
    ∃ p q, -(π / 4) ≤ p ∧ p < π / 2 ∧ -(π / 4) ≤ q ∧ q ≤ π / 2 ∧ -(π / 12) ≤ p + q ∧ p + q < π / 2 ∧ 0 < cos (p + q) ∧
      117 / 10 * sin p + (1315 / 100 * cos (p + q) + 15 / 10 * sin (p + q)) = u ∧ 117 / 10 * cos p + (-(1315 / 100) * sin (p + q) + 15 / 10 * cos (p + q)) = v := by
  have hp := pi_pos
  obtain ⟨D, hD⟩ : ∃ D, D = u ^ 2 + v ^ 2 := ⟨_, rfl⟩
  have D1 : 54 ≤ D := by nlinarith
  have D2 : D ≤ 428 := by nlinarith
  obtain ⟨Tz, hTz⟩ : ∃ Tz, Tz = (D - 382825 / 10000) / (234 / 10) := ⟨_, rfl⟩
  have hTz' : D = 234 / 10 * Tz + 382825 / 10000 := by rw [hTz]; ring
  have Tz1 : 67 / 100 ≤ Tz := by linarith
  have Tz2 : Tz ≤ 1666 / 100 := by linarith
  have hT0 : 0 ≤ D - Tz ^ 2 := by nlinarith
  obtain ⟨Tx, hTx⟩ : ∃ Tx, Tx = √(D - Tz ^ 2) := ⟨_, rfl⟩
  have Tx0 : 0 ≤ Tx := by rw [hTx]; exact sqrt_nonneg _
  have hTx2 : Tx ^ 2 = D - Tz ^ 2 := by rw [hTx]; exact sq_sqrt hT0
  have Tx1 : 7 ≤ Tx := by
    have : (7 : ℝ) ^ 2 ≤ Tx ^ 2 := by rw [hTx2]; nlinarith
    exact abs_le_of_sq_le_sq' this Tx0 |>.2
  have Tx2 : Tx ≤ 133 / 10 := by
    have : Tx ^ 2 ≤ (133 / 10 : ℝ) ^ 2 := by rw [hTx2]; nlinarith [sq_nonneg (Tz - 117 / 10)]
    exact abs_le_of_sq_le_sq' this (by norm_num) |>.2
  have D0 : 0 < D := by linarith
  -- shoulder
  obtain ⟨p, cp, sp, p1, p2⟩ := exists_angle (c := (u * Tx + v * Tz) / D) (s := (u * Tz - v * Tx) / D) (by positivity) (by
    rw [div_pow, div_pow, ← add_div, div_eq_one_iff_eq (by positivity)]
    linear_combination (u ^ 2 + v ^ 2) * hTx2 + (-D) * hD)
  -- elbow
  obtain ⟨q, cq, sq, q1, q2⟩ := exists_angle (c := (1315 / 100 * Tx + 15 / 10 * (Tz - 117 / 10)) / (1751725 / 10000)) (s := (15 / 10 * Tx - 1315 / 100 * (Tz - 117 / 10)) / (1751725 / 10000))
    (by apply div_pos _ (by norm_num); linarith) (by linear_combination (10000 / 1751725) * hTx2 + (10000 / 1751725) * hTz')
  have e1 : 1315 / 100 * cos q + 15 / 10 * sin q = Tx := by rw [cq, sq]; ring
  have e2 : 15 / 10 * cos q - 1315 / 100 * sin q = Tz - 117 / 10 := by rw [cq, sq]; ring
  have dp : D * cos p = u * Tx + v * Tz := by rw [cp]; field_simp
  have ds : D * sin p = u * Tz - v * Tx := by rw [sp]; field_simp
  have f1 : cos p * Tx + sin p * Tz = u := mul_left_cancel₀ D0.ne' (by linear_combination Tx * dp + Tz * ds + u * hTx2)
  have f2 : cos p * Tz - sin p * Tx = v := mul_left_cancel₀ D0.ne' (by linear_combination Tz * dp - Tx * ds + v * hTx2)
  have w1 : 117 / 10 * sin p + (1315 / 100 * cos (p + q) + 15 / 10 * sin (p + q)) = u := by
    rw [cos_add, sin_add]; linear_combination cos p * e1 + sin p * e2 + f1
  have w2 : 117 / 10 * cos p + (-(1315 / 100) * sin (p + q) + 15 / 10 * cos (p + q)) = v := by
    rw [cos_add, sin_add]; linear_combination cos p * e2 - sin p * e1 + f2
  obtain ⟨M, hM⟩ : ∃ M, M = D - 117 / 10 * Tz := ⟨_, rfl⟩
  have M1 : 46 ≤ M := by linarith
  have sθ : 1751725 / 10000 * D * sin (p + q) = M * (15 / 10 * u - 1315 / 100 * v) + 117 / 10 * Tx * (15 / 10 * v + 1315 / 100 * u) := by
    rw [hM]; linear_combination D * (15 / 10) * w1 - D * (1315 / 100) * w2 - (15 / 10) * (117 / 10) * ds + (1315 / 100) * (117 / 10) * dp
  have cθ : 1751725 / 10000 * D * cos (p + q) = M * (1315 / 100 * u + 15 / 10 * v) + 117 / 10 * Tx * (1315 / 100 * v - 15 / 10 * u) := by
    rw [hM]; linear_combination D * (1315 / 100) * w1 + D * (15 / 10) * w2 - (1315 / 100) * (117 / 10) * ds - (15 / 10) * (117 / 10) * dp
  have hcos : 0 < cos (p + q) := by
    have g1 : 46 * (1315 / 100 * (73 / 10)) ≤ M * (1315 / 100 * u + 15 / 10 * v) := mul_le_mul M1 (by linarith) (by norm_num) (by linarith)
    have g2 : 117 / 10 * Tx * (1315 / 100 * v - 15 / 10 * u) ≥ 117 / 10 * Tx * (-11) := mul_le_mul_of_nonneg_left (by linarith) (by linarith)
    have : 0 < 1751725 / 10000 * D * cos (p + q) := by rw [cθ]; linarith
    exact (pos_iff_pos_of_mul_pos this).1 (by positivity)
  have hp45 : -(π / 4) ≤ p := by
    refine ge_neg_quarter p1 p2 ?_
    have : 0 ≤ D * (sin p + cos p) := by
      rw [mul_add, ds, dp]
      have key2 := shoulder_ge u1 v1 hD hTz' Tx0 (by linarith) hTx2
      linarith
    exact nonneg_of_mul_nonneg_right this D0
  have hq45 : -(π / 4) ≤ q := by
    refine ge_neg_quarter q1 q2 ?_
    rw [cq, sq, ← add_div]
    apply div_nonneg _ (by norm_num)
    linarith
  have hθ : -(π / 12) ≤ p + q := by
    have h90 : p + q < π / 2 ∧ -(π / 2) < p + q := by
      refine ⟨?_, lt_of_le_of_ne (by linarith) fun e => by rw [← e, cos_neg, cos_pi_div_two] at hcos; exact lt_irrefl _ hcos⟩
      by_contra hcon
      have := cos_nonpos_of_pi_div_two_le_of_le (not_lt.1 hcon) (by linarith)
      linarith
    have key : 0 < sin (p + q) + cos (p + q) / 4 := by
      obtain ⟨X, hX⟩ : ∃ X, X = 191500 / 40000 * u - 511000 / 40000 * v := ⟨_, rfl⟩
      obtain ⟨Y, hY⟩ : ∃ Y, Y = 511000 / 40000 * u + 191500 / 40000 * v := ⟨_, rfl⟩
      have e : 1751725 / 10000 * D * (sin (p + q) + cos (p + q) / 4) = M * X + 117 / 10 * Tx * Y := by rw [hX, hY]; linear_combination sθ + cθ / 4
      have := fore_ge u1 u2 v1 v2 hD hTz' hTx2 (by linarith) hM M1 hX hY
      rw [← e] at this
      exact (pos_iff_pos_of_mul_pos this).1 (by positivity)
    by_contra hcon
    rw [not_le] at hcon
    have hlt : p + q < -(1 / 4) := by linarith [pi_gt_three]
    have t1 : tan (1 / 4) > 1 / 4 := lt_tan (by norm_num) (by linarith [pi_gt_three])
    have t2 : tan (p + q) < tan (-(1 / 4)) := tan_lt_tan_of_lt_of_lt_pi_div_two (by linarith) (by linarith [pi_gt_three]) hlt
    rw [tan_neg] at t2
    have t3 : tan (p + q) < -(1 / 4) := by linarith
    rw [tan_eq_sin_div_cos, div_lt_iff₀ hcos] at t3
    linarith
  have h90 : p + q < π / 2 := by
    by_contra hcon
    have := cos_nonpos_of_pi_div_two_le_of_le (not_lt.1 hcon) (by linarith)
    linarith
  exact ⟨p, q, hp45, p2, hq45, q2.le, hθ, h90, hcos, w1, w2⟩

theorem down_orient (φ c : ℝ) : rotZ φ * rotY π * rotZ (φ + c - π) = rotX π * rotY 0 * rotZ c := by
  have h := sin_sq_add_cos_sq φ
  have e1 : cos (φ + c - π) = -(cos φ * cos c - sin φ * sin c) := by rw [cos_sub_pi, cos_add]
  have e2 : sin (φ + c - π) = -(sin φ * cos c + cos φ * sin c) := by rw [sin_sub_pi, sin_add]
  ext i j
  fin_cases i <;> fin_cases j <;> simp [rotX, rotY, rotZ, Matrix.mul_apply, Fin.sum_univ_three, e1, e2] <;>
    first
    | linear_combination cos c * h
    | linear_combination sin c * h
    | linear_combination -cos c * h
    | linear_combination -sin c * h

/-- **C115** (geometry): the kit takes every pose of the working area, and a little around it, with the tool straight down. -/
theorem takes {P : Fin 6 → ℝ} (hP : InArea (1 / 20) (P 0) (P 1) (P 2)) (hd : Down P) : ∃ A, KitTakes kitG P A := by
  obtain ⟨xl, xu, yl, yu, zl, zu⟩ := hP
  obtain ⟨ha, hb, hc⟩ := hd
  have hp := pi_pos
  obtain ⟨r, hr⟩ : ∃ r, r = √(P 0 ^ 2 + P 1 ^ 2) := ⟨_, rfl⟩
  have r0 : 0 ≤ r := by rw [hr]; exact sqrt_nonneg _
  have r2 : r ^ 2 = P 0 ^ 2 + P 1 ^ 2 := by rw [hr]; exact sq_sqrt (by positivity)
  have y2 : P 1 ^ 2 ≤ (605 / 100) ^ 2 := sq_le_sq' (by linarith) (by linarith)
  have rl : P 0 ≤ r := (abs_le_of_sq_le_sq' (by rw [r2]; linarith [sq_nonneg (P 1)]) r0).2
  have ru : r ≤ 201 / 10 := (abs_le_of_sq_le_sq' (by rw [r2]; nlinarith) (by norm_num)).2
  have rp : 0 < r := by linarith
  obtain ⟨φ, cφ, sφ, φ1, φ2⟩ := exists_angle (c := P 0 / r) (s := P 1 / r) (div_pos (by linarith) rp) (by
    rw [div_pow, div_pow, ← add_div, ← r2, div_self (by positivity)])
  have cr : r * cos φ = P 0 := by rw [cφ]; field_simp
  have sr : r * sin φ = P 1 := by rw [sφ]; field_simp
  have y3 : |P 1| < r / 2 := by
    refine abs_lt_of_sq_lt_sq ?_ (by linarith)
    rw [div_pow, r2]
    nlinarith
  have y3 := abs_lt.1 y3
  have half : -(1 / 2) < sin φ ∧ sin φ < 1 / 2 := by
    rw [sφ, lt_div_iff₀ rp, div_lt_iff₀ rp]
    constructor <;> linarith
  have φ3 : -(π / 6) ≤ φ := by
    by_contra hcon
    have := sin_lt_sin_of_lt_of_le_pi_div_two φ1.le (by linarith) (not_le.1 hcon)
    rw [sin_neg, sin_pi_div_six] at this
    linarith
  have φ4 : φ ≤ π / 6 := by
    by_contra hcon
    have := sin_lt_sin_of_lt_of_le_pi_div_two (by linarith) φ2.le (not_le.1 hcon)
    rw [sin_pi_div_six] at this
    linarith
  obtain ⟨p, q, p1, p2, q1, q2, h1, h2, h3, w1, w2⟩ := arm_angles (u := r - 46 / 10) (v := P 2 - 49 / 10) (by linarith) (by linarith) (by linarith) (by linarith)
  obtain ⟨A, hA⟩ : ∃ A : Fin 6 → ℝ, A = ![φ, p, q, 0, -(p + q), φ + P 5 - π] := ⟨_, rfl⟩
  have yy : ∀ a b, rotY a * rotY b = rotY (a + b) := fun a b => by
    ext i j; fin_cases i <;> fin_cases j <;> simp [rotY, Matrix.mul_apply, Fin.sum_univ_three, cos_add, sin_add] <;> ring
  have x0 : rotX 0 = 1 := by
    ext i j; fin_cases i <;> fin_cases j <;> simp [rotX]
  have y0 : rotY 0 = 1 := by
    ext i j; fin_cases i <;> fin_cases j <;> simp [rotY]
  have l0 : linkFrame A 0 = rotZ φ := by rw [hA]; rfl
  have l1 : linkFrame A 1 = rotZ φ * rotY p := by rw [hA]; rfl
  have l2 : linkFrame A 2 = rotZ φ * rotY (p + q) := by
    rw [show linkFrame A 2 = linkFrame A 1 * rotY (A 2) from rfl, l1, Matrix.mul_assoc, hA]; exact congrArg _ (yy p q)
  have l3 : linkFrame A 3 = rotZ φ * rotY (p + q) := by
    rw [show linkFrame A 3 = linkFrame A 2 * rotX (A 3) from rfl, l2, show A 3 = 0 by rw [hA]; rfl, x0, mul_one]
  have l4 : linkFrame A 4 = rotZ φ := by
    rw [show linkFrame A 4 = linkFrame A 3 * rotY (A 4) from rfl, l3, show A 4 = -(p + q) by rw [hA]; rfl, Matrix.mul_assoc, yy, add_neg_cancel, y0, mul_one]
  have j4 : jointPos kitG A 4 = ![P 0, P 1, P 2 + 3] := by
    ext i
    simp only [jointPos, Fin.sum_univ_five, l0, l1, l2, l3]
    fin_cases i
    · simp [kitG, rotZ, rotY, Matrix.mulVec, dotProduct, Fin.sum_univ_three, Matrix.mul_apply]
      linear_combination cos φ * w1 + cr
    · simp [kitG, rotZ, rotY, Matrix.mulVec, dotProduct, Fin.sum_univ_three, Matrix.mul_apply]
      linear_combination sin φ * w1 + sr
    · simp [kitG, rotZ, rotY, Matrix.mulVec, dotProduct, Fin.sum_univ_three, Matrix.mul_apply]
      linear_combination w2
  have j5 : jointPos kitG A 5 = ![P 0, P 1, P 2] := by
    have : jointPos kitG A 5 = jointPos kitG A 4 + linkFrame A 4 *ᵥ kitG 4 := by
      simp [jointPos, Fin.sum_univ_five]
    rw [this, j4, l4]
    ext i
    fin_cases i <;> simp [kitG, rotZ, Matrix.mulVec, dotProduct, Fin.sum_univ_three]
  have pi3 := pi_gt_three
  refine ⟨A, ⟨fun i => ?_, ?_⟩, j5, ?_, ?_, ?_, ?_, ?_, ?_⟩
  · rw [hA]
    fin_cases i <;> simp [armServo, Kit.minDeg, Kit.maxDeg] <;> (try constructor) <;> linarith
  · simp [hA, Kit.minDeg, Kit.maxDeg]; constructor <;> linarith
  · have e5 : A 5 = φ + P 5 - π := by rw [hA]; rfl
    rw [toolFrame, l4, e5, orientOf, orient, ha, hb]
    exact down_orient φ (P 5)
  · rw [hA]; exact p2
  · rw [hA]; exact q2
  · rw [hA]; show -(π / 2 - 1 / 10000) ≤ 0; linarith
  · rw [hA]; show cos (-(p + q)) ≠ 0; rw [cos_neg]; exact h3.ne'
  · rw [j4]
    show 0 < cos (A 0) * P 0 + sin (A 0) * P 1
    rw [hA]
    show 0 < cos φ * P 0 + sin φ * P 1
    rw [← cr, ← sr]
    have : cos φ * (r * cos φ) + sin φ * (r * sin φ) = r := by linear_combination r * sin_sq_add_cos_sq φ
    rw [this]; exact rp

end Mrc.Area
