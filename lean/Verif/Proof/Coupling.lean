import Verif.Proof.XR
import Verif.Model.Config
import Verif.Spec.Motion
import Mathlib.Analysis.Real.Pi.Bounds
/- The coupling functions of the two configurations (C58, C59). -/
set_option linter.unusedSectionVars false
set_option linter.unusedSimpArgs false
namespace Mrc.Coupl
open Mrc Mrc.Spec XR
open scoped Mrc.Num

/-- angle at a corner of a triangle with the third point at (x, y), y ≥ 0, at distance d. -/
theorem corner {x y d : ℝ} (hd : 0 < d) (h : x ^ 2 + y ^ 2 = d ^ 2) (hy : 0 ≤ y) : |x / d| ≤ 1 ∧ d * Real.cos (Real.arccos (x / d)) = x ∧ d * Real.sin (Real.arccos (x / d)) = y := by
  have hx : |x / d| ≤ 1 := by
    rw [abs_div, abs_of_pos hd, div_le_one hd]; exact abs_le_of_sq_le_sq (by nlinarith [sq_nonneg y]) hd.le
  refine ⟨hx, ?_, ?_⟩
  · rw [Real.cos_arccos (abs_le.1 hx).1 (abs_le.1 hx).2]; field_simp
  · rw [Real.sin_arccos]
    have e : d * Real.sqrt (1 - (x / d) ^ 2) = Real.sqrt (y ^ 2) := by
      have : y ^ 2 = d ^ 2 * (1 - (x / d) ^ 2) := by field_simp; linarith
      rw [this, Real.sqrt_mul (by positivity), Real.sqrt_sq hd.le]
    rw [e, Real.sqrt_sq hy]

/-- the four bar linkage: going round one way and back the other gives the angle again. -/
theorem fourbar {v h1 h2 h3 a d d1 : ℝ} (hv : 0 < v) (p1 : 0 < h1) (p3 : 0 < h3) (ha : 0 ≤ a ∧ a ≤ Real.pi) (hd : 0 < d) (hd2 : d ^ 2 = v ^ 2 - 2 * v * h3 * Real.cos a + h3 ^ 2)
    (hX : |(-h2 ^ 2 + h1 ^ 2 + d ^ 2) / (2 * h1 * d)| ≤ 1) (hS : 0 ≤ (-h2 ^ 2 + h1 ^ 2 + d ^ 2) / (2 * h1) + (v - h3 * Real.cos a))
    (hd1 : 0 < d1) (hd12 : d1 ^ 2 = v ^ 2 - 2 * v * h1 * Real.cos (Real.arccos ((-h2 ^ 2 + h1 ^ 2 + d ^ 2) / (2 * h1 * d)) + Real.arccos ((-h3 ^ 2 + v ^ 2 + d ^ 2) / (2 * v * d))) + h1 ^ 2)
    (hC : Real.cos a * d1 ≤ v - h1 * Real.cos (Real.arccos ((-h2 ^ 2 + h1 ^ 2 + d ^ 2) / (2 * h1 * d)) + Real.arccos ((-h3 ^ 2 + v ^ 2 + d ^ 2) / (2 * v * d)))) :
    |(-h3 ^ 2 + v ^ 2 + d ^ 2) / (2 * v * d)| ≤ 1 ∧ |(-h2 ^ 2 + h3 ^ 2 + d1 ^ 2) / (2 * h3 * d1)| ≤ 1 ∧ |(-h1 ^ 2 + v ^ 2 + d1 ^ 2) / (2 * v * d1)| ≤ 1 ∧
    Real.arccos ((-h2 ^ 2 + h3 ^ 2 + d1 ^ 2) / (2 * h3 * d1)) + Real.arccos ((-h1 ^ 2 + v ^ 2 + d1 ^ 2) / (2 * v * d1)) = a := by
  have sa := Real.sin_nonneg_of_nonneg_of_le_pi ha.1 ha.2
  have qa := Real.sin_sq_add_cos_sq a
  have eb2 : (-h3 ^ 2 + v ^ 2 + d ^ 2) / (2 * v * d) = (v - h3 * Real.cos a) / d := by rw [hd2]; field_simp; ring
  rw [eb2] at hC hd12 ⊢
  obtain ⟨k1, k2, k3⟩ := corner (x := v - h3 * Real.cos a) (y := h3 * Real.sin a) hd (by rw [hd2]; linear_combination h3 ^ 2 * qa) (by positivity)
  set b1 := Real.arccos ((-h2 ^ 2 + h1 ^ 2 + d ^ 2) / (2 * h1 * d)) with hb1
  set b2 := Real.arccos ((v - h3 * Real.cos a) / d) with hb2
  have c1 : d * Real.cos b1 = (-h2 ^ 2 + h1 ^ 2 + d ^ 2) / (2 * h1) := by
    rw [hb1, Real.cos_arccos (abs_le.1 hX).1 (abs_le.1 hX).2]; field_simp
  have hbπ : b1 + b2 ≤ Real.pi := by
    have : b1 ≤ Real.pi - b2 := by
      have h0 : 0 ≤ d * (Real.cos b1 + Real.cos b2) := by rw [mul_add, c1, k2]; exact hS
      have h1 : Real.cos (Real.pi - b2) ≤ Real.cos b1 := by
        rw [Real.cos_pi_sub]; have := nonneg_of_mul_nonneg_right h0 hd; linarith
      by_contra hn
      have := Real.cos_lt_cos_of_nonneg_of_le_pi (x := Real.pi - b2) (y := b1) (by have := Real.arccos_le_pi ((v - h3 * Real.cos a) / d); linarith) (Real.arccos_le_pi _) (not_le.1 hn)
      linarith
    linarith
  have sb : 0 ≤ Real.sin (b1 + b2) := Real.sin_nonneg_of_nonneg_of_le_pi (add_nonneg (Real.arccos_nonneg _) (Real.arccos_nonneg _)) hbπ
  have qb := Real.sin_sq_add_cos_sq (b1 + b2)
  have ea2 : (-h1 ^ 2 + v ^ 2 + d1 ^ 2) / (2 * v * d1) = (v - h1 * Real.cos (b1 + b2)) / d1 := by rw [hd12]; field_simp; ring
  rw [ea2]
  obtain ⟨m1, m2, m3⟩ := corner (x := v - h1 * Real.cos (b1 + b2)) (y := h1 * Real.sin (b1 + b2)) hd1 (by rw [hd12]; linear_combination h1 ^ 2 * qb) (by positivity)
  set a2 := Real.arccos ((v - h1 * Real.cos (b1 + b2)) / d1) with ha2
  -- the coupler
  have hcd : h1 ^ 2 + d ^ 2 - 2 * h1 * (d * Real.cos b1) = h2 ^ 2 := by rw [c1]; field_simp; ring
  have q2 := Real.sin_sq_add_cos_sq b2
  have q1 := Real.sin_sq_add_cos_sq b1
  -- d cos b1 from the coordinates
  have e1 : d * Real.cos b1 = Real.cos (b1 + b2) * (v - h3 * Real.cos a) + Real.sin (b1 + b2) * (h3 * Real.sin a) := by
    rw [← k2, ← k3, Real.cos_add, Real.sin_add]; linear_combination (-(d * Real.cos b1)) * q2
  have key : h3 ^ 2 + d1 ^ 2 - 2 * h3 * d1 * Real.cos (a - a2) = h2 ^ 2 := by
    have : d1 * Real.cos (a - a2) = Real.cos a * (v - h1 * Real.cos (b1 + b2)) + Real.sin a * (h1 * Real.sin (b1 + b2)) := by
      rw [← m2, ← m3, Real.cos_sub]; ring
    rw [← hcd, e1, hd2, hd12]
    linear_combination (-(2 * h3)) * this
  have ea1 : (-h2 ^ 2 + h3 ^ 2 + d1 ^ 2) / (2 * h3 * d1) = Real.cos (a - a2) := by rw [← key]; field_simp; ring
  refine ⟨k1, by rw [ea1]; exact Real.abs_cos_le_one _, m1, ?_⟩
  rw [ea1]
  have hle : a2 ≤ a := by
    by_contra hn
    have h := Real.cos_lt_cos_of_nonneg_of_le_pi ha.1 (Real.arccos_le_pi _ : a2 ≤ Real.pi) (not_le.1 hn)
    have := mul_lt_mul_of_pos_left h hd1
    rw [m2] at this; linarith
  rw [Real.arccos_cos (by linarith) (by have := Real.arccos_nonneg ((v - h1 * Real.cos (b1 + b2)) / d1); linarith)]
  ring

end Mrc.Coupl
