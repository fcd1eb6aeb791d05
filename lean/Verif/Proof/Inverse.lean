import Verif.Proof.Kinematics
import Mathlib.Analysis.SpecialFunctions.Trigonometric.Basic
/- Proofs about inverse kinematics (C56, C57). -/
set_option linter.unusedSectionVars false
set_option linter.unusedSimpArgs false
namespace Mrc.Kine
open Mrc Mrc.Spec XR Matrix
open scoped Mrc.Num

/-! ### vectors -/
/-- cross product, dot product. -/
def cr (a b : Vec3) : Vec3 := ![a 1 * b 2 - a 2 * b 1, a 2 * b 0 - a 0 * b 2, a 0 * b 1 - a 1 * b 0]
def dt (a b : Vec3) : ℝ := a 0 * b 0 + a 1 * b 1 + a 2 * b 2

open Classical in
/-- angleBetween. -/
noncomputable def ab (a b ref : Vec3) : ℝ := atan2R (len3 (cr a b)) (dt a b) * (if 0 < dt ref a then 1 else -1)

theorem vec3 (v : Vec3) : v = ![v 0, v 1, v 2] := by ext i; fin_cases i <;> rfl

theorem cross_fin (a b : Vec3) : Kin.cross (finV a) (finV b) = finV (cr a b) := by
  simp [Kin.cross, finV, cr]

theorem length3_fin (a : Vec3) : Kin.length3 (finV a) = fin (len3 a) := by
  simp only [Kin.length3, finV, fin_mul, fin_add]
  rw [ops_sqrt _ (by nlinarith [sq_nonneg (a 0), sq_nonneg (a 1), sq_nonneg (a 2)])]
  congr 2; ring

theorem length2_fin (a b : ℝ) : Kin.length2 (fin a) (fin b) = fin (Real.sqrt (a * a + b * b)) := by
  simp only [Kin.length2, fin_mul, fin_add]
  rw [ops_sqrt _ (by nlinarith [sq_nonneg a, sq_nonneg b])]

theorem angleBetween_fin (a b r : Vec3) : Kin.angleBetween (finV a) (finV b) (finV r) = fin (ab a b r) := by
  have h : Kin.length3 (Kin.cross (finV a) (finV b)) = fin (len3 (cr a b)) := by rw [cross_fin, length3_fin]
  unfold Kin.angleBetween
  simp only [h]
  simp only [finV, fin_mul, fin_add, ops_atan2, fgt, lit, ops_lit, ops_lt]
  unfold ab
  have e : b 0 * a 0 + b 1 * a 1 + b 2 * a 2 = dt a b := by unfold dt; ring
  have e' : r 0 * a 0 + r 1 * a 1 + r 2 * a 2 = dt r a := rfl
  simp only [e, e', Rat.cast_zero, decide_eq_true_eq]
  by_cases hh : 0 < dt r a
  · rw [if_pos hh, if_pos hh, fin_mul, Rat.cast_one]
  · rw [if_neg hh, if_neg hh, fin_mul, Rat.cast_neg, Rat.cast_one]

theorem cr_rot {M : Mat3} (h : IsRotation M) (a b : Vec3) : cr (M *ᵥ a) (M *ᵥ b) = M *ᵥ cr a b := by
  have h1 : Mᵀ * M = 1 := h.1
  have ha : M.adjugate = Mᵀ := by
    calc M.adjugate = (Mᵀ * M) * M.adjugate := by rw [h1, Matrix.one_mul]
      _ = Mᵀ := by rw [Matrix.mul_assoc, Matrix.mul_adjugate, h.2, one_smul, Matrix.mul_one]
  have e := fun i j => congrFun (congrFun ha i) j
  rw [Matrix.adjugate_fin_three] at e
  have e00 := e 0 0; have e01 := e 0 1; have e02 := e 0 2
  have e10 := e 1 0; have e11 := e 1 1; have e12 := e 1 2
  have e20 := e 2 0; have e21 := e 2 1; have e22 := e 2 2
  simp at e00 e01 e02 e10 e11 e12 e20 e21 e22
  ext i
  fin_cases i <;> simp [cr, Matrix.mulVec, dotProduct, Fin.sum_univ_three]
  · linear_combination (a 1 * b 2 - a 2 * b 1) * e00 + (a 2 * b 0 - a 0 * b 2) * e10 + (a 0 * b 1 - a 1 * b 0) * e20
  · linear_combination (a 1 * b 2 - a 2 * b 1) * e01 + (a 2 * b 0 - a 0 * b 2) * e11 + (a 0 * b 1 - a 1 * b 0) * e21
  · linear_combination (a 1 * b 2 - a 2 * b 1) * e02 + (a 2 * b 0 - a 0 * b 2) * e12 + (a 0 * b 1 - a 1 * b 0) * e22

theorem dt_eq (a b : Vec3) : dt a b = a ⬝ᵥ b := by simp [dt, dotProduct, Fin.sum_univ_three]

theorem dt_rot {M : Mat3} (h : IsRotation M) (a b : Vec3) : dt (M *ᵥ a) (M *ᵥ b) = dt a b := by
  rw [dt_eq, dt_eq, Matrix.dotProduct_mulVec, Matrix.vecMul_mulVec, h.1]; simp

theorem len3_dt (a : Vec3) : len3 a = Real.sqrt (dt a a) := by unfold len3 dt; congr 1; ring
theorem len3_rot {M : Mat3} (h : IsRotation M) (a : Vec3) : len3 (M *ᵥ a) = len3 a := by
  rw [len3_dt, len3_dt, dt_rot h]

theorem ab_rot {M : Mat3} (h : IsRotation M) (a b r : Vec3) : ab (M *ᵥ a) (M *ᵥ b) (M *ᵥ r) = ab a b r := by
  unfold ab; rw [cr_rot h, len3_rot h, dt_rot h, dt_rot h]

/-! ### the hand -/
/-- angle between (0,y,z) and the y axis, seen along x. -/
theorem ab_hand {y z s t : ℝ} (hs : 0 < s) (ht : 0 < t) (hyz : y ^ 2 + z ^ 2 ≠ 0) :
    Real.sqrt (y ^ 2 + z ^ 2) * Real.cos (ab ![0, y, z] ![0, s, 0] ![0, 0, t]) = y ∧
    Real.sqrt (y ^ 2 + z ^ 2) * Real.sin (ab ![0, y, z] ![0, s, 0] ![0, 0, t]) = z := by
  have hN : 0 ≤ y ^ 2 + z ^ 2 := by positivity
  have hl : len3 (cr ![0, y, z] ![0, s, 0]) = s * |z| := by
    have : len3 (cr ![0, y, z] ![0, s, 0]) = Real.sqrt ((s * |z|) ^ 2) := by
      unfold len3; congr 1; simp [cr]; rw [mul_pow s |z|, sq_abs]; ring
    rw [this, Real.sqrt_sq (by positivity)]
  have hd : dt ![0, y, z] ![0, s, 0] = s * y := by simp [dt]; ring
  have hr : dt ![0, 0, t] ![0, y, z] = t * z := by simp [dt]
  set N := Real.sqrt (y ^ 2 + z ^ 2) with hNd
  have hN2 : N ^ 2 = y ^ 2 + z ^ 2 := Real.sq_sqrt hN
  have hN0 : 0 ≤ N := Real.sqrt_nonneg _
  have hc : s * N * Real.cos (atan2R (s * |z|) (s * y)) = s * y := at2_cos (by positivity) (by rw [mul_pow, mul_pow, mul_pow, sq_abs, hN2]; ring)
  have hsn : s * N * Real.sin (atan2R (s * |z|) (s * y)) = s * |z| := at2_sin (by positivity) (by rw [mul_pow, mul_pow, mul_pow, sq_abs, hN2]; ring)
  have hc' : N * Real.cos (atan2R (s * |z|) (s * y)) = y := mul_left_cancel₀ hs.ne' (by rw [← mul_assoc]; exact hc)
  have hs' : N * Real.sin (atan2R (s * |z|) (s * y)) = |z| := mul_left_cancel₀ hs.ne' (by rw [← mul_assoc]; exact hsn)
  unfold ab
  rw [hl, hd, hr]
  split
  · rename_i h
    have hz : 0 < z := by by_contra hh; exact absurd h (not_lt.2 (mul_nonpos_of_nonneg_of_nonpos ht.le (not_lt.1 hh)))
    rw [mul_one]; exact ⟨hc', by rw [hs', abs_of_pos hz]⟩
  · rename_i h
    have hz : z ≤ 0 := by by_contra hh; exact h (mul_pos ht (not_le.1 hh))
    rw [mul_neg_one, Real.cos_neg, Real.sin_neg]
    exact ⟨hc', by rw [mul_neg, hs', abs_of_nonpos hz, neg_neg]⟩

/-- angle between the hand and the forearm, seen along y. -/
theorem ab_bend {σ ζ p r n : ℝ} (hp : 0 < p) (hr : 0 < r) (hn : 0 < n) (hu : σ ^ 2 + ζ ^ 2 = 1) :
    Real.cos (ab ![p * σ, 0, p * ζ] ![-r, 0, 0] ![0, 0, -(r * n)]) = -σ ∧ Real.sin (ab ![p * σ, 0, p * ζ] ![-r, 0, 0] ![0, 0, -(r * n)]) = -ζ := by
  have hl : len3 (cr ![p * σ, 0, p * ζ] ![-r, 0, 0]) = p * r * |ζ| := by
    have : len3 (cr ![p * σ, 0, p * ζ] ![-r, 0, 0]) = Real.sqrt ((p * r * |ζ|) ^ 2) := by
      unfold len3; congr 1; simp [cr]; rw [mul_pow (p * r) |ζ|, sq_abs]; ring
    rw [this, Real.sqrt_sq (by positivity)]
  have hd : dt ![p * σ, 0, p * ζ] ![-r, 0, 0] = p * r * -σ := by simp [dt]; ring
  have hrf : dt ![0, 0, -(r * n)] ![p * σ, 0, p * ζ] = -(r * n * p * ζ) := by simp [dt]; ring
  have hpr : 0 < p * r := mul_pos hp hr
  have hq : (p * r * -σ) ^ 2 + (p * r * |ζ|) ^ 2 = (p * r) ^ 2 := by rw [mul_pow, mul_pow (p * r) |ζ|, sq_abs]; linear_combination (p * r) ^ 2 * hu
  have hc : Real.cos (atan2R (p * r * |ζ|) (p * r * -σ)) = -σ := mul_left_cancel₀ hpr.ne' (at2_cos hpr.le hq)
  have hs : Real.sin (atan2R (p * r * |ζ|) (p * r * -σ)) = |ζ| := mul_left_cancel₀ hpr.ne' (at2_sin hpr.le hq)
  have hk : 0 < r * n * p := by positivity
  unfold ab
  rw [hl, hd, hrf]
  split
  · rename_i h
    have hz : ζ < 0 := by by_contra hh; nlinarith [mul_nonneg hk.le (not_lt.1 hh)]
    rw [mul_one]; exact ⟨hc, by rw [hs, abs_of_neg hz]⟩
  · rename_i h
    have hz : 0 ≤ ζ := by by_contra hh; exact h (by nlinarith [mul_pos hk (neg_pos.2 (not_le.1 hh))])
    rw [mul_neg_one, Real.cos_neg, Real.sin_neg]
    exact ⟨hc, by rw [hs, abs_of_nonneg hz]⟩

/-- angle between the y axes, seen along z. -/
theorem ab_turn {n t : ℝ} (hn : 0 < n) :
    Real.cos (ab ![0, n, 0] ![-Real.sin t, Real.cos t, 0] ![-Real.cos t, -Real.sin t, 0]) = Real.cos t ∧
    Real.sin (ab ![0, n, 0] ![-Real.sin t, Real.cos t, 0] ![-Real.cos t, -Real.sin t, 0]) = -Real.sin t := by
  have hl : len3 (cr ![0, n, 0] ![-Real.sin t, Real.cos t, 0]) = n * |Real.sin t| := by
    have : len3 (cr ![0, n, 0] ![-Real.sin t, Real.cos t, 0]) = Real.sqrt ((n * |Real.sin t|) ^ 2) := by
      unfold len3; congr 1; simp [cr]; rw [mul_pow n |Real.sin t|, sq_abs]; ring
    rw [this, Real.sqrt_sq (by positivity)]
  have hd : dt ![0, n, 0] ![-Real.sin t, Real.cos t, 0] = n * Real.cos t := by simp [dt]
  have hrf : dt ![-Real.cos t, -Real.sin t, 0] ![0, n, 0] = -(n * Real.sin t) := by simp [dt]; ring
  have hq : (n * Real.cos t) ^ 2 + (n * |Real.sin t|) ^ 2 = n ^ 2 := by
    rw [mul_pow, mul_pow n |Real.sin t|, sq_abs]; linear_combination n ^ 2 * Real.sin_sq_add_cos_sq t
  have hc := mul_left_cancel₀ hn.ne' (at2_cos hn.le hq)
  have hs := mul_left_cancel₀ hn.ne' (at2_sin hn.le hq)
  unfold ab
  rw [hl, hd, hrf]
  split
  · rename_i h
    have hz : Real.sin t < 0 := by by_contra hh; nlinarith [mul_nonneg hn.le (not_lt.1 hh)]
    rw [mul_one]; exact ⟨hc, by rw [hs, abs_of_neg hz]⟩
  · rename_i h
    have hz : 0 ≤ Real.sin t := by by_contra hh; exact h (by nlinarith [mul_pos hn (neg_pos.2 (not_le.1 hh))])
    rw [mul_neg_one, Real.cos_neg, Real.sin_neg]
    exact ⟨hc, by rw [hs, abs_of_nonneg hz]⟩

/-- a rotation that keeps the z axis is a rotation about z. -/
theorem rotZ_of_fix {S : Mat3} (h : IsRotation S) (hz : S *ᵥ ![0, 0, 1] = ![0, 0, 1]) : ∃ t, S = rotZ t := by
  obtain ⟨r0, c2, e20, e10, e11, e21, r1⟩ := rot_facts h
  have z0 := congrFun hz 0; have z1 := congrFun hz 1; have z2 := congrFun hz 2
  simp [Matrix.mulVec, dotProduct, Fin.sum_univ_three] at z0 z1 z2
  rw [z0, z1] at e20; rw [z0, z2] at e10; rw [z0, z2] at e11; rw [z0, z1] at e21; rw [z1] at r1; rw [z0] at r0
  refine ⟨atan2R (S 1 0) (S 0 0), ?_⟩
  have e11' : S 1 1 = S 0 0 := by linarith
  have e10' : S 1 0 = -S 0 1 := by linarith
  have hc := at2_cos (x := S 0 0) (y := S 1 0) zero_le_one (by rw [e10']; nlinarith)
  have hs := at2_sin (x := S 0 0) (y := S 1 0) zero_le_one (by rw [e10']; nlinarith)
  rw [one_mul] at hc hs
  ext i j
  fin_cases i <;> fin_cases j <;> simp [rotZ, z0, z1, z2, hc, hs] <;> linarith

theorem rot_transpose {M : Mat3} (h : IsRotation M) : IsRotation Mᵀ :=
  ⟨by rw [Matrix.transpose_transpose]; exact mul_eq_one_comm.1 h.1, by rw [Matrix.det_transpose]; exact h.2⟩

theorem rot_back {M : Mat3} (h : IsRotation M) (v : Vec3) : M *ᵥ (Mᵀ *ᵥ v) = v := by
  rw [Matrix.mulVec_mulVec, mul_eq_one_comm.1 h.1, Matrix.one_mulVec]

/-- the three hand angles give the orientation wanted. -/
theorem hand {Q T : Mat3} (hQ : IsRotation Q) (hT : IsRotation T) {r p : ℝ} (hr : 0 < r) (hp : 0 < p) {J43 J45 nv xy : Vec3}
    (h43 : J43 = Q *ᵥ ![-r, 0, 0]) (h45 : J45 = T *ᵥ ![0, 0, p]) (hxy : xy = Q *ᵥ ![0, 10, 0])
    (hnv : nv = cr J45 J43 ∨ nv = -cr J45 J43) (hne : nv ≠ 0) :
    Q * rotX (ab nv xy (cr xy J43)) * rotY (Real.pi / 2 - ab J45 J43 (cr J43 nv)) * rotY Real.pi *
      rotZ (-ab nv (T *ᵥ ![0, 1, 0]) (cr (T *ᵥ ![0, 0, 1]) (T *ᵥ ![0, 1, 0]))) = T := by
  set τ := Qᵀ *ᵥ (T *ᵥ ![0, 0, 1]) with hτ
  have hTz : T *ᵥ ![0, 0, 1] = Q *ᵥ τ := (rot_back hQ _).symm
  have h45' : J45 = Q *ᵥ ![p * τ 0, p * τ 1, p * τ 2] := by
    have e : (![0, 0, p] : Vec3) = p • ![0, 0, 1] := by ext i; fin_cases i <;> simp
    have e' : (![p * τ 0, p * τ 1, p * τ 2] : Vec3) = p • τ := by ext i; fin_cases i <;> simp
    rw [h45, e, e', Matrix.mulVec_smul, Matrix.mulVec_smul, hTz]
  have hτ1 : τ 0 ^ 2 + τ 1 ^ 2 + τ 2 ^ 2 = 1 := by
    have : dt τ τ = 1 := by rw [hτ, dt_rot (rot_transpose hQ), dt_rot hT]; simp [dt]
    unfold dt at this; nlinarith
  -- nv in the frame Q
  obtain ⟨ε, hε, hn⟩ : ∃ ε : ℝ, ε ^ 2 = 1 ∧ nv = Q *ᵥ ![0, ε * (-(r * p * τ 2)), ε * (r * p * τ 1)] := by
    have e : cr J45 J43 = Q *ᵥ ![0, -(r * p * τ 2), r * p * τ 1] := by
      rw [h45', h43, cr_rot hQ]; congr 1; ext i; fin_cases i <;> simp [cr] <;> ring
    rcases hnv with h | h
    · exact ⟨1, by norm_num, by rw [h, e]; simp⟩
    · refine ⟨-1, by norm_num, ?_⟩
      rw [h, e, ← Matrix.mulVec_neg]; congr 1; ext i; fin_cases i <;> simp
  set y := ε * (-(r * p * τ 2)) with hy
  set z := ε * (r * p * τ 1) with hz
  have hyz : y ^ 2 + z ^ 2 ≠ 0 := by
    intro h
    have y0 : y = 0 := by nlinarith [sq_nonneg y, sq_nonneg z]
    have z0 : z = 0 := by nlinarith [sq_nonneg y, sq_nonneg z]
    apply hne; rw [hn, y0, z0]
    have : (![0, 0, 0] : Vec3) = 0 := by ext i; fin_cases i <;> rfl
    rw [this, Matrix.mulVec_zero]
  have h3 : ab nv xy (cr xy J43) = ab ![0, y, z] ![0, 10, 0] ![0, 0, 10 * r] := by
    rw [hn, hxy, h43, cr_rot hQ, ab_rot hQ]; congr 1; ext i; fin_cases i <;> simp [cr]
  obtain ⟨c3, s3⟩ := ab_hand (s := 10) (t := 10 * r) (by norm_num) (by positivity) hyz
  rw [← h3] at c3 s3
  generalize ab nv xy (cr xy J43) = R3 at c3 s3 ⊢
  set N := Real.sqrt (y ^ 2 + z ^ 2) with hN
  have hN0 : 0 < N := Real.sqrt_pos.2 (lt_of_le_of_ne (by positivity) (Ne.symm hyz))
  -- frame Q3
  set Q3 := Q * rotX R3 with hQ3
  have rQ3 : IsRotation Q3 := rot_mul hQ (rotX_rot _)
  have n3 : nv = Q3 *ᵥ ![0, N, 0] := by
    rw [hQ3, ← Matrix.mulVec_mulVec, hn]; congr 1
    ext i; fin_cases i <;> simp [rotX, Matrix.mulVec, dotProduct, Fin.sum_univ_three]
    · linarith
    · linarith
  have j3 : J43 = Q3 *ᵥ ![-r, 0, 0] := by
    rw [hQ3, ← Matrix.mulVec_mulVec, h43]; congr 1
    ext i; fin_cases i <;> simp [rotX, Matrix.mulVec, dotProduct, Fin.sum_univ_three]
  obtain ⟨ζ, tz3, hu⟩ : ∃ ζ, T *ᵥ ![0, 0, 1] = Q3 *ᵥ ![τ 0, 0, ζ] ∧ τ 0 ^ 2 + ζ ^ 2 = 1 := by
    have key : Real.cos R3 * τ 1 + Real.sin R3 * τ 2 = 0 := by
      have : N * (Real.cos R3 * τ 1 + Real.sin R3 * τ 2) = 0 := by
        calc _ = (N * Real.cos R3) * τ 1 + (N * Real.sin R3) * τ 2 := by ring
          _ = 0 := by rw [c3, s3, hy, hz]; ring
      exact (mul_eq_zero.1 this).resolve_left hN0.ne'
    have cs := Real.sin_sq_add_cos_sq R3
    refine ⟨-Real.sin R3 * τ 1 + Real.cos R3 * τ 2, ?_, ?_⟩
    · rw [hTz, hQ3, ← Matrix.mulVec_mulVec]; congr 1
      ext i; fin_cases i <;> simp [rotX, Matrix.mulVec, dotProduct, Fin.sum_univ_three]
      · linear_combination (-τ 1) * cs + Real.cos R3 * key
      · linear_combination (-τ 2) * cs + Real.sin R3 * key
    · linear_combination hτ1 + (τ 1 ^ 2 + τ 2 ^ 2) * cs - (Real.cos R3 * τ 1 + Real.sin R3 * τ 2) * key
  have j45 : J45 = Q3 *ᵥ ![p * τ 0, 0, p * ζ] := by
    have e : (![0, 0, p] : Vec3) = p • ![0, 0, 1] := by ext i; fin_cases i <;> simp
    have e' : (![p * τ 0, 0, p * ζ] : Vec3) = p • ![τ 0, 0, ζ] := by ext i; fin_cases i <;> simp
    rw [h45, e, e', Matrix.mulVec_smul, Matrix.mulVec_smul, tz3]
  have h4 : ab J45 J43 (cr J43 nv) = ab ![p * τ 0, 0, p * ζ] ![-r, 0, 0] ![0, 0, -(r * N)] := by
    rw [j45, j3, n3, cr_rot rQ3, ab_rot rQ3]; congr 1; ext i; fin_cases i <;> simp [cr]
  obtain ⟨c4, s4⟩ := ab_bend hp hr hN0 hu
  rw [← h4] at c4 s4
  generalize ab J45 J43 (cr J43 nv) = φ at c4 s4 ⊢
  -- the flange
  set B := Q3 * rotY (Real.pi / 2 - φ) * rotY Real.pi with hB
  have rB : IsRotation B := rot_mul (rot_mul rQ3 (rotY_rot _)) (rotY_rot _)
  have tzB : T *ᵥ ![0, 0, 1] = B *ᵥ ![0, 0, 1] := by
    rw [hB, ← Matrix.mulVec_mulVec, ← Matrix.mulVec_mulVec, tz3]; congr 1
    ext i; fin_cases i <;> simp [rotY, Matrix.mulVec, dotProduct, Fin.sum_univ_three, c4, s4, Real.sin_pi_div_two_sub, Real.cos_pi_div_two_sub]
  have nB : nv = B *ᵥ ![0, N, 0] := by
    rw [hB, ← Matrix.mulVec_mulVec, ← Matrix.mulVec_mulVec, n3]; congr 1
    ext i; fin_cases i <;> simp [rotY, Matrix.mulVec, dotProduct, Fin.sum_univ_three]
  obtain ⟨t, ht⟩ := rotZ_of_fix (S := Bᵀ * T) (rot_mul (rot_transpose rB) hT) (by
    rw [← Matrix.mulVec_mulVec, tzB, Matrix.mulVec_mulVec, rB.1, Matrix.one_mulVec])
  have hTB : T = B * rotZ t := by rw [← ht, ← Matrix.mul_assoc, mul_eq_one_comm.1 rB.1, Matrix.one_mul]
  have h5 : ab nv (T *ᵥ ![0, 1, 0]) (cr (T *ᵥ ![0, 0, 1]) (T *ᵥ ![0, 1, 0])) =
      ab ![0, N, 0] ![-Real.sin t, Real.cos t, 0] ![-Real.cos t, -Real.sin t, 0] := by
    have ty : T *ᵥ ![0, 1, 0] = B *ᵥ ![-Real.sin t, Real.cos t, 0] := by
      rw [hTB, ← Matrix.mulVec_mulVec]; congr 1
      ext i; fin_cases i <;> simp [rotZ, Matrix.mulVec, dotProduct, Fin.sum_univ_three]
    rw [ty, tzB, nB, cr_rot rB, ab_rot rB]; congr 1; ext i; fin_cases i <;> simp [cr]
  obtain ⟨c5, s5⟩ := ab_turn (t := t) hN0
  rw [← h5] at c5 s5
  generalize ab nv (T *ᵥ ![0, 1, 0]) (cr (T *ᵥ ![0, 0, 1]) (T *ᵥ ![0, 1, 0])) = ψ at c5 s5 ⊢
  have : rotZ (-ψ) = rotZ t := by unfold rotZ; simp only [Real.cos_neg, Real.sin_neg, c5, s5, neg_neg]
  rw [this, ← hTB]

/-! ### the arm -/
/-- the point at angle x on the unit circle. -/
noncomputable def ei (x : ℝ) : ℂ := ⟨Real.cos x, Real.sin x⟩
theorem ei_add (x y : ℝ) : ei (x + y) = ei x * ei y := by
  apply Complex.ext <;> simp [ei, Real.cos_add, Real.sin_add]; ring
theorem ei_zero : ei 0 = 1 := by apply Complex.ext <;> simp [ei]
theorem ei_neg_mul (x : ℝ) : ei (-x) * ei x = 1 := by rw [← ei_add, neg_add_cancel, ei_zero]
theorem ei_pi : ei Real.pi = -1 := by apply Complex.ext <;> simp [ei]

/-- the triangle of upper arm v, forearm l and shoulder-wrist distance p. -/
theorem triangle {v l p : ℝ} (hv : 0 < v) (hl : 0 < l) (hp : 0 < p) (h2 : |(-p ^ 2 + l ^ 2 + v ^ 2) / (2 * l * v)| ≤ 1) (h1 : |(p ^ 2 - l ^ 2 + v ^ 2) / (2 * p * v)| ≤ 1) :
    (v : ℂ) - l * ei (Real.arccos ((-p ^ 2 + l ^ 2 + v ^ 2) / (2 * l * v))) = p * ei (-Real.arccos ((p ^ 2 - l ^ 2 + v ^ 2) / (2 * p * v))) := by
  set x := (-p ^ 2 + l ^ 2 + v ^ 2) / (2 * l * v) with hx
  set y := (p ^ 2 - l ^ 2 + v ^ 2) / (2 * p * v) with hy
  have ex : l * x = (-p ^ 2 + l ^ 2 + v ^ 2) / (2 * v) := by rw [hx]; field_simp
  have ey : p * y = (p ^ 2 - l ^ 2 + v ^ 2) / (2 * v) := by rw [hy]; field_simp
  have cx := Real.cos_arccos (abs_le.1 h2).1 (abs_le.1 h2).2
  have cy := Real.cos_arccos (abs_le.1 h1).1 (abs_le.1 h1).2
  have sx : 0 ≤ Real.sin (Real.arccos x) := Real.sin_nonneg_of_nonneg_of_le_pi (Real.arccos_nonneg _) (Real.arccos_le_pi _)
  have sy : 0 ≤ Real.sin (Real.arccos y) := Real.sin_nonneg_of_nonneg_of_le_pi (Real.arccos_nonneg _) (Real.arccos_le_pi _)
  have qx := Real.sin_sq_add_cos_sq (Real.arccos x)
  have qy := Real.sin_sq_add_cos_sq (Real.arccos y)
  rw [cx] at qx; rw [cy] at qy
  have hc : v - l * x = p * y := by rw [ex, ey]; field_simp; ring
  have hs : l * Real.sin (Real.arccos x) = p * Real.sin (Real.arccos y) := by
    apply (pow_left_inj₀ (mul_nonneg hl.le sx) (mul_nonneg hp.le sy) two_ne_zero).1
    have a : (l * Real.sin (Real.arccos x)) ^ 2 = l ^ 2 - (l * x) ^ 2 := by linear_combination l ^ 2 * qx
    have b : (p * Real.sin (Real.arccos y)) ^ 2 = p ^ 2 - (p * y) ^ 2 := by linear_combination p ^ 2 * qy
    rw [a, b, ex, ey]; field_simp; ring
  apply Complex.ext
  · simp [ei, cx, cy, hc]
  · simp [ei, hs]

/-- shoulder and elbow angles of the code put the wrist at W (coordinates in the vertical plane of the arm). -/
theorem twolink {h j m o X Z v l p : ℝ} (hv2 : h ^ 2 + j ^ 2 = v ^ 2) (hl2 : m ^ 2 + o ^ 2 = l ^ 2) (hp2 : X ^ 2 + Z ^ 2 = p ^ 2) (hv : 0 < v) (hl : 0 < l) (hp : 0 < p)
    (h2 : |(-p ^ 2 + l ^ 2 + v ^ 2) / (2 * l * v)| ≤ 1) (h1 : |(p ^ 2 - l ^ 2 + v ^ 2) / (2 * p * v)| ≤ 1) {R1 R2 : ℝ}
    (hR1 : R1 = Real.pi / 2 - atan2R h j - atan2R Z X - Real.arccos ((p ^ 2 - l ^ 2 + v ^ 2) / (2 * p * v)))
    (hR2 : R2 = Real.pi / 2 + atan2R o m + atan2R h j - Real.arccos ((-p ^ 2 + l ^ 2 + v ^ 2) / (2 * l * v))) :
    ei (-R1) * ((⟨h, j⟩ : ℂ) + ei (-R2) * ⟨m, o⟩) = ⟨X, Z⟩ := by
  have t := triangle hv hl hp h2 h1
  generalize Real.arccos ((p ^ 2 - l ^ 2 + v ^ 2) / (2 * p * v)) = δ at *
  generalize Real.arccos ((-p ^ 2 + l ^ 2 + v ^ 2) / (2 * l * v)) = γ at *
  set a := Real.pi / 2 - atan2R h j with ha
  have w1 : (⟨h, j⟩ : ℂ) = v * ei a := by
    have c := at2_cos (x := j) (y := h) hv.le (by linarith)
    have s := at2_sin (x := j) (y := h) hv.le (by linarith)
    apply Complex.ext
    · simp [ei, ha, Real.cos_pi_div_two_sub]; linarith
    · simp [ei, ha, Real.sin_pi_div_two_sub]; linarith
  have w2 : (⟨m, o⟩ : ℂ) = l * ei (atan2R o m) := by
    have c := at2_cos (x := m) (y := o) hl.le hl2
    have s := at2_sin (x := m) (y := o) hl.le hl2
    apply Complex.ext <;> simp [ei, c, s]
  have w3 : (⟨X, Z⟩ : ℂ) = p * ei (atan2R Z X) := by
    have c := at2_cos (x := X) (y := Z) hp.le hp2
    have s := at2_sin (x := X) (y := Z) hp.le hp2
    apply Complex.ext <;> simp [ei, c, s]
  generalize atan2R o m = φ at *
  generalize atan2R Z X = ω at *
  have e1 : -R1 = ω + δ + -a := by rw [hR1]; ring
  have e2 : -R2 = a + γ + -φ + -Real.pi := by
    have : atan2R h j = Real.pi / 2 - a := by rw [ha]; ring
    rw [hR2, this]; ring
  have ep : ei (-Real.pi) = -1 := by apply Complex.ext <;> simp [ei]
  have i1 := ei_neg_mul a
  have i2 := ei_neg_mul φ
  have i3 := ei_neg_mul δ
  rw [w1, w2, w3, e1, e2]
  simp only [ei_add, ep]
  linear_combination (ei ω * ei δ * (v - l * ei γ * (ei (-φ) * ei φ))) * i1 - (ei ω * ei δ * l * ei γ) * i2 + ei ω * ei δ * t + ei ω * p * i3

/-- turning the base towards the wrist. -/
theorem base {X Y y L R0 : ℝ} (hL2 : X ^ 2 + Y ^ 2 = L ^ 2) (hL : 0 < L) (h : |-y / L| ≤ 1) (hR : R0 = Real.pi / 2 - Real.arccos (-y / L) + atan2R Y X) :
    Real.cos R0 * X + Real.sin R0 * Y = Real.sqrt (L ^ 2 - y ^ 2) ∧ -Real.sin R0 * X + Real.cos R0 * Y = y := by
  have c := at2_cos (x := X) (y := Y) hL.le hL2
  have s := at2_sin (x := X) (y := Y) hL.le hL2
  have hR' : R0 = Real.arcsin (-y / L) + atan2R Y X := by rw [hR, Real.arccos]; ring
  have sB := Real.sin_arcsin (abs_le.1 h).1 (abs_le.1 h).2
  have cB := Real.cos_arcsin (-y / L)
  have q := Real.sin_sq_add_cos_sq (atan2R Y X)
  generalize atan2R Y X = φ at *
  generalize Real.arcsin (-y / L) = β at *
  rw [hR', Real.cos_add, Real.sin_add, ← c, ← s]
  constructor
  · have : Real.sqrt (L ^ 2 - y ^ 2) = L * Real.cos β := by
      rw [cB, ← Real.sqrt_sq hL.le, ← Real.sqrt_mul (sq_nonneg _), Real.sqrt_sq hL.le]
      congr 1; field_simp
    rw [this]; linear_combination L * Real.cos β * q
  · have : y = -(L * Real.sin β) := by rw [sB]; field_simp
    rw [this]; linear_combination -(L * Real.sin β) * q

open Classical in
/-- the normal vector after the flip. -/
noncomputable def flip (n xy c : Vec3) : Vec3 := if 1 / 10000 ≤ |ab n xy c| - Real.pi / 2 then -n else n

theorem flip_cases (n xy c : Vec3) : flip n xy c = n ∨ flip n xy c = -n := by
  unfold flip; split
  · exact .inr rfl
  · exact .inl rfl

/-! ### the whole inverse kinematics in real numbers -/
/-- the result of a successful inverse kinematics, as a relation. -/
structure IK (G : Fin 5 → Vec3) (P A : Fin 6 → ℝ) : Prop where
  a0 : A 0 = Real.pi / 2 - Real.arccos (-offset G / axisDist G P) + atan2R (wristOf G P 1) (wristOf G P 0)
  a1 : A 1 = Real.pi / 2 - atan2R (G 1 0) (G 1 2) - atan2R (wristOf G P 2 - G 0 2) (Real.sqrt (axisDist G P ^ 2 - offset G ^ 2) - G 0 0) -
    Real.arccos ((reach G P ^ 2 - foreLen G ^ 2 + upperLen G ^ 2) / (2 * reach G P * upperLen G))
  a2 : A 2 = Real.pi / 2 + atan2R (G 2 2 + G 3 2) (G 2 0 + G 3 0) + atan2R (G 1 0) (G 1 2) -
    Real.arccos ((-reach G P ^ 2 + foreLen G ^ 2 + upperLen G ^ 2) / (2 * foreLen G * upperLen G))
  hand : ∃ J45 J43 nv xy, J45 = ![P 0, P 1, P 2] - wristOf G P ∧ J43 = jointPos G A 3 - wristOf G P ∧
    xy = ![10 * Real.cos (A 0 + Real.pi / 2), 10 * Real.sin (A 0 + Real.pi / 2), 0] ∧ nv = flip (cr J45 J43) xy (cr xy ![0, 0, 1]) ∧
    A 3 = ab nv xy (cr xy J43) ∧ (∃ k : ℤ, A 4 = Real.pi / 2 - ab J45 J43 (cr J43 nv) + k * (2 * Real.pi) ∧ |A 4| ≤ Real.pi) ∧
    A 5 = -ab nv (orientOf P *ᵥ ![0, 1, 0]) (cr (orientOf P *ᵥ ![0, 0, 1]) (orientOf P *ᵥ ![0, 1, 0]))

theorem acos_div_ok {x y : ℝ} (hy : y ≠ 0) (h : |x / y| ≤ 1) : FloatOps.acos (fin x / fin y : XR) = fin (Real.arccos (x / y)) := by
  rw [fin_div _ _ hy, ops_acos _ h]
theorem acos_div_nan {x y : ℝ} (h : ¬ (y ≠ 0 ∧ |x / y| ≤ 1)) : FloatOps.acos (fin x / fin y : XR) = nan := by
  by_cases hy : y = 0
  · subst hy
    show XR.acos (XR.div _ _) = _
    by_cases hx : x = 0
    · simp [XR.div, hx, XR.acos]
    · simp [XR.div, hx, XR.acos]
  · have : ¬ |x / y| ≤ 1 := fun hh => h ⟨hy, hh⟩
    rw [fin_div _ _ hy]; show XR.acos _ = _; simp [XR.acos, this]

theorem targetZ_fin (P : Fin 6 → ℝ) : Kin.targetZ (finS P) = finV (orientOf P *ᵥ ![0, 0, 1]) := by
  simp only [Kin.targetZ, finS, ops_sin, ops_cos, fin_neg, fin_mul, finV, V3.mk.injEq, fin.injEq]
  simp [orientOf, orient, rotX, rotY, rotZ, Matrix.mulVec, dotProduct, Fin.sum_univ_three, Matrix.mul_apply]
theorem targetY_fin (P : Fin 6 → ℝ) : Kin.targetY (finS P) = finV (orientOf P *ᵥ ![0, 1, 0]) := by
  simp only [Kin.targetY, finS, ops_sin, ops_cos, fin_neg, fin_mul, fin_add, fin_sub, finV, V3.mk.injEq, fin.injEq]
  simp [orientOf, orient, rotX, rotY, rotZ, Matrix.mulVec, dotProduct, Fin.sum_univ_three, Matrix.mul_apply]
  refine ⟨?_, ?_⟩ <;> ring

theorem v4len_fin (G : Fin 5 → Vec3) : (Kin.new (finG G)).v4len = fin (len3 (G 4)) := by
  simp only [Kin.new, finG, finV, fin_mul, fin_add]
  rw [ops_sqrt _ (by nlinarith [sq_nonneg (G 4 0), sq_nonneg (G 4 1), sq_nonneg (G 4 2)])]
  unfold len3; congr 2; ring
theorem v1len_fin (G : Fin 5 → Vec3) : (Kin.new (finG G)).v1len = fin (upperLen G) := by
  simp only [Kin.new, finG, finV, fin_mul, fin_add]
  rw [ops_sqrt _ (by nlinarith [sq_nonneg (G 1 0), sq_nonneg (G 1 2)])]
  unfold upperLen; congr 2; ring
theorem ikl_fin (G : Fin 5 → Vec3) : (Kin.new (finG G)).ikl = fin (foreLen G) := by
  simp only [Kin.ikl, Kin.new, finG, finV, fin_add, length2_fin]
  unfold foreLen; congr 2; ring
theorem halfPi_fin : (Kin.halfPi : XR) = fin (Real.pi / 2) := by
  simp only [Kin.halfPi, ops_pi, lit, ops_lit]; rw [fin_div _ _ (by norm_num)]; norm_num
theorem zero_fin : (Kin.zero : XR) = fin 0 := by simp [Kin.zero, lit]
theorem wrist_fin (G : Fin 5 → Vec3) (P : Fin 6 → ℝ) : (Kin.new (finG G)).wrist (finS P) = finV (wristOf G P) := by
  simp only [Kin.wrist, targetZ_fin, v4len_fin]
  simp only [finS, finV, fin_mul, fin_sub]
  simp [wristOf]
theorem aCorr1_fin (G : Fin 5 → Vec3) : (Kin.new (finG G)).aCorr1 = fin (Real.pi / 2 - atan2R (G 1 0) (G 1 2)) := by
  simp only [Kin.new, zero_fin, halfPi_fin, finG, finV, ops_atan2, fin_add, fin_sub, zero_add]
theorem aCorr2_fin (G : Fin 5 → Vec3) : (Kin.new (finG G)).aCorr2 = fin (Real.pi / 2 + atan2R (G 2 2 + G 3 2) (G 2 0 + G 3 0) + atan2R (G 1 0) (G 1 2)) := by
  simp only [Kin.new, zero_fin, halfPi_fin, finG, finV, ops_atan2, fin_add, fin_sub, zero_add]
theorem aCorr4_fin (G : Fin 5 → Vec3) : (Kin.new (finG G)).aCorr4 = fin (Real.pi / 2) := by
  simp only [Kin.new, zero_fin, halfPi_fin, fin_add, zero_add]
theorem j1_fin (G : Fin 5 → Vec3) : (Kin.new (finG G)).j1 = finV (G 0) := by
  simp only [Kin.new, zero_fin, finG, finV, fin_add, zero_add]
theorem j4y_fin (G : Fin 5 → Vec3) : (Kin.new (finG G)).j4.y = fin (offset G) := by
  simp only [Kin.new, zero_fin, finG, finV, fin_add, zero_add, offset]

theorem axisDist_sq (G P) : wristOf G P 0 ^ 2 + wristOf G P 1 ^ 2 = axisDist G P ^ 2 := by
  unfold axisDist; rw [Real.sq_sqrt (by positivity)]

theorem abs_div_le {x y : ℝ} (hy : 0 < y) : |x / y| ≤ 1 ↔ |x| ≤ y := by
  rw [abs_div, abs_of_pos hy, div_le_one hy]

open Classical in
theorem ik0_fin (G : Fin 5 → Vec3) (P : Fin 6 → ℝ) : (Kin.new (finG G)).ik0 (finV (wristOf G P)) =
    if 0 < axisDist G P ∧ |offset G| ≤ axisDist G P then
      fin (Real.pi / 2 - Real.arccos (-offset G / axisDist G P) + atan2R (wristOf G P 1) (wristOf G P 0)) else nan := by
  have hl : Kin.length2 (-(finV (wristOf G P)).y) (finV (wristOf G P)).x = fin (axisDist G P) := by
    simp only [finV, fin_neg, length2_fin]; unfold axisDist; congr 2; ring
  unfold Kin.ik0
  simp only [hl, j4y_fin, fin_neg, zero_fin, halfPi_fin]
  have h0 : 0 ≤ axisDist G P := Real.sqrt_nonneg _
  split
  · rename_i h
    rw [acos_div_ok h.1.ne' ((abs_div_le h.1).2 (by rw [abs_neg]; exact h.2))]
    simp only [finV, ops_atan2, fin_sub, fin_add, zero_add]
  · rename_i h
    rw [acos_div_nan]
    · simp
    · rintro ⟨h1, h2⟩
      have h3 : 0 < axisDist G P := lt_of_le_of_ne h0 (Ne.symm h1)
      exact h ⟨h3, by rw [abs_div_le h3, abs_neg] at h2; exact h2⟩

theorem reach_sq (G P) : reach G P ^ 2 = (Real.sqrt (axisDist G P ^ 2 - offset G ^ 2) - G 0 0) ^ 2 + (wristOf G P 2 - G 0 2) ^ 2 := by
  unfold reach; rw [Real.sq_sqrt (by positivity)]

theorem ikx_fin {G : Fin 5 → Vec3} {P : Fin 6 → ℝ} {R0 : ℝ} (h : 0 < axisDist G P) (h' : |offset G| ≤ axisDist G P)
    (hR : R0 = Real.pi / 2 - Real.arccos (-offset G / axisDist G P) + atan2R (wristOf G P 1) (wristOf G P 0)) :
    Kin.ikx (fin R0) (finV (wristOf G P)) = fin (Real.sqrt (axisDist G P ^ 2 - offset G ^ 2)) := by
  simp only [Kin.ikx, finV, ops_cos, ops_sin, fin_mul, fin_add]
  rw [(base (axisDist_sq G P) h ((abs_div_le h).2 (by rw [abs_neg]; exact h')) hR).1]

theorem ikpls_fin (G : Fin 5 → Vec3) (P : Fin 6 → ℝ) :
    (Kin.new (finG G)).ikpls (fin (Real.sqrt (axisDist G P ^ 2 - offset G ^ 2))) (finV (wristOf G P)).z = fin (reach G P ^ 2) := by
  simp only [Kin.ikpls, j1_fin]
  simp only [finV, fin_sub, fin_mul, fin_add, reach_sq]
  congr 1; ring

/-- the three sides make a triangle. -/
theorem tri_iff {v l p : ℝ} (hv : 0 < v) (hl : 0 < l) (hp : 0 ≤ p) :
    (2 * l * v ≠ 0 ∧ |(-p ^ 2 + l ^ 2 + v ^ 2) / (2 * l * v)| ≤ 1) ∧ (2 * p * v ≠ 0 ∧ |(p ^ 2 - l ^ 2 + v ^ 2) / (2 * p * v)| ≤ 1) ↔
      0 < p ∧ |v - l| ≤ p ∧ p ≤ v + l := by
  have hlv : 0 < 2 * l * v := by positivity
  constructor
  · rintro ⟨⟨_, h2⟩, h3, _⟩
    have hp' : 0 < p := lt_of_le_of_ne hp (by rintro rfl; simp at h3)
    rw [abs_div_le hlv, abs_le] at h2
    refine ⟨hp', abs_le_of_sq_le_sq (by nlinarith) hp, ?_⟩
    exact le_of_sq_le_sq (by nlinarith) (by positivity)
  · rintro ⟨hp', h1, h2⟩
    have hpv : 0 < 2 * p * v := by positivity
    rw [abs_le] at h1
    refine ⟨⟨hlv.ne', ?_⟩, hpv.ne', ?_⟩
    · rw [abs_div_le hlv, abs_le]; constructor <;> nlinarith
    · rw [abs_div_le hpv, abs_le]; constructor <;> nlinarith

theorem ik2_fin (G : Fin 5 → Vec3) (p : ℝ) (h : 2 * foreLen G * upperLen G ≠ 0 ∧ |(-p ^ 2 + foreLen G ^ 2 + upperLen G ^ 2) / (2 * foreLen G * upperLen G)| ≤ 1) :
    (Kin.new (finG G)).ik2 (fin (p ^ 2)) = fin (Real.pi / 2 + atan2R (G 2 2 + G 3 2) (G 2 0 + G 3 0) + atan2R (G 1 0) (G 1 2) -
      Real.arccos ((-p ^ 2 + foreLen G ^ 2 + upperLen G ^ 2) / (2 * foreLen G * upperLen G))) := by
  simp only [Kin.ik2, aCorr2_fin, ikl_fin, v1len_fin, fin_neg, fin_mul, fin_add, lit, ops_lit, Rat.cast_ofNat, ← pow_two]
  rw [acos_div_ok h.1 h.2, fin_sub]
theorem ik2_nan (G : Fin 5 → Vec3) (p : ℝ) (h : ¬ (2 * foreLen G * upperLen G ≠ 0 ∧ |(-p ^ 2 + foreLen G ^ 2 + upperLen G ^ 2) / (2 * foreLen G * upperLen G)| ≤ 1)) :
    (Kin.new (finG G)).ik2 (fin (p ^ 2)) = nan := by
  simp only [Kin.ik2, aCorr2_fin, ikl_fin, v1len_fin, fin_neg, fin_mul, fin_add, lit, ops_lit, Rat.cast_ofNat, ← pow_two]
  rw [acos_div_nan h, sub_nan]

theorem ik1_fin (G : Fin 5 → Vec3) (X Z p : ℝ) (hp : 0 ≤ p) (h : 2 * p * upperLen G ≠ 0 ∧ |(p ^ 2 - foreLen G ^ 2 + upperLen G ^ 2) / (2 * p * upperLen G)| ≤ 1) :
    (Kin.new (finG G)).ik1 (fin X) (fin Z) (fin (p ^ 2)) = fin (Real.pi / 2 - atan2R (G 1 0) (G 1 2) - atan2R (Z - G 0 2) (X - G 0 0) -
      Real.arccos ((p ^ 2 - foreLen G ^ 2 + upperLen G ^ 2) / (2 * p * upperLen G))) := by
  simp only [Kin.ik1, aCorr1_fin, ikl_fin, v1len_fin, j1_fin, finV, fin_neg, ops_sqrt _ (sq_nonneg p), Real.sqrt_sq hp, fin_sub, fin_mul, fin_add, lit, ops_lit, Rat.cast_ofNat, ← pow_two, ops_atan2]
  rw [acos_div_ok h.1 h.2, fin_sub]
theorem ik1_nan (G : Fin 5 → Vec3) (X Z p : ℝ) (hp : 0 ≤ p) (h : ¬ (2 * p * upperLen G ≠ 0 ∧ |(p ^ 2 - foreLen G ^ 2 + upperLen G ^ 2) / (2 * p * upperLen G)| ≤ 1)) :
    (Kin.new (finG G)).ik1 (fin X) (fin Z) (fin (p ^ 2)) = nan := by
  simp only [Kin.ik1, aCorr1_fin, ikl_fin, v1len_fin, j1_fin, finV, fin_neg, ops_sqrt _ (sq_nonneg p), Real.sqrt_sq hp, fin_sub, fin_mul, fin_add, lit, ops_lit, Rat.cast_ofNat, ← pow_two, ops_atan2]
  rw [acos_div_nan h, sub_nan]

theorem ikJ3_fin (G : Fin 5 → Vec3) (A : Fin 6 → ℝ) : (Kin.new (finG G)).ikJ3 (fin (A 0)) (fin (A 1)) (fin (A 2)) = finV (jointPos G A 3) := by
  rw [← (coords_J G A).2.2.1]
  simp only [Kin.ikJ3, Kin.coords, Kin.new, finV, finG, finS, Kin.zero, lit, ops_cos, ops_sin, fin_mul, fin_add, fin_sub, fin_neg, ops_lit, V3.mk.injEq, XR.fin.injEq, Rat.cast_zero]
  refine ⟨?_, ?_, ?_⟩ <;> ring

theorem jointPos3_congr (G : Fin 5 → Vec3) {A B : Fin 6 → ℝ} (h0 : A 0 = B 0) (h1 : A 1 = B 1) (h2 : A 2 = B 2) : jointPos G A 3 = jointPos G B 3 := by
  simp only [jointPos, Fin.sum_univ_five, linkFrame, jointRot, h0, h1, h2]
  simp

theorem ikxy_fin (R0 : ℝ) : Kin.ikxy (fin R0) = finV ![10 * Real.cos (R0 + Real.pi / 2), 10 * Real.sin (R0 + Real.pi / 2), 0] := by
  simp only [Kin.ikxy, halfPi_fin, fin_add, ops_cos, ops_sin, lit, ops_lit, fin_mul]
  simp [finV]

theorem ikn_fin (R0 : ℝ) (J45 J43 : Vec3) : Kin.ikn (fin R0) (finV J45) (finV J43) =
    finV (flip (cr J45 J43) ![10 * Real.cos (R0 + Real.pi / 2), 10 * Real.sin (R0 + Real.pi / 2), 0]
      (cr ![10 * Real.cos (R0 + Real.pi / 2), 10 * Real.sin (R0 + Real.pi / 2), 0] ![0, 0, 1])) := by
  have hz : (⟨lit 0, lit 0, lit 1⟩ : V3 XR) = finV ![0, 0, 1] := by simp [finV, lit]
  have hq : (lit (1 / 10000) : XR) = fin (1 / 10000) := by simp [lit]
  unfold Kin.ikn
  rw [hz, cross_fin, ikxy_fin, cross_fin]
  extract_lets nv c
  rw [show Kin.angleBetween nv _ c = _ from angleBetween_fin _ _ _, ops_abs, halfPi_fin, fin_sub, hq]
  show (if FloatOps.le _ _ = true then _ else _) = _
  rw [ops_le]
  unfold flip
  by_cases h : 1 / 10000 ≤ |ab (cr J45 J43) ![10 * Real.cos (R0 + Real.pi / 2), 10 * Real.sin (R0 + Real.pi / 2), 0]
      (cr ![10 * Real.cos (R0 + Real.pi / 2), 10 * Real.sin (R0 + Real.pi / 2), 0] ![0, 0, 1])| - Real.pi / 2
  · rw [if_pos (by simpa using h), if_pos h]; simp [nv, finV, lit, fin_mul]
  · rw [if_neg (by simpa using h), if_neg h]

theorem ik3_fin (R0 : ℝ) (J43 nv : Vec3) : Kin.ik3 (fin R0) (finV J43) (finV nv) =
    fin (ab nv ![10 * Real.cos (R0 + Real.pi / 2), 10 * Real.sin (R0 + Real.pi / 2), 0] (cr ![10 * Real.cos (R0 + Real.pi / 2), 10 * Real.sin (R0 + Real.pi / 2), 0] J43)) := by
  unfold Kin.ik3; rw [ikxy_fin, cross_fin, angleBetween_fin]

theorem ab_le (a b r : Vec3) : |ab a b r| ≤ Real.pi := by
  have h := at2_range (len3 (cr a b)) (dt a b)
  unfold ab
  split
  · rw [mul_one, abs_le]; exact ⟨h.1.le, h.2⟩
  · rw [mul_neg_one, abs_neg, abs_le]; exact ⟨h.1.le, h.2⟩

theorem ik4_fin (G : Fin 5 → Vec3) (J45 J43 nv : Vec3) :
    ∃ k : ℤ, (Kin.new (finG G)).ik4 (finV J45) (finV J43) (finV nv) = fin (Real.pi / 2 - ab J45 J43 (cr J43 nv) + k * (2 * Real.pi)) ∧
      |Real.pi / 2 - ab J45 J43 (cr J43 nv) + k * (2 * Real.pi)| ≤ Real.pi := by
  unfold Kin.ik4
  simp only [cross_fin, angleBetween_fin, aCorr4_fin, fin_sub, lit, ops_lit, ops_pi, fin_mul, fin_add]
  have h2 : ((2 : ℚ) : ℝ) * Real.pi ≠ 0 := by simp [Real.pi_ne_zero]
  show ∃ k : ℤ, (XR.fmod _ _ - _ : XR) = _ ∧ _
  simp only [XR.fmod, if_neg h2, fin_sub]
  refine ⟨-XR.trunc ((((1 : ℚ) : ℝ) * Real.pi + (Real.pi / 2 - ab J45 J43 (cr J43 nv))) / (((2 : ℚ) : ℝ) * Real.pi)), ?_, ?_⟩
  · congr 1; push_cast; ring
  · have hl := abs_le.1 (ab_le J45 J43 (cr J43 nv))
    have hp := Real.pi_pos
    push_cast
    set w := ab J45 J43 (cr J43 nv)
    have hx : 0 ≤ (1 * Real.pi + (Real.pi / 2 - w)) / (2 * Real.pi) := by apply div_nonneg <;> linarith
    rw [trunc, if_pos hx]
    have f1 := Int.floor_le ((1 * Real.pi + (Real.pi / 2 - w)) / (2 * Real.pi))
    have f2 := Int.lt_floor_add_one ((1 * Real.pi + (Real.pi / 2 - w)) / (2 * Real.pi))
    rw [le_div_iff₀ (by positivity)] at f1
    rw [div_lt_iff₀ (by positivity)] at f2
    rw [abs_le]; constructor <;> nlinarith

theorem ik5_fin (P : Fin 6 → ℝ) (nv : Vec3) : Kin.ik5 (finS P) (finV nv) =
    fin (-ab nv (orientOf P *ᵥ ![0, 1, 0]) (cr (orientOf P *ᵥ ![0, 0, 1]) (orientOf P *ᵥ ![0, 1, 0]))) := by
  unfold Kin.ik5
  simp only [targetY_fin, targetZ_fin, cross_fin, angleBetween_fin, zero_fin, fin_sub, zero_sub, fgt, ops_pi, ops_lt]
  rw [if_neg]
  simp only [decide_eq_true_eq, not_lt]
  exact le_trans (neg_le_abs _) (ab_le _ _ _)

theorem inverse_some {G : Fin 5 → Vec3} {P : Fin 6 → ℝ} (hv : 0 < upperLen G) (hl : 0 < foreLen G) (h : InReach G P) :
    ∃ A, (Kin.new (finG G)).inverse (finS P) = some (finS A) ∧ IK G P A := by
  obtain ⟨c2, c1⟩ := (tri_iff hv hl h.off_shoulder.le).2 ⟨h.off_shoulder, h.near, h.far⟩
  set R0 := Real.pi / 2 - Real.arccos (-offset G / axisDist G P) + atan2R (wristOf G P 1) (wristOf G P 0) with hR0
  set R1 := Real.pi / 2 - atan2R (G 1 0) (G 1 2) - atan2R (wristOf G P 2 - G 0 2) (Real.sqrt (axisDist G P ^ 2 - offset G ^ 2) - G 0 0) -
    Real.arccos ((reach G P ^ 2 - foreLen G ^ 2 + upperLen G ^ 2) / (2 * reach G P * upperLen G)) with hR1
  set R2 := Real.pi / 2 + atan2R (G 2 2 + G 3 2) (G 2 0 + G 3 0) + atan2R (G 1 0) (G 1 2) -
    Real.arccos ((-reach G P ^ 2 + foreLen G ^ 2 + upperLen G ^ 2) / (2 * foreLen G * upperLen G)) with hR2
  have e0 : (Kin.new (finG G)).ik0 (finV (wristOf G P)) = fin R0 := by rw [ik0_fin, if_pos ⟨h.off_axis, h.cylinder⟩]
  have ex := ikx_fin h.off_axis h.cylinder hR0
  have ep := ikpls_fin G P
  have e2 := ik2_fin G (reach G P) c2
  have e1 := ik1_fin G (Real.sqrt (axisDist G P ^ 2 - offset G ^ 2)) (wristOf G P 2) (reach G P) h.off_shoulder.le c1
  set J3 := jointPos G (![R0, R1, R2, 0, 0, 0]) 3 with hJ3
  have e3 := ikJ3_fin G ![R0, R1, R2, 0, 0, 0]
  have en := ikn_fin R0 (![P 0, P 1, P 2] - wristOf G P) (J3 - wristOf G P)
  generalize hn : flip (cr (![P 0, P 1, P 2] - wristOf G P) (J3 - wristOf G P)) _ _ = nv at en
  obtain ⟨k, e4, e4'⟩ := ik4_fin G (![P 0, P 1, P 2] - wristOf G P) (J3 - wristOf G P) nv
  have e5 := ik5_fin P nv
  have e3' := ik3_fin R0 (J3 - wristOf G P) nv
  have j45 : (⟨finS P 0 - (finV (wristOf G P)).x, finS P 1 - (finV (wristOf G P)).y, finS P 2 - (finV (wristOf G P)).z⟩ : V3 XR) = finV (![P 0, P 1, P 2] - wristOf G P) := by
    simp [finS, finV]
  have j43 : (⟨(finV J3).x - (finV (wristOf G P)).x, (finV J3).y - (finV (wristOf G P)).y, (finV J3).z - (finV (wristOf G P)).z⟩ : V3 XR) = finV (J3 - wristOf G P) := by
    simp [finV]
  refine ⟨![R0, R1, R2, ab nv ![10 * Real.cos (R0 + Real.pi / 2), 10 * Real.sin (R0 + Real.pi / 2), 0]
    (cr ![10 * Real.cos (R0 + Real.pi / 2), 10 * Real.sin (R0 + Real.pi / 2), 0] (J3 - wristOf G P)),
    Real.pi / 2 - ab (![P 0, P 1, P 2] - wristOf G P) (J3 - wristOf G P) (cr (J3 - wristOf G P) nv) + k * (2 * Real.pi),
    -ab nv (orientOf P *ᵥ ![0, 1, 0]) (cr (orientOf P *ᵥ ![0, 0, 1]) (orientOf P *ᵥ ![0, 1, 0]))], ?_, ?_⟩
  · unfold Kin.inverse
    have e1' : (Kin.new (finG G)).ik1 (fin (Real.sqrt (axisDist G P ^ 2 - offset G ^ 2))) (finV (wristOf G P)).z (fin (reach G P ^ 2)) = fin R1 := e1
    have e2' : (Kin.new (finG G)).ik2 (fin (reach G P ^ 2)) = fin R2 := e2
    have e3'' : (Kin.new (finG G)).ikJ3 (fin R0) (fin R1) (fin R2) = finV J3 := e3
    simp only [wrist_fin, e0, ex, ep, e2', e1', e3'', j45, j43, en, e4, e5, e3', isNaN_fin, Bool.or_self, Bool.false_eq_true, if_false]
    congr 1
    funext i; fin_cases i <;> rfl
  · refine ⟨hR0, hR1, hR2, _, J3 - wristOf G P, nv, _, rfl, ?_, rfl, hn.symm, rfl, ⟨k, rfl, e4'⟩, rfl⟩
    exact congrArg (· - wristOf G P) (jointPos3_congr G rfl rfl rfl)

theorem inverse_none {G : Fin 5 → Vec3} {P : Fin 6 → ℝ} (hv : 0 < upperLen G) (hl : 0 < foreLen G) (h : ¬ InReach G P) :
    (Kin.new (finG G)).inverse (finS P) = none := by
  unfold Kin.inverse
  simp only [wrist_fin]
  by_cases h0 : 0 < axisDist G P ∧ |offset G| ≤ axisDist G P
  · have e0 := ik0_fin G P
    rw [if_pos h0] at e0
    rw [e0, ikx_fin h0.1 h0.2 rfl, ikpls_fin]
    by_cases c2 : 2 * foreLen G * upperLen G ≠ 0 ∧ |(-reach G P ^ 2 + foreLen G ^ 2 + upperLen G ^ 2) / (2 * foreLen G * upperLen G)| ≤ 1
    · by_cases c1 : 2 * reach G P * upperLen G ≠ 0 ∧ |(reach G P ^ 2 - foreLen G ^ 2 + upperLen G ^ 2) / (2 * reach G P * upperLen G)| ≤ 1
      · obtain ⟨h1, h2, h3⟩ := (tri_iff hv hl (Real.sqrt_nonneg _ : 0 ≤ reach G P)).1 ⟨c2, c1⟩
        exact absurd ⟨h0.1, h0.2, h1, h2, h3⟩ h
      · have := ik1_nan G (Real.sqrt (axisDist G P ^ 2 - offset G ^ 2)) (wristOf G P 2) (reach G P) (Real.sqrt_nonneg _) c1
        rw [show (finV (wristOf G P)).z = fin (wristOf G P 2) from rfl, this]
        simp
    · rw [ik2_nan G _ c2]; simp
  · have e0 := ik0_fin G P
    rw [if_neg h0] at e0
    rw [e0]; simp

/-! ### correctness -/
theorem arm_pos {G : Fin 5 → Vec3} {P A : Fin 6 → ℝ} (hG : Supported G) (hv : 0 < upperLen G) (hl : 0 < foreLen G) (h : InReach G P) (hA : IK G P A) :
    jointPos G A 4 = wristOf G P := by
  obtain ⟨c2, c1⟩ := (tri_iff hv hl h.off_shoulder.le).2 ⟨h.off_shoulder, h.near, h.far⟩
  have t := twolink (h := G 1 0) (j := G 1 2) (m := G 2 0 + G 3 0) (o := G 2 2 + G 3 2)
    (X := Real.sqrt (axisDist G P ^ 2 - offset G ^ 2) - G 0 0) (Z := wristOf G P 2 - G 0 2) (v := upperLen G) (l := foreLen G) (p := reach G P)
    (by unfold upperLen; rw [Real.sq_sqrt (by positivity)]) (by unfold foreLen; rw [Real.sq_sqrt (by positivity)]) (reach_sq G P).symm hv hl h.off_shoulder c2.2 c1.2 hA.a1 hA.a2
  obtain ⟨b1, b2⟩ := base (axisDist_sq G P) h.off_axis ((abs_div_le h.off_axis).2 (by rw [abs_neg]; exact h.cylinder)) hA.a0
  obtain ⟨g0, g1, g2⟩ := hG.fore
  have t1 := congrArg Complex.re t
  have t2 := congrArg Complex.im t
  simp [ei] at t1 t2
  rw [g2] at t1 t2
  have cs := Real.sin_sq_add_cos_sq (A 0)
  have hy : offset G = G 0 1 + G 1 1 + G 2 1 := by unfold offset; rw [g1, add_zero]
  rw [hy] at b2
  rw [← b1] at t1
  ext i
  fin_cases i <;> simp [jointPos, Fin.sum_univ_five, linkFrame, jointRot, rotX, rotY, rotZ, Matrix.mulVec, dotProduct, Fin.sum_univ_three, Matrix.mul_apply, g1, g2]
  · linear_combination Real.cos (A 0) * t1 + Real.sin (A 0) * b2 + wristOf G P 0 * cs
  · linear_combination Real.sin (A 0) * t1 - Real.cos (A 0) * b2 + wristOf G P 1 * cs
  · linear_combination t2

theorem ab_zero (a b : Vec3) (h : cr a b = 0) : Real.sin (ab a b 0) = 0 := by
  have hl : len3 (cr a b) = 0 := by rw [h]; simp [len3]
  have hs := at2_sin (x := dt a b) (y := 0) (abs_nonneg (dt a b)) (by rw [sq_abs]; ring)
  unfold ab; rw [hl]
  have hd : dt 0 a = 0 := by simp [dt]
  rw [hd, if_neg (lt_irrefl _), mul_neg_one, Real.sin_neg, neg_eq_zero]
  by_cases h0 : dt a b = 0
  · rw [h0]; simp [atan2R]; rw [show ({ re := 0, im := 0 } : ℂ) = 0 from rfl]; simp
  · exact (mul_eq_zero.1 hs).resolve_left (abs_ne_zero.2 h0)

theorem frame2_eq (A : Fin 6 → ℝ) : linkFrame A 2 = rotZ (A 0) * rotY (A 1) * rotY (A 2) := rfl
theorem fore_dir (A : Fin 6 → ℝ) (r : ℝ) : linkFrame A 3 *ᵥ ![r, 0, 0] = linkFrame A 2 *ᵥ ![r, 0, 0] := by
  show (linkFrame A 2 * rotX (A 3)) *ᵥ _ = _
  rw [← Matrix.mulVec_mulVec]; congr 1
  ext i; fin_cases i <;> simp [rotX, Matrix.mulVec, dotProduct, Fin.sum_univ_three]

theorem rotY_period (x : ℝ) (k : ℤ) : rotY (x + k * (2 * Real.pi)) = rotY x := by
  unfold rotY; rw [Real.cos_add_int_mul_two_pi, Real.sin_add_int_mul_two_pi]

theorem ik_hand {G : Fin 5 → Vec3} {P A : Fin 6 → ℝ} (hG : Supported G) (hv : 0 < upperLen G) (hl : 0 < foreLen G) (h : InReach G P) (hA : IK G P A) :
    ∃ J45 J43 nv xy, J45 = ![P 0, P 1, P 2] - wristOf G P ∧ J45 = orientOf P *ᵥ ![0, 0, -G 4 2] ∧ J43 = linkFrame A 2 *ᵥ ![-(G 3 0), 0, 0] ∧ xy = linkFrame A 2 *ᵥ ![0, 10, 0] ∧
      nv = flip (cr J45 J43) xy (cr xy ![0, 0, 1]) ∧ A 3 = ab nv xy (cr xy J43) ∧ (∃ k : ℤ, A 4 = Real.pi / 2 - ab J45 J43 (cr J43 nv) + k * (2 * Real.pi) ∧ |A 4| ≤ Real.pi) ∧ |A 3| ≤ Real.pi ∧ |A 5| ≤ Real.pi ∧
      (nv ≠ 0 → toolFrame A = orientOf P) := by
  have ha := arm_pos hG hv hl h hA
  obtain ⟨g0, g1, g2⟩ := hG.fore
  obtain ⟨k0, k1, k2⟩ := hG.hand
  have hG3 : G 3 = ![G 3 0, 0, 0] := by rw [vec3 (G 3), g1, g2]; rfl
  have hlen : len3 (G 4) = -G 4 2 := by
    unfold len3; rw [k0, k1, show (0 : ℝ) ^ 2 + 0 ^ 2 + G 4 2 ^ 2 = (-G 4 2) ^ 2 by ring, Real.sqrt_sq (by linarith)]
  obtain ⟨J45, J43, nv, xy, h45, h43, hxy, hnv', h3, ⟨k, h4, h4'⟩, h5⟩ := hA.hand
  have hnv : nv = cr J45 J43 ∨ nv = -cr J45 J43 := by rw [hnv']; exact flip_cases _ _ _
  have rT : IsRotation (orientOf P) := rot_mul (rot_mul (rotX_rot _) (rotY_rot _)) (rotZ_rot _)
  have rQ := linkFrame_rot A 2
  have e43 : J43 = linkFrame A 2 *ᵥ ![-(G 3 0), 0, 0] := by
    have e4 := jointPos_succ G A 3
    change jointPos G A 4 = jointPos G A 3 + _ at e4
    rw [hG3, fore_dir, ha] at e4
    rw [h43, e4, sub_add_cancel_left, ← Matrix.mulVec_neg]
    congr 1; ext i; fin_cases i <;> simp
  have e45 : J45 = orientOf P *ᵥ ![0, 0, -G 4 2] := by
    rw [h45, wristOf, sub_sub_cancel, hlen, ← Matrix.mulVec_smul]
    congr 1; ext i; fin_cases i <;> simp
  have exy : xy = linkFrame A 2 *ᵥ ![0, 10, 0] := by
    rw [hxy, frame2_eq]
    ext i; fin_cases i <;> simp [rotZ, rotY, Matrix.mulVec, dotProduct, Fin.sum_univ_three, Matrix.mul_apply, Real.cos_add_pi_div_two, Real.sin_add_pi_div_two] <;> ring
  refine ⟨J45, J43, nv, xy, h45, e45, e43, exy, hnv', h3, ⟨k, h4, h4'⟩, by rw [h3]; exact ab_le _ _ _, by rw [h5, abs_neg]; exact ab_le _ _ _, fun hne => ?_⟩
  have hh := hand rQ rT g0 (by linarith : 0 < -G 4 2) e43 e45 exy hnv hne
  have e : toolFrame A = linkFrame A 2 * rotX (A 3) * rotY (A 4) * rotY Real.pi * rotZ (A 5) := rfl
  rw [e, h4, rotY_period, h3, h5]; exact hh

theorem ik_correct {G : Fin 5 → Vec3} {P A : Fin 6 → ℝ} (hG : Supported G) (hv : 0 < upperLen G) (hl : 0 < foreLen G) (h : InReach G P) (hA : IK G P A) (hs : Real.cos (A 4) ≠ 0) :
    jointPos G A 5 = ![P 0, P 1, P 2] ∧ toolFrame A = orientOf P := by
  have ha := arm_pos hG hv hl h hA
  obtain ⟨k0, k1, k2⟩ := hG.hand
  have hG4 : G 4 = ![0, 0, -(-G 4 2)] := by rw [vec3 (G 4), k0, k1, neg_neg]; rfl
  obtain ⟨J45, J43, nv, xy, h45, e45, e43, exy, hnv', h3, ⟨k, h4, -⟩, -, -, ht⟩ := ik_hand hG hv hl h hA
  have hnv : nv = cr J45 J43 ∨ nv = -cr J45 J43 := by rw [hnv']; exact flip_cases _ _ _
  have hne : nv ≠ 0 := by
    rintro rfl
    have hc : cr J45 J43 = 0 := by
      rcases hnv with h | h
      · exact h.symm
      · exact neg_eq_zero.1 h.symm
    have hz : cr J43 0 = 0 := by ext i; fin_cases i <;> simp [cr]
    apply hs
    rw [h4, Real.cos_add_int_mul_two_pi, Real.cos_pi_div_two_sub, hz, ab_zero _ _ hc]
  have ht := ht hne
  refine ⟨?_, ht⟩
  have e5 := jointPos_succ G A 4
  change jointPos G A 5 = jointPos G A 4 + _ at e5
  have ez : orientOf P *ᵥ ![0, 0, -G 4 2] = linkFrame A 4 *ᵥ G 4 := by
    rw [← ht, toolFrame, ← Matrix.mulVec_mulVec, ← Matrix.mulVec_mulVec]
    congr 1
    rw [hG4]
    ext i; fin_cases i <;> simp [rotZ, rotY, Matrix.mulVec, dotProduct, Fin.sum_univ_three, k0, k1]
  rw [e5, ha, ← ez, ← e45, h45]; abel

end Mrc.Kine
