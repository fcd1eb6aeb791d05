import Verif.Spec.Kinematics
import Verif.Proof.XR
import Mathlib.LinearAlgebra.Matrix.Adjugate
import Mathlib.Tactic.LinearCombination
/- Proofs about forward kinematics and orientation angles (C53-C55), over the exact numbers XR. -/
set_option linter.unusedSectionVars false
set_option linter.unusedSimpArgs false
namespace Mrc.Kine
open Mrc Mrc.Spec XR Matrix
open scoped Mrc.Num

theorem rotX_rot (t : ℝ) : IsRotation (rotX t) := by
  constructor
  · ext i j; fin_cases i <;> fin_cases j <;> simp [rotX, Matrix.mul_apply, Fin.sum_univ_three] <;> nlinarith [Real.sin_sq_add_cos_sq t]
  · simp [rotX, Matrix.det_fin_three]; nlinarith [Real.sin_sq_add_cos_sq t]
theorem rotY_rot (t : ℝ) : IsRotation (rotY t) := by
  constructor
  · ext i j; fin_cases i <;> fin_cases j <;> simp [rotY, Matrix.mul_apply, Fin.sum_univ_three] <;> nlinarith [Real.sin_sq_add_cos_sq t]
  · simp [rotY, Matrix.det_fin_three]; nlinarith [Real.sin_sq_add_cos_sq t]
theorem rotZ_rot (t : ℝ) : IsRotation (rotZ t) := by
  constructor
  · ext i j; fin_cases i <;> fin_cases j <;> simp [rotZ, Matrix.mul_apply, Fin.sum_univ_three] <;> nlinarith [Real.sin_sq_add_cos_sq t]
  · simp [rotZ, Matrix.det_fin_three]; nlinarith [Real.sin_sq_add_cos_sq t]
theorem rot_mul {M N : Mat3} (h : IsRotation M) (h' : IsRotation N) : IsRotation (M * N) := by
  refine ⟨?_, by rw [Matrix.det_mul, h.2, h'.2, one_mul]⟩
  calc (M * N)ᵀ * (M * N) = Nᵀ * (Mᵀ * M) * N := by rw [Matrix.transpose_mul]; simp only [Matrix.mul_assoc]
    _ = 1 := by rw [h.1, Matrix.mul_one, h'.1]

theorem jointRot_rot (A) (k : Fin 5) : IsRotation (jointRot A k) := by
  fin_cases k
  · exact rotZ_rot _
  · exact rotY_rot _
  · exact rotY_rot _
  · exact rotX_rot _
  · exact rotY_rot _

theorem linkFrame_rot (A) (k : Fin 5) : IsRotation (linkFrame A k) := by
  have h := jointRot_rot A
  fin_cases k
  · exact h 0
  · exact rot_mul (h 0) (h 1)
  · exact rot_mul (rot_mul (h 0) (h 1)) (h 2)
  · exact rot_mul (rot_mul (rot_mul (h 0) (h 1)) (h 2)) (h 3)
  · exact rot_mul (rot_mul (rot_mul (rot_mul (h 0) (h 1)) (h 2)) (h 3)) (h 4)

theorem toolFrame_rot (A) : IsRotation (toolFrame A) := rot_mul (rot_mul (linkFrame_rot A 4) (rotY_rot _)) (rotZ_rot _)

/-! entries of the frames -/
theorem mk3 (M : Mat3) : M = !![M 0 0, M 0 1, M 0 2; M 1 0, M 1 1, M 1 2; M 2 0, M 2 1, M 2 2] := by
  ext i j; fin_cases i <;> fin_cases j <;> rfl

theorem jointPos_succ (G A) : ∀ k : Fin 5, jointPos G A (k.val + 1) = jointPos G A k.val + linkFrame A k *ᵥ G k := by
  intro k
  fin_cases k <;> simp [jointPos, Fin.sum_univ_five] <;> rfl
theorem jointPos_zero (G A) : jointPos G A 0 = 0 := by simp [jointPos]

theorem coords_J (G : Fin 5 → Vec3) (A : Fin 6 → ℝ) :
    ((Kin.new (finG G)).coords (finS A)).J1 = finV (jointPos G A 1) ∧ ((Kin.new (finG G)).coords (finS A)).J2 = finV (jointPos G A 2) ∧
    ((Kin.new (finG G)).coords (finS A)).J3 = finV (jointPos G A 3) ∧ ((Kin.new (finG G)).coords (finS A)).J4 = finV (jointPos G A 4) ∧
    ((Kin.new (finG G)).coords (finS A)).J5 = finV (jointPos G A 5) := by
  have e1 := jointPos_succ G A 0
  have e2 := jointPos_succ G A 1
  have e3 := jointPos_succ G A 2
  have e4 := jointPos_succ G A 3
  have e5 := jointPos_succ G A 4
  have e0 := jointPos_zero G A
  simp only [Fin.val_zero, Fin.val_one, Fin.val_two, Nat.reduceAdd, Fin.isValue, zero_add] at e1 e2 e3 e4 e5
  change jointPos G A 4 = jointPos G A 3 + _ at e4
  change jointPos G A 5 = jointPos G A 4 + _ at e5
  rw [e5, e4, e3, e2, e1, e0]
  refine ⟨?_, ?_, ?_, ?_, ?_⟩ <;>
  (simp only [Kin.coords, Kin.new, finV, finG, finS, Kin.zero, lit, ops_cos, ops_sin, fin_mul, fin_add, fin_sub, fin_neg, ops_lit, V3.mk.injEq, XR.fin.injEq,
    linkFrame, jointRot, rotX, rotY, rotZ]
   simp [Matrix.mulVec, dotProduct, Fin.sum_univ_three, Matrix.mul_apply]
   and_intros <;> ring)

theorem coords_M (G : Fin 5 → Vec3) (A : Fin 6 → ℝ) :
    let C := (Kin.new (finG G)).coords (finS A); let M := toolFrame A
    C.M00 = fin (M 0 0) ∧ C.M01 = fin (M 0 1) ∧ C.M02 = fin (M 0 2) ∧ C.M10 = fin (M 1 0) ∧ C.M11 = fin (M 1 1) ∧ C.M12 = fin (M 1 2) ∧
    C.M20 = fin (M 2 0) ∧ C.M21 = fin (M 2 1) ∧ C.M22 = fin (M 2 2) := by
  intro C M
  simp only [C, M]
  refine ⟨?_, ?_, ?_, ?_, ?_, ?_, ?_, ?_, ?_⟩ <;>
  (simp only [Kin.coords, Kin.new, finV, finG, finS, Kin.zero, lit, ops_cos, ops_sin, fin_mul, fin_add, fin_sub, fin_neg, ops_lit, V3.mk.injEq, XR.fin.injEq,
    toolFrame, linkFrame, jointRot, rotX, rotY, rotZ]
   simp [Matrix.mulVec, dotProduct, Fin.sum_univ_three, Matrix.mul_apply]
   try ring)

/-! ### orientation angles -/
theorem at2_cos {x y r : ℝ} (hr : 0 ≤ r) (h : x ^ 2 + y ^ 2 = r ^ 2) : r * Real.cos (atan2R y x) = x := by
  have h1 : ‖(⟨x, y⟩ : ℂ)‖ = r := by
    rw [Complex.norm_def, Complex.normSq_mk, show x * x + y * y = r ^ 2 by linarith, Real.sqrt_sq hr]
  have := Complex.norm_mul_cos_arg ⟨x, y⟩
  rw [h1] at this; exact this
theorem at2_sin {x y r : ℝ} (hr : 0 ≤ r) (h : x ^ 2 + y ^ 2 = r ^ 2) : r * Real.sin (atan2R y x) = y := by
  have h1 : ‖(⟨x, y⟩ : ℂ)‖ = r := by
    rw [Complex.norm_def, Complex.normSq_mk, show x * x + y * y = r ^ 2 by linarith, Real.sqrt_sq hr]
  have := Complex.norm_mul_sin_arg ⟨x, y⟩
  rw [h1] at this; exact this
theorem at2_range (y x : ℝ) : -Real.pi < atan2R y x ∧ atan2R y x ≤ Real.pi := ⟨Complex.neg_pi_lt_arg _, Complex.arg_le_pi _⟩

/-- entries of a rotation. -/
theorem rot_facts {M : Mat3} (h : IsRotation M) :
    M 0 0 ^ 2 + M 0 1 ^ 2 + M 0 2 ^ 2 = 1 ∧ M 0 2 ^ 2 + M 1 2 ^ 2 + M 2 2 ^ 2 = 1 ∧
    M 2 0 = M 0 1 * M 1 2 - M 0 2 * M 1 1 ∧ M 1 0 = M 0 2 * M 2 1 - M 0 1 * M 2 2 ∧ M 1 1 = M 0 0 * M 2 2 - M 0 2 * M 2 0 ∧ M 2 1 = M 0 2 * M 1 0 - M 0 0 * M 1 2 ∧
    M 1 0 ^ 2 + M 1 1 ^ 2 + M 1 2 ^ 2 = 1 := by
  have h1 : Mᵀ * M = 1 := h.1
  have h2 : M * Mᵀ = 1 := mul_eq_one_comm.1 h1
  have ha : M.adjugate = Mᵀ := by
    calc M.adjugate = (Mᵀ * M) * M.adjugate := by rw [h1, Matrix.one_mul]
      _ = Mᵀ := by rw [Matrix.mul_assoc, Matrix.mul_adjugate, h.2, one_smul, Matrix.mul_one]
  have e := fun i j => congrFun (congrFun ha i) j
  have f := fun i j => congrFun (congrFun h1 i) j
  have g := fun i j => congrFun (congrFun h2 i) j
  rw [Matrix.adjugate_fin_three] at e
  have g00 := g 0 0; have g11 := g 1 1; have f22 := f 2 2
  have e02 := e 0 2; have e01 := e 0 1; have e11 := e 1 1; have e12 := e 1 2
  simp [Matrix.mul_apply, Fin.sum_univ_three] at g00 g11 f22 e02 e01 e11 e12
  refine ⟨by nlinarith, by nlinarith, by linarith, by linarith, by linarith, by linarith, by nlinarith⟩

/-- the angles chosen by the code for a rotation matrix. -/
noncomputable def eulerR (M : Mat3) : ℝ × ℝ × ℝ :=
  open Classical in
  if M 0 2 < 1 then
    if -1 < M 0 2 then (atan2R (-(M 1 2)) (M 2 2), Real.arcsin (M 0 2), atan2R (-(M 0 1)) (M 0 0))
    else (-atan2R (M 1 0) (M 1 1), -Real.pi / 2, 0)
  else (atan2R (M 1 0) (M 1 1), Real.pi / 2, 0)

theorem scal10 {k sa ca sb sc cc m00 m01 m02 m12 m22 : ℝ} (sA : k * sa = -m12) (cA : k * ca = m22) (sC : k * sc = -m01) (cC : k * cc = m00) (sB : sb = m02) :
    k ^ 2 * (sa*sb*cc + ca*sc) = -m02*m00*m12 - m01*m22 := by
  obtain rfl : m12 = -(k * sa) := by linarith
  obtain rfl : m01 = -(k * sc) := by linarith
  subst cA cC sB; ring
theorem scal11 {k sa ca sb sc cc m00 m01 m02 m12 m22 : ℝ} (sA : k * sa = -m12) (cA : k * ca = m22) (sC : k * sc = -m01) (cC : k * cc = m00) (sB : sb = m02) :
    k ^ 2 * (-(sa*sb*sc) + ca*cc) = m00*m22 - m02*m01*m12 := by
  obtain rfl : m12 = -(k * sa) := by linarith
  obtain rfl : m01 = -(k * sc) := by linarith
  subst cA cC sB; ring
theorem scal20 {k sa ca sb sc cc m00 m01 m02 m12 m22 : ℝ} (sA : k * sa = -m12) (cA : k * ca = m22) (sC : k * sc = -m01) (cC : k * cc = m00) (sB : sb = m02) :
    k ^ 2 * (-(ca*sb*cc)+sa*sc) = m01*m12 - m02*m00*m22 := by
  obtain rfl : m12 = -(k * sa) := by linarith
  obtain rfl : m01 = -(k * sc) := by linarith
  subst cA cC sB; ring
theorem scal21 {k sa ca sb sc cc m00 m01 m02 m12 m22 : ℝ} (sA : k * sa = -m12) (cA : k * ca = m22) (sC : k * sc = -m01) (cC : k * cc = m00) (sB : sb = m02) :
    k ^ 2 * (ca*sb*sc+sa*cc) = -m00*m12 - m02*m01*m22 := by
  obtain rfl : m12 = -(k * sa) := by linarith
  obtain rfl : m01 = -(k * sc) := by linarith
  subst cA cC sB; ring

set_option maxHeartbeats 1000000 in
theorem orient_eulerR {M : Mat3} (h : IsRotation M) : orient (eulerR M).1 (eulerR M).2.1 (eulerR M).2.2 = M := by
  obtain ⟨r0, c2, e20, e10, e11, e21, r1⟩ := rot_facts h
  have hle : M 0 2 ≤ 1 := by nlinarith [sq_nonneg (M 0 0), sq_nonneg (M 0 1)]
  have hge : -1 ≤ M 0 2 := by nlinarith [sq_nonneg (M 0 0), sq_nonneg (M 0 1)]
  unfold eulerR
  split
  · split
    · rename_i h1 h2
      have hpos : 0 < 1 - M 0 2 ^ 2 := by nlinarith
      set k := Real.sqrt (1 - M 0 2 ^ 2) with hk
      have hk0 : 0 < k := Real.sqrt_pos.2 hpos
      have hk2 : k ^ 2 = 1 - M 0 2 ^ 2 := Real.sq_sqrt hpos.le
      have cB : Real.cos (Real.arcsin (M 0 2)) = k := Real.cos_arcsin _
      have sB : Real.sin (Real.arcsin (M 0 2)) = M 0 2 := Real.sin_arcsin hge hle
      have cA : k * Real.cos (atan2R (-(M 1 2)) (M 2 2)) = M 2 2 := at2_cos hk0.le (by nlinarith)
      have sA : k * Real.sin (atan2R (-(M 1 2)) (M 2 2)) = -(M 1 2) := at2_sin hk0.le (by nlinarith)
      have cC : k * Real.cos (atan2R (-(M 0 1)) (M 0 0)) = M 0 0 := at2_cos hk0.le (by nlinarith)
      have sC : k * Real.sin (atan2R (-(M 0 1)) (M 0 0)) = -(M 0 1) := at2_sin hk0.le (by nlinarith)
      simp only
      generalize atan2R (-(M 1 2)) (M 2 2) = α at *
      generalize atan2R (-(M 0 1)) (M 0 0) = γ at *
      generalize Real.arcsin (M 0 2) = β at *
      have kne : k ^ 2 ≠ 0 := by positivity
      have m20 : k ^ 2 * M 2 0 = M 0 1 * M 1 2 - M 0 2 * M 0 0 * M 2 2 := by rw [hk2]; linear_combination e20 - M 0 2 * e11
      have m11 : k ^ 2 * M 1 1 = M 0 0 * M 2 2 - M 0 2 * M 0 1 * M 1 2 := by rw [hk2]; linear_combination e11 - M 0 2 * e20
      have m10 : k ^ 2 * M 1 0 = - M 0 2 * M 0 0 * M 1 2 - M 0 1 * M 2 2 := by rw [hk2]; linear_combination e10 + M 0 2 * e21
      have m21 : k ^ 2 * M 2 1 = - M 0 0 * M 1 2 - M 0 2 * M 0 1 * M 2 2 := by rw [hk2]; linear_combination e21 + M 0 2 * e10
      have key : ∀ {u v : ℝ}, k ^ 2 * u = k ^ 2 * v → u = v := fun hh => mul_left_cancel₀ kne hh
      have p10 := (m10.trans (scal10 sA cA sC cC sB).symm).symm
      have p11 := (m11.trans (scal11 sA cA sC cC sB).symm).symm
      have p20 := (m20.trans (scal20 sA cA sC cC sB).symm).symm
      have p21 := (m21.trans (scal21 sA cA sC cC sB).symm).symm
      rw [mk3 M, mk3 (orient α β γ)]
      have q : ∀ i j, orient α β γ i j = M i j := by
        intro i j
        fin_cases i <;> fin_cases j <;> simp [orient, rotX, rotY, rotZ, Matrix.mul_apply, Fin.sum_univ_three]
        · rw [cB]; exact cC
        · rw [cB]; linarith
        · exact sB
        · exact key p10
        · exact key p11
        · rw [cB]; linarith
        · exact key p20
        · exact key p21
        · rw [cB]; linarith
      simp only [q]
    · rename_i h1 h2
      have hm : M 0 2 = -1 := le_antisymm (not_lt.1 h2) hge
      rw [hm] at r0 c2 e20 e10 e11 e21
      have z00 : M 0 0 = 0 := by nlinarith [sq_nonneg (M 0 0), sq_nonneg (M 0 1)]
      have z01 : M 0 1 = 0 := by nlinarith [sq_nonneg (M 0 0), sq_nonneg (M 0 1)]
      have z12 : M 1 2 = 0 := by nlinarith [sq_nonneg (M 1 2), sq_nonneg (M 2 2)]
      have z22 : M 2 2 = 0 := by nlinarith [sq_nonneg (M 1 2), sq_nonneg (M 2 2)]
      rw [z12] at r1; rw [z01] at e20 e10; rw [z00] at e11 e21
      have c := at2_cos (x := M 1 1) (y := M 1 0) zero_le_one (by nlinarith)
      have s := at2_sin (x := M 1 1) (y := M 1 0) zero_le_one (by nlinarith)
      simp only
      generalize atan2R (M 1 0) (M 1 1) = α at *
      ext i j
      fin_cases i <;> fin_cases j <;> simp [orient, rotX, rotY, rotZ, Matrix.mul_apply, Fin.sum_univ_three, neg_div, z00, z01, z12, z22, hm] <;> linarith
  · rename_i h1
    have hm : M 0 2 = 1 := le_antisymm hle (not_lt.1 h1)
    rw [hm] at r0 c2 e20 e10 e11 e21
    have z00 : M 0 0 = 0 := by nlinarith [sq_nonneg (M 0 0), sq_nonneg (M 0 1)]
    have z01 : M 0 1 = 0 := by nlinarith [sq_nonneg (M 0 0), sq_nonneg (M 0 1)]
    have z12 : M 1 2 = 0 := by nlinarith [sq_nonneg (M 1 2), sq_nonneg (M 2 2)]
    have z22 : M 2 2 = 0 := by nlinarith [sq_nonneg (M 1 2), sq_nonneg (M 2 2)]
    rw [z12] at r1; rw [z01] at e20 e10; rw [z00] at e11 e21
    have c := at2_cos (x := M 1 1) (y := M 1 0) zero_le_one (by nlinarith)
    have s := at2_sin (x := M 1 1) (y := M 1 0) zero_le_one (by nlinarith)
    simp only
    generalize atan2R (M 1 0) (M 1 1) = α at *
    ext i j
    fin_cases i <;> fin_cases j <;> simp [orient, rotX, rotY, rotZ, Matrix.mul_apply, Fin.sum_univ_three, z00, z01, z12, z22, hm] <;> linarith
end Mrc.Kine
