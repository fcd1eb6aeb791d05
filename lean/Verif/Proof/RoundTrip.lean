import Verif.Proof.Inverse
/- inverse(forward(A)) gives back A (C68, C69). -/
set_option linter.unusedSectionVars false
set_option linter.unusedSimpArgs false
namespace Mrc.Kine
open Mrc Mrc.Spec XR Matrix
open scoped Mrc.Num

theorem wrist_of_pose {G : Fin 5 → Vec3} {P A : Fin 6 → ℝ} (hG : Supported G) (hp : jointPos G A 5 = ![P 0, P 1, P 2]) (ho : orientOf P = toolFrame A) :
    wristOf G P = jointPos G A 4 := by
  obtain ⟨k0, k1, k2⟩ := hG.hand
  have hlen : len3 (G 4) = -G 4 2 := by
    unfold len3; rw [k0, k1, show (0 : ℝ) ^ 2 + 0 ^ 2 + G 4 2 ^ 2 = (-G 4 2) ^ 2 by ring, Real.sqrt_sq (by linarith)]
  have e5 := jointPos_succ G A 4
  change jointPos G A 5 = jointPos G A 4 + _ at e5
  have ez : (-G 4 2) • (toolFrame A *ᵥ ![0, 0, 1]) = linkFrame A 4 *ᵥ G 4 := by
    rw [toolFrame, ← Matrix.mulVec_mulVec, ← Matrix.mulVec_mulVec, ← Matrix.mulVec_smul, ← Matrix.mulVec_smul]
    congr 1
    rw [vec3 (G 4), k0, k1]
    ext i; fin_cases i <;> simp [rotZ, rotY, Matrix.mulVec, dotProduct, Fin.sum_univ_three, k0, k1]
  rw [wristOf, ← hp, ho, hlen, ez, e5, add_sub_cancel_right]

/-- the wrist in the plane of the arm. -/
noncomputable def armU (G : Fin 5 → Vec3) (A : Fin 6 → ℝ) : ℂ := ei (-A 1) * ((⟨G 1 0, G 1 2⟩ : ℂ) + ei (-A 2) * ⟨G 2 0 + G 3 0, G 2 2 + G 3 2⟩)

theorem joint4_plane {G : Fin 5 → Vec3} {A : Fin 6 → ℝ} (hG : Supported G) :
    Real.cos (A 0) * jointPos G A 4 0 + Real.sin (A 0) * jointPos G A 4 1 = G 0 0 + (armU G A).re ∧
    -Real.sin (A 0) * jointPos G A 4 0 + Real.cos (A 0) * jointPos G A 4 1 = offset G ∧ jointPos G A 4 2 = G 0 2 + (armU G A).im := by
  obtain ⟨g0, g1, g2⟩ := hG.fore
  have cs := Real.sin_sq_add_cos_sq (A 0)
  have p0 : jointPos G A 4 0 = Real.cos (A 0) * (G 0 0 + (armU G A).re) - Real.sin (A 0) * offset G := by
    simp [jointPos, Fin.sum_univ_five, linkFrame, jointRot, rotX, rotY, rotZ, Matrix.mulVec, dotProduct, Fin.sum_univ_three, Matrix.mul_apply, g1, g2, armU, ei, offset]
    ring
  have p1 : jointPos G A 4 1 = Real.sin (A 0) * (G 0 0 + (armU G A).re) + Real.cos (A 0) * offset G := by
    simp [jointPos, Fin.sum_univ_five, linkFrame, jointRot, rotX, rotY, rotZ, Matrix.mulVec, dotProduct, Fin.sum_univ_three, Matrix.mul_apply, g1, g2, armU, ei, offset]
    ring
  have p2 : jointPos G A 4 2 = G 0 2 + (armU G A).im := by
    simp [jointPos, Fin.sum_univ_five, linkFrame, jointRot, rotX, rotY, rotZ, Matrix.mulVec, dotProduct, Fin.sum_univ_three, Matrix.mul_apply, g1, g2, armU, ei, offset]
    ring
  refine ⟨?_, ?_, p2⟩
  · rw [p0, p1]; linear_combination (G 0 0 + (armU G A).re) * cs
  · rw [p0, p1]; linear_combination offset G * cs

theorem ei_norm (x : ℝ) : ‖ei x‖ = 1 := by
  unfold ei
  rw [Complex.norm_def, Complex.normSq_mk, show Real.cos x * Real.cos x + Real.sin x * Real.sin x = 1 by nlinarith [Real.sin_sq_add_cos_sq x], Real.sqrt_one]
theorem norm_mk (x y : ℝ) : ‖(⟨x, y⟩ : ℂ)‖ = Real.sqrt (x ^ 2 + y ^ 2) := by rw [Complex.norm_def, Complex.normSq_mk]; congr 1; ring

theorem armU_norm (G : Fin 5 → Vec3) (A : Fin 6 → ℝ) : ‖armU G A‖ = ‖(⟨G 1 0, G 1 2⟩ : ℂ) + ei (-A 2) * ⟨G 2 0 + G 3 0, G 2 2 + G 3 2⟩‖ := by
  unfold armU; rw [norm_mul, ei_norm, one_mul]

theorem armU_tri (G : Fin 5 → Vec3) (A : Fin 6 → ℝ) : |upperLen G - foreLen G| ≤ ‖armU G A‖ ∧ ‖armU G A‖ ≤ upperLen G + foreLen G := by
  have hu : ‖(⟨G 1 0, G 1 2⟩ : ℂ)‖ = upperLen G := by rw [norm_mk]; rfl
  have hf : ‖ei (-A 2) * ⟨G 2 0 + G 3 0, G 2 2 + G 3 2⟩‖ = foreLen G := by rw [norm_mul, ei_norm, one_mul, norm_mk]; rfl
  rw [armU_norm]
  constructor
  · have := abs_norm_sub_norm_le (⟨G 1 0, G 1 2⟩ : ℂ) (-(ei (-A 2) * ⟨G 2 0 + G 3 0, G 2 2 + G 3 2⟩))
    rw [norm_neg, hu, hf, sub_neg_eq_add] at this; exact this
  · have := norm_add_le (⟨G 1 0, G 1 2⟩ : ℂ) (ei (-A 2) * ⟨G 2 0 + G 3 0, G 2 2 + G 3 2⟩)
    rw [hu, hf] at this; exact this

theorem plane_facts {G : Fin 5 → Vec3} {P A : Fin 6 → ℝ} (hG : Supported G) (hw : wristOf G P = jointPos G A 4) (hF : InFront G A) :
    axisDist G P ^ 2 = (G 0 0 + (armU G A).re) ^ 2 + offset G ^ 2 ∧ Real.sqrt (axisDist G P ^ 2 - offset G ^ 2) = G 0 0 + (armU G A).re ∧ reach G P = ‖armU G A‖ := by
  obtain ⟨h0, h1, h2⟩ := joint4_plane (A := A) hG
  have cs := Real.sin_sq_add_cos_sq (A 0)
  have e1 : axisDist G P ^ 2 = (G 0 0 + (armU G A).re) ^ 2 + offset G ^ 2 := by
    rw [← axisDist_sq, hw, ← h0, ← h1]
    linear_combination (-(jointPos G A 4 0 ^ 2 + jointPos G A 4 1 ^ 2)) * cs
  have e2 : Real.sqrt (axisDist G P ^ 2 - offset G ^ 2) = G 0 0 + (armU G A).re := by
    rw [e1, add_sub_cancel_right]; unfold InFront at hF; rw [h0] at hF; exact Real.sqrt_sq hF
  refine ⟨e1, e2, ?_⟩
  unfold reach
  rw [e2, hw, h2, add_sub_cancel_left, add_sub_cancel_left, ← norm_mk]

theorem inReach_of_forward {G : Fin 5 → Vec3} {P A : Fin 6 → ℝ} (hG : Supported G) (hp : jointPos G A 5 = ![P 0, P 1, P 2]) (ho : orientOf P = toolFrame A)
    (hF : InFront G A) (hW : WristFree G A) : InReach G P := by
  have hw := wrist_of_pose hG hp ho
  obtain ⟨h0, h1, h2⟩ := joint4_plane (A := A) hG
  obtain ⟨e1, e2, e3⟩ := plane_facts hG hw hF
  obtain ⟨w1, w2⟩ := hW
  rw [h0, h2, add_sub_cancel_left, add_sub_cancel_left] at w2
  obtain ⟨t1, t2⟩ := armU_tri G A
  refine ⟨?_, ?_, ?_, by rw [e3]; exact t1, by rw [e3]; exact t2⟩
  · unfold axisDist; rw [hw]; exact Real.sqrt_pos.2 w1
  · apply abs_le_of_sq_le_sq _ (show (0:ℝ) ≤ axisDist G P from Real.sqrt_nonneg _)
    rw [e1]; nlinarith [sq_nonneg (G 0 0 + (armU G A).re)]
  · rw [e3]; apply norm_pos_iff.2; intro h
    rw [h] at w2; simp at w2

theorem ei_eq {x y : ℝ} (h : ei x = ei y) : SameAngle x y := by
  have h1 := congrArg Complex.re h; have h2 := congrArg Complex.im h
  exact ⟨h1, h2⟩
theorem same_ei {x y : ℝ} (h : SameAngle x y) : ei x = ei y := Complex.ext h.1 h.2
theorem ei_neg_eq {x y : ℝ} (h : ei (-x) = ei (-y)) : SameAngle x y := by
  have := ei_eq h; unfold SameAngle at *; simpa using this

/-- the arm angles are the same. -/
theorem arm_same {G : Fin 5 → Vec3} {P A B : Fin 6 → ℝ} (hG : Supported G) (hv : 0 < upperLen G) (hl : 0 < foreLen G) (h : InReach G P) (hw : wristOf G P = jointPos G A 4)
    (hF : InFront G A) (hE : ElbowUp G A) (hB : IK G P B) : SameAngle (B 0) (A 0) ∧ SameAngle (B 1) (A 1) ∧ SameAngle (B 2) (A 2) := by
  obtain ⟨h0, h1, h2⟩ := joint4_plane (A := A) hG
  obtain ⟨e1, e2, e3⟩ := plane_facts hG hw hF
  obtain ⟨c2, c1⟩ := (tri_iff hv hl h.off_shoulder.le).2 ⟨h.off_shoulder, h.near, h.far⟩
  -- base
  obtain ⟨b1, b2⟩ := base (axisDist_sq G P) h.off_axis ((abs_div_le h.off_axis).2 (by rw [abs_neg]; exact h.cylinder)) hB.a0
  rw [e2, ← h0, hw] at b1
  rw [← h1, hw] at b2
  have s0 : SameAngle (B 0) (A 0) := by
    have hne : (⟨jointPos G A 4 0, jointPos G A 4 1⟩ : ℂ) ≠ 0 := by
      intro hz
      have z0 := congrArg Complex.re hz; have z1 := congrArg Complex.im hz
      simp at z0 z1
      have := axisDist_sq G P
      rw [hw, z0, z1] at this
      have := h.off_axis; nlinarith
    apply ei_neg_eq
    apply mul_right_cancel₀ hne
    apply Complex.ext
    · simp [ei]; linarith
    · simp [ei]; linarith
  -- elbow
  set v := upperLen G with hvd
  set l := foreLen G with hld
  have hv2 : G 1 0 ^ 2 + G 1 2 ^ 2 = v ^ 2 := by rw [hvd]; unfold upperLen; rw [Real.sq_sqrt (by positivity)]
  have hl2 : (G 2 0 + G 3 0) ^ 2 + (G 2 2 + G 3 2) ^ 2 = l ^ 2 := by rw [hld]; unfold foreLen; rw [Real.sq_sqrt (by positivity)]
  have tB : armU G B = armU G A := by
    have := twolink (h := G 1 0) (j := G 1 2) (m := G 2 0 + G 3 0) (o := G 2 2 + G 3 2)
      (X := Real.sqrt (axisDist G P ^ 2 - offset G ^ 2) - G 0 0) (Z := wristOf G P 2 - G 0 2) (v := upperLen G) (l := foreLen G) (p := reach G P)
      hv2 hl2 (reach_sq G P).symm hv hl h.off_shoulder c2.2 c1.2 hB.a1 hB.a2
    refine Eq.trans this ?_
    rw [e2, hw, h2, add_sub_cancel_left, add_sub_cancel_left]
  have hn : ‖(⟨G 1 0, G 1 2⟩ : ℂ) + ei (-A 2) * ⟨G 2 0 + G 3 0, G 2 2 + G 3 2⟩‖ = reach G P := by rw [e3, armU_norm]
  have wv : ∀ t, (⟨G 1 0, G 1 2⟩ : ℂ) + ei (-t) * ⟨G 2 0 + G 3 0, G 2 2 + G 3 2⟩ = 
      (⟨G 1 0, G 1 2⟩ : ℂ) + ei (-t) * ⟨G 2 0 + G 3 0, G 2 2 + G 3 2⟩ := fun _ => rfl
  set θ := atan2R (G 1 0) (G 1 2) with hθ
  set φ := atan2R (G 2 2 + G 3 2) (G 2 0 + G 3 0) with hφ
  have cθ := at2_cos (x := G 1 2) (y := G 1 0) hv.le (by linarith)
  have sθ := at2_sin (x := G 1 2) (y := G 1 0) hv.le (by linarith)
  have cφ := at2_cos (x := G 2 0 + G 3 0) (y := G 2 2 + G 3 2) hl.le hl2
  have sφ := at2_sin (x := G 2 0 + G 3 0) (y := G 2 2 + G 3 2) hl.le hl2
  rw [← hθ] at cθ sθ
  rw [← hφ] at cφ sφ
  -- the true elbow angle
  set g := Real.pi / 2 + φ + θ - A 2 with hg
  set x := (-reach G P ^ 2 + l ^ 2 + v ^ 2) / (2 * l * v) with hx
  have cg : Real.cos g = -(Real.sin (φ - A 2 + θ)) := by rw [hg, show Real.pi / 2 + φ + θ - A 2 = (φ - A 2 + θ) + Real.pi / 2 by ring, Real.cos_add_pi_div_two]
  have sg : Real.sin g = Real.cos (φ - A 2 + θ) := by rw [hg, show Real.pi / 2 + φ + θ - A 2 = (φ - A 2 + θ) + Real.pi / 2 by ring, Real.sin_add_pi_div_two]
  have sA := Real.sin_sq_add_cos_sq (A 2)
  have hcos : Real.cos g = x := by
    have hp2 : reach G P ^ 2 = (v * Real.sin θ + l * Real.cos (φ - A 2)) ^ 2 + (v * Real.cos θ + l * Real.sin (φ - A 2)) ^ 2 := by
      rw [← hn, Complex.sq_norm, Complex.normSq_apply]
      have a1 : l * Real.cos (φ - A 2) = (G 2 0 + G 3 0) * Real.cos (A 2) + (G 2 2 + G 3 2) * Real.sin (A 2) := by
        rw [Real.cos_sub]; linear_combination Real.cos (A 2) * cφ + Real.sin (A 2) * sφ
      have a2 : l * Real.sin (φ - A 2) = (G 2 2 + G 3 2) * Real.cos (A 2) - (G 2 0 + G 3 0) * Real.sin (A 2) := by
        rw [Real.sin_sub]; linear_combination Real.cos (A 2) * sφ - Real.sin (A 2) * cφ
      rw [sθ, cθ, a1, a2]
      simp [ei]; ring
    have q1 := Real.sin_sq_add_cos_sq θ
    have q2 := Real.sin_sq_add_cos_sq (φ - A 2)
    rw [hx, eq_div_iff (by positivity), cg, Real.sin_add, hp2]
    linear_combination v ^ 2 * q1 + l ^ 2 * q2
  have hsin : 0 ≤ Real.sin g := by
    have hE' := hE
    unfold ElbowUp at hE'
    simp [rotY, Matrix.mulVec, dotProduct, Fin.sum_univ_three] at hE'
    have : 0 ≤ v * l * Real.sin g := by
      rw [sg, Real.cos_add, Real.cos_sub, Real.sin_sub]
      have e : v * l * ((Real.cos φ * Real.cos (A 2) + Real.sin φ * Real.sin (A 2)) * Real.cos θ - (Real.sin φ * Real.cos (A 2) - Real.cos φ * Real.sin (A 2)) * Real.sin θ) =
        (v * Real.cos θ) * ((l * Real.cos φ) * Real.cos (A 2) + (l * Real.sin φ) * Real.sin (A 2)) - (v * Real.sin θ) * ((l * Real.sin φ) * Real.cos (A 2) - (l * Real.cos φ) * Real.sin (A 2)) := by ring
      rw [e, cθ, sθ, cφ, sφ]; linarith
    exact nonneg_of_mul_nonneg_right this (by positivity)
  have ceq := Real.cos_arccos (abs_le.1 c2.2).1 (abs_le.1 c2.2).2
  have sx : 0 ≤ Real.sin (Real.arccos x) := Real.sin_nonneg_of_nonneg_of_le_pi (Real.arccos_nonneg _) (Real.arccos_le_pi _)
  have eg : ei g = ei (Real.arccos x) := by
    apply Complex.ext
    · show Real.cos g = Real.cos _; rw [hcos, ceq]
    · show Real.sin g = Real.sin _
      apply (pow_left_inj₀ hsin sx two_ne_zero).1
      have q1 := Real.sin_sq_add_cos_sq g
      have q2 := Real.sin_sq_add_cos_sq (Real.arccos x)
      rw [hcos] at q1; rw [ceq] at q2; linarith
  have s2' : ei (-B 2) = ei (-A 2) := by
    have e1 : -B 2 = Real.arccos x + -(Real.pi / 2 + φ + θ) := by rw [hB.a2]; ring
    have e2 : -A 2 = g + -(Real.pi / 2 + φ + θ) := by rw [hg]; ring
    rw [e1, e2, ei_add, ei_add, eg]
  refine ⟨s0, ?_, ei_neg_eq s2'⟩
  apply ei_neg_eq
  have hne : (⟨G 1 0, G 1 2⟩ : ℂ) + ei (-A 2) * ⟨G 2 0 + G 3 0, G 2 2 + G 3 2⟩ ≠ 0 := by
    intro hz; rw [hz, norm_zero] at hn; exact absurd hn h.off_shoulder.ne
  unfold armU at tB
  rw [s2'] at tB
  exact mul_right_cancel₀ hne tB

theorem abs_ab {a b r : Vec3} {k t : ℝ} (hk : 0 < k) (ht : 0 ≤ t ∧ t ≤ Real.pi) (h1 : len3 (cr a b) = k * Real.sin t) (h2 : dt a b = k * Real.cos t) : |ab a b r| = t := by
  have hp : atan2R (k * Real.sin t) (k * Real.cos t) = t := by
    refine Eq.trans ?_ (Complex.arg_mul_cos_add_sin_mul_I hk ⟨by linarith [Real.pi_pos], ht.2⟩)
    unfold atan2R; congr 1
    rw [← Complex.ofReal_cos, ← Complex.ofReal_sin]
    apply Complex.ext <;> simp [-Complex.ofReal_cos, -Complex.ofReal_sin]
  unfold ab
  rw [h1, h2, hp, abs_mul, abs_of_nonneg ht.1]
  split <;> simp

theorem rotX_congr {x y : ℝ} (h : SameAngle x y) : rotX x = rotX y := by unfold rotX; rw [h.1, h.2]
theorem rotY_congr {x y : ℝ} (h : SameAngle x y) : rotY x = rotY y := by unfold rotY; rw [h.1, h.2]
theorem rotZ_congr {x y : ℝ} (h : SameAngle x y) : rotZ x = rotZ y := by unfold rotZ; rw [h.1, h.2]
theorem rot_cancel {M X Y : Mat3} (h : IsRotation M) (e : M * X = M * Y) : X = Y := by
  have := congrArg (Mᵀ * ·) e
  simp only [← Matrix.mul_assoc, h.1, Matrix.one_mul] at this
  exact this

theorem hand_same {G : Fin 5 → Vec3} {P A B : Fin 6 → ℝ} (hG : Supported G) (hv : 0 < upperLen G) (hl : 0 < foreLen G) (h : InReach G P) (ho : orientOf P = toolFrame A)
    (hB : IK G P B) (s0 : SameAngle (B 0) (A 0)) (s1 : SameAngle (B 1) (A 1)) (s2 : SameAngle (B 2) (A 2))
    (h4 : Real.cos (A 4) ≠ 0) (h3 : |A 3| ≤ Real.pi / 2 - 1 / 10000) : SameAngle (B 3) (A 3) ∧ SameAngle (B 4) (A 4) ∧ SameAngle (B 5) (A 5) := by
  obtain ⟨J45, J43, nv, xy, h45, e45, e43, exy, hnv, hb3, -, -, -, ht⟩ := ik_hand hG hv hl h hB
  have hQ : linkFrame B 2 = linkFrame A 2 := by rw [frame2_eq, frame2_eq, rotZ_congr s0, rotY_congr s1, rotY_congr s2]
  rw [hQ] at e43 exy
  have rQ := linkFrame_rot A 2
  set Q := linkFrame A 2 with hQd
  set r := G 3 0 with hr
  set ρ := -G 4 2 with hρ
  have r0 : 0 < r := hG.fore.1
  have ρ0 : 0 < ρ := by have := hG.hand.2.2; linarith
  have tf : toolFrame A = Q * (rotX (A 3) * rotY (A 4) * rotY Real.pi * rotZ (A 5)) := by
    rw [← Matrix.mul_assoc, ← Matrix.mul_assoc, ← Matrix.mul_assoc]; rfl
  have n0 : cr J45 J43 = Q *ᵥ ![0, r * ρ * Real.cos (A 4) * Real.cos (A 3), r * ρ * Real.cos (A 4) * Real.sin (A 3)] := by
    rw [e45, e43, ho, tf, ← Matrix.mulVec_mulVec, cr_rot rQ]; congr 1
    ext i; fin_cases i <;> simp [cr, rotX, rotY, rotZ, Matrix.mulVec, dotProduct, Fin.sum_univ_three, Matrix.mul_apply] <;> ring
  have cxy : cr (cr J45 J43) xy = Q *ᵥ ![-(10 * (r * ρ * Real.cos (A 4)) * Real.sin (A 3)), 0, 0] := by
    rw [n0, exy, cr_rot rQ]; congr 1
    ext i; fin_cases i <;> simp [cr] <;> ring
  have dxy : dt (cr J45 J43) xy = 10 * (r * ρ * Real.cos (A 4)) * Real.cos (A 3) := by
    rw [n0, exy, dt_rot rQ]; simp [dt]; ring
  have lxy : len3 (cr (cr J45 J43) xy) = 10 * (r * ρ * |Real.cos (A 4)|) * Real.sin |A 3| := by
    have hp := Real.pi_pos
    have hs : 0 ≤ Real.sin |A 3| := Real.sin_nonneg_of_nonneg_of_le_pi (abs_nonneg _) (by linarith)
    have hs2 : Real.sin |A 3| ^ 2 = Real.sin (A 3) ^ 2 := by
      rcases abs_cases (A 3) with ⟨e, -⟩ | ⟨e, -⟩ <;> rw [e]
      rw [Real.sin_neg, neg_sq]
    have : len3 (cr (cr J45 J43) xy) = Real.sqrt ((10 * (r * ρ * |Real.cos (A 4)|) * Real.sin |A 3|) ^ 2) := by
      rw [cxy, len3_rot rQ]; unfold len3; congr 1; simp [mul_pow, hs2]
    rw [this, Real.sqrt_sq (by positivity)]
  have hc3 : Real.cos |A 3| = Real.cos (A 3) := Real.cos_abs _
  -- after the flip
  obtain ⟨K, hK, hn⟩ : ∃ K : ℝ, 0 < K ∧ nv = Q *ᵥ ![0, K * Real.cos (A 3), K * Real.sin (A 3)] := by
    have hp := Real.pi_pos
    rcases lt_or_gt_of_ne h4 with hneg | hpos
    · refine ⟨-(r * ρ * Real.cos (A 4)), by have := mul_pos r0 ρ0; nlinarith, ?_⟩
      have : |ab (cr J45 J43) xy (cr xy ![0, 0, 1])| = Real.pi - |A 3| := by
        apply abs_ab (k := 10 * (r * ρ * |Real.cos (A 4)|)) (by have := abs_pos.2 h4; positivity) ⟨by linarith, by linarith [abs_nonneg (A 3)]⟩
        · rw [Real.sin_pi_sub, lxy]
        · rw [Real.cos_pi_sub, hc3, dxy, abs_of_neg hneg]; ring
      rw [hnv, flip, if_pos (by rw [this]; linarith), n0, ← Matrix.mulVec_neg]; congr 1
      ext i; fin_cases i <;> simp
    · refine ⟨r * ρ * Real.cos (A 4), by positivity, ?_⟩
      have : |ab (cr J45 J43) xy (cr xy ![0, 0, 1])| = |A 3| := by
        apply abs_ab (k := 10 * (r * ρ * |Real.cos (A 4)|)) (by have := abs_pos.2 h4; positivity) ⟨abs_nonneg _, by linarith⟩
        · rw [lxy]
        · rw [hc3, dxy, abs_of_pos hpos]
      rw [hnv, flip, if_neg (by rw [this]; linarith), n0]
  have q3 := Real.sin_sq_add_cos_sq (A 3)
  have hKs : (K * Real.cos (A 3)) ^ 2 + (K * Real.sin (A 3)) ^ 2 = K ^ 2 := by linear_combination K ^ 2 * q3
  have sb3 : SameAngle (B 3) (A 3) := by
    have e : B 3 = ab ![0, K * Real.cos (A 3), K * Real.sin (A 3)] ![0, 10, 0] ![0, 0, 10 * r] := by
      rw [hb3, hn, exy, e43, cr_rot rQ, ab_rot rQ]; congr 1; ext i; fin_cases i <;> simp [cr]
    obtain ⟨c, s⟩ := ab_hand (s := 10) (t := 10 * r) (y := K * Real.cos (A 3)) (z := K * Real.sin (A 3)) (by norm_num) (by positivity) (by rw [hKs]; positivity)
    rw [← e, hKs, Real.sqrt_sq hK.le] at c s
    exact ⟨mul_left_cancel₀ hK.ne' c, mul_left_cancel₀ hK.ne' s⟩
  have hne : nv ≠ 0 := by
    intro hz
    have : dt nv nv = K ^ 2 := by rw [hn, dt_rot rQ]; simp [dt]; linear_combination K ^ 2 * q3
    rw [hz] at this; simp [dt] at this; exact hK.ne' (pow_eq_zero_iff two_ne_zero |>.1 this.symm)
  have tB : toolFrame B = toolFrame A := (ht hne).trans ho
  have tBe : toolFrame B = (Q * rotX (A 3)) * (rotY (B 4) * rotY Real.pi * rotZ (B 5)) := by
    rw [← rotX_congr sb3, ← hQ, ← Matrix.mul_assoc, ← Matrix.mul_assoc]; rfl
  have tAe : toolFrame A = (Q * rotX (A 3)) * (rotY (A 4) * rotY Real.pi * rotZ (A 5)) := by
    rw [← Matrix.mul_assoc, ← Matrix.mul_assoc]; rfl
  have e := rot_cancel (rot_mul rQ (rotX_rot (A 3))) (tBe.symm.trans (tB.trans tAe))
  have sb4 : SameAngle (B 4) (A 4) := by
    have e0 := congrFun (congrFun e 0) 2
    have e2 := congrFun (congrFun e 2) 2
    simp [rotX, rotY, rotZ, Fin.sum_univ_three, Matrix.mul_apply] at e0 e2
    exact ⟨e2, e0⟩
  refine ⟨sb3, sb4, ?_⟩
  rw [rotY_congr sb4] at e
  have e' := rot_cancel (rot_mul (rotY_rot (A 4)) (rotY_rot Real.pi)) e
  have e0 := congrFun (congrFun e' 0) 0
  have e1 := congrFun (congrFun e' 1) 0
  simp [rotZ] at e0 e1
  exact ⟨e0, e1⟩

end Mrc.Kine
