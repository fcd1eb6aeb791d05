import Verif.Proof.Inverse
import Verif.Model.Config
/-
C53-C57: kinematics, over the exact numbers XR (no rounding).  `finG G` is the geometry handed to the constructor,
`finS A` six joint angles, `finS P` a pose x y z a b c.
-/
set_option linter.unusedSectionVars false
set_option linter.unusedSimpArgs false
namespace Mrc.Props
open Mrc Mrc.Spec Mrc.Kine XR Matrix
open scoped Mrc.Num

/-! ### C53 forward kinematics is the joint chain -/

/-- C53 (calculateCoordinates): the six points computed are the joints of the serial chain. -/
theorem C53_joints (G : Fin 5 → Vec3) (A : Fin 6 → ℝ) :
    let C := (Kin.new (finG G)).coords (finS A)
    C.J1 = finV (jointPos G A 1) ∧ C.J2 = finV (jointPos G A 2) ∧ C.J3 = finV (jointPos G A 3) ∧ C.J4 = finV (jointPos G A 4) ∧ C.J5 = finV (jointPos G A 5) :=
  coords_J G A

theorem euler_fin {C : Kin.Coords XR} {M : Mat3} (hM : IsRotation M) (h : C.M00 = fin (M 0 0) ∧ C.M01 = fin (M 0 1) ∧ C.M02 = fin (M 0 2) ∧ C.M10 = fin (M 1 0) ∧
    C.M11 = fin (M 1 1) ∧ C.M12 = fin (M 1 2) ∧ C.M20 = fin (M 2 0) ∧ C.M21 = fin (M 2 1) ∧ C.M22 = fin (M 2 2)) :
    Kin.euler C = finV ![(eulerR M).1, (eulerR M).2.1, (eulerR M).2.2] := by
  obtain ⟨h00, h01, h02, h10, h11, h12, h20, h21, h22⟩ := h
  obtain ⟨r0, -⟩ := rot_facts hM
  have hab : |M 0 2| ≤ 1 := by
    rw [← sq_le_one_iff_abs_le_one]; nlinarith [sq_nonneg (M 0 0), sq_nonneg (M 0 1)]
  unfold Kin.euler eulerR
  simp only [h00, h01, h02, h10, h11, h12, h22, fgt, flt, lit, ops_lit, ops_lt, ops_atan2, fin_neg, ops_pi, ops_asin _ hab, decide_eq_true_eq, Rat.cast_one, Rat.cast_neg, Rat.cast_zero, Rat.cast_ofNat,
    fin_div _ _ (two_ne_zero : (2 : ℝ) ≠ 0)]
  split
  · split <;> simp [finV]
  · simp [finV]

theorem eulerR_range (M : Mat3) : |(eulerR M).1| ≤ Real.pi ∧ |(eulerR M).2.1| ≤ Real.pi / 2 ∧ |(eulerR M).2.2| ≤ Real.pi := by
  have r := fun y x => abs_le.2 ⟨(at2_range y x).1.le, (at2_range y x).2⟩
  have hp := Real.pi_pos
  unfold eulerR
  split
  · split
    · exact ⟨r _ _, abs_le.2 ⟨Real.neg_pi_div_two_le_arcsin _, Real.arcsin_le_pi_div_two _⟩, r _ _⟩
    · exact ⟨by rw [abs_neg]; exact r _ _, by rw [neg_div, abs_neg, abs_of_pos (by positivity)], by simpa using hp.le⟩
  · exact ⟨r _ _, by rw [abs_of_pos (by positivity)], by simpa using hp.le⟩

theorem forward_eq (G : Fin 5 → Vec3) (A : Fin 6 → ℝ) : (Kin.new (finG G)).forward (finS A) =
    finS (poseOf (jointPos G A 5) (eulerR (toolFrame A)).1 (eulerR (toolFrame A)).2.1 (eulerR (toolFrame A)).2.2) := by
  have hE := euler_fin (toolFrame_rot A) (coords_M G A)
  have hJ := (coords_J G A).2.2.2.2
  unfold Kin.forward
  simp only [hE, hJ]
  funext i; fin_cases i <;> rfl

/-- C53 (forward), with C55: position of the tool point of the chain and three angles, in the principal range, that stand for the tool orientation of the chain. -/
theorem C53_forward (G : Fin 5 → Vec3) (A : Fin 6 → ℝ) :
    ∃ a b c, (Kin.new (finG G)).forward (finS A) = finS (poseOf (jointPos G A 5) a b c) ∧ orient a b c = toolFrame A ∧
      |a| ≤ Real.pi ∧ |b| ≤ Real.pi / 2 ∧ |c| ≤ Real.pi := by
  exact ⟨_, _, _, forward_eq G A, orient_eulerR (toolFrame_rot A), eulerR_range _⟩

/-- the kit's tool point and orientation in its home position: 17.75 in front, 18.1 above the base, tool pointing down. -/
example : ∃ G : Fin 5 → Vec3, finG G = Kit.geometry ∧ jointPos G 0 5 = ![17.75, 0, 18.1] ∧ toolFrame 0 = !![-1, 0, 0; 0, 1, 0; 0, 0, -1] := by
  refine ⟨![![46/10, 0, 79/10], ![0, 0, 117/10], ![1, 0, 15/10], ![1215/100, 0, 0], ![0, 0, -3]], ?_, ?_, ?_⟩
  · funext i; fin_cases i <;> simp [finG, finV, Kit.geometry, lit]
  · ext i; fin_cases i <;> simp [jointPos, Fin.sum_univ_five, linkFrame, jointRot, rotX, rotY, rotZ, Matrix.mulVec, dotProduct, Fin.sum_univ_three, Matrix.mul_apply] <;> norm_num
  · ext i j; fin_cases i <;> fin_cases j <;> simp [toolFrame, linkFrame, jointRot, rotX, rotY, rotZ, Matrix.mul_apply, Fin.sum_univ_three]

/-! ### C54 links are rigid -/

/-- C54: consecutive joints computed by calculateCoordinates are exactly the link length apart, for all angles. -/
theorem C54_links (G : Fin 5 → Vec3) (A : Fin 6 → ℝ) :
    let C := (Kin.new (finG G)).coords (finS A)
    ∃ p1 p2 p3 p4 p5 : Vec3, C.J1 = finV p1 ∧ C.J2 = finV p2 ∧ C.J3 = finV p3 ∧ C.J4 = finV p4 ∧ C.J5 = finV p5 ∧
      len3 p1 = len3 (G 0) ∧ len3 (p2 - p1) = len3 (G 1) ∧ len3 (p3 - p2) = len3 (G 2) ∧ len3 (p4 - p3) = len3 (G 3) ∧ len3 (p5 - p4) = len3 (G 4) := by
  obtain ⟨h1, h2, h3, h4, h5⟩ := coords_J G A
  have e := fun k => (linkFrame_rot A k)
  have s := jointPos_succ G A
  refine ⟨_, _, _, _, _, h1, h2, h3, h4, h5, ?_, ?_, ?_, ?_, ?_⟩
  · have := s 0; change jointPos G A 1 = jointPos G A 0 + _ at this
    rw [this, jointPos_zero, zero_add, len3_rot (e 0)]
  · have := s 1; change jointPos G A 2 = jointPos G A 1 + _ at this
    rw [this, add_sub_cancel_left, len3_rot (e 1)]
  · have := s 2; change jointPos G A 3 = jointPos G A 2 + _ at this
    rw [this, add_sub_cancel_left, len3_rot (e 2)]
  · have := s 3; change jointPos G A 4 = jointPos G A 3 + _ at this
    rw [this, add_sub_cancel_left, len3_rot (e 3)]
  · have := s 4; change jointPos G A 5 = jointPos G A 4 + _ at this
    rw [this, add_sub_cancel_left, len3_rot (e 4)]

/-- C54: the matrix computed by calculateCoordinates is a proper rotation, for all angles. -/
theorem C54_tool (G : Fin 5 → Vec3) (A : Fin 6 → ℝ) :
    let C := (Kin.new (finG G)).coords (finS A)
    ∃ M : Mat3, IsRotation M ∧ C.M00 = fin (M 0 0) ∧ C.M01 = fin (M 0 1) ∧ C.M02 = fin (M 0 2) ∧ C.M10 = fin (M 1 0) ∧ C.M11 = fin (M 1 1) ∧ C.M12 = fin (M 1 2) ∧
      C.M20 = fin (M 2 0) ∧ C.M21 = fin (M 2 1) ∧ C.M22 = fin (M 2 2) :=
  ⟨toolFrame A, toolFrame_rot A, coords_M G A⟩

/-! ### C55 orientation angles -/

/-- C55: the three angles computed from ANY proper rotation matrix reproduce it, also in gimbal lock (b = ±π/2). -/
theorem C55_orientation {C : Kin.Coords XR} {M : Mat3} (hM : IsRotation M) (h : C.M00 = fin (M 0 0) ∧ C.M01 = fin (M 0 1) ∧ C.M02 = fin (M 0 2) ∧ C.M10 = fin (M 1 0) ∧
    C.M11 = fin (M 1 1) ∧ C.M12 = fin (M 1 2) ∧ C.M20 = fin (M 2 0) ∧ C.M21 = fin (M 2 1) ∧ C.M22 = fin (M 2 2)) :
    ∃ a b c, Kin.euler C = finV ![a, b, c] ∧ orient a b c = M :=
  ⟨_, _, _, euler_fin hM h, orient_eulerR hM⟩

/-- a gimbal lock matrix is a rotation. -/
example : IsRotation !![0, 0, 1; 1, 0, 0; 0, 1, 0] := by
  constructor
  · ext i j; fin_cases i <;> fin_cases j <;> simp [Matrix.mul_apply, Fin.sum_univ_three]
  · simp [Matrix.det_fin_three]

/-! ### C57 out of range -/

/-- C57: inverse() reports OK exactly for the poses within reach (and then six numbers), OUT_OF_RANGE for all others; in this case no angles are returned. -/
theorem C57_range {G : Fin 5 → Vec3} (hv : 0 < upperLen G) (hl : 0 < foreLen G) (P : Fin 6 → ℝ) :
    (InReach G P → ∃ A, (Kin.new (finG G)).inverse (finS P) = some (finS A)) ∧ (¬ InReach G P → (Kin.new (finG G)).inverse (finS P) = none) := by
  refine ⟨fun h => ?_, inverse_none hv hl⟩
  obtain ⟨A, h1, _⟩ := inverse_some hv hl h
  exact ⟨A, h1⟩

/-! ### C56 inverse kinematics -/

theorem atan2R_polar {k t : ℝ} (hk : 0 < k) (h : -Real.pi < t ∧ t ≤ Real.pi) : atan2R (k * Real.sin t) (k * Real.cos t) = t := by
  refine Eq.trans ?_ (Complex.arg_mul_cos_add_sin_mul_I hk ⟨h.1, h.2⟩)
  unfold atan2R; congr 1
  rw [← Complex.ofReal_cos, ← Complex.ofReal_sin]
  apply Complex.ext <;> simp [-Complex.ofReal_cos, -Complex.ofReal_sin]

/-- the angles computed from an orientation given by angles in the principal range are these angles. -/
theorem eulerR_orient {a b c : ℝ} (ha : -Real.pi < a ∧ a ≤ Real.pi) (hb : |b| < Real.pi / 2) (hc : -Real.pi < c ∧ c ≤ Real.pi) : eulerR (orient a b c) = (a, b, c) := by
  rw [abs_lt] at hb
  have hcb : 0 < Real.cos b := Real.cos_pos_of_mem_Ioo ⟨hb.1, hb.2⟩
  have e02 : orient a b c 0 2 = Real.sin b := by simp [orient, rotX, rotY, rotZ, Matrix.mul_apply, Fin.sum_univ_three]
  have e12 : -orient a b c 1 2 = Real.cos b * Real.sin a := by simp [orient, rotX, rotY, rotZ, Matrix.mul_apply, Fin.sum_univ_three]; ring
  have e22 : orient a b c 2 2 = Real.cos b * Real.cos a := by simp [orient, rotX, rotY, rotZ, Matrix.mul_apply, Fin.sum_univ_three]; ring
  have e01 : -orient a b c 0 1 = Real.cos b * Real.sin c := by simp [orient, rotX, rotY, rotZ, Matrix.mul_apply, Fin.sum_univ_three]
  have e00 : orient a b c 0 0 = Real.cos b * Real.cos c := by simp [orient, rotX, rotY, rotZ, Matrix.mul_apply, Fin.sum_univ_three]
  have q := Real.sin_sq_add_cos_sq b
  unfold eulerR
  rw [if_pos (by rw [e02]; nlinarith), if_pos (by rw [e02]; nlinarith), e02, e12, e22, e01, e00, atan2R_polar hcb ha, atan2R_polar hcb hc, Real.arcsin_sin hb.1.le hb.2.le]

/-- C56: if inverse() reports OK and the wrist is not straight (cos A4 ≠ 0: forearm and hand not in line), the forward kinematics of the angles
returned has exactly the requested position and orientation. -/
theorem C56_inverse {G : Fin 5 → Vec3} (hG : Supported G) (hv : 0 < upperLen G) (hl : 0 < foreLen G) {P : Fin 6 → ℝ} {R : Six XR}
    (h : (Kin.new (finG G)).inverse (finS P) = some R) :
    ∃ A, R = finS A ∧ (Real.cos (A 4) ≠ 0 → jointPos G A 5 = ![P 0, P 1, P 2] ∧ toolFrame A = orientOf P ∧
      ∃ a b c, (Kin.new (finG G)).forward R = finS (poseOf ![P 0, P 1, P 2] a b c) ∧ orient a b c = orientOf P) := by
  by_cases hr : InReach G P
  · obtain ⟨A, h1, hA⟩ := inverse_some hv hl hr
    rw [h] at h1
    obtain rfl := Option.some.inj h1
    refine ⟨A, rfl, fun hs => ?_⟩
    obtain ⟨k1, k2⟩ := ik_correct hG hv hl hr hA hs
    obtain ⟨a, b, c, f1, f2, _⟩ := C53_forward G A
    exact ⟨k1, k2, a, b, c, by rw [f1, k1], by rw [f2, k2]⟩
  · rw [inverse_none hv hl hr] at h; cases h

/-- C56, in numbers: for poses given by angles in the principal range (|b| < π/2), forward(inverse(P)) = P exactly. -/
theorem C56_round_trip {G : Fin 5 → Vec3} (hG : Supported G) (hv : 0 < upperLen G) (hl : 0 < foreLen G) {P A : Fin 6 → ℝ}
    (h : (Kin.new (finG G)).inverse (finS P) = some (finS A)) (hs : Real.cos (A 4) ≠ 0)
    (ha : -Real.pi < P 3 ∧ P 3 ≤ Real.pi) (hb : |P 4| < Real.pi / 2) (hc : -Real.pi < P 5 ∧ P 5 ≤ Real.pi) :
    (Kin.new (finG G)).forward (finS A) = finS P := by
  obtain ⟨A', e, hA⟩ := C56_inverse hG hv hl h
  have : A = A' := by funext i; exact XR.fin.inj (congrFun e i)
  subst this
  obtain ⟨k1, k2, -⟩ := hA hs
  rw [forward_eq, k1, k2, orientOf, eulerR_orient ha hb hc]
  funext i; fin_cases i <;> rfl

/-- an arm with unit links, for the examples below. -/
def unitArm : Fin 5 → Vec3 := ![0, ![0, 0, 1], 0, ![1, 0, 0], ![0, 0, -1]]
theorem unitArm_supported : Supported unitArm := ⟨by simp [unitArm], by simp [unitArm]⟩
theorem unitArm_upper : upperLen unitArm = 1 := by simp [upperLen, unitArm]
theorem unitArm_fore : foreLen unitArm = 1 := by simp [foreLen, unitArm]

/-- the arm stretched out horizontally, the hand in line with it and turned by c. -/
noncomputable def stretched (c : ℝ) : Fin 6 → ℝ := ![3, 0, 0, 0, Real.pi / 2, c]
theorem stretched_wrist (c : ℝ) : wristOf unitArm (stretched c) = ![2, 0, 0] := by
  ext i; fin_cases i <;> simp [wristOf, stretched, unitArm, len3, orientOf, orient, rotX, rotY, rotZ, Matrix.mulVec, dotProduct, Fin.sum_univ_three, Matrix.mul_apply]
  norm_num
theorem stretched_dist (c : ℝ) : axisDist unitArm (stretched c) = 2 := by
  unfold axisDist; rw [stretched_wrist]; simp
theorem stretched_offset : offset unitArm = 0 := by simp [offset, unitArm]
theorem stretched_reach (c : ℝ) : reach unitArm (stretched c) = 2 := by
  unfold reach; rw [stretched_wrist, stretched_dist, stretched_offset]; simp [unitArm]
theorem stretched_inReach (c : ℝ) : InReach unitArm (stretched c) := by
  constructor
  · rw [stretched_dist]; norm_num
  · rw [stretched_dist, stretched_offset]; norm_num
  · rw [stretched_reach]; norm_num
  · rw [stretched_reach, unitArm_upper, unitArm_fore]; norm_num
  · rw [stretched_reach, unitArm_upper, unitArm_fore]; norm_num

/-- C56 is false in the singular position (hand in line with the forearm): inverse() reports OK, but the rotation about the tool axis is not the one asked for
(axis 5 is always set to 0). -/
theorem C56_singular_false : ¬ ∀ (G : Fin 5 → Vec3) (P A : Fin 6 → ℝ), Supported G → 0 < upperLen G → 0 < foreLen G →
    (Kin.new (finG G)).inverse (finS P) = some (finS A) → toolFrame A = orientOf P := by
  intro hall
  obtain ⟨A, h1, hA⟩ := inverse_some (by rw [unitArm_upper]; norm_num) (by rw [unitArm_fore]; norm_num) (stretched_inReach Real.pi)
  have := hall _ _ A unitArm_supported (by rw [unitArm_upper]; norm_num) (by rw [unitArm_fore]; norm_num) h1
  have a0 := hA.a0; have a1 := hA.a1; have a2 := hA.a2
  rw [stretched_dist, stretched_offset, stretched_wrist] at a0
  rw [stretched_dist, stretched_offset, stretched_wrist, stretched_reach, unitArm_upper, unitArm_fore] at a1
  rw [stretched_reach, unitArm_upper, unitArm_fore] at a2
  have at0 : ∀ x : ℝ, 0 ≤ x → atan2R 0 x = 0 := by
    intro x hx; unfold atan2R; rw [show (⟨x, 0⟩ : ℂ) = ((x : ℝ) : ℂ) from rfl, Complex.arg_ofReal_of_nonneg hx]
  have z0 : A 0 = 0 := by rw [a0]; simp [at0]
  have z1 : A 1 = Real.pi / 2 := by rw [a1]; simp [unitArm, at0]; norm_num
  have z2 : A 2 = -(Real.pi / 2) := by rw [a2]; simp [unitArm, at0]; norm_num; ring
  obtain ⟨J45, J43, nv, xy, h45, h43, hxy, hnv', h3, -, h5⟩ := hA.hand
  have hnv : nv = cr J45 J43 ∨ nv = -cr J45 J43 := by rw [hnv']; exact flip_cases _ _ _
  have hJ3 : jointPos unitArm A 3 = ![1, 0, 0] := by
    ext i; fin_cases i <;> simp [jointPos, Fin.sum_univ_five, linkFrame, jointRot, rotX, rotY, rotZ, Matrix.mulVec, dotProduct, Fin.sum_univ_three, Matrix.mul_apply, z0, z1, z2, unitArm]
  rw [hJ3, stretched_wrist] at h43
  rw [stretched_wrist] at h45
  have hc : cr J45 J43 = 0 := by
    rw [h45, h43]; ext i; fin_cases i <;> simp [cr, stretched]
  have hn0 : nv = 0 := by rcases hnv with h | h <;> simp [h, hc]
  have ab0 : ∀ b r, ab 0 b r = 0 := by
    intro b r
    have : len3 (cr 0 b) = 0 := by simp [len3, cr]
    have hd : dt 0 b = 0 := by simp [dt]
    unfold ab; rw [this, hd, at0 0 le_rfl, zero_mul]
  rw [hn0, ab0] at h3 h5
  have e := congrFun (congrFun this 1) 1
  simp [toolFrame, linkFrame, jointRot, orientOf, orient, stretched, rotX, rotY, rotZ, Fin.sum_univ_three, Matrix.mul_apply, z0, h3, h5] at e
  norm_num at e

end Mrc.Props
