import Verif.Proof.RoundTrip
import Verif.Props.Kinematics
/-
C68, C69: inverse kinematics of a pose the arm itself takes.  Exact numbers XR (no rounding).
-/
set_option linter.unusedSectionVars false
set_option linter.unusedSimpArgs false
namespace Mrc.Props
open Mrc Mrc.Spec Mrc.Kine XR Matrix
open scoped Mrc.Num

/-- the pose read back by forward(). -/
noncomputable def readPose (A : Fin 6 → ℝ) (G : Fin 5 → Vec3) : Fin 6 → ℝ :=
  poseOf (jointPos G A 5) (eulerR (toolFrame A)).1 (eulerR (toolFrame A)).2.1 (eulerR (toolFrame A)).2.2

theorem readPose_pos (G : Fin 5 → Vec3) (A : Fin 6 → ℝ) : jointPos G A 5 = ![readPose A G 0, readPose A G 1, readPose A G 2] := vec3 _
theorem readPose_orient (G : Fin 5 → Vec3) (A : Fin 6 → ℝ) : orientOf (readPose A G) = toolFrame A := orient_eulerR (toolFrame_rot A)

/-- C68: the pose forward() computes for any joint angles, with the wrist in front of the base axis (and not on it or at the shoulder), is accepted by inverse(). -/
theorem C68_accepted {G : Fin 5 → Vec3} (hG : Supported G) (hv : 0 < upperLen G) (hl : 0 < foreLen G) {A : Fin 6 → ℝ} (hF : InFront G A) (hW : WristFree G A) :
    ∃ B, (Kin.new (finG G)).inverse ((Kin.new (finG G)).forward (finS A)) = some (finS B) := by
  rw [forward_eq]
  obtain ⟨B, h, -⟩ := inverse_some hv hl (inReach_of_forward (P := readPose A G) hG (readPose_pos G A) (readPose_orient G A) hF hW)
  exact ⟨B, h⟩

/-- C69: ... and the angles are those the arm has (up to full turns), if the elbow is not bent backwards, the hand is not in line with the forearm and the forearm
is turned by at most a quarter turn (less 1/10000 rad). -/
theorem C69_same {G : Fin 5 → Vec3} (hG : Supported G) (hv : 0 < upperLen G) (hl : 0 < foreLen G) {A : Fin 6 → ℝ} (hF : InFront G A) (hW : WristFree G A) (hE : ElbowUp G A)
    (h3 : |A 3| ≤ Real.pi / 2 - 1 / 10000) (h4 : Real.cos (A 4) ≠ 0) :
    ∃ B, (Kin.new (finG G)).inverse ((Kin.new (finG G)).forward (finS A)) = some (finS B) ∧ ∀ i, SameAngle (B i) (A i) := by
  rw [forward_eq]
  have hr := inReach_of_forward (P := readPose A G) hG (readPose_pos G A) (readPose_orient G A) hF hW
  obtain ⟨B, h, hB⟩ := inverse_some hv hl hr
  refine ⟨B, h, ?_⟩
  obtain ⟨s0, s1, s2⟩ := arm_same hG hv hl hr (wrist_of_pose hG (readPose_pos G A) (readPose_orient G A)) hF hE hB
  obtain ⟨s3, s4, s5⟩ := hand_same hG hv hl hr (readPose_orient G A) hB s0 s1 s2 h4 h3
  intro i; fin_cases i <;> assumption

/-- the geometry of the kit (config/mp-robot-kit.h:25-31) in real numbers. -/
noncomputable def kitG : Fin 5 → Vec3 := ![![46/10, 0, 79/10], ![0, 0, 117/10], ![1, 0, 15/10], ![1215/100, 0, 0], ![0, 0, -3]]
theorem kitG_eq : finG kitG = Kit.geometry := by
  funext i; fin_cases i <;> simp [kitG, finG, finV, Kit.geometry, lit]
theorem kitG_supported : Supported kitG := ⟨by simp [kitG], by simp [kitG]⟩
theorem kitG_upper : upperLen kitG = 117 / 10 := by
  have : upperLen kitG = Real.sqrt ((117 / 10) ^ 2) := by unfold upperLen; congr 1; simp [kitG]
  rw [this, Real.sqrt_sq (by norm_num)]
theorem kitG_fore2 : foreLen kitG ^ 2 = (1 + 1215 / 100) ^ 2 + (15 / 10) ^ 2 := by
  unfold foreLen; rw [Real.sq_sqrt (by positivity)]; simp [kitG]
theorem kitG_fore : 13 < foreLen kitG := by
  have h0 : 0 ≤ foreLen kitG := Real.sqrt_nonneg _
  have := kitG_fore2; by_contra h; nlinarith
theorem kitG_offset : offset kitG = 0 := by simp [offset, kitG]

theorem same_eq {x y : ℝ} (h : SameAngle x y) (h1 : x - y < 2 * Real.pi) (h2 : -(2 * Real.pi) < x - y) : x = y := by
  have hc : Real.cos (x - y) = 1 := by
    rw [Real.cos_sub, h.1, h.2]; nlinarith [Real.sin_sq_add_cos_sq y]
  have := (Real.cos_eq_one_iff_of_lt_of_lt h2 h1).1 hc
  linarith

theorem kit_wristFree {A : Fin 6 → ℝ} (hF : 0 < Real.cos (A 0) * jointPos kitG A 4 0 + Real.sin (A 0) * jointPos kitG A 4 1) : WristFree kitG A := by
  obtain ⟨h0, h1, h2⟩ := joint4_plane (A := A) kitG_supported
  have cs := Real.sin_sq_add_cos_sq (A 0)
  constructor
  · by_contra hn
    have z0 : jointPos kitG A 4 0 = 0 := by nlinarith [sq_nonneg (jointPos kitG A 4 0), sq_nonneg (jointPos kitG A 4 1)]
    have z1 : jointPos kitG A 4 1 = 0 := by nlinarith [sq_nonneg (jointPos kitG A 4 0), sq_nonneg (jointPos kitG A 4 1)]
    rw [z0, z1] at hF; simp at hF
  · rw [h0, h2, add_sub_cancel_left, add_sub_cancel_left]
    have t := (armU_tri kitG A).1
    have hp : 0 < ‖armU kitG A‖ := by
      refine lt_of_lt_of_le ?_ t
      rw [kitG_upper]; apply abs_pos.2; have := kitG_fore; linarith
    have : ‖armU kitG A‖ ^ 2 = (armU kitG A).re ^ 2 + (armU kitG A).im ^ 2 := by
      rw [Complex.sq_norm, Complex.normSq_apply]; ring
    rw [← this]; positivity

/-- the kit: for every pose the arm takes with angles A in these ranges the inverse kinematics gives A. -/
theorem kit_inverse {P A : Fin 6 → ℝ} (hpos : jointPos kitG A 5 = ![P 0, P 1, P 2]) (hor : orientOf P = toolFrame A) (h0 : |A 0| ≤ Real.pi / 2) (h1 : |A 1| < Real.pi / 2) (h2 : -(5 * Real.pi / 12) ≤ A 2 ∧ A 2 ≤ Real.pi / 2) (h3 : |A 3| ≤ Real.pi / 2 - 1 / 10000)
    (h4 : |A 4| < Real.pi) (h4' : Real.cos (A 4) ≠ 0) (h5 : |A 5| ≤ Real.pi / 2)
    (hF : 0 < Real.cos (A 0) * jointPos kitG A 4 0 + Real.sin (A 0) * jointPos kitG A 4 1) :
    (Kin.new (F := XR) Kit.geometry).inverse (finS P) = some (finS A) := by
  have hp := Real.pi_pos
  have hE : ElbowUp kitG A := by
    have key : 0 ≤ 1315 / 100 * Real.cos (A 2) + 15 / 10 * Real.sin (A 2) := by
      rcases le_or_gt 0 (A 2) with hpos' | hneg
      · have := Real.cos_nonneg_of_mem_Icc (x := A 2) ⟨by linarith, h2.2⟩
        have := Real.sin_nonneg_of_nonneg_of_le_pi hpos' (by linarith)
        positivity
      · have hc : Real.cos (5 * Real.pi / 12) ≤ Real.cos (A 2) := by
          rw [← Real.cos_neg (A 2)]; exact Real.cos_le_cos_of_nonneg_of_le_pi (by linarith) (by linarith) (by linarith)
        have hq : 1 / 5 ≤ Real.cos (5 * Real.pi / 12) := by
          have e : 5 * Real.pi / 12 = Real.pi / 4 + Real.pi / 6 := by ring
          rw [e, Real.cos_add, Real.cos_pi_div_four, Real.sin_pi_div_four, Real.cos_pi_div_six, Real.sin_pi_div_six]
          have a1 : (1.4 : ℝ) ≤ Real.sqrt 2 := Real.le_sqrt_of_sq_le (by norm_num)
          have a2 : (1.7 : ℝ) ≤ Real.sqrt 3 := Real.le_sqrt_of_sq_le (by norm_num)
          nlinarith
        nlinarith [Real.neg_one_le_sin (A 2)]
    unfold ElbowUp
    simp [kitG, rotY, Matrix.mulVec, dotProduct, Fin.sum_univ_three]
    linarith
  have hv : 0 < upperLen kitG := by rw [kitG_upper]; norm_num
  have hl : 0 < foreLen kitG := by have := kitG_fore; linarith
  rw [← kitG_eq]
  have hr := inReach_of_forward (P := P) kitG_supported hpos hor hF.le (kit_wristFree hF)
  obtain ⟨B, h, hB⟩ := inverse_some hv hl hr
  obtain ⟨s0, s1, s2⟩ := arm_same kitG_supported hv hl hr (wrist_of_pose kitG_supported hpos hor) hF.le hE hB
  obtain ⟨s3, s4, s5⟩ := hand_same kitG_supported hv hl hr hor hB s0 s1 s2 h4' h3
  obtain ⟨_, _, _, _, -, -, -, -, -, -, ⟨_, -, r4⟩, r3, r5, -⟩ := ik_hand kitG_supported hv hl hr hB
  rw [abs_le] at r3 r4 r5 h0 h3 h5
  rw [abs_lt] at h1 h4
  refine h.trans ?_
  congr 2
  have e0 : B 0 = A 0 := by
    have b := hB.a0
    rw [kitG_offset, neg_zero, zero_div, Real.arccos_zero, sub_self, zero_add] at b
    have r := at2_range (wristOf kitG P 1) (wristOf kitG P 0)
    rw [← b] at r
    exact same_eq s0 (by linarith) (by linarith)
  have e1 : B 1 = A 1 := by
    have b := hB.a1
    have r := at2_range (wristOf kitG P 2 - kitG 0 2) (Real.sqrt (axisDist kitG P ^ 2 - offset kitG ^ 2) - kitG 0 0)
    have z : atan2R (kitG 1 0) (kitG 1 2) = 0 := by
      unfold atan2R
      rw [show (⟨kitG 1 2, kitG 1 0⟩ : ℂ) = ((117 / 10 : ℝ) : ℂ) by apply Complex.ext <;> simp [kitG], Complex.arg_ofReal_of_nonneg (by norm_num)]
    rw [z] at b
    have a1 := Real.arccos_nonneg ((reach kitG P ^ 2 - foreLen kitG ^ 2 + upperLen kitG ^ 2) / (2 * reach kitG P * upperLen kitG))
    have a2 := Real.arccos_le_pi ((reach kitG P ^ 2 - foreLen kitG ^ 2 + upperLen kitG ^ 2) / (2 * reach kitG P * upperLen kitG))
    exact same_eq s1 (by linarith) (by linarith)
  have e2 : B 2 = A 2 := by
    have b := hB.a2
    have z : atan2R (kitG 1 0) (kitG 1 2) = 0 := by
      unfold atan2R
      rw [show (⟨kitG 1 2, kitG 1 0⟩ : ℂ) = ((117 / 10 : ℝ) : ℂ) by apply Complex.ext <;> simp [kitG], Complex.arg_ofReal_of_nonneg (by norm_num)]
    have w : |atan2R (kitG 2 2 + kitG 3 2) (kitG 2 0 + kitG 3 0)| ≤ Real.pi / 2 := by
      unfold atan2R; rw [Complex.abs_arg_le_pi_div_two_iff]; simp [kitG]; norm_num
    rw [abs_le] at w
    rw [z] at b
    have a1 := Real.arccos_nonneg ((-reach kitG P ^ 2 + foreLen kitG ^ 2 + upperLen kitG ^ 2) / (2 * foreLen kitG * upperLen kitG))
    have a2 := Real.arccos_le_pi ((-reach kitG P ^ 2 + foreLen kitG ^ 2 + upperLen kitG ^ 2) / (2 * foreLen kitG * upperLen kitG))
    exact same_eq s2 (by linarith) (by linarith)
  have e3 : B 3 = A 3 := same_eq s3 (by linarith) (by linarith)
  have e4 : B 4 = A 4 := same_eq s4 (by linarith) (by linarith)
  have e5 : B 5 = A 5 := same_eq s5 (by linarith) (by linarith)
  funext i; fin_cases i <;> simp [e0, e1, e2, e3, e4, e5]

/-- C69 for the kit, exactly: for all joint angles with base ±90°, shoulder -90°..90°, elbow -75°..90°, forearm ±(90° - 1/10000 rad), wrist ±180° but not
±90°, hand ±90° and the wrist in front of the base axis, inverse(forward(A)) = A.  (Commanding the pose that was just read back does not move any joint.) -/
theorem C69_kit {A : Fin 6 → ℝ} (h0 : |A 0| ≤ Real.pi / 2) (h1 : |A 1| < Real.pi / 2) (h2 : -(5 * Real.pi / 12) ≤ A 2 ∧ A 2 ≤ Real.pi / 2) (h3 : |A 3| ≤ Real.pi / 2 - 1 / 10000)
    (h4 : |A 4| < Real.pi) (h4' : Real.cos (A 4) ≠ 0) (h5 : |A 5| ≤ Real.pi / 2)
    (hF : 0 < Real.cos (A 0) * jointPos kitG A 4 0 + Real.sin (A 0) * jointPos kitG A 4 1) :
    (Kin.new (F := XR) Kit.geometry).inverse ((Kin.new Kit.geometry).forward (finS A)) = some (finS A) := by
  rw [← kitG_eq, forward_eq, kitG_eq]
  exact kit_inverse (P := readPose A kitG) (readPose_pos kitG A) (readPose_orient kitG A) h0 h1 h2 h3 h4 h4' h5 hF

/-- a pose of the kit that meets the hypotheses of C56, C57, C68 and C69: base 45°, forearm 60°, wrist -45°, hand 30°. -/
noncomputable def kitPose : Fin 6 → ℝ := ![Real.pi / 4, 0, 0, Real.pi / 3, -(Real.pi / 4), Real.pi / 6]
theorem kitPose_front : 0 < Real.cos (kitPose 0) * jointPos kitG kitPose 4 0 + Real.sin (kitPose 0) * jointPos kitG kitPose 4 1 := by
  rw [(joint4_plane kitG_supported).1]
  simp [armU, ei, kitPose, kitG]; norm_num
example : (Kin.new (F := XR) Kit.geometry).inverse ((Kin.new Kit.geometry).forward (finS kitPose)) = some (finS kitPose) := by
  have hp := Real.pi_pos
  have hp3 := Real.two_le_pi
  apply C69_kit _ _ _ _ _ _ _ kitPose_front
  · simp [kitPose]; rw [abs_of_pos (by positivity)]; linarith
  · simp [kitPose]; exact hp
  · simp [kitPose]; constructor <;> positivity
  · simp [kitPose]; rw [abs_of_pos (by positivity)]; linarith
  · simp [kitPose]; rw [abs_of_pos (by positivity)]; linarith
  · simp [kitPose]
  · simp [kitPose]; rw [abs_of_pos (by positivity)]; linarith
example : InReach kitG (readPose kitPose kitG) := inReach_of_forward kitG_supported (readPose_pos _ _) (readPose_orient _ _) kitPose_front.le (kit_wristFree kitPose_front)

end Mrc.Props
