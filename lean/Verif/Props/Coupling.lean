import Verif.Proof.Coupling
/-
C58, C59: the axis couplings of the two configurations, over the exact numbers XR.
-/
set_option linter.unusedSectionVars false
set_option linter.unusedSimpArgs false
namespace Mrc.Props
open Mrc Mrc.Spec Mrc.Coupl XR
open scoped Mrc.Num

/-- C58: for the kit, logical -> physical -> logical and physical -> logical -> physical are the identity, and only axis 2 differs: by the angle of axis 1. -/
theorem C58_kit (A : Fin 6 → ℝ) : Kit.p2l (Kit.l2p (finS A)) = finS A ∧ Kit.l2p (Kit.p2l (finS A)) = finS A ∧
    ∃ B : Fin 6 → ℝ, Kit.l2p (finS A) = finS B ∧ B 2 = A 2 + A 1 ∧ ∀ i, i ≠ 2 → B i = A i := by
  refine ⟨?_, ?_, ⟨Function.update A 2 (A 2 + A 1), ?_, by simp, fun i h => by simp [h]⟩⟩
  · funext i; fin_cases i <;> simp [Kit.p2l, Kit.l2p, RC.upd, finS]
  · funext i; fin_cases i <;> simp [Kit.p2l, Kit.l2p, RC.upd, finS]
  · funext i; fin_cases i <;> simp [Kit.p2l, Kit.l2p, RC.upd, finS]

theorem cos_bound {a : ℝ} (h : -(25 * (Real.pi / 180)) ≤ a ∧ a ≤ Real.pi / 2) : Real.cos (a + Real.pi / 2) ≤ 9 / 20 := by
  have hp := Real.pi_lt_d2
  have hp0 := Real.pi_pos
  rw [Real.cos_add_pi_div_two, ← Real.sin_neg]
  rcases le_or_gt (-a) 0 with h0 | h0
  · have := Real.sin_nonpos_of_nonpos_of_neg_pi_le h0 (by linarith); linarith
  · have := Real.sin_lt h0; norm_num at hp; linarith

/-- C59: for robot D, with axis 2 between -25° and 90° (the limits are -25° and 48°) and the other axes arbitrary, physical angles are numbers and
logical -> physical -> logical is the identity. -/
theorem C59_robotD {A : Fin 6 → ℝ} (h : -(25 * (Real.pi / 180)) ≤ A 2 ∧ A 2 ≤ Real.pi / 2) :
    (∃ B, RobotD.l2p (finS A) = finS B ∧ ∀ i, i ≠ 2 → B i = A i) ∧ RobotD.p2l (RobotD.l2p (finS A)) = finS A := by
  have hp0 := Real.pi_pos
  have hc := cos_bound h
  have hc1 := Real.neg_one_le_cos (A 2 + Real.pi / 2)
  set c := Real.cos (A 2 + Real.pi / 2) with hcd
  have hd0 : 0 < (95 / 10 : ℝ) ^ 2 - 2 * (95 / 10) * (33 / 10) * c + (33 / 10) ^ 2 := by nlinarith
  set d := Real.sqrt ((95 / 10 : ℝ) ^ 2 - 2 * (95 / 10) * (33 / 10) * c + (33 / 10) ^ 2) with hd
  have hdp : 0 < d := Real.sqrt_pos.2 hd0
  have hd2 : d ^ 2 = (95 / 10 : ℝ) ^ 2 - 2 * (95 / 10) * (33 / 10) * c + (33 / 10) ^ 2 := Real.sq_sqrt hd0.le
  have hX : |(-(1029 / 100 : ℝ) ^ 2 + (2619 / 1000) ^ 2 + d ^ 2) / (2 * (2619 / 1000) * d)| ≤ 1 := by
    rw [abs_le, le_div_iff₀ (by positivity), div_le_iff₀ (by positivity)]
    have l : (8 : ℝ) ≤ d := by by_contra hn; nlinarith
    have u : d ≤ 129 / 10 := by by_contra hn; nlinarith
    constructor <;> nlinarith
  have hS : 0 ≤ (-(1029 / 100 : ℝ) ^ 2 + (2619 / 1000) ^ 2 + d ^ 2) / (2 * (2619 / 1000)) + (95 / 10 - 33 / 10 * c) := by
    rw [hd2]; have : (0 : ℝ) < 2 * (2619 / 1000) := by norm_num
    rw [div_add' _ _ _ this.ne', le_div_iff₀ this]; nlinarith
  set b := Real.arccos ((-(1029 / 100 : ℝ) ^ 2 + (2619 / 1000) ^ 2 + d ^ 2) / (2 * (2619 / 1000) * d)) + Real.arccos ((-(33 / 10 : ℝ) ^ 2 + (95 / 10) ^ 2 + d ^ 2) / (2 * (95 / 10) * d)) with hb
  have hb1 := Real.neg_one_le_cos b
  have hb2 := Real.cos_le_one b
  have he0 : 0 < (95 / 10 : ℝ) ^ 2 - 2 * (95 / 10) * (2619 / 1000) * Real.cos b + (2619 / 1000) ^ 2 := by nlinarith
  set e := Real.sqrt ((95 / 10 : ℝ) ^ 2 - 2 * (95 / 10) * (2619 / 1000) * Real.cos b + (2619 / 1000) ^ 2) with he
  have hep : 0 < e := Real.sqrt_pos.2 he0
  have he2 : e ^ 2 = (95 / 10 : ℝ) ^ 2 - 2 * (95 / 10) * (2619 / 1000) * Real.cos b + (2619 / 1000) ^ 2 := Real.sq_sqrt he0.le
  have hC : c * e ≤ 95 / 10 - 2619 / 1000 * Real.cos b := by
    have u : e ≤ 125 / 10 := by by_contra hn; nlinarith
    nlinarith
  obtain ⟨k1, k2, k3, k4⟩ := fourbar (v := 95 / 10) (h1 := 2619 / 1000) (h2 := 1029 / 100) (h3 := 33 / 10) (a := A 2 + Real.pi / 2) (by norm_num) (by norm_num) (by norm_num)
    ⟨by linarith, by linarith⟩ hdp hd2 hX hS hep he2 hC
  -- the model in real numbers
  have hl : RobotD.l2p (finS A) = finS (Function.update A 2 (Real.pi / 2 - b + A 1)) := by
    have e1 : (FloatOps.sqrt (RobotD.v_1 * RobotD.v_1 - lit 2 * RobotD.v_1 * RobotD.h_3 * FloatOps.cos (finS A 2 + FloatOps.pi / lit 2) + RobotD.h_3 * RobotD.h_3) : XR) = fin d := by
      simp only [RobotD.v_1, RobotD.h_3, lit, ops_lit, ops_pi, finS, fin_div _ _ (show ((2 : ℚ) : ℝ) ≠ 0 by norm_num), fin_add, fin_sub, fin_mul, ops_cos]
      push_cast
      rw [ops_sqrt _ (by rw [← hcd]; nlinarith)]
      congr 1; rw [hd]; congr 1; rw [← hcd]; ring
    have e2 : (FloatOps.acos ((-RobotD.h_2 * RobotD.h_2 + RobotD.h_1 * RobotD.h_1 + fin d * fin d) / (lit 2 * RobotD.h_1 * fin d)) : XR) =
        fin (Real.arccos ((-(1029 / 100 : ℝ) ^ 2 + (2619 / 1000) ^ 2 + d ^ 2) / (2 * (2619 / 1000) * d))) := by
      simp only [RobotD.h_1, RobotD.h_2, lit, ops_lit, fin_add, fin_neg, fin_mul]
      push_cast
      rw [fin_div _ _ (by positivity), show -(1029 / 100 : ℝ) * (1029 / 100) + 2619 / 1000 * (2619 / 1000) + d * d = -(1029 / 100 : ℝ) ^ 2 + (2619 / 1000) ^ 2 + d ^ 2 by ring, ops_acos _ hX]
    have e3 : (FloatOps.acos ((-RobotD.h_3 * RobotD.h_3 + RobotD.v_1 * RobotD.v_1 + fin d * fin d) / (lit 2 * RobotD.v_1 * fin d)) : XR) =
        fin (Real.arccos ((-(33 / 10 : ℝ) ^ 2 + (95 / 10) ^ 2 + d ^ 2) / (2 * (95 / 10) * d))) := by
      simp only [RobotD.h_3, RobotD.v_1, lit, ops_lit, fin_add, fin_neg, fin_mul]
      push_cast
      rw [fin_div _ _ (by positivity), show -(33 / 10 : ℝ) * (33 / 10) + 95 / 10 * (95 / 10) + d * d = -(33 / 10 : ℝ) ^ 2 + (95 / 10) ^ 2 + d ^ 2 by ring, ops_acos _ k1]
    unfold RobotD.l2p
    simp only [e1, e2, e3]
    funext i; fin_cases i <;> simp [RC.upd, finS, lit, fin_div _ _ (show (2 : ℝ) ≠ 0 by norm_num)]
    rw [hb]
  refine ⟨⟨_, hl, fun i hi => by simp [hi]⟩, ?_⟩
  rw [hl]
  have f0 : (FloatOps.pi / lit 2 - (finS (Function.update A 2 (Real.pi / 2 - b + A 1)) 2 - finS (Function.update A 2 (Real.pi / 2 - b + A 1)) 1) : XR) = fin b := by
    simp [lit, finS, fin_div _ _ (show (2 : ℝ) ≠ 0 by norm_num)]
  have e1 : (FloatOps.sqrt (RobotD.v_1 * RobotD.v_1 - lit 2 * RobotD.v_1 * RobotD.h_1 * FloatOps.cos (fin b) + RobotD.h_1 * RobotD.h_1) : XR) = fin e := by
    simp only [RobotD.v_1, RobotD.h_1, lit, ops_lit, fin_add, fin_sub, fin_mul, ops_cos]
    push_cast
    rw [ops_sqrt _ (by nlinarith)]
    congr 1; rw [he]; congr 1; ring
  have e2 : (FloatOps.acos ((-RobotD.h_2 * RobotD.h_2 + RobotD.h_3 * RobotD.h_3 + fin e * fin e) / (lit 2 * RobotD.h_3 * fin e)) : XR) =
      fin (Real.arccos ((-(1029 / 100 : ℝ) ^ 2 + (33 / 10) ^ 2 + e ^ 2) / (2 * (33 / 10) * e))) := by
    simp only [RobotD.h_3, RobotD.h_2, lit, ops_lit, fin_add, fin_neg, fin_mul]
    push_cast
    rw [fin_div _ _ (by positivity), show -(1029 / 100 : ℝ) * (1029 / 100) + 33 / 10 * (33 / 10) + e * e = -(1029 / 100 : ℝ) ^ 2 + (33 / 10) ^ 2 + e ^ 2 by ring, ops_acos _ k2]
  have e3 : (FloatOps.acos ((-RobotD.h_1 * RobotD.h_1 + RobotD.v_1 * RobotD.v_1 + fin e * fin e) / (lit 2 * RobotD.v_1 * fin e)) : XR) =
      fin (Real.arccos ((-(2619 / 1000 : ℝ) ^ 2 + (95 / 10) ^ 2 + e ^ 2) / (2 * (95 / 10) * e))) := by
    simp only [RobotD.h_1, RobotD.v_1, lit, ops_lit, fin_add, fin_neg, fin_mul]
    push_cast
    rw [fin_div _ _ (by positivity), show -(2619 / 1000 : ℝ) * (2619 / 1000) + 95 / 10 * (95 / 10) + e * e = -(2619 / 1000 : ℝ) ^ 2 + (95 / 10) ^ 2 + e ^ 2 by ring, ops_acos _ k3]
  unfold RobotD.p2l
  simp only [f0, e1, e2, e3, fin_add, k4]
  funext i; fin_cases i <;> simp [RC.upd, finS, lit, fin_div _ _ (show (2 : ℝ) ≠ 0 by norm_num)]

/-- C59: physical angles that come from a logical position within the limits are reproduced by physical -> logical -> physical. -/
theorem C59_back {A : Fin 6 → ℝ} (h : -(25 * (Real.pi / 180)) ≤ A 2 ∧ A 2 ≤ Real.pi / 2) :
    RobotD.l2p (RobotD.p2l (RobotD.l2p (finS A))) = RobotD.l2p (finS A) := by rw [(C59_robotD h).2]

/-- the limits of robot D (-25°, 48°) meet the hypothesis. -/
example : ∃ l u : ℝ, (RobotD.cfg (F := XR)).lo 2 = fin l ∧ RobotD.cfg.hi 2 = fin u ∧ ∀ A : Fin 6 → ℝ, l ≤ A 2 ∧ A 2 ≤ u → -(25 * (Real.pi / 180)) ≤ A 2 ∧ A 2 ≤ Real.pi / 2 := by
  have hp := Real.pi_pos
  refine ⟨-25 * (Real.pi / 180), 48 * (Real.pi / 180), ?_, ?_, fun A h => ⟨by linarith, by linarith⟩⟩
  · simp [RobotD.cfg, deg, degToRad_eq, lit]
  · simp [RobotD.cfg, deg, degToRad_eq, lit]

end Mrc.Props
