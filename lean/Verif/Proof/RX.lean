import Verif.Model.RX
import Verif.Model.ServoRun
import Mathlib.Tactic.Linarith
import Mathlib.Tactic.NormNum
import Mathlib.Tactic.Positivity
import Mathlib.Tactic.Ring
/- Servo steps in rounded arithmetic. -/
namespace Mrc
open Mrc.XR
open scoped Mrc.Num

namespace Rounding
variable (R : Rounding)

theorem rnd_zero : R.rnd 0 = 0 := by
  have h := R.odd 0
  rw [neg_zero] at h
  linarith

theorem rnd_nonneg {x : ℝ} (h : 0 ≤ x) : 0 ≤ R.rnd x := by
  have := R.mono h; rwa [R.rnd_zero] at this

theorem rnd_le_big {x : ℝ} (h : |x| ≤ R.big) : |R.rnd x| ≤ R.big := by
  rw [abs_le] at h ⊢
  have h1 := R.mono h.1
  have h2 := R.mono h.2
  rw [R.odd, R.big_grid] at h1
  rw [R.big_grid] at h2
  exact ⟨h1, h2⟩

theorem post_fin {x : ℝ} (h : |x| ≤ R.big) : R.post (.fin x) = .fin (R.rnd x) := by
  exact if_pos (R.rnd_le_big h)

theorem post_pos {x : ℝ} (h : 0 ≤ x) : R.post (.fin x) = .fin (R.rnd x) ∨ R.post (.fin x) = .inf false := by
  show (if _ then _ else _) = _ ∨ (if _ then _ else _) = _
  split
  · exact .inl rfl
  · right
    congr 1
    simp only [isNeg, decide_eq_false_iff_not, not_lt]; exact h

theorem abs_rnd (x : ℝ) : |R.rnd x| = R.rnd |x| := by
  rcases le_total 0 x with h | h
  · rw [abs_of_nonneg h, abs_of_nonneg (R.rnd_nonneg h)]
  · have : 0 ≤ -x := by linarith
    rw [abs_of_nonpos h, R.odd, abs_of_nonpos]
    have := R.rnd_nonneg this
    rw [R.odd] at this; linarith

/-- how far a servo limited to angles below `M` can be beside its range because of rounding. -/
noncomputable def slack (M : ℝ) : ℝ := 4 * (R.u * M + R.e)

theorem slack_nonneg {M : ℝ} (h : 0 ≤ M) : 0 ≤ R.slack M := by
  have := mul_nonneg R.u_nonneg h
  have := R.e_nonneg
  unfold slack; linarith

theorem slack_le {M : ℝ} (h : 0 ≤ M) : R.slack M ≤ 4 / 1000 * M + 4 / 1000 := by
  have := mul_le_mul_of_nonneg_right R.u_le h
  have := R.e_le
  unfold slack; linarith

/-- going up by at most the rounded distance. -/
theorem up {M st tg d : ℝ} (hM : 0 ≤ M) (hst : R.rnd st = st) (hle : st ≤ tg) (h1 : |st| ≤ M + R.slack M) (h2 : |tg| ≤ M)
    (hd0 : 0 ≤ d) (hd : d ≤ R.rnd (tg - st)) : st ≤ R.rnd (st + d) ∧ R.rnd (st + d) ≤ tg + R.slack M ∧ |st + d| ≤ 2 * M + R.slack M + 1 := by
  have e1 := R.err (tg - st)
  have e2 := R.err (st + d)
  have hS := R.slack_nonneg hM
  have hSl := R.slack_le hM
  have u0 := R.u_nonneg
  have ul := R.u_le
  have e0 := R.e_nonneg
  have el := R.e_le
  rw [abs_le] at h1 h2 e1
  rw [abs_of_nonneg (by linarith : 0 ≤ tg - st)] at e1
  have a1 : R.u * (tg - st) ≤ R.u * (2 * M + R.slack M) := mul_le_mul_of_nonneg_left (by linarith) u0
  have a2 : R.u * (2 * M + R.slack M) ≤ 1 / 1000 * (2 * M + R.slack M) := mul_le_mul_of_nonneg_right ul (by linarith)
  -- y = st + d
  have y1 : st + d ≤ tg + R.u * (2 * M + R.slack M) + R.e := by linarith [e1.2]
  have ya : |st + d| ≤ M + R.slack M + (R.u * (2 * M + R.slack M) + R.e) := by
    rw [abs_le]; constructor <;> linarith [h1.1, h2.2]
  have um : 0 ≤ R.u * M := mul_nonneg u0 hM
  have us : R.u * R.slack M ≤ 1 / 1000 * R.slack M := mul_le_mul_of_nonneg_right ul hS
  refine ⟨?_, ?_, ?_⟩
  · have := R.mono (show st ≤ st + d by linarith)
    rwa [hst] at this
  · by_cases hy : st + d ≤ tg
    · have h3 : |st + d| ≤ M + R.slack M := by rw [abs_le]; constructor <;> linarith [h1.1, h2.2]
      have h4 : R.u * |st + d| ≤ R.u * (M + R.slack M) := mul_le_mul_of_nonneg_left h3 u0
      have e2' := (abs_le.1 e2).2
      unfold slack at *
      nlinarith
    · have h3 : |st + d| ≤ M + (R.u * (2 * M + R.slack M) + R.e) := by
        rw [abs_le]; constructor <;> linarith [h1.1, h2.2, h2.1]
      have h4 : R.u * |st + d| ≤ R.u * (M + (R.u * (2 * M + R.slack M) + R.e)) := mul_le_mul_of_nonneg_left h3 u0
      have e2' := (abs_le.1 e2).2
      have h5 : R.u * (R.u * (2 * M + R.slack M) + R.e) ≤ 1 / 1000 * (R.u * (2 * M + R.slack M) + R.e) :=
        mul_le_mul_of_nonneg_right ul (by nlinarith)
      unfold slack at *
      nlinarith
  · linarith

theorem down {M st tg d : ℝ} (hM : 0 ≤ M) (hst : R.rnd st = st) (hle : tg ≤ st) (h1 : |st| ≤ M + R.slack M) (h2 : |tg| ≤ M)
    (hd0 : 0 ≤ d) (hd : d ≤ R.rnd (st - tg)) : R.rnd (st - d) ≤ st ∧ tg - R.slack M ≤ R.rnd (st - d) ∧ |st - d| ≤ 2 * M + R.slack M + 1 := by
  have := R.up (st := -st) (tg := -tg) hM (by rw [R.odd, hst]) (by linarith) (by rwa [abs_neg]) (by rwa [abs_neg]) hd0
    (by rwa [show -tg - -st = st - tg by ring])
  rw [show -st + d = -(st - d) by ring, R.odd, abs_neg] at this
  exact ⟨by linarith [this.1], by linarith [this.2.1], this.2.2⟩

end Rounding

namespace RX
variable {R : Rounding} [Libm R]

theorem lit_val (q : Rat) : (lit q : RX R).val = R.post (.fin (q : ℝ)) := rfl
theorem add_val (a b : RX R) : (a + b).val = R.post (XR.add a.val b.val) := rfl
theorem sub_val (a b : RX R) : (a - b).val = R.post (XR.sub a.val b.val) := rfl
theorem mul_val (a b : RX R) : (a * b).val = R.post (XR.mul a.val b.val) := rfl
theorem div_val (a b : RX R) : (a / b).val = R.post (XR.div a.val b.val) := rfl
theorem abs_val (a : RX R) : (FloatOps.abs a).val = XR.abs a.val := rfl

theorem sub_fin {x y : ℝ} : XR.sub (.fin x) (.fin y) = .fin (x - y) := by
  simp only [XR.sub, XR.neg, XR.add, sub_eq_add_neg]

theorem ofNat_val {n : Nat} (h : n < 4294967296) : (Servo.ofNat n : RX R).val = .fin (R.rnd n) := by
  unfold Servo.ofNat
  have h1 : (n : ℝ) ≤ 4294967296 := by exact_mod_cast h.le
  have h2 : (0 : ℝ) ≤ n := Nat.cast_nonneg n
  rw [lit_val, show (((n : Rat)) : ℝ) = (n : ℝ) by norm_num, R.post_fin]
  rw [abs_of_nonneg h2]; have := R.big_ge; linarith

theorem thousand : ∃ k : ℝ, (lit 1000 : RX R).val = .fin k ∧ k = R.rnd 1000 ∧ 998 ≤ k ∧ k ≤ 1002 := by
  have h := R.err 1000
  have := R.u_le
  have := R.e_le
  rw [abs_of_pos (by norm_num : (0 : ℝ) < 1000), abs_le] at h
  refine ⟨R.rnd 1000, ?_, rfl, by linarith [h.1], by linarith [h.2]⟩
  rw [lit_val, show (((1000 : Rat)) : ℝ) = (1000 : ℝ) by norm_num, R.post_fin]
  rw [abs_of_pos (by norm_num)]; have := R.big_ge; linarith

/-- the distance covered since the command, as the code computes it. -/
noncomputable def delta (v : RX R) (n : Nat) : RX R := v * Servo.ofNat n / lit 1000

/-- its exact counterpart with the three roundings. -/
noncomputable def deltaR (R : Rounding) (v : ℝ) (n : Nat) : ℝ := R.rnd (R.rnd (v * R.rnd n) / R.rnd 1000)

theorem delta_cases {v : RX R} {x : ℝ} (hv : v.val = .fin x) (h0 : 0 ≤ x) {n : Nat} (hn : n < 4294967296) :
    ((delta v n).val = .fin (deltaR R x n) ∧ 0 ≤ deltaR R x n) ∨ (delta v n).val = .inf false := by
  obtain ⟨k, hk, ek, k1, _⟩ := thousand (R := R)
  have kne : k ≠ 0 := by linarith
  have kneg : isNeg k = false := by simp only [isNeg, decide_eq_false_iff_not, not_lt]; linarith
  have hnn : 0 ≤ R.rnd (n : ℝ) := R.rnd_nonneg (Nat.cast_nonneg n)
  have hp : 0 ≤ x * R.rnd n := mul_nonneg h0 hnn
  unfold delta deltaR
  rw [div_val, mul_val, hv, ofNat_val hn, hk]
  simp only [XR.mul]
  rcases R.post_pos hp with e | e
  · rw [e]
    simp only [XR.div, if_neg kne]
    have hq : 0 ≤ R.rnd (x * R.rnd n) / k := div_nonneg (R.rnd_nonneg hp) (by linarith)
    rw [← ek]
    rcases R.post_pos hq with e | e
    · exact .inl ⟨e, R.rnd_nonneg hq⟩
    · exact .inr e
  · rw [e]
    right
    simp only [XR.div, kneg]
    rfl

/-- one step of a servo with numeric start, target and speed. -/
theorem tick_rx {s : Servo (RX R)} {st tg v : ℝ} (h1 : s.start.val = .fin st) (h2 : s.target.val = .fin tg) (h3 : s.vel.val = .fin v) (hv : 0 ≤ v)
    (hb : |tg - st| ≤ R.big) (dt : Nat) :
    (s.tick dt = { s with elapsed := u32 (s.elapsed + dt), cur := s.target, start := s.target } ∧
      ((delta s.vel (u32 (s.elapsed + dt))).val = .inf false ∨ R.rnd |tg - st| < deltaR R v (u32 (s.elapsed + dt)))) ∨
    (0 ≤ deltaR R v (u32 (s.elapsed + dt)) ∧ deltaR R v (u32 (s.elapsed + dt)) ≤ R.rnd |tg - st| ∧
      s.tick dt = { s with elapsed := u32 (s.elapsed + dt), cur := RX.of (.fin (if st < tg then st + deltaR R v (u32 (s.elapsed + dt)) else st - deltaR R v (u32 (s.elapsed + dt)))) }) := by
  have hn : u32 (s.elapsed + dt) < 4294967296 := Nat.mod_lt _ (by norm_num)
  generalize hel : u32 (s.elapsed + dt) = n at *
  have hc := delta_cases h3 hv hn
  have hdist : (FloatOps.abs (s.target - s.start)).val = .fin (R.rnd |tg - st|) := by
    rw [abs_val, sub_val, h1, h2, sub_fin, R.post_fin hb]
    simp only [XR.abs, R.abs_rnd]
  unfold Servo.tick
  rw [hel]
  change ((if FloatOps.lt (FloatOps.abs (s.target - s.start)) (FloatOps.abs (delta s.vel n)) = true then _ else _) = _ ∧ _) ∨ (_ ∧ _ ∧ (if FloatOps.lt (FloatOps.abs (s.target - s.start)) (FloatOps.abs (delta s.vel n)) = true then _ else _) = _)
  have hlt : FloatOps.lt (FloatOps.abs (s.target - s.start)) (FloatOps.abs (delta s.vel n)) = XR.lt (.fin (R.rnd |tg - st|)) (XR.abs (delta s.vel n).val) := by
    show XR.lt (FloatOps.abs (s.target - s.start)).val _ = _
    rw [hdist]; rfl
  rw [hlt]
  rcases hc with ⟨e, d0⟩ | e
  · rw [e]
    simp only [XR.abs, abs_of_nonneg d0, XR.lt, decide_eq_true_eq]
    by_cases c : R.rnd |tg - st| < deltaR R v n
    · left; exact ⟨if_pos c, .inr c⟩
    · right
      refine ⟨d0, not_lt.1 c, ?_⟩
      rw [if_neg c]
      have hgt : fgt s.target s.start = decide (st < tg) := by
        show XR.lt s.start.val s.target.val = _
        rw [h1, h2]; rfl
      rw [hgt]
      simp only [decide_eq_true_eq]
      split
      · congr 1
        apply RX.ext
        show R.post (XR.add s.start.val (delta s.vel n).val) = _
        rw [h1, e]; rfl
      · congr 1
        apply RX.ext
        show R.post (XR.sub s.start.val (delta s.vel n).val) = _
        rw [h1, e, sub_fin]; rfl
  · left
    refine ⟨?_, .inl e⟩
    rw [e]
    simp only [XR.abs, XR.lt, Bool.not_false, if_true]

end RX
end Mrc
