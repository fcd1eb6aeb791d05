import Verif.Proof.Inverse
import Mathlib.Analysis.InnerProductSpace.PiL2
import Mathlib.Analysis.SpecialFunctions.Trigonometric.Bounds
/- A small change of the joint angles moves the tool a little (C113). -/
namespace Mrc.Lip
open Mrc Mrc.Spec Mrc.Kine Matrix

theorem len3_add (u v : Vec3) : len3 (u + v) ≤ len3 u + len3 v := by
  have e : ∀ w : Vec3, len3 w = ‖(WithLp.toLp 2 w : EuclideanSpace ℝ (Fin 3))‖ := by
    intro w; rw [EuclideanSpace.norm_eq, len3]; simp [Fin.sum_univ_three]
  rw [e, e, e, WithLp.toLp_add]; exact norm_add_le _ _

theorem len3_nonneg (u : Vec3) : 0 ≤ len3 u := Real.sqrt_nonneg _
theorem len3_zero : len3 0 = 0 := by simp [len3]

/-- two matrices turn every vector to nearly the same. -/
def Near (e : ℝ) (M N : Mat3) : Prop := ∀ v, len3 (M *ᵥ v - N *ᵥ v) ≤ e * len3 v

theorem near_mul {e f : ℝ} {M M' N N' : Mat3} (hM : IsRotation M) (hN : IsRotation N') (h1 : Near e M M') (h2 : Near f N N') : Near (e + f) (M * N) (M' * N') := by
  intro v
  have e1 : (M * N) *ᵥ v - (M' * N') *ᵥ v = M *ᵥ (N *ᵥ v - N' *ᵥ v) + (M *ᵥ (N' *ᵥ v) - M' *ᵥ (N' *ᵥ v)) := by
    rw [← mulVec_mulVec, ← mulVec_mulVec, mulVec_sub]; abel
  rw [e1]
  refine (len3_add _ _).trans ?_
  rw [len3_rot hM]
  have k1 := h2 v
  have k2 := h1 (N' *ᵥ v)
  rw [len3_rot hN] at k2
  linarith

theorem near_refl (M : Mat3) : Near 0 M M := by
  intro v; rw [sub_self, len3_zero, zero_mul]

/-- the plane part. -/
theorem turn_le (s t a b c : ℝ) : ((Real.cos t - Real.cos s) * a - (Real.sin t - Real.sin s) * b) ^ 2 + ((Real.sin t - Real.sin s) * a + (Real.cos t - Real.cos s) * b) ^ 2 ≤ (t - s) ^ 2 * (a ^ 2 + b ^ 2 + c ^ 2) := by
  have h1 : ((Real.cos t - Real.cos s) * a - (Real.sin t - Real.sin s) * b) ^ 2 + ((Real.sin t - Real.sin s) * a + (Real.cos t - Real.cos s) * b) ^ 2 =
      ((Real.cos t - Real.cos s) ^ 2 + (Real.sin t - Real.sin s) ^ 2) * (a ^ 2 + b ^ 2) := by ring
  have h2 : (Real.cos t - Real.cos s) ^ 2 + (Real.sin t - Real.sin s) ^ 2 = 2 - 2 * Real.cos (t - s) := by
    rw [Real.cos_sub]; nlinarith [Real.sin_sq_add_cos_sq t, Real.sin_sq_add_cos_sq s]
  have h3 := Real.one_sub_sq_div_two_le_cos (x := t - s)
  rw [h1, h2]
  have h4 : 2 - 2 * Real.cos (t - s) ≤ (t - s) ^ 2 := by linarith
  nlinarith [mul_le_mul_of_nonneg_right h4 (by positivity : 0 ≤ a ^ 2 + b ^ 2), mul_nonneg (sq_nonneg (t - s)) (sq_nonneg c)]

theorem len3_le {v w : Vec3} {d : ℝ} (h : v 0 ^ 2 + v 1 ^ 2 + v 2 ^ 2 ≤ d ^ 2 * (w 0 ^ 2 + w 1 ^ 2 + w 2 ^ 2)) : len3 v ≤ |d| * len3 w := by
  unfold len3
  rw [← Real.sqrt_sq_eq_abs, ← Real.sqrt_mul (sq_nonneg d)]
  exact Real.sqrt_le_sqrt h

theorem near_rotZ (t s : ℝ) : Near |t - s| (rotZ t) (rotZ s) := by
  intro v
  refine len3_le ?_
  have := turn_le s t (v 0) (v 1) (v 2)
  simp [rotZ, mulVec, dotProduct, Fin.sum_univ_three]
  nlinarith [this]

theorem near_rotY (t s : ℝ) : Near |t - s| (rotY t) (rotY s) := by
  intro v
  refine len3_le ?_
  have := turn_le s t (v 2) (v 0) (v 1)
  simp [rotY, mulVec, dotProduct, Fin.sum_univ_three]
  nlinarith [this]

theorem near_rotX (t s : ℝ) : Near |t - s| (rotX t) (rotX s) := by
  intro v
  refine len3_le ?_
  have := turn_le s t (v 1) (v 2) (v 0)
  simp [rotX, mulVec, dotProduct, Fin.sum_univ_three]
  nlinarith [this]

theorem near_joint {A B : Fin 6 → ℝ} {e : ℝ} (h : ∀ i, |A i - B i| ≤ e) (k : Fin 5) : Near e (jointRot A k) (jointRot B k) := by
  have up : ∀ {d : ℝ} {M N : Mat3}, Near d M N → d ≤ e → Near e M N := fun h1 h2 v => (h1 v).trans (mul_le_mul_of_nonneg_right h2 (len3_nonneg v))
  match k with
  | 0 => exact up (near_rotZ _ _) (h 0)
  | 1 => exact up (near_rotY _ _) (h 1)
  | 2 => exact up (near_rotY _ _) (h 2)
  | 3 => exact up (near_rotX _ _) (h 3)
  | 4 => exact up (near_rotY _ _) (h 4)

theorem near_frame {A B : Fin 6 → ℝ} {e : ℝ} (h : ∀ i, |A i - B i| ≤ e) (k : Fin 5) : Near ((k.val + 1 : ℕ) * e) (linkFrame A k) (linkFrame B k) := by
  have j := near_joint h
  have rA := jointRot_rot A
  have rB := jointRot_rot B
  have f1 := near_mul (rA 0) (rB 1) (j 0) (j 1)
  have f2 := near_mul (rot_mul (rA 0) (rA 1)) (rB 2) f1 (j 2)
  have f3 := near_mul (rot_mul (rot_mul (rA 0) (rA 1)) (rA 2)) (rB 3) f2 (j 3)
  have f4 := near_mul (rot_mul (rot_mul (rot_mul (rA 0) (rA 1)) (rA 2)) (rA 3)) (rB 4) f3 (j 4)
  have c : ∀ {d d' : ℝ} {M N : Mat3}, Near d M N → d = d' → Near d' M N := fun h e => e ▸ h
  match k with
  | 0 => exact c (j 0) (by norm_num)
  | 1 => exact c f1 (by push_cast [Fin.val_one]; ring)
  | 2 => exact c f2 (by simp; ring)
  | 3 => exact c f3 (by simp; ring)
  | 4 => exact c f4 (by simp; ring)

/-- the tool point. -/
theorem near_tool (G : Fin 5 → Vec3) {A B : Fin 6 → ℝ} {e : ℝ} (h : ∀ i, |A i - B i| ≤ e) :
    len3 (jointPos G A 5 - jointPos G B 5) ≤ (∑ k : Fin 5, (k.val + 1 : ℕ) * len3 (G k)) * e := by
  have e1 : jointPos G A 5 - jointPos G B 5 = ∑ k : Fin 5, (linkFrame A k *ᵥ G k - linkFrame B k *ᵥ G k) := by
    unfold jointPos
    rw [← Finset.sum_sub_distrib]
    exact Finset.sum_congr rfl fun k _ => by rw [if_pos k.isLt, if_pos k.isLt]
  rw [e1]
  have tri : ∀ (f : Fin 5 → Vec3), len3 (∑ k, f k) ≤ ∑ k, len3 (f k) := by
    intro f
    have : ∀ s : Finset (Fin 5), len3 (∑ k ∈ s, f k) ≤ ∑ k ∈ s, len3 (f k) := by
      intro s
      induction s using Finset.induction_on with
      | empty => simp [len3_zero]
      | insert a s ha ih => rw [Finset.sum_insert ha, Finset.sum_insert ha]; exact (len3_add _ _).trans (by linarith)
    exact this _
  refine (tri _).trans ?_
  rw [Finset.sum_mul]
  refine Finset.sum_le_sum fun k _ => ?_
  have := near_frame h k (G k)
  linarith

theorem near_toolFrame {A B : Fin 6 → ℝ} {e : ℝ} (h : ∀ i, |A i - B i| ≤ e) : Near (6 * e) (toolFrame A) (toolFrame B) := by
  have h1 := near_mul (rot_mul (linkFrame_rot A 4) (rotY_rot Real.pi)) (rotZ_rot (B 5)) (near_mul (linkFrame_rot A 4) (rotY_rot Real.pi) (near_frame h 4) (near_refl _)) (near_rotZ (A 5) (B 5))
  intro v
  refine (h1 v).trans (mul_le_mul_of_nonneg_right ?_ (len3_nonneg v))
  have := h 5
  norm_num
  linarith

theorem coord_le (v : Vec3) (i : Fin 3) : |v i| ≤ len3 v := by
  rw [← Real.sqrt_sq_eq_abs]
  refine Real.sqrt_le_sqrt ?_
  match i with
  | 0 => nlinarith [sq_nonneg (v 1), sq_nonneg (v 2)]
  | 1 => nlinarith [sq_nonneg (v 0), sq_nonneg (v 2)]
  | 2 => nlinarith [sq_nonneg (v 0), sq_nonneg (v 1)]

end Mrc.Lip
