import Verif.Proof.ToldAny
import Verif.Props.Told
import Verif.Props.ToldKit
import Verif.Props.Angles
/-
C105: the kit in binary32 with a host that moves it by joint angles: the arm is where it was told.
-/
set_option linter.unusedSectionVars false
set_option linter.unusedSimpArgs false
set_option maxRecDepth 100000
namespace Mrc.Props
open Mrc Mrc.Prog Mrc.Spec Mrc.Told Mrc.Demo Mrc.Ang XR
open scoped Mrc.Num
variable [L : RX.Libm binary32]

/-! ### numbers -/

theorem post32 {x : ℝ} (hx : |x| ≤ 20) : binary32.post (fin x) = fin (binary32.rnd x) ∧ |binary32.rnd x - x| ≤ 2 / 1000000 := by
  have hb := b32_big
  refine ⟨binary32.post_fin (by norm_num at hb ⊢; linarith), (b32_err x).trans ?_⟩
  norm_num; linarith

theorem sub_near {a b : F32} {x y : ℝ} (ha : a.val = fin x) (hb : b.val = fin y) (hx : |x| ≤ 10) (hy : |y| ≤ 10) : ∃ z, (a - b).val = fin z ∧ |z - (x - y)| ≤ 2 / 1000000 := by
  obtain ⟨h1, h2⟩ := post32 (x := x - y) (by have := abs_sub x y; linarith)
  exact ⟨_, by rw [RX.sub_val, ha, hb, RX.sub_fin, h1], h2⟩

theorem add_near {a b : F32} {x y : ℝ} (ha : a.val = fin x) (hb : b.val = fin y) (hx : |x| ≤ 10) (hy : |y| ≤ 10) : ∃ z, (a + b).val = fin z ∧ |z - (x + y)| ≤ 2 / 1000000 := by
  obtain ⟨h1, h2⟩ := post32 (x := x + y) (by have := abs_add_le x y; linarith)
  exact ⟨_, by rw [RX.add_val, ha, hb]; exact h1, h2⟩

theorem rad32 : ∃ k : ℝ, (degToRad : F32).val = fin k ∧ |k - Real.pi / 180| ≤ 3 / 1000000000 := by
  have hbig := b32_big
  have hp0 := Real.two_le_pi
  have hp1 := Real.pi_le_four
  have e180 : (lit 180 : F32).val = fin 180 := by
    rw [RX.lit_val, show (((180 : Rat)) : ℝ) = ((180 : ℕ) : ℝ) by norm_num, binary32.post_fin (by norm_num at *; linarith), b32_nat (by norm_num)]; norm_num
  have ep : (FloatOps.pi : F32).val = fin (binary32.rnd Real.pi) := binary32.post_fin (by rw [abs_of_pos (by linarith)]; linarith)
  obtain ⟨p1, p2⟩ := b32_bounds (show 0 ≤ Real.pi by linarith)
  refine ⟨binary32.rnd (binary32.rnd Real.pi / 180), ?_, ?_⟩
  · show binary32.post (XR.div _ _) = _
    rw [ep, e180]
    simp only [XR.div, if_neg (show (180 : ℝ) ≠ 0 by norm_num)]
    rw [binary32.post_fin]
    rw [abs_of_pos (by linarith)]; linarith
  · generalize binary32.rnd Real.pi = a at *
    obtain ⟨d1, d2⟩ := b32_bounds (show 0 ≤ a / 180 by linarith)
    rw [abs_le]; constructor <;> linarith

/-- an angle told in degrees is stored to two millionths of a radian; one that is stored as a number below 4 was told as one below 5. -/
theorem angle32 {d : Dec} (hd : d.Ok) : (|radians d| ≤ 5 → ∃ t, (angle d : F32).val = fin t ∧ |t - radians d| ≤ 2 / 1000000) ∧
    (∀ t, (angle d : F32).val = fin t → |t| ≤ 4 → |radians d| ≤ 5) ∧ (angle d : F32).val ≠ nan := by
  obtain ⟨k, ek, hk⟩ := rad32
  have hp0 := Real.pi_gt_d2
  have hp1 := Real.pi_lt_d2
  have hbig := b32_big
  have hk' := abs_le.1 hk
  have hk0 : 1 / 60 ≤ k := by linarith
  have hk1 : k ≤ 1 / 50 := by linarith
  have e0 : (atof d.text : F32).val = binary32.post (fin (d.val : ℝ)) := by rw [C27_decimal d hd]; rfl
  have e1 : (angle d : F32).val = binary32.post (XR.mul (binary32.post (fin (d.val : ℝ))) (fin k)) := by
    show binary32.post (XR.mul _ _) = _
    rw [e0, ek]
  unfold radians
  generalize (d.val : ℝ) = D at *
  have habs : |D * (Real.pi / 180)| = |D| * (Real.pi / 180) := by rw [abs_mul, abs_of_pos (show 0 < Real.pi / 180 by linarith)]
  refine ⟨fun h => ?_, fun t ht h4 => ?_, ?_⟩
  · have hD : |D| ≤ 300 := by rw [habs] at h; nlinarith [abs_nonneg D]
    have h0 := b32_err D
    rw [e1, binary32.post_fin (by norm_num at hbig ⊢; linarith)]
    have e2 : XR.mul (fin (binary32.rnd D)) (fin k) = fin (binary32.rnd D * k) := rfl
    rw [e2]
    generalize binary32.rnd D = y at *
    have h1 : |y - D| ≤ 2 / 100000 := by norm_num at h0 ⊢; linarith
    have h1' := abs_le.1 h1
    have hDk : |D * (k - Real.pi / 180)| ≤ 300 * (3 / 1000000000) := by
      rw [abs_mul]; exact mul_le_mul hD hk (abs_nonneg _) (by norm_num)
    have hyk : |(y - D) * k| ≤ 2 / 100000 * (1 / 50) := by
      rw [abs_mul, abs_of_pos (show 0 < k by linarith)]; exact mul_le_mul h1 hk1 (by linarith) (by norm_num)
    have hDk' := abs_le.1 hDk
    have hyk' := abs_le.1 hyk
    have h' := abs_le.1 h
    have hya : |y * k| ≤ 6 := by rw [abs_le]; constructor <;> nlinarith
    refine ⟨_, binary32.post_fin (by linarith), ?_⟩
    have h3 := b32_err (y * k)
    have h3' : |binary32.rnd (y * k) - y * k| ≤ 4 / 10000000 := by linarith
    have h3'' := abs_le.1 h3'
    rw [abs_le]; constructor <;> linarith [h3''.1, h3''.2, hDk'.1, hDk'.2, hyk'.1, hyk'.2]
  · rw [e1] at ht
    by_cases hc : |binary32.rnd D| ≤ binary32.big
    · have e3 : binary32.post (fin D) = fin (binary32.rnd D) := if_pos hc
      rw [e3] at ht
      have e2 : XR.mul (fin (binary32.rnd D)) (fin k) = fin (binary32.rnd D * k) := rfl
      rw [e2] at ht
      have e4 : t = binary32.rnd (binary32.rnd D * k) := by
        have : (if |binary32.rnd (binary32.rnd D * k)| ≤ binary32.big then fin (binary32.rnd (binary32.rnd D * k)) else inf (isNeg (binary32.rnd D * k))) = fin t := by
          rw [← ht]; rfl
        split at this
        · injection this with this; exact this.symm
        · cases this
      have h1 := abs_le.1 (b32_err (binary32.rnd D * k))
      rw [← e4] at h1
      have h4' := abs_le.1 h4
      have hyk : |binary32.rnd D * k| ≤ 41 / 10 := by
        rcases abs_cases (binary32.rnd D * k) with ⟨e, _⟩ | ⟨e, _⟩ <;> rw [e] at h1 ⊢ <;> norm_num at h1 ⊢ <;> linarith [h1.1, h1.2]
      rw [abs_mul, abs_of_pos (show 0 < k by linarith)] at hyk
      have hy : |binary32.rnd D| ≤ 246 := by nlinarith [abs_nonneg (binary32.rnd D)]
      have h2 := abs_le.1 (b32_err D)
      have hy' := abs_le.1 hy
      have hD : |D| ≤ 247 := by
        rcases abs_cases D with ⟨e, _⟩ | ⟨e, _⟩ <;> rw [e] at h2 ⊢ <;> norm_num at h2 ⊢ <;> linarith [h2.1, h2.2]
      rw [habs]
      nlinarith [abs_nonneg D]
    · have e3 : binary32.post (fin D) = inf (isNeg D) := if_neg hc
      rw [e3] at ht
      have e2 : XR.mul (inf (isNeg D)) (fin k) = inf (xor (isNeg D) (isNeg k)) := by
        show (if _ then _ else _) = _
        rw [if_neg (show k ≠ 0 by linarith)]
      rw [e2] at ht; cases ht
  · have h1 : NN (atof d.text : F32) := by
      unfold NN; rw [e0]; exact post_nn fun h => by cases h
    exact mul_nn h1 ek (by linarith)

/-! ### the kit -/

/-- the limits of the kit in binary32. -/
theorem kit_near : ∃ l h : Fin 6 → ℝ, (∀ i, (deg (Kit.minDeg (armServo i)) : F32).val = fin (l i)) ∧ (∀ i, (deg (Kit.maxDeg (armServo i)) : F32).val = fin (h i)) ∧
    (∀ i, |l i - (Kit.minDeg (armServo i) : ℝ) * (Real.pi / 180)| ≤ 3 / 1000000) ∧ (∀ i, |h i - (Kit.maxDeg (armServo i) : ℝ) * (Real.pi / 180)| ≤ 3 / 1000000) ∧
    (∀ i, |l i| ≤ 3) ∧ (∀ i, |h i| ≤ 3) ∧ (∀ i, l i ≤ 0) ∧ (∀ i, 0 ≤ h i) := by
  have hpi0 := Real.pi_gt_d2
  have hpi1 := Real.pi_lt_d2
  choose lo hi v k1 k2 k3 k4 k5 k6 k7 k8 k9 using kit_ints
  choose l el hl using fun i => deg32 (lo i) (by have := k4 i; have := k5 i; rw [abs_le]; constructor <;> omega)
  choose h eh hh using fun i => deg32 (hi i) (by have := k6 i; have := k7 i; rw [abs_le]; constructor <;> omega)
  have c4 : ∀ i, (-140 : ℝ) ≤ lo i := fun i => by exact_mod_cast k4 i
  have c5 : ∀ i, (lo i : ℝ) ≤ -45 := fun i => by exact_mod_cast k5 i
  have c6 : ∀ i, (15 : ℝ) ≤ hi i := fun i => by exact_mod_cast k6 i
  have c7 : ∀ i, (hi i : ℝ) ≤ 135 := fun i => by exact_mod_cast k7 i
  refine ⟨l, h, fun i => by rw [k1]; exact el i, fun i => by rw [k2]; exact eh i, fun i => by rw [k1]; exact_mod_cast hl i, fun i => by rw [k2]; exact_mod_cast hh i,
    fun i => ?_, fun i => ?_, fun i => ?_, fun i => ?_⟩
  · have := (abs_le.1 (hl i))
    have := c4 i
    have := c5 i
    rw [abs_le]; constructor <;> nlinarith
  · have := (abs_le.1 (hh i))
    have := c6 i
    have := c7 i
    rw [abs_le]; constructor <;> nlinarith
  · have := (abs_le.1 (hl i)).2
    have := c5 i
    nlinarith
  · have := (abs_le.1 (hh i)).1
    have := c6 i
    nlinarith

theorem flt_val (a b : F32) : flt a b = XR.lt a.val b.val := rfl
theorem fgt_val (a b : F32) : fgt a b = XR.lt b.val a.val := rfl

/-- a number, not NaN, that is not rejected by limits is a number within them. -/
theorem in_limits {x : F32} {lo hi : F32} {l h : ℝ} (hx : x.val ≠ nan) (el : lo.val = fin l) (eh : hi.val = fin h) :
    (flt x lo = false ∧ fgt x hi = false) ↔ ∃ t, x.val = fin t ∧ l ≤ t ∧ t ≤ h := by
  rw [flt_val, fgt_val, el, eh]
  cases e : x.val with
  | fin t => simp [XR.lt]
  | inf s => cases s <;> simp [XR.lt]
  | nan => exact absurd e hx

section
variable {cfg : Cfg F32} (hk : KitAngles cfg) {l h : Fin 6 → ℝ} (el : ∀ i, (deg (Kit.minDeg (armServo i)) : F32).val = fin (l i)) (eh : ∀ i, (deg (Kit.maxDeg (armServo i)) : F32).val = fin (h i))
  (hl : ∀ i, |l i| ≤ 3) (hh : ∀ i, |h i| ≤ 3)
include hk el eh hl hh

/-- the firmware's test of the limits. -/
theorem fits32 {A : Six F32} (hA : ∀ i, (A i).val ≠ nan) :
    Fits cfg.toRCfg (fun i => deg (Kit.minDeg (armServo i))) (fun i => deg (Kit.maxDeg (armServo i))) A ↔
      ∃ t : Fin 6 → ℝ, (∀ i, (A i).val = fin (t i) ∧ l i ≤ t i ∧ t i ≤ h i) ∧ l 2 ≤ binary32.rnd (t 2 + t 1) ∧ binary32.rnd (t 2 + t 1) ≤ h 2 := by
  have key : ∀ t : Fin 6 → ℝ, (∀ i, (A i).val = fin (t i) ∧ l i ≤ t i ∧ t i ≤ h i) → (A 2 + A 1).val = fin (binary32.rnd (t 2 + t 1)) := fun t ht => by
    have b : ∀ i, |t i| ≤ 3 := fun i => by
      have h1 := abs_le.1 (hl i)
      have h2 := abs_le.1 (hh i)
      have := (ht i).2
      rw [abs_le]; constructor <;> linarith [h1.1, h2.2]
    rw [RX.add_val, (ht 2).1, (ht 1).1]
    exact (post32 (x := t 2 + t 1) (by have := abs_add_le (t 2) (t 1); have := b 2; have := b 1; linarith)).1
  have hlo : ∀ i, (cfg.lo i).val = fin (l i) := fun i => by rw [hk.lo]; exact el i
  have hhi : ∀ i, (cfg.hi i).val = fin (h i) := fun i => by rw [hk.hi]; exact eh i
  unfold Fits
  constructor
  · rintro ⟨h1, h2⟩
    choose t ht using fun i => (in_limits (hA i) (hlo i) (hhi i)).1 (h1 i)
    refine ⟨t, ht, ?_⟩
    have e2 := h2 2
    have e3 : cfg.l2p A 2 = A 2 + A 1 := by rw [hk.l2p]; rfl
    rw [e3] at e2
    obtain ⟨x, ex, x1, x2⟩ := (in_limits (by rw [key t ht]; intro h; cases h) (el 2) (eh 2)).1 e2
    rw [key t ht] at ex
    cases ex
    exact ⟨x1, x2⟩
  · rintro ⟨t, ht, h1, h2⟩
    refine ⟨fun i => (in_limits (hA i) (hlo i) (hhi i)).2 ⟨t i, ht i⟩, fun i => ?_⟩
    by_cases hi : i = 2
    · subst hi
      have e3 : cfg.l2p A 2 = A 2 + A 1 := by rw [hk.l2p]; rfl
      rw [e3]
      exact (in_limits (by rw [key t ht]; intro h; cases h) (el 2) (eh 2)).2 ⟨_, key t ht, h1, h2⟩
    · have e3 : cfg.l2p A i = A i := by rw [hk.l2p]; exact if_neg hi
      rw [e3]
      exact (in_limits (hA i) (el i) (eh i)).2 ⟨t i, ht i⟩
end

/-- no NaN was stored into the arm servos. -/
def NoNaN32 (tr : List (Act F32)) : Prop := ∀ i, Act.micro (armServo i) (.setTarget nanRX) ∉ tr ∧ Act.micro (armServo i) (.setVel nanRX) ∉ tr

section
variable {cfg : Cfg F32} {w0 : World F32} (hw : w0.servos = Kit.servos) {junk : Nat → Byte} {evs : List (Ev F32)} {s : Sys F32}
include hw

/-- every reading of an arm servo is a number. -/
theorem reading32 (h : Sys.Run cfg w0 junk evs s) (hn : NoNaN32 (acts evs)) {i : Fin 6} {sv : Servo F32} (hm : .servo (armServo i) sv ∈ acts evs) :
    (∃ x, sv.cur.val = fin x ∧ |x| ≤ 4) ∧ ∃ v, sv.maxVel.val = fin v ∧ 0 < v ∧ v ≤ 10 := by
  have hp0 := Real.pi_gt_d2
  have hp1 := Real.pi_lt_d2
  obtain ⟨e1, s1, e2, rfl, h1, rfl⟩ := run_reading h hm
  constructor
  · obtain ⟨x, ex, x1, x2⟩ := (C62_kit_rounded hw h1 (fun i => by
      have := hn i
      rw [acts_append] at this
      simp only [List.mem_append, not_or] at this
      exact ⟨this.1.1, this.2.1⟩) i).1
    obtain ⟨lo, hi, v, k1, k2, k3, k4, k5, k6, k7, _⟩ := kit_ints i
    rw [k1] at x1
    rw [k2] at x2
    have c4 : (-140 : ℝ) ≤ lo := by exact_mod_cast k4
    have c7 : (hi : ℝ) ≤ 135 := by exact_mod_cast k7
    push_cast at x1 x2
    exact ⟨x, ex, abs_le.2 ⟨by nlinarith, by nlinarith⟩⟩
  · obtain ⟨_, _, _, _, _, h6⟩ := C62_constants h1 (armServo i)
    obtain ⟨_, _, v, _, _, k3, _, _, _, _, k8, _⟩ := kit_ints i
    obtain ⟨x, ex, hx⟩ := deg32 300 (by norm_num)
    have hx' := abs_le.1 hx
    push_cast at hx'
    refine ⟨x, ?_, by linarith [hx'.1], by linarith [hx'.2]⟩
    rw [h6, hw]
    show (deg (Kit.velDeg (armServo i)) : F32).val = _
    rw [k3, k8]; exact ex

theorem kit_limits32 (h : Sys.Run cfg w0 junk evs s) : Limits (fun i => deg (Kit.minDeg (armServo i))) (fun i => deg (Kit.maxDeg (armServo i))) (acts evs) := by
  have := run_limits h
  rw [hw] at this
  exact this
end

theorem lit6 : ∃ x : ℝ, (lit (1/1000000) : F32).val = fin x ∧ x ≤ 11 / 10000000 := by
  have h := (b32_bounds (x := 1/1000000) (by norm_num)).2
  have hb := b32_big
  refine ⟨binary32.rnd (1/1000000), ?_, by norm_num at h ⊢; linarith⟩
  rw [RX.lit_val, show (((1/1000000 : Rat)) : ℝ) = 1/1000000 by norm_num, binary32.post_fin]
  norm_num at hb ⊢; linarith

theorem lit4 : ∃ x : ℝ, (lit (1/10000) : F32).val = fin x ∧ x ≤ 101 / 1000000 := by
  have h := (b32_bounds (x := 1/10000) (by norm_num)).2
  have hb := b32_big
  refine ⟨binary32.rnd (1/10000), ?_, by norm_num at h ⊢; linarith⟩
  rw [RX.lit_val, show (((1/10000 : Rat)) : ℝ) = 1/10000 by norm_num, binary32.post_fin]
  norm_num at hb ⊢; linarith

theorem atTarget32 {sv : Servo F32} {c t : ℝ} (hc : sv.cur.val = fin c) (ht : sv.target.val = fin t) (h1 : |c| ≤ 10) (h2 : |t| ≤ 10) (h : sv.atTarget = true) : |c - t| ≤ 4 / 1000000 := by
  obtain ⟨z, ez, hz⟩ := sub_near hc ht h1 h2
  obtain ⟨y, ey, hy⟩ := lit6
  unfold Servo.atTarget at h
  rw [flt_val, RX.abs_val, ez, ey] at h
  have h' : |z| < y := by simpa [XR.lt, XR.abs] using h
  have a1 := abs_lt.1 h'
  have a2 := abs_le.1 hz
  rw [abs_le]; constructor <;> linarith [a1.1, a1.2, a2.1, a2.2]

/-- no time needed: everything is there. -/
theorem timeFor32 {p : Six F32} {q c v : Fin 6 → ℝ} {sv : Fin 6 → Servo F32} (hp : ∀ i, (p i).val = fin (q i)) (hq : ∀ i, |q i| ≤ 10) (hc : ∀ i, (sv i).cur.val = fin (c i)) (hc' : ∀ i, |c i| ≤ 10)
    (hv : ∀ i, (sv i).maxVel.val = fin (v i)) (hv0 : ∀ i, 0 < v i) (hv1 : ∀ i, v i ≤ 10) {mt : F32} (h : feq (timeFor p sv mt) (lit 0) = true) (i : Fin 6) : |c i - q i| ≤ 4 / 1000000 := by
  choose z ez hz using fun i => sub_near (hp i) (hc i) (hq i) (hc' i)
  have ex : ∀ i, (FloatOps.div (FloatOps.abs (FloatOps.sub (p i) (sv i).cur)) (sv i).maxVel : F32).val = binary32.post (fin (|z i| / v i)) := fun i => by
    show binary32.post (XR.div (XR.abs (p i - (sv i).cur).val) _) = _
    rw [ez, hv]
    show binary32.post (XR.div (fin |z i|) _) = _
    simp only [XR.div, if_neg (hv0 i).ne']
  have h1 := timeFor_le (p := p) (v := sv) (mt := mt) (Z := fun x => XR.le x.val (fin 0) = true) (fun x acc hg hx => by
    rw [fgt_val] at hg
    revert hg hx
    cases x.val <;> cases acc.val <;> try (rename_i a b; cases a <;> cases b)
    all_goals simp [XR.lt, XR.le]
    all_goals first | (intro h1 h2; linarith) | skip) (fun i acc ha hg => by
    rw [fgt_val] at hg
    have hn : (FloatOps.div (FloatOps.abs (FloatOps.sub (p i) (sv i).cur)) (sv i).maxVel : F32).val ≠ nan := by rw [ex]; exact post_nn fun h => by cases h
    revert ha hg hn
    cases (FloatOps.div (FloatOps.abs (FloatOps.sub (p i) (sv i).cur)) (sv i).maxVel : F32).val <;> cases acc.val <;> try (rename_i a b; cases a <;> cases b)
    all_goals simp [XR.lt, XR.le]
    all_goals first | (intro h1 h2; linarith) | skip) (by
      simp only [feq, Bool.and_eq_true] at h
      have := h.1
      have e : FloatOps.le (timeFor p sv mt) (lit 0) = XR.le (timeFor p sv mt).val (lit 0 : F32).val := rfl
      rw [e, zero_val] at this
      exact this) i
  rw [ex] at h1
  have h0 : 0 ≤ |z i| / v i := div_nonneg (abs_nonneg _) (hv0 i).le
  rcases binary32.post_pos h0 with e | e
  · rw [e] at h1
    have h2 : binary32.rnd (|z i| / v i) ≤ 0 := by simpa [XR.le] using h1
    have h3 := (b32_bounds h0).1
    have h4 : |z i| / v i ≤ 1 / 10 ^ 30 := by norm_num at h3 ⊢; linarith
    rw [div_le_iff₀ (hv0 i)] at h4
    have h5 : |z i| ≤ 1 / 1000000 := by
      have := hv1 i
      norm_num at h4 ⊢; linarith
    have a1 := abs_le.1 h5
    have a2 := abs_le.1 (hz i)
    rw [abs_le]; constructor <;> linarith [a1.1, a1.2, a2.1, a2.2]
  · rw [e] at h1; simp [XR.le] at h1

/-- every arm servo was seen at the angle `b i`, has not been touched since, and was at its target then or has not been touched at all. -/
def SeenRest32 (mid : List (Act F32)) (b : Fin 6 → ℝ) : Prop :=
  ∀ i, ∃ p1 s p2, mid = p1 ++ .servo (armServo i) s :: p2 ∧ s.cur.val = fin (b i) ∧ (∀ m, .micro (armServo i) m ∉ p2) ∧ (s.atTarget = true ∨ ArmStill mid)

section
variable {cfg : Cfg F32} (hk : KitAngles cfg) {w0 : World F32} (hw : w0.servos = Kit.servos) {junk : Nat → Byte} {evs : List (Ev F32)} {s : Sys F32}
include hk hw

/-- what a finished move means for the kit in binary32: the servos were seen where they had to be, and at their targets then, or never touched. -/
theorem kit_seen32 (hr : Sys.Run cfg w0 junk evs s) (hn : NoNaN32 (acts evs)) {p0 mid rest : List (Act F32)} (e : acts evs = p0 ++ (mid ++ rest)) {A : Six F32} {d : Fin 6 → Dec}
    (hd : ∀ i, (d i).Ok) (hA : ∀ i, A i = angle (d i)) (hm : Moved cfg.toRCfg (fun i => deg (Kit.minDeg (armServo i))) (fun i => deg (Kit.maxDeg (armServo i))) A mid) :
    (KitFitsBy (1 / 100000) (fun i => radians (d i)) → ∃ b, SeenRest32 mid b ∧ ∀ i, |kitLogical b i - radians (d i)| < 11 / 100000) ∧
    (¬ KitFitsBy (-1 / 100000) (fun i => radians (d i)) → ArmStill mid) ∧
    ((∃ b, SeenRest32 mid b ∧ ∀ i, |kitLogical b i - radians (d i)| < 11 / 100000) ∨ ArmStill mid) ∧
    (Fits cfg.toRCfg (fun i => deg (Kit.minDeg (armServo i))) (fun i => deg (Kit.maxDeg (armServo i))) A → ∃ b, SeenRest32 mid b ∧ ∀ i, |kitLogical b i - radians (d i)| < 11 / 100000) := by
  obtain ⟨l, h, el, eh, nl, nh, hl, hh, l0, h0⟩ := kit_near
  have hAn : ∀ i, (A i).val ≠ nan := fun i => by rw [hA]; exact (angle32 (hd i)).2.2
  have hin : ∀ {x}, x ∈ mid → x ∈ acts evs := fun hx => by rw [e]; simp [hx]
  have hfit := fits32 hk el eh hl hh hAn
  -- stored angles are near the told ones
  have near : ∀ (t : Fin 6 → ℝ) i, (A i).val = fin (t i) → |t i| ≤ 4 → |t i - radians (d i)| ≤ 2 / 1000000 := fun t i ht h4 => by
    rw [hA] at ht
    obtain ⟨x, ex, hx⟩ := (angle32 (hd i)).1 ((angle32 (hd i)).2.1 _ ht h4)
    rw [ht] at ex; cases ex; exact hx
  -- seen near the physical angles of the stored ones
  have done : ∀ (t b : Fin 6 → ℝ), (∀ i, (A i).val = fin (t i) ∧ l i ≤ t i ∧ t i ≤ h i) → (∀ i, |b i - (if i = 2 then binary32.rnd (t 2 + t 1) else t i)| ≤ 4 / 1000000) →
      ∀ i, |kitLogical b i - radians (d i)| < 11 / 100000 := by
    intro t b ht hb i
    have b3 : ∀ i, |t i| ≤ 3 := fun i => by
      have h1 := abs_le.1 (hl i)
      have h2 := abs_le.1 (hh i)
      have := (ht i).2
      rw [abs_le]; constructor <;> linarith [h1.1, h2.2]
    have n1 := abs_le.1 (near t i (ht i).1 (by linarith [b3 i]))
    unfold kitLogical
    by_cases hi : i = 2
    · subst hi
      have c2 := hb 2
      have c1 := hb 1
      simp only [if_true, show (1 : Fin 6) ≠ 2 by decide, if_false] at c1 c2 ⊢
      have c2 := abs_le.1 c2
      have c1 := abs_le.1 c1
      have hs := abs_le.1 (post32 (x := t 2 + t 1) (by have := abs_add_le (t 2) (t 1); have := b3 2; have := b3 1; linarith)).2
      rw [abs_lt]; constructor <;> linarith [n1.1, n1.2, c1.1, c1.2, c2.1, c2.2, hs.1, hs.2]
    · have c := hb i
      simp only [if_neg hi] at c ⊢
      have c := abs_le.1 c
      rw [abs_lt]; constructor <;> linarith [n1.1, n1.2, c.1, c.2]
  -- the physical angles
  have phys : ∀ (t : Fin 6 → ℝ), (∀ i, (A i).val = fin (t i) ∧ l i ≤ t i ∧ t i ≤ h i) → ∀ i, (cfg.l2p A i).val = fin (if i = 2 then binary32.rnd (t 2 + t 1) else t i) := by
    intro t ht i
    have b3 : ∀ i, |t i| ≤ 3 := fun i => by
      have h1 := abs_le.1 (hl i)
      have h2 := abs_le.1 (hh i)
      have := (ht i).2
      rw [abs_le]; constructor <;> linarith [h1.1, h2.2]
    rw [hk.l2p]
    unfold Kit.l2p RC.upd
    split
    · rw [RX.add_val, (ht 2).1, (ht 1).1]
      exact (post32 (x := t 2 + t 1) (by have := abs_add_le (t 2) (t 1); have := b3 2; have := b3 1; linarith)).1
    · exact (ht i).1
  have physB : ∀ (t : Fin 6 → ℝ), (∀ i, (A i).val = fin (t i) ∧ l i ≤ t i ∧ t i ≤ h i) → ∀ i, |if i = 2 then binary32.rnd (t 2 + t 1) else t i| ≤ 10 := by
    intro t ht i
    have b3 : ∀ i, |t i| ≤ 3 := fun i => by
      have h1 := abs_le.1 (hl i)
      have h2 := abs_le.1 (hh i)
      have := (ht i).2
      rw [abs_le]; constructor <;> linarith [h1.1, h2.2]
    have hs := abs_le.1 (post32 (x := t 2 + t 1) (by have := abs_add_le (t 2) (t 1); have := b3 2; have := b3 1; linarith)).2
    split
    · have h1 := abs_le.1 (b3 1)
      have h2 := abs_le.1 (b3 2)
      rw [abs_le]; constructor <;> linarith [hs.1, hs.2, h1.1, h1.2, h2.1, h2.2]
    · linarith [b3 i]
  -- what the two margins mean
  have tight : KitFitsBy (1 / 100000) (fun i => radians (d i)) → Fits cfg.toRCfg (fun i => deg (Kit.minDeg (armServo i))) (fun i => deg (Kit.maxDeg (armServo i))) A := by
    rintro ⟨f1, f2, f3⟩
    have b : ∀ i, |radians (d i)| ≤ 5 := fun i => by
      have h1 := abs_le.1 (hl i)
      have h2 := abs_le.1 (hh i)
      have h3 := abs_le.1 (nl i)
      have h4 := abs_le.1 (nh i)
      have := f1 i
      rw [abs_le]; constructor <;> linarith [h1.1, h2.2, h3.1, h3.2, h4.1, h4.2]
    choose t et ht using fun i => (angle32 (hd i)).1 (b i)
    have ht' := fun i => abs_le.1 (ht i)
    have inr : ∀ i, (A i).val = fin (t i) ∧ l i ≤ t i ∧ t i ≤ h i := fun i => by
      have h3 := abs_le.1 (nl i)
      have h4 := abs_le.1 (nh i)
      have := f1 i
      have := ht' i
      exact ⟨by rw [hA]; exact et i, by linarith [h3.2], by linarith [h4.1]⟩
    refine hfit.2 ⟨t, inr, ?_⟩
    have b3 : |t 2 + t 1| ≤ 20 := by
      have := abs_add_le (t 2) (t 1)
      have h1 := abs_le.1 (hl 1)
      have h2 := abs_le.1 (hh 1)
      have h3 := abs_le.1 (hl 2)
      have h4 := abs_le.1 (hh 2)
      have i1 := (inr 1).2
      have i2 := (inr 2).2
      rw [abs_le]; constructor <;> linarith [h1.1, h2.2, h3.1, h4.2]
    have hs := abs_le.1 (post32 b3).2
    have h3 := abs_le.1 (nl 2)
    have h4 := abs_le.1 (nh 2)
    have q1 := ht' 1
    have q2 := ht' 2
    rw [show armServo 2 = 2 from rfl] at h3 h4
    constructor <;> linarith [h3.2, h4.1, hs.1, hs.2]
  have loose : Fits cfg.toRCfg (fun i => deg (Kit.minDeg (armServo i))) (fun i => deg (Kit.maxDeg (armServo i))) A → KitFitsBy (-1 / 100000) (fun i => radians (d i)) := by
    intro hf
    obtain ⟨t, ht, f2, f3⟩ := hfit.1 hf
    have b3 : ∀ i, |t i| ≤ 3 := fun i => by
      have h1 := abs_le.1 (hl i)
      have h2 := abs_le.1 (hh i)
      have := (ht i).2
      rw [abs_le]; constructor <;> linarith [h1.1, h2.2]
    have nr := fun i => abs_le.1 (near t i (ht i).1 (by linarith [b3 i]))
    have hs := abs_le.1 (post32 (x := t 2 + t 1) (by have := abs_add_le (t 2) (t 1); have := b3 2; have := b3 1; linarith)).2
    refine ⟨fun i => ?_, ?_⟩
    · have h3 := abs_le.1 (nl i)
      have h4 := abs_le.1 (nh i)
      have := ht i
      have := nr i
      constructor <;> linarith [h3.1, h4.2]
    · have h3 := abs_le.1 (nl 2)
      have h4 := abs_le.1 (nh 2)
      rw [show armServo 2 = 2 from rfl] at h3 h4
      have n1 := nr 1
      have n2 := nr 2
      constructor <;> linarith [h3.1, h4.2, hs.1, hs.2]
  cases hm with
  | refused h1 h2 => exact ⟨fun hf => absurd (tight hf) h1, fun _ => h2, .inr h2, fun hf => absurd hf h1⟩
  | there b h1 h2 h3 =>
    suffices key : Fits cfg.toRCfg (fun i => deg (Kit.minDeg (armServo i))) (fun i => deg (Kit.maxDeg (armServo i))) A → ∃ b, SeenRest32 mid b ∧ ∀ i, |kitLogical b i - radians (d i)| < 11 / 100000 from ⟨fun hf => key (tight hf), fun _ => h3, .inr h3, key⟩
    intro hf
    obtain ⟨t, ht, _⟩ := hfit.1 hf
    choose v hv hb using h1
    choose x ex hx using fun i => (reading32 hw hr hn (hin (hv i))).1
    have eb : ∀ i, (b i).val = fin (x i) := fun i => by rw [hb]; exact ex i
    refine ⟨x, fun i => ?_, fun i => ?_⟩
    · obtain ⟨p1, p2, e1, e2⟩ := still_seen h3 (hv i)
      exact ⟨p1, v i, p2, e1, ex i, e2, .inr h3⟩
    · have b3 : ∀ i, |t i| ≤ 3 := fun i => by
        have h1 := abs_le.1 (hl i)
        have h2 := abs_le.1 (hh i)
        have := (ht i).2
        rw [abs_le]; constructor <;> linarith [h1.1, h2.2]
      obtain ⟨y, ey, hy⟩ := lit4
      obtain ⟨z, ez, hz⟩ : ∃ z, (cfg.p2l b i).val = fin z ∧ |z - kitLogical x i| ≤ 2 / 1000000 := by
        rw [hk.p2l]
        unfold Kit.p2l RC.upd kitLogical
        split
        · obtain ⟨z, ez, hz⟩ := sub_near (eb 2) (eb 1) (by linarith [hx 2]) (by linarith [hx 1])
          exact ⟨z, ez, hz⟩
        · exact ⟨x i, eb i, by rw [sub_self, abs_zero]; norm_num⟩
      have hz' := abs_le.1 hz
      have hxl : |kitLogical x i| ≤ 8 := by
        unfold kitLogical
        split
        · have := abs_sub (x 2) (x 1); linarith [hx 1, hx 2]
        · linarith [hx i]
      have hxl' := abs_le.1 hxl
      obtain ⟨u, eu, hu⟩ := sub_near ez (ht i).1 (abs_le.2 ⟨by linarith [hz'.1], by linarith [hz'.2]⟩) (by linarith [b3 i])
      have h4 := h2
      unfold RC.anglesEqual at h4
      rw [List.all_eq_true] at h4
      have h5 := h4 i (List.mem_finRange i)
      have e6 : fge (FloatOps.abs (cfg.p2l b i - A i)) (lit (1/10000)) = XR.le (lit (1/10000) : F32).val (FloatOps.abs (cfg.p2l b i - A i)).val := rfl
      rw [e6, RX.abs_val, eu, ey] at h5
      have h6 : |u| < y := by simpa [XR.le, XR.abs] using h5
      have h6 := abs_lt.1 h6
      have hu' := abs_le.1 hu
      have nr := abs_le.1 (near t i (ht i).1 (by linarith [b3 i]))
      rw [abs_lt]; constructor <;> linarith [h6.1, h6.2, hu'.1, hu'.2, hz'.1, hz'.2, nr.1, nr.2]
  | noTime v mt h1 h2 h3 h4 =>
    have key : ∃ b, SeenRest32 mid b ∧ ∀ i, |kitLogical b i - radians (d i)| < 11 / 100000 := by
      obtain ⟨t, ht, _⟩ := hfit.1 h1
      choose x ex hx using fun i => (reading32 hw hr hn (hin (h2 i))).1
      choose w ew w0 w1 using fun i => (reading32 hw hr hn (hin (h2 i))).2
      refine ⟨x, fun i => ?_, done t x ht fun i => timeFor32 (phys t ht) (physB t ht) ex (fun i => by linarith [hx i]) ew w0 w1 h3 i⟩
      obtain ⟨p1, p2, e1, e2⟩ := still_seen h4 (h2 i)
      exact ⟨p1, v i, p2, e1, ex i, e2, .inr h4⟩
    exact ⟨fun _ => key, fun hf => absurd (loose h1) hf, .inl key, fun _ => key⟩
  | went h1 h2 h3 =>
    have key : ∃ b, SeenRest32 mid b ∧ ∀ i, |kitLogical b i - radians (d i)| < 11 / 100000 := by
      obtain ⟨t, ht, _⟩ := hfit.1 h1
      choose p1 sv p2 e1 e2 e3 e4 using went_seen hr e h2 h3
      choose x ex hx using fun i => (reading32 hw hr hn (hin (x := .servo (armServo i) (sv i)) (by rw [e1 i]; simp))).1
      refine ⟨x, fun i => ⟨p1 i, sv i, p2 i, e1 i, ex i, e2 i, .inl (e4 i)⟩, done t x ht fun i => ?_⟩
      exact atTarget32 (ex i) (by rw [e3]; exact phys t ht i) (by linarith [hx i]) (physB t ht i) (e4 i)
    exact ⟨fun _ => key, fun hf => absurd (loose h1) hf, .inl key, fun _ => key⟩

/-- what a finished move means for the kit in binary32. -/
theorem kit_moved32 (hr : Sys.Run cfg w0 junk evs s) (hn : NoNaN32 (acts evs)) {p0 mid rest : List (Act F32)} (e : acts evs = p0 ++ (mid ++ rest)) {A : Six F32} {d : Fin 6 → Dec}
    (hd : ∀ i, (d i).Ok) (hA : ∀ i, A i = angle (d i)) (hm : Moved cfg.toRCfg (fun i => deg (Kit.minDeg (armServo i))) (fun i => deg (Kit.maxDeg (armServo i))) A mid) :
    (KitFitsBy (1 / 100000) (fun i => radians (d i)) → ∃ b, SeenAt32 mid b ∧ ∀ i, |kitLogical b i - radians (d i)| < 11 / 100000) ∧
    (¬ KitFitsBy (-1 / 100000) (fun i => radians (d i)) → ArmStill mid) ∧
    ((∃ b, SeenAt32 mid b ∧ ∀ i, |kitLogical b i - radians (d i)| < 11 / 100000) ∨ ArmStill mid) ∧
    (Fits cfg.toRCfg (fun i => deg (Kit.minDeg (armServo i))) (fun i => deg (Kit.maxDeg (armServo i))) A → ∃ b, SeenAt32 mid b ∧ ∀ i, |kitLogical b i - radians (d i)| < 11 / 100000) := by
  have key := kit_seen32 hk hw hr hn e hd hA hm
  have weak : (∃ b, SeenRest32 mid b ∧ ∀ i, |kitLogical b i - radians (d i)| < 11 / 100000) → ∃ b, SeenAt32 mid b ∧ ∀ i, |kitLogical b i - radians (d i)| < 11 / 100000 := fun ⟨b, h1, h2⟩ =>
    ⟨b, fun i => (h1 i).imp fun _ h => h.imp fun _ h => h.imp fun _ h => ⟨h.1, h.2.1, h.2.2.1⟩, h2⟩
  exact ⟨fun h => weak (key.1 h), key.2.1, key.2.2.1.imp_left weak, fun h => weak (key.2.2.2 h)⟩

variable (hmem : ∃ L, StoredProgram w0.ee L ∧ ∀ m ∈ L, SafeText 0 m ∧ AngleText m)
include hmem

theorem noNaN32 (hr : Sys.Run cfg w0 junk evs s) (hc : LegiblySent (w0.rxq ++ arrivals evs)) (ha : ∀ p ∈ decode (w0.rxq ++ arrivals evs), AngleFrame (frame p)) : NoNaN32 (acts evs) :=
  fun i => (C104_numbers hk hw hmem hr hc ha).2 i nanRX rfl

/-- **C105**: the robot kit in binary32 (any libm, any kinematics), with a host that moves it by joint angles (C104). An instruction told all six angles, with M0. When it is
reported as finished, or the next one is started, and nothing else was started in between: if the angles are within the ranges, by 1e-5 radians, every servo has been seen where
it has to be for these angles, to 1.1e-4 radians, and has not been touched since; if they are outside by 1e-5 radians, no servo was touched; in any case one of the two. -/
theorem C105_told (hr : Sys.Run cfg w0 junk evs s) (hc : LegiblySent (w0.rxq ++ arrivals evs)) (ha : ∀ p ∈ decode (w0.rxq ++ arrivals evs), AngleFrame (frame p))
    {cs : List Cmd} (ht : TellsAngles cs) (hM : Chooses 48 cs) {d : Fin 6 → Dec} (hd : ∀ i, Last NamesAngle cs i (d i)) {pre mid post : List (Act F32)} {src : Src} {a : Act F32}
    (hs : src ≠ .immediate) (e : acts evs = pre ++ .out (.ghost src (text cs)) :: mid ++ a :: post) (hm : ∀ x ∈ mid, ¬ DirectsI x) (hrep : reports a) :
    (KitFitsBy (1 / 100000) (fun i => radians (d i)) → ∃ b, SeenAt32 mid b ∧ ∀ i, |kitLogical b i - radians (d i)| < 11 / 100000) ∧
    (¬ KitFitsBy (-1 / 100000) (fun i => radians (d i)) → ArmStill mid) ∧
    ((∃ b, SeenAt32 mid b ∧ ∀ i, |kitLogical b i - radians (d i)| < 11 / 100000) ∨ ArmStill mid) := by
  obtain ⟨t, h1, h2⟩ := C84_angles hr.trace (kit_limits32 hw hr) ht hM hs e hm hrep
  have key := kit_moved32 hk hw hr (noNaN32 hk hw hmem hr hc ha) (p0 := pre ++ [.out (.ghost src (text cs))]) (rest := a :: post) (by rw [e]; simp)
    (fun i => last_ok (fun _ _ _ h => h.1) (hd i)) (fun i => h1 i _ (hd i)) h2
  exact ⟨key.1, key.2.1, key.2.2.1⟩

/-- **C105/2**: a course of moves (C87): whenever an instruction is reported as finished or the next one is started, every servo has been seen where it has to be for the
angles told last, axis by axis, and has not been touched since. -/
theorem C105_course (hr : Sys.Run cfg w0 junk evs s) (hc : LegiblySent (w0.rxq ++ arrivals evs)) (ha : ∀ p ∈ decode (w0.rxq ++ arrivals evs), AngleFrame (frame p))
    {pre post : List (Act F32)} {a : Act F32} (hrep : reports a) (e : acts evs = pre ++ a :: post) {A P : Six F32} {mid : List (Act F32)}
    (hco : Course cfg.toRCfg (fun i => deg (Kit.minDeg (armServo i))) (fun i => deg (Kit.maxDeg (armServo i))) pre A P mid) {d : Fin 6 → Dec}
    (hd : ∀ i, (d i).Ok ∧ A i = angle (d i)) :
    ∃ b, SeenAt32 mid b ∧ ∀ i, |kitLogical b i - radians (d i)| < 11 / 100000 := by
  obtain ⟨hf, p0, rfl⟩ := course_mid hco
  have hm := C87_course hr.trace (kit_limits32 hw hr) hrep e hco
  exact (kit_moved32 hk hw hr (noNaN32 hk hw hmem hr hc ha) (by rw [e, List.append_assoc]) (fun i => (hd i).1) (fun i => (hd i).2) hm).2.2.2 hf

end

/-! ### total correctness -/

/-- what has been seen when the number of the instruction is sent. -/
theorem told32_at {cfg : Cfg F32} {w0 : World F32} {junk : Nat → Byte} {σ : ℕ → Sys F32} {ev : ℕ → Ev F32} (hk : KitAngles cfg) (hw : w0.servos = Kit.servos)
    (hrun : Endless cfg w0 junk σ ev) (hmem : ∃ L, StoredProgram w0.ee L ∧ ∀ m ∈ L, SafeText 0 m ∧ AngleText m)
    (hc : ∀ n, LegiblySent (w0.rxq ++ arrivals (sofar ev n))) (ha : ∀ n, ∀ p ∈ decode (w0.rxq ++ arrivals (sofar ev n)), AngleFrame (frame p))
    {k : ℕ} {src : Src} {cs : List Cmd} (hs : ev k = .act (.out (.ghost src (text cs)))) (hsrc : src ≠ .immediate) (ht : TellsAngles cs) (hM : Chooses 48 cs)
    {d : Fin 6 → Dec} (hd : ∀ i, Last NamesAngle cs i (d i)) (hfit : KitFitsBy (1 / 100000) fun i => radians (d i)) {j : ℕ} {n : Int} (h1 : k < j) (h2 : ev j = .act (.out (.msg (.n1 n))))
    (h3 : ∀ i, k < i → i < j → ¬ Directs ev i) :
    ∃ b, SeenAt32 (acts ((sofar ev j).drop (k + 1))) b ∧ ∀ i, |kitLogical b i - radians (d i)| < 11 / 100000 := by
  have e : acts (sofar ev (j + 1)) = acts (sofar ev k) ++ .out (.ghost src (text cs)) :: acts ((sofar ev j).drop (k + 1)) ++ .out (.msg (.n1 n)) :: [] := by
    have hsplit : sofar ev (j + 1) = sofar ev k ++ [ev k] ++ (sofar ev j).drop (k + 1) ++ [ev j] := by
      rw [sofar_succ]
      congr 1
      rw [← sofar_succ]
      have : sofar ev (k + 1) = (sofar ev j).take (k + 1) := by
        rw [sofar, sofar, ← List.map_take, List.take_range, Nat.min_eq_left h1]
      rw [this, List.take_append_drop]
    rw [hsplit, acts_append, acts_append, acts_append, hs, h2]
    simp [acts]
  refine (C105_told hk hw hmem (hrun.run (j + 1)) (hc _) (ha _) ht hM hd hsrc e (fun x hx => ?_) trivial).1 hfit
  rintro ⟨src', m', rfl, hmm⟩
  rw [acts_mem] at hx
  obtain ⟨i, hi, hx⟩ := List.getElem_of_mem hx
  simp only [sofar, List.getElem_drop, List.getElem_map, List.getElem_range, List.length_drop, List.length_map, List.length_range] at hx hi
  exact h3 (k + 1 + i) (by omega) (by omega) ⟨src', m', hx, hmm⟩

/-- **C105/3**: total correctness of a move, in binary32. An instruction that tells all six angles, within the ranges by 1e-5 radians, with M0 and a number, is taken from
the queue or the storage, and no immediate instruction that does more than ask begins after it. Then N1 is sent, before any other instruction begins, and by then every servo has been seen
where it has to be for these angles, to 1.1e-4 radians, and has not been touched since. (Conditions as for C80: again and again there is a pass in which all inputs waited for
have the required level and the waiting time is over; no positive speed below 1/1000 rad/s is stored.) -/
theorem C105_reported {cfg : Cfg F32} {w0 : World F32} {junk : Nat → Byte} {σ : ℕ → Sys F32} {ev : ℕ → Ev F32} (hk : KitAngles cfg) (hw : w0.servos = Kit.servos)
    (hrun : Endless cfg w0 junk σ ev) (hf : Fair σ ev) (hsq : SqrtNonneg binary32) (hmem : ∃ L, StoredProgram w0.ee L ∧ ∀ m ∈ L, SafeText 0 m ∧ AngleText m)
    (hc : ∀ n, LegiblySent (w0.rxq ++ arrivals (sofar ev n))) (ha : ∀ n, ∀ p ∈ decode (w0.rxq ++ arrivals (sofar ev n)), AngleFrame (frame p))
    (hfast : ∀ n i v x, ev n = .act (.micro (armServo i) (.setVel v)) → v.val = fin x → x ≤ 0 ∨ 1/1000 ≤ x)
    {k : ℕ} {src : Src} {cs : List Cmd} (hs : ev k = .act (.out (.ghost src (text cs)))) (hsrc : src ≠ .immediate) (ht : TellsAngles cs) (hM : Chooses 48 cs) {n : Int}
    (hm : Numbered (text cs) n) {d : Fin 6 → Dec} (hd : ∀ i, Last NamesAngle cs i (d i)) (hfit : KitFitsBy (1 / 100000) fun i => radians (d i)) (hi : OnlyAsksNow ev (k + 1)) :
    ∃ j, k < j ∧ ev j = .act (.out (.msg (.n1 n))) ∧ (∀ i, k < i → i < j → ¬ Orders ev i) ∧
      ∃ b, SeenAt32 (acts ((sofar ev j).drop (k + 1))) b ∧ ∀ i, |kitLogical b i - radians (d i)| < 11 / 100000 := by
  obtain ⟨j, h1, h2, h3⟩ := C104_reported hk hw hrun hf hsq hmem hc ha hfast hs hsrc hm hi
  exact ⟨j, h1, h2, h3, told32_at hk hw hrun hmem hc ha hs hsrc ht hM hd hfit h1 h2 (undirected h3)⟩

end Mrc.Props
