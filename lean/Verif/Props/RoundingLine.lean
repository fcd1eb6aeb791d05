import Verif.Props.Rounding32
import Verif.Props.Controller
/-
C67 with rounding: in binary32 the number of parts of a straight move can be undefined, although all quantities are ordinary numbers.
-/
set_option linter.unusedSectionVars false
namespace Mrc.Props
open Mrc Mrc.Prog Mrc.Spec XR RC
open scoped Mrc.Num

/-- a libm whose functions are as good as they can be: the exact result, rounded. -/
@[instance_reducible] noncomputable def bestLibm : RX.Libm binary32 where
  sqrt x := RX.of (XR.sqrt x.val)
  sin x := RX.of (XR.sin x.val)
  cos x := RX.of (XR.cos x.val)
  acos x := RX.of (XR.acos x.val)
  asin x := RX.of (XR.asin x.val)
  atan2 y x := RX.of (XR.atan2 y.val x.val)
  fmod x y := RX.of (XR.fmod x.val y.val)
  hexFloat _ := ⟨.nan, trivial⟩

/-- the nearest number of the format. -/
theorem near32 {x : ℝ} {k m : ℤ} (hlo : (2 : ℝ) ^ (m + 23) ≤ x) (hhi : x < (2 : ℝ) ^ (m + 24)) (hm : -149 ≤ m) (h : |x / (2 : ℝ) ^ m - k| < 1 / 2) :
    binary32.rnd x = (k : ℝ) * (2 : ℝ) ^ m := by
  show Binary32.rnd _ = _
  have hx : 0 < x := lt_of_lt_of_le (Binary32.two_zpow_pos _) hlo
  rw [Binary32.rnd_nonneg hx.le]
  have hlog : Int.log 2 x = m + 23 := by
    apply le_antisymm
    · by_contra hc
      have h1 : m + 24 ≤ Int.log 2 x := by omega
      have h2 := Binary32.log_le hx
      have h3 : (2 : ℝ) ^ (m + 24) ≤ (2 : ℝ) ^ Int.log 2 x := zpow_le_zpow_right₀ (by norm_num) h1
      linarith
    · by_contra hc
      have h1 : Int.log 2 x + 1 ≤ m + 23 := by omega
      have h2 := Binary32.lt_log (x := x)
      have h3 : (2 : ℝ) ^ (Int.log 2 x + 1) ≤ (2 : ℝ) ^ (m + 23) := zpow_le_zpow_right₀ (by norm_num) h1
      linarith
  unfold Binary32.rpos Binary32.ulpExp
  rw [hlog]
  have e : max (m + 23 - 23) (-149) = m := by omega
  rw [e]
  have h4 := abs_le.1 (Binary32.even_err (x / (2 : ℝ) ^ m))
  have h5 := abs_lt.1 h
  have : Binary32.even (x / (2 : ℝ) ^ m) = k := by
    have a1 : (Binary32.even (x / (2 : ℝ) ^ m) : ℝ) < k + 1 := by linarith [h4.2, h5.2]
    have a2 : (k : ℝ) < (Binary32.even (x / (2 : ℝ) ^ m) : ℝ) + 1 := by linarith [h4.1, h5.1]
    have a1' : Binary32.even (x / (2 : ℝ) ^ m) < k + 1 := by exact_mod_cast a1
    have a2' : k < Binary32.even (x / (2 : ℝ) ^ m) + 1 := by exact_mod_cast a2
    omega
  rw [this]

/-- numbers just below 1. -/
theorem near1 {x : ℝ} {k : ℤ} (hlo : 1 / 2 ≤ x) (hhi : x < 1) (h : |x * 16777216 - k| < 1 / 2) : binary32.rnd x = (k : ℝ) / 16777216 := by
  have := near32 (x := x) (k := k) (m := -24) (by norm_num; linarith) (by norm_num; exact hhi) (by norm_num) (by
    rw [show x / (2 : ℝ) ^ (-24 : ℤ) = x * 16777216 by norm_num; ring]; exact h)
  rw [this]; norm_num; ring

/-- the turn of 3/128 rad (about 1.3 degrees). -/
theorem cos_turn : binary32.rnd (Real.cos (3 / 128)) = 16772608 / 16777216 := by
  have h := abs_le.1 (Real.cos_bound (x := 3 / 128) (by norm_num [abs_of_pos]))
  rw [abs_of_pos (by norm_num : (0 : ℝ) < 3 / 128)] at h
  have := near1 (x := Real.cos (3 / 128)) (k := 16772608) (by norm_num at h; linarith [h.1]) (by norm_num at h; linarith [h.2])
    (by rw [abs_lt]; norm_num at h; constructor <;> push_cast <;> linarith [h.1, h.2])
  rw [this]; norm_num

theorem sin_turn : 2343533 / 100000000 ≤ binary32.rnd (Real.sin (3 / 128)) ∧ binary32.rnd (Real.sin (3 / 128)) ≤ 2343538 / 100000000 := by
  have h := abs_le.1 (Real.sin_bound (x := 3 / 128) (by norm_num [abs_of_pos]))
  rw [abs_of_pos (by norm_num : (0 : ℝ) < 3 / 128)] at h
  norm_num at h
  obtain ⟨a, b⟩ := b32_bounds (x := Real.sin (3 / 128)) (by linarith [h.1])
  constructor <;> linarith [h.1, h.2]

section
attribute [local instance] bestLibm

theorem m32 {a b : F32} {x y : ℝ} (ha : a.val = fin x) (hb : b.val = fin y) (h : |x * y| ≤ 1000) : (a * b).val = fin (binary32.rnd (x * y)) := by
  have := b32_big
  rw [RX.mul_val, ha, hb]; exact binary32.post_fin (by linarith)
theorem a32 {a b : F32} {x y : ℝ} (ha : a.val = fin x) (hb : b.val = fin y) (h : |x + y| ≤ 1000) : (a + b).val = fin (binary32.rnd (x + y)) := by
  have := b32_big
  rw [RX.add_val, ha, hb]; exact binary32.post_fin (by linarith)
theorem d32 {a b : F32} {x y : ℝ} (ha : a.val = fin x) (hb : b.val = fin y) (hy : y ≠ 0) (h : |x / y| ≤ 1000) : (a / b).val = fin (binary32.rnd (x / y)) := by
  have := b32_big
  rw [RX.div_val, ha, hb]
  simp only [XR.div, if_neg hy]
  exact binary32.post_fin (by linarith)

/-- the orientation vector of a pose turned by 3/128 rad, normalised: its product with itself is 1 + 2^-23. -/
theorem turn_nan {p q : Six F32} (hp4 : (p 4).val = fin (3 / 128)) (hp5 : (p 5).val = fin 0) (hq4 : (q 4).val = fin (3 / 128)) (hq5 : (q 5).val = fin 0) :
    (rotationAngle p q).val = nan := by
  have hbig := b32_big
  have one := b32_int (n := 1) (by norm_num)
  have zero := binary32.rnd_zero
  obtain ⟨σ, hσ⟩ : ∃ σ, σ = binary32.rnd (Real.sin (3 / 128)) := ⟨_, rfl⟩
  obtain ⟨s1, s2⟩ := sin_turn
  rw [← hσ] at s1 s2
  have hc4 : ∀ {p : Six F32}, (p 4).val = fin (3 / 128) → (FloatOps.cos (p 4)).val = fin (16772608 / 16777216) := by
    intro p h
    show binary32.post (XR.cos (p 4).val) = _
    rw [h]
    show binary32.post (fin (Real.cos (3 / 128))) = _
    rw [binary32.post_fin (by have := Real.abs_cos_le_one (3/128); linarith), cos_turn]
  have hs4 : ∀ {p : Six F32}, (p 4).val = fin (3 / 128) → (FloatOps.sin (p 4)).val = fin σ := by
    intro p h
    show binary32.post (XR.sin (p 4).val) = _
    rw [h]
    show binary32.post (fin (Real.sin (3 / 128))) = _
    rw [binary32.post_fin (by have := Real.abs_sin_le_one (3/128); linarith), hσ]
  have hc5 : ∀ {p : Six F32}, (p 5).val = fin 0 → (FloatOps.cos (p 5)).val = fin 1 := by
    intro p h
    show binary32.post (XR.cos (p 5).val) = _
    rw [h]
    show binary32.post (fin (Real.cos 0)) = _
    rw [Real.cos_zero, binary32.post_fin (by norm_num; linarith)]
    push_cast at one; rw [one]
  have hs5 : ∀ {p : Six F32}, (p 5).val = fin 0 → (FloatOps.sin (p 5)).val = fin 0 := by
    intro p h
    show binary32.post (XR.sin (p 5).val) = _
    rw [h]
    show binary32.post (fin (Real.sin 0)) = _
    rw [Real.sin_zero, binary32.post_fin (by norm_num; linarith), zero]
  have gc : binary32.rnd (16772608 / 16777216) = 16772608 / 16777216 := by
    rw [← cos_turn]; exact binary32.idem _
  -- orientation
  have ho : ∀ {p : Six F32}, (p 4).val = fin (3 / 128) → (p 5).val = fin 0 →
      (orientation p).x.val = fin (16772608 / 16777216) ∧ (orientation p).y.val = fin 0 ∧ (orientation p).z.val = fin (-σ) := by
    intro p h4 h5
    refine ⟨?_, ?_, ?_⟩
    · show (FloatOps.cos (p 4) * FloatOps.cos (p 5)).val = _
      rw [m32 (hc4 h4) (hc5 h5) (by norm_num), mul_one, gc]
    · show (FloatOps.cos (p 4) * FloatOps.sin (p 5)).val = _
      rw [m32 (hc4 h4) (hs5 h5) (by norm_num), mul_zero, zero]
    · show XR.neg (FloatOps.sin (p 4)).val = _
      rw [hs4 h4]; rfl
  -- its length
  have c2 : binary32.rnd (16772608 / 16777216 * (16772608 / 16777216)) = 16768001 / 16777216 := by
    have := near1 (x := 16772608 / 16777216 * (16772608 / 16777216)) (k := 16768001) (by norm_num) (by norm_num) (by rw [abs_lt]; norm_num)
    rw [this]; norm_num
  obtain ⟨t, ht⟩ : ∃ t, t = binary32.rnd (-σ * -σ) := ⟨_, rfl⟩
  have hσ2 : 54921460 / 100000000000 ≤ -σ * -σ ∧ -σ * -σ ≤ 54921710 / 100000000000 := by constructor <;> nlinarith
  have t12 := b32_bounds (x := -σ * -σ) (by linarith [hσ2.1])
  rw [← ht] at t12
  have t1 : 5492145 / 10000000000 ≤ t := by linarith [t12.1, hσ2.1]
  have t2 : t ≤ 5492172 / 10000000000 := by linarith [t12.2, hσ2.2]
  have l2 : binary32.rnd (16768001 / 16777216 + t) = 16777215 / 16777216 := by
    have := near1 (x := 16768001 / 16777216 + t) (k := 16777215) (by linarith) (by linarith) (by rw [abs_lt]; push_cast; constructor <;> linarith)
    rw [this]; norm_num
  have g2 : binary32.rnd (16768001 / 16777216) = 16768001 / 16777216 := by rw [← c2]; exact binary32.idem _
  have len : ∀ {p : Six F32}, (p 4).val = fin (3 / 128) → (p 5).val = fin 0 →
      (FloatOps.sqrt ((orientation p).x * (orientation p).x + (orientation p).y * (orientation p).y + (orientation p).z * (orientation p).z)).val = fin (16777215 / 16777216) := by
    intro p h4 h5
    obtain ⟨hx, hy, hz⟩ := ho h4 h5
    have e1 := m32 hx hx (by norm_num)
    have e2 := m32 hy hy (by norm_num)
    have e3 := m32 hz hz (by rw [abs_of_pos (by linarith [hσ2.1])]; linarith [hσ2.2])
    rw [c2] at e1
    rw [mul_zero, zero] at e2
    rw [← ht] at e3
    have e4 := a32 e1 e2 (by norm_num)
    rw [add_zero, g2] at e4
    have e5 := a32 e4 e3 (by rw [abs_of_pos (by linarith)]; linarith)
    rw [l2] at e5
    show binary32.post (XR.sqrt _) = _
    rw [e5]
    simp only [XR.sqrt, if_neg (show ¬ (16777215 / 16777216 : ℝ) < 0 by norm_num)]
    have r1 : (16777215 / 16777216 : ℝ) ≤ Real.sqrt (16777215 / 16777216) := Real.le_sqrt_of_sq_le (by norm_num)
    have r2 : Real.sqrt (16777215 / 16777216) < 33554431 / 33554432 := (Real.sqrt_lt' (by norm_num)).2 (by norm_num)
    rw [binary32.post_fin (by rw [abs_of_pos (by linarith)]; linarith)]
    have := near1 (x := Real.sqrt (16777215 / 16777216)) (k := 16777215) (by linarith) (by linarith) (by rw [abs_lt]; push_cast; constructor <;> linarith)
    rw [this]; norm_num
  -- the unit vector
  have n0 : binary32.rnd (16772608 / 16777216 / (16777215 / 16777216)) = 16772609 / 16777216 := by
    have := near1 (x := 16772608 / 16777216 / (16777215 / 16777216)) (k := 16772609) (by norm_num) (by norm_num) (by rw [abs_lt]; norm_num)
    rw [this]; norm_num
  obtain ⟨m, hm⟩ : ∃ m, m = binary32.rnd (-σ / (16777215 / 16777216)) := ⟨_, rfl⟩
  have hmb : -(2343539 / 100000000) ≤ m ∧ m ≤ -(2343532 / 100000000) := by
    have e : -σ / (16777215 / 16777216) = -(σ * (16777216 / 16777215)) := by ring
    have := b32_bounds (x := σ * (16777216 / 16777215)) (by linarith)
    rw [hm, e, binary32.odd]
    constructor <;> linarith [this.1, this.2]
  have hn : ∀ {p : Six F32}, (p 4).val = fin (3 / 128) → (p 5).val = fin 0 →
      (norm (orientation p)).x.val = fin (16772609 / 16777216) ∧ (norm (orientation p)).y.val = fin 0 ∧ (norm (orientation p)).z.val = fin m := by
    intro p h4 h5
    obtain ⟨hx, hy, hz⟩ := ho h4 h5
    have hl := len h4 h5
    have ne : (16777215 / 16777216 : ℝ) ≠ 0 := by norm_num
    refine ⟨?_, ?_, ?_⟩
    · rw [← n0]; exact d32 hx hl ne (by norm_num)
    · have := d32 hy hl ne (by norm_num)
      rw [zero_div, zero] at this; exact this
    · rw [hm]; exact d32 hz hl ne (by
        rw [show -σ / (16777215 / 16777216) = -(σ * (16777216 / 16777215)) by ring, abs_neg, abs_of_pos (by linarith)]; linarith)
  -- its product with itself
  obtain ⟨px, py, pz⟩ := hn hp4 hp5
  obtain ⟨qx, qy, qz⟩ := hn hq4 hq5
  have e1 := m32 px qx (by norm_num)
  have e2 := m32 py qy (by norm_num)
  have hm2 : 5492142 / 10000000000 ≤ m * m ∧ m * m ≤ 5492176 / 10000000000 := by constructor <;> nlinarith
  have e3 := m32 pz qz (by rw [abs_of_pos (by linarith [hm2.1])]; linarith [hm2.2])
  have k1 : binary32.rnd (16772609 / 16777216 * (16772609 / 16777216)) = 16768003 / 16777216 := by
    have := near1 (x := 16772609 / 16777216 * (16772609 / 16777216)) (k := 16768003) (by norm_num) (by norm_num) (by rw [abs_lt]; norm_num)
    rw [this]; norm_num
  rw [k1] at e1
  rw [mul_zero, zero] at e2
  have u12 := b32_bounds (x := m * m) (by linarith [hm2.1])
  have e4 := a32 e1 e2 (by norm_num)
  rw [add_zero, show binary32.rnd (16768003 / 16777216) = 16768003 / 16777216 by rw [← k1]; exact binary32.idem _] at e4
  generalize hu : binary32.rnd (m * m) = u at *
  have u1 : 5492140 / 10000000000 ≤ u := by linarith [u12.1, hm2.1]
  have u2 : u ≤ 5492178 / 10000000000 := by linarith [u12.2, hm2.2]
  have e5 := a32 e4 e3 (by rw [abs_of_pos (by linarith)]; linarith)
  have k2 : binary32.rnd (16768003 / 16777216 + u) = 8388609 / 8388608 := by
    have := near32 (x := 16768003 / 16777216 + u) (k := 8388609) (m := -23) (by norm_num; linarith) (by norm_num; linarith) (by norm_num) (by
      rw [show (16768003 / 16777216 + u) / (2 : ℝ) ^ (-23 : ℤ) = (16768003 / 16777216 + u) * 8388608 by norm_num; ring, abs_lt]
      push_cast; constructor <;> linarith)
    rw [this]; norm_num
  rw [k2] at e5
  show binary32.post (XR.acos (dot (norm (orientation p)) (norm (orientation q))).val) = nan
  have e6 : (dot (norm (orientation p)) (norm (orientation q))).val = fin (8388609 / 8388608) := e5
  rw [e6]
  simp only [XR.acos]
  rw [if_neg (by norm_num)]
  rfl

/-- **C67 with rounding is false**: a straight move between two poses with the same orientation, turned by 3/128 rad (about 1.3 degrees) about one axis: in
binary32, even if libm is perfect, the number of parts is not defined -- the product of a unit vector with itself is rounded to more than 1, its `acos` is NaN,
and NaN is converted to an integer. -/
theorem C67_rounded_steps_false {p q : Six F32} (hp4 : (p 4).val = fin (3 / 128)) (hp5 : (p 5).val = fin 0) (hq4 : (q 4).val = fin (3 / 128)) (hq5 : (q 5).val = fin 0) :
    linearSteps p q = none := by
  have h := turn_nan hp4 hp5 hq4 hq5
  have : FloatOps.toInt (rotationAngle p q / lit 15 + lit 1) = none := by
    show XR.toInt (binary32.post (XR.add (binary32.post (XR.div _ _)) _)) = none
    rw [h]; rfl
  unfold linearSteps
  rw [this]
  split
  · rename_i h; cases h
  · rfl

/-- the same in the controller, for every robot: if the arm stands at a pose turned like that and the host moves the hand straight to another position with the same
orientation, `process()` performs an undefined conversion. -/
theorem C67_rounded_false {cfg : RCfg F32} {r : RC F32} (w : World F32) (hm : r.method = .linear) (hs : r.state = .prepareMove) (ht : r.inTransaction = false)
    (hc : r.poseChanged = true) (hc' : r.anglesChanged = false)
    (hp4 : ((cfg.fwd (cfg.p2l fun i => (w.servos (armServo i)).cur)) 4).val = fin (3 / 128)) (hp5 : ((cfg.fwd (cfg.p2l fun i => (w.servos (armServo i)).cur)) 5).val = fin 0)
    (hq4 : (r.targetPose 4).val = fin (3 / 128)) (hq5 : (r.targetPose 5).val = fin 0)
    {a : Six F32} (ha : cfg.inv r.targetPose = some a) (hne : anglesEqual (cfg.p2l fun i => (w.servos (armServo i)).cur) a = false) :
    ∃ tr, Exec (process cfg r) tr (.fault .badConv) := by
  refine ⟨((process cfg r).play w).1, ?_⟩
  have he := play_exec (process cfg r) w
  have : ((process cfg r).play w).2.1 = .fault .badConv := by
    have h6 : (fun i => (w.servos (armServo i)).cur) = six (w.servos 0).cur (w.servos 1).cur (w.servos 2).cur (w.servos 3).cur (w.servos 4).cur (w.servos 5).cur := by
      funext i; fin_cases i <;> rfl
    rw [h6] at hp4 hp5 hne
    have hsync : sync cfg r = { r with targetAngles := a } := by
      unfold sync; rw [hc', hc, ha]; rfl
    have hst := C67_rounded_steps_false hp4 hp5 hq4 hq5
    unfold process
    rw [hs]
    show ((prepare cfg r).play w).2.1 = _
    unfold prepare
    rw [hsync, ht, hc, hc']
    simp only [getCurrentPose, getCurrentLogicalAngles, readAngles, readServo, bind_def, pure_def, Prog.bind, Prog.play, Bool.false_eq_true, if_false, Bool.not_true, Bool.and_false, Bool.not_false,
      hne, hm, hst]
  rw [this] at he
  exact he

/-- non-vacuous: an arm whose pose is its angles, standing at (0,0,0,0,3/128,0), told to go to (1,0,0,0,3/128,0). -/
example (r0 : RC F32) : ∃ (cfg : RCfg F32) (w : World F32) (r : RC F32) (a : Six F32), r.method = .linear ∧ r.state = .prepareMove ∧ r.inTransaction = false ∧ r.poseChanged = true ∧ r.anglesChanged = false ∧
    ((cfg.fwd (cfg.p2l fun i => (w.servos (armServo i)).cur)) 4).val = fin (3 / 128) ∧ ((cfg.fwd (cfg.p2l fun i => (w.servos (armServo i)).cur)) 5).val = fin 0 ∧
    (r.targetPose 4).val = fin (3 / 128) ∧ (r.targetPose 5).val = fin 0 ∧ cfg.inv r.targetPose = some a ∧ anglesEqual (cfg.p2l fun i => (w.servos (armServo i)).cur) a = false := by
  have hbig := b32_big
  let b : F32 := ⟨fin (3 / 128), by
    have := Binary32.rnd_grid (k := 3) (m := -7) (by norm_num) (by norm_num)
    norm_num at this
    refine ⟨?_, by norm_num; linarith⟩
    show Binary32.rnd (3 / 128) = _
    rw [show (3 / 128 : ℝ) = 3 * (1 / 128) by norm_num]; convert this using 2 <;> norm_num⟩
  let z : F32 := i32 0 (by norm_num)
  let o : F32 := i32 1 (by norm_num)
  have hz : z.val = fin 0 := by show fin _ = _; norm_num
  have ho : o.val = fin 1 := by show fin _ = _; norm_num
  let cfg : RCfg F32 := { fwd := id, inv := some, lo := fun _ => z, hi := fun _ => o, l2p := id, p2l := id }
  let w : World F32 := { servos := fun i => Servo.new 3 o 700 2380 z o (if i = 4 then b else z), now := 0, pins := fun _ => false, rxq := [], ee := fun _ => 0, outs := [] }
  refine ⟨cfg, w, { r0 with method := .linear, state := .prepareMove, inTransaction := false, poseChanged := true, anglesChanged := false, targetPose := fun i => if i = 0 then o else if i = 4 then b else z },
    _, rfl, rfl, rfl, rfl, rfl, rfl, hz, rfl, hz, rfl, ?_⟩
  unfold anglesEqual
  rw [List.all_eq_false]
  refine ⟨0, List.mem_finRange 0, ?_⟩
  have he : (lit (1/10000) : F32).val = fin (binary32.rnd (1/10000)) := by
    rw [RX.lit_val, show (((1 / 10000 : Rat)) : ℝ) = (1 / 10000 : ℝ) by norm_num, binary32.post_fin]
    rw [abs_of_pos (by norm_num)]; linarith
  have h3 := (b32_bounds (x := 1/10000) (by norm_num)).2
  have hone : binary32.rnd 1 = 1 := by have := b32_int (n := 1) (by norm_num); simpa using this
  have : fge (FloatOps.abs (z - o)) (lit (1/10000) : F32) = true := by
    show XR.le (lit (1/10000) : F32).val (XR.abs (binary32.post (XR.sub z.val o.val))) = true
    rw [he, hz, ho, RX.sub_fin, binary32.post_fin (by norm_num; linarith), show (0 : ℝ) - 1 = -1 by norm_num, binary32.odd, hone]
    simp only [XR.abs, XR.le, abs_neg, abs_one, decide_eq_true_eq]
    linarith
  show ¬ (!fge (FloatOps.abs (z - o)) (lit (1/10000) : F32)) = true
  rw [this]; simp
end
end Mrc.Props
