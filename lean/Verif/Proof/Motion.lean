import Verif.Proof.ControllerSeg
import Verif.Proof.XR
import Verif.Spec.Motion
/- Arithmetic of the motion controller over the exact numbers. -/
set_option linter.unusedSectionVars false
namespace Mrc.RC
open Mrc Mrc.Prog Mrc.Spec XR
open scoped Mrc.Num

open Classical in
/-- the maximum folded by the code, for finite values. -/
theorem foldl_max {ι : Type} (f : ι → ℝ) (is : List ι) (acc : ℝ) :
    ∃ T, is.foldl (fun (m : XR) i => if fgt (fin (f i)) m then fin (f i) else m) (fin acc) = fin T ∧ acc ≤ T ∧ (∀ i ∈ is, f i ≤ T) ∧ (T = acc ∨ ∃ i ∈ is, T = f i) := by
  induction is generalizing acc with
  | nil => exact ⟨acc, rfl, le_refl _, by simp, .inl rfl⟩
  | cons i is ih =>
    rw [List.foldl_cons]
    have e : (if fgt (fin (f i)) (fin acc) = true then fin (f i) else fin acc) = fin (max acc (f i)) := by
      simp only [fgt, ops_lt, decide_eq_true_eq]
      split
      · rename_i h; rw [max_eq_right h.le]
      · rename_i h; rw [max_eq_left (not_lt.1 h)]
    rw [e]
    obtain ⟨T, h1, h2, h3, h4⟩ := ih (max acc (f i))
    refine ⟨T, h1, (le_max_left _ _).trans h2, ?_, ?_⟩
    · intro j hj
      rcases List.mem_cons.1 hj with rfl | hj
      · exact (le_max_right _ _).trans h2
      · exact h3 j hj
    · rcases h4 with h4 | ⟨j, hj, h4⟩
      · rcases max_choice acc (f i) with h | h
        · left; rw [h4, h]
        · right; exact ⟨i, List.mem_cons_self, by rw [h4, h]⟩
      · exact .inr ⟨j, List.mem_cons_of_mem _ hj, h4⟩

theorem slowest_fin (p c mv : Fin 6 → ℝ) (m : Fin 6 → Servo XR) (hc : ∀ i, (m i).cur = fin (c i)) (hm : ∀ i, (m i).maxVel = fin (mv i)) (hp : ∀ i, 0 < mv i) (acc : ℝ) :
    ∃ T, slowest (finS p) m (List.finRange 6) (fin acc) = fin T ∧ acc ≤ T ∧ ∀ i, |p i - c i| / mv i ≤ T := by
  obtain ⟨T, h1, h2, h3, _⟩ := foldl_max (fun i => |p i - c i| / mv i) (List.finRange 6) acc
  refine ⟨T, ?_, h2, fun i => h3 i (List.mem_finRange i)⟩
  rw [← h1]
  unfold slowest
  refine foldl_congr _ _ _ (fun a i _ => ?_) _
  have e : FloatOps.div (FloatOps.abs (FloatOps.sub (finS p i) (m i).cur)) (m i).maxVel = fin (|p i - c i| / mv i) := by
    rw [hc, hm]
    have : FloatOps.sub (finS p i) (fin (c i)) = fin (p i - c i) := fin_sub _ _
    rw [this, ops_abs, ops_div, fin_div _ _ (hp i).ne']
  simp only [e]

theorem maxAngleChange_fin (r : RC XR) (s t : Fin 6 → ℝ) (hs : r.startAngles = finS s) (ht : r.targetAngles = finS t) :
    ∃ M, r.maxAngleChange = fin M ∧ 0 ≤ M ∧ ∀ i, |s i - t i| ≤ M := by
  obtain ⟨T, h1, h2, h3, _⟩ := foldl_max (fun i => |s i - t i|) (List.finRange 6) 0
  refine ⟨T, ?_, h2, fun i => h3 i (List.mem_finRange i)⟩
  rw [← h1]
  unfold maxAngleChange
  have e0 : (lit 0 : XR) = fin 0 := by simp
  rw [e0]
  refine foldl_congr _ _ _ (fun a i _ => ?_) _
  have e : FloatOps.abs (r.startAngles i - r.targetAngles i) = fin |s i - t i| := by
    rw [hs, ht]; simp [finS]
  simp only [e]

/-- angles that are not "equal" differ by at least 10^-4 somewhere. -/
theorem anglesEqual_fin (s t : Fin 6 → ℝ) : anglesEqual (finS s) (finS t) = true ↔ ∀ i, |s i - t i| < 1 / 10000 := by
  unfold anglesEqual
  rw [List.all_eq_true]
  constructor
  · intro h i
    have := h i (List.mem_finRange i)
    simp only [finS, fin_sub, ops_abs, fge, ops_lit, ops_le, Bool.not_eq_true', decide_eq_false_iff_not, not_le] at this
    push_cast at this
    exact this
  · intro h i _
    have := h i
    simp only [finS, fin_sub, ops_abs, fge, ops_lit, ops_le, Bool.not_eq_true', decide_eq_false_iff_not, not_le]
    push_cast
    exact this

theorem distance_fin (p q : Fin 6 → ℝ) : distance (finS p) (finS q) = fin (dist3 p q) := by
  unfold distance finS dist3
  simp only [fin_sub, fin_mul, fin_add]
  rw [ops_sqrt _ (add_nonneg (add_nonneg (mul_self_nonneg _) (mul_self_nonneg _)) (mul_self_nonneg _))]
  congr 2; ring

theorem orientation_fin (p : Fin 6 → ℝ) : norm (orientation (finS p)) =
    ⟨fin (Real.cos (p 4) * Real.cos (p 5)), fin (Real.cos (p 4) * Real.sin (p 5)), fin (-Real.sin (p 4))⟩ := by
  have h1 : Real.cos (p 4) * Real.cos (p 5) * (Real.cos (p 4) * Real.cos (p 5)) + Real.cos (p 4) * Real.sin (p 5) * (Real.cos (p 4) * Real.sin (p 5)) + -Real.sin (p 4) * -Real.sin (p 4) = 1 := by
    have a := Real.sin_sq_add_cos_sq (p 4)
    have b := Real.sin_sq_add_cos_sq (p 5)
    nlinarith
  simp only [norm, orientation, finS, ops_cos, ops_sin, fin_mul, fin_add, fin_neg]
  rw [h1, ops_sqrt _ (by norm_num), Real.sqrt_one]
  simp only [fin_div _ _ one_ne_zero, div_one]

theorem rotationAngle_fin (p q : Fin 6 → ℝ) : ∃ a, rotationAngle (finS p) (finS q) = fin a ∧ 0 ≤ a ∧ a ≤ Real.pi := by
  unfold rotationAngle
  rw [orientation_fin, orientation_fin]
  simp only [dot, fin_mul, fin_add]
  set x := Real.cos (p 4) * Real.cos (p 5) * (Real.cos (q 4) * Real.cos (q 5)) + Real.cos (p 4) * Real.sin (p 5) * (Real.cos (q 4) * Real.sin (q 5)) + -Real.sin (p 4) * -Real.sin (q 4)
  have hx : x = Real.cos (p 4) * Real.cos (q 4) * Real.cos (p 5 - q 5) + Real.sin (p 4) * Real.sin (q 4) := by
    rw [Real.cos_sub]; ring
  have hb : |x| ≤ 1 := by
    have c := Real.abs_cos_le_one (p 5 - q 5)
    have c1 := abs_le.1 c
    have e1 := Real.cos_sub (p 4) (q 4)
    have e2 := Real.cos_add (p 4) (q 4)
    have l1 := abs_le.1 (Real.abs_cos_le_one (p 4 - q 4))
    have l2 := abs_le.1 (Real.abs_cos_le_one (p 4 + q 4))
    have hA : |Real.cos (p 4) * Real.cos (q 4)| * |Real.cos (p 5 - q 5)| ≤ |Real.cos (p 4) * Real.cos (q 4)| :=
      mul_le_of_le_one_right (abs_nonneg _) c
    rw [← abs_mul] at hA
    rw [hx, abs_le]
    have hA' := abs_le.1 hA
    rcases abs_cases (Real.cos (p 4) * Real.cos (q 4)) with ⟨h, _⟩ | ⟨h, _⟩ <;> rw [h] at hA' <;> constructor <;> linarith
  rw [ops_acos _ hb]
  exact ⟨_, rfl, Real.arccos_nonneg x, Real.arccos_le_pi x⟩

/-- the number of steps of a linear move: one more than the number of whole half units. -/
theorem linearSteps_fin (p q : Fin 6 → ℝ) (hd : dist3 p q < 1073741823) : linearSteps (finS p) (finS q) = some (⌊2 * dist3 p q⌋₊ + 1) := by
  obtain ⟨a, ha, h0, hpi⟩ := rotationAngle_fin p q
  have hd0 : 0 ≤ dist3 p q := Real.sqrt_nonneg _
  unfold linearSteps
  rw [distance_fin, ha]
  have e1 : (fin (dist3 p q) / lit (1/2) + lit 1 : XR) = fin (2 * dist3 p q + 1) := by
    have : ((1 / 2 : Rat) : ℝ) ≠ 0 := by norm_num
    simp only [lit, ops_lit, fin_div _ _ this, fin_add]
    congr 1; push_cast; ring
  have e2 : (fin a / lit 15 + lit 1 : XR) = fin (a / 15 + 1) := by
    have : ((15 : Rat) : ℝ) ≠ 0 := by norm_num
    simp only [lit, ops_lit, fin_div _ _ this, fin_add]
    congr 1; push_cast; ring
  rw [e1, e2]
  have hf : ⌊2 * dist3 p q + 1⌋ = ((⌊2 * dist3 p q⌋₊ + 1 : ℕ) : ℤ) := by
    rw [show (2 * dist3 p q + 1 : ℝ) = 2 * dist3 p q + ((1 : ℤ) : ℝ) by push_cast; ring, Int.floor_add_intCast]
    push_cast
    rw [← Int.natCast_floor_eq_floor (by positivity)]
  have hlt : ⌊2 * dist3 p q⌋₊ < 2147483646 := by
    rw [Nat.floor_lt (by positivity)]; push_cast; linarith
  have t1 : FloatOps.toInt (fin (2 * dist3 p q + 1)) = some (((⌊2 * dist3 p q⌋₊ + 1 : ℕ) : ℤ)) := by
    show XR.toInt _ = _
    simp only [XR.toInt, trunc, if_pos (show (0:ℝ) ≤ 2 * dist3 p q + 1 by positivity), hf]
    rw [if_pos (by omega)]
  have hpi4 := Real.pi_le_four
  have t2 : FloatOps.toInt (fin (a / 15 + 1)) = some 1 := by
    show XR.toInt _ = _
    have : ⌊a / 15 + 1⌋ = 1 := by
      rw [Int.floor_eq_iff]; push_cast; constructor <;> linarith
    simp only [XR.toInt, trunc, if_pos (show (0:ℝ) ≤ a / 15 + 1 by positivity), this]
    rw [if_pos (by omega)]
  rw [t1, t2]
  show some (u32OfInt _) = _
  congr 1
  have : (if ((⌊2 * dist3 p q⌋₊ + 1 : ℕ) : ℤ) > 1 then ((⌊2 * dist3 p q⌋₊ + 1 : ℕ) : ℤ) else 1) = ((⌊2 * dist3 p q⌋₊ + 1 : ℕ) : ℤ) := by
    split <;> omega
  rw [this]
  unfold u32OfInt
  omega

/-! ### a segment -/

theorem speeds_append {F} [FloatOps F] (a b : List (Act F)) : speeds (a ++ b) = speeds a ++ speeds b := by simp [speeds]
theorem speeds_still {F} [FloatOps F] {l : List (Act F)} (h : Still l) : speeds l = [] := by
  simp only [speeds, List.filterMap_eq_nil_iff]
  intro a ha
  match a, ha with
  | .micro j m, ha => exact absurd ha (h j m)
  | .servo _ _, _ | .now _, _ | .pin _ _, _ | .rx _, _ | .eeRead _, _ | .eeWrite _ _, _ | .out _, _ => rfl
theorem speeds_apply {F} [FloatOps F] (t : Six F) (time : F) (x y : Fin 6 → Servo F) (is : List (Fin 6)) :
    speeds (applyT t time x y is) = is.map fun i => (armServo i, FloatOps.div (FloatOps.abs (FloatOps.sub (t i) (x i).cur)) time) := by
  induction is with
  | nil => rfl
  | cons i is ih =>
    simp only [applyT, List.flatMap_cons] at ih ⊢
    rw [speeds_append, ih]
    rfl

theorem after_append {F} [FloatOps F] (i : Fin 6) (a b : List (Act F)) (s : Servo F) : after i (a ++ b) s = after i b (after i a s) := by simp [after]
theorem after_still {F} [FloatOps F] (i : Fin 6) {l : List (Act F)} (h : Still l) (s : Servo F) : after i l s = s := by
  induction l generalizing s with
  | nil => rfl
  | cons a l ih =>
    have hl : Still l := fun j m hm => h j m (List.mem_cons_of_mem _ hm)
    match a, h with
    | .micro j m, h => exact absurd List.mem_cons_self (h j m)
    | .servo _ _, _ | .now _, _ | .pin _ _, _ | .rx _, _ | .eeRead _, _ | .eeWrite _ _, _ | .out _, _ => exact ih hl s
theorem after_apply {F} [FloatOps F] (t : Six F) (time : F) (x y : Fin 6 → Servo F) (is : List (Fin 6)) (hn : is.Nodup) (i : Fin 6) (s : Servo F) :
    after i (applyT t time x y is) s = if i ∈ is then
      (((s.micro (.setVel (FloatOps.div (FloatOps.abs (FloatOps.sub (t i) (x i).cur)) time))).micro (.setStart (y i).cur)).micro .zeroElapsed).micro (.setTarget (t i)) else s := by
  induction is generalizing s with
  | nil => rfl
  | cons j is ih =>
    obtain ⟨hj, hn'⟩ := List.nodup_cons.1 hn
    simp only [applyT, List.flatMap_cons] at ih ⊢
    rw [after_append]
    by_cases h : i = j
    · subst h
      rw [ih hn', if_neg hj, if_pos List.mem_cons_self]
      simp [after]
    · have hne : armServo j ≠ armServo i := fun e => h (armServo_inj e).symm
      rw [show after i [Act.servo (armServo j) (x j), .micro (armServo j) (.setVel (FloatOps.div (FloatOps.abs (FloatOps.sub (t j) (x j).cur)) time)),
        .servo (armServo j) (y j), .micro (armServo j) (.setStart (y j).cur), .micro (armServo j) .zeroElapsed, .micro (armServo j) (.setTarget (t j))] s = s by
          simp [after, hne]]
      rw [ih hn']
      have : (i ∈ j :: is) ↔ i ∈ is := by simp [h]
      simp only [this]

theorem reading_num {mv : Fin 6 → ℝ} {tr : List (Act XR)} (hn : Numeric mv tr) {a : Six XR} (ha : Reading tr a) : ∃ c, a = finS c := by
  have : ∀ i, ∃ c, a i = fin c := by
    intro i
    obtain ⟨s, hs, e⟩ := ha i
    obtain ⟨c, hc⟩ := (hn i s hs).1
    exact ⟨c, e.trans hc⟩
  choose c hc using this
  exact ⟨c, funext hc⟩

theorem _root_.Mrc.Spec.Reading.mono {F} [FloatOps F] {tr tr' : List (Act F)} {a : Six F} (h : Reading tr a) (hs : ∀ x ∈ tr, x ∈ tr') : Reading tr' a := fun i => by
  obtain ⟨s, h1, h2⟩ := h i; exact ⟨s, hs _ h1, h2⟩

/-- a segment with a positive time is refused or really commanded, with one common time. -/
theorem cmd_timed {cfg : RCfg XR} {L U : Six XR} {r r' : RC XR} {t : Six XR} {p mv : Fin 6 → ℝ} {mt : ℝ} {tr : List (Act XR)} (h : Cmd cfg L U r t (fin mt) tr r')
    (hn : Numeric mv tr) (hmv : ∀ i, 0 < mv i) (hp : cfg.l2p t = finS p) (hmt : 0 < mt) :
    (¬ Fits cfg L U t ∧ GaveUp cfg tr r') ∨ (Fits cfg L U t ∧ r' = { r with state := .moving } ∧ Commanded (finS p) tr ∧ Timed p mv mt tr) := by
  have num : ∀ (v : Fin 6 → Servo XR), (∀ i, Act.servo (armServo i) (v i) ∈ tr) → ∃ c, (∀ i, (v i).cur = fin (c i)) ∧ (∀ i, (v i).maxVel = fin (mv i)) ∧ Reading tr (finS c) := by
    intro v hv
    choose c hc using fun i => (hn i (v i) (hv i)).1
    exact ⟨c, hc, fun i => (hn i (v i) (hv i)).2, fun i => ⟨v i, hv i, (hc i).symm⟩⟩
  have memR : ∀ (v : Fin 6 → Servo XR) (i : Fin 6), Act.servo (armServo i) (v i) ∈ readAll v := fun v i => List.mem_map.2 ⟨i, List.mem_finRange i, rfl⟩
  cases h with
  | refused l v u hf hl => exact .inl (cmd_cases (.refused (mt := fin mt) l v u hf hl) |>.resolve_right fun h => hf h.1)
  | zero v m hf hz =>
    obtain ⟨c, hc, hm, _⟩ := num m fun i => List.mem_append_right _ (memR m i)
    obtain ⟨T, hT, h1, h2⟩ := slowest_fin p c mv m hc hm hmv mt
    rw [hp, hT] at hz
    simp only [lit, ops_lit, feq, ops_le, Bool.and_eq_true, decide_eq_true_eq] at hz
    push_cast at hz
    linarith
  | moved v m x y hf hz =>
    obtain ⟨c, hc, hm, hrc⟩ := num m fun i => List.mem_append_left _ (List.mem_append_right _ (memR m i))
    obtain ⟨b, hb, _, hrb⟩ := num x fun i => List.mem_append_right _ (List.mem_flatMap.2 ⟨i, List.mem_finRange i, by simp⟩)
    obtain ⟨T, hT, h1, h2⟩ := slowest_fin p c mv m hc hm hmv mt
    refine .inr ⟨hf, rfl, ?_, T, c, b, hrc, hrb, h1, by linarith, h2, ?_⟩
    · have := cmd_cases (.moved (r := r) (mt := fin mt) v m x y hf hz)
      rcases this with h | h
      · exact absurd hf h.1
      · rw [← hp]
        unfold Commanded
        rw [targets_append, targets_append, targets_still (still_readAll v), targets_still (still_readAll m), targets_apply]; rfl
    · rw [speeds_append, speeds_append, speeds_still (still_readAll v), speeds_still (still_readAll m), speeds_apply, List.nil_append, List.nil_append]
      refine List.map_congr_left fun i _ => ?_
      rw [hp, hT, hb]
      have : FloatOps.sub (finS p i) (fin (b i)) = fin (p i - b i) := fin_sub _ _
      rw [this, ops_abs, ops_div, fin_div _ _ (by linarith)]

theorem _root_.Mrc.Spec.Timed.prepend {p mv : Fin 6 → ℝ} {mt : ℝ} {l tr : List (Act XR)} (hl : Still l) (h : Timed p mv mt tr) : Timed p mv mt (l ++ tr) := by
  obtain ⟨T, a, b, h1, h2, h3, h4, h5, h6⟩ := h
  refine ⟨T, a, b, h1.mono fun x hx => List.mem_append_right _ hx, h2.mono fun x hx => List.mem_append_right _ hx, h3, h4, h5, ?_⟩
  rw [speeds_append, speeds_still hl, List.nil_append, h6]

/-- what a started segment does to the servos when the arm is at rest. -/
theorem cmd_rest {cfg : RCfg XR} {L U : Six XR} {r r' : RC XR} {t : Six XR} {p c mv : Fin 6 → ℝ} {mt : ℝ} {tr : List (Act XR)} (h : Cmd cfg L U r t (fin mt) tr r')
    (hn : Rest c mv tr) (hmv : ∀ i, 0 < mv i) (hp : cfg.l2p t = finS p) (hs : ¬ Still tr) :
    ∃ T, mt ≤ T ∧ (∀ i, |p i - c i| / mv i ≤ T) ∧ ∀ i (sv : Servo XR), after i tr sv =
      (((sv.micro (.setVel (FloatOps.div (fin |p i - c i|) (fin T)))).micro (.setStart (fin (c i)))).micro .zeroElapsed).micro (.setTarget (fin (p i))) := by
  have memR : ∀ (v : Fin 6 → Servo XR) (i : Fin 6), Act.servo (armServo i) (v i) ∈ readAll v := fun v i => List.mem_map.2 ⟨i, List.mem_finRange i, rfl⟩
  cases h with
  | refused l v u hf hl => exact absurd (still_append (still_append (still_reads hl) (still_readAll v)) (still_readAll u)) hs
  | zero v m hf hz => exact absurd (still_append (still_readAll v) (still_readAll m)) hs
  | moved v m x y hf hz =>
    have hm : ∀ i, (m i).cur = fin (c i) ∧ (m i).maxVel = fin (mv i) := fun i => hn i _ (List.mem_append_left _ (List.mem_append_right _ (memR m i)))
    have hx : ∀ i, (x i).cur = fin (c i) ∧ (x i).maxVel = fin (mv i) := fun i => hn i _ (List.mem_append_right _ (List.mem_flatMap.2 ⟨i, List.mem_finRange i, by simp⟩))
    have hy : ∀ i, (y i).cur = fin (c i) ∧ (y i).maxVel = fin (mv i) := fun i => hn i _ (List.mem_append_right _ (List.mem_flatMap.2 ⟨i, List.mem_finRange i, by simp⟩))
    obtain ⟨T, hT, h1, h2⟩ := slowest_fin p c mv m (fun i => (hm i).1) (fun i => (hm i).2) hmv mt
    refine ⟨T, h1, h2, fun i sv => ?_⟩
    rw [after_append, after_append, after_still i (still_readAll v), after_still i (still_readAll m), after_apply _ _ _ _ _ nodup6, if_pos (List.mem_finRange i),
      hp, hT, (hx i).1, (hy i).1]
    have : FloatOps.sub (finS p i) (fin (c i)) = fin (p i - c i) := fin_sub _ _
    rw [this, ops_abs]
    rfl

/-- whatever is commanded (numbers) is commanded with one common time of at least `mt`. -/
theorem cmd_commanded {cfg : RCfg XR} {L U : Six XR} {r r' : RC XR} {t : Six XR} {p mv : Fin 6 → ℝ} {mt : ℝ} {tr : List (Act XR)} (h : Cmd cfg L U r t (fin mt) tr r')
    (hn : Numeric mv tr) (hmv : ∀ i, 0 < mv i) (hp : Commanded (finS p) tr) (hmt : 0 ≤ mt) : Timed p mv mt tr := by
  have num : ∀ (v : Fin 6 → Servo XR), (∀ i, Act.servo (armServo i) (v i) ∈ tr) → ∃ c, (∀ i, (v i).cur = fin (c i)) ∧ (∀ i, (v i).maxVel = fin (mv i)) ∧ Reading tr (finS c) := by
    intro v hv
    choose c hc using fun i => (hn i (v i) (hv i)).1
    exact ⟨c, hc, fun i => (hn i (v i) (hv i)).2, fun i => ⟨v i, hv i, (hc i).symm⟩⟩
  have memR : ∀ (v : Fin 6 → Servo XR) (i : Fin 6), Act.servo (armServo i) (v i) ∈ readAll v := fun v i => List.mem_map.2 ⟨i, List.mem_finRange i, rfl⟩
  have hnil : ∀ {l : List (Act XR)}, Still l → ¬ Commanded (finS p) l := by
    intro l hl hc
    unfold Commanded at hc
    rw [targets_still hl] at hc
    simp at hc
  cases h with
  | refused l v u hf hl => exact absurd hp (hnil (still_append (still_append (still_reads hl) (still_readAll v)) (still_readAll u)))
  | zero v m hf hz => exact absurd hp (hnil (still_append (still_readAll v) (still_readAll m)))
  | moved v m x y hf hz =>
    have hlp : cfg.l2p t = finS p := by
      unfold Commanded at hp
      rw [targets_append, targets_append, targets_still (still_readAll v), targets_still (still_readAll m), targets_apply, List.nil_append, List.nil_append] at hp
      funext i
      have := List.map_inj_left.1 hp i (List.mem_finRange i)
      exact (Prod.mk.inj this).2
    obtain ⟨c, hc, hm, hrc⟩ := num m fun i => List.mem_append_left _ (List.mem_append_right _ (memR m i))
    obtain ⟨b, hb, _, hrb⟩ := num x fun i => List.mem_append_right _ (List.mem_flatMap.2 ⟨i, List.mem_finRange i, by simp⟩)
    obtain ⟨T, hT, h1, h2⟩ := slowest_fin p c mv m hc hm hmv mt
    have hz' := hz
    rw [hlp, hT] at hz'
    have hTp : 0 < T := by
      rcases lt_or_eq_of_le (hmt.trans h1) with h | h
      · exact h
      · subst h; simp at hz'
    refine ⟨T, c, b, hrc, hrb, h1, hTp, h2, ?_⟩
    rw [speeds_append, speeds_append, speeds_still (still_readAll v), speeds_still (still_readAll m), speeds_apply, List.nil_append, List.nil_append]
    refine List.map_congr_left fun i _ => ?_
    rw [hlp, hT, hb]
    have : FloatOps.sub (finS p i) (fin (b i)) = fin (p i - b i) := fin_sub _ _
    rw [this, ops_abs, ops_div, fin_div _ _ hTp.ne']

theorem commanded_tail {p : Fin 6 → ℝ} {l tr : List (Act XR)} (hl : Still l) (h : Commanded (finS p) (l ++ tr)) : Commanded (finS p) tr := by
  unfold Commanded at *; rw [targets_append, targets_still hl, List.nil_append] at h; exact h

/-- a linear segment (also one near the singularity). -/
theorem start_commanded {cfg : RCfg XR} {L U : Six XR} {r r' : RC XR} {p q ph mv : Fin 6 → ℝ} {n : ℕ} {V : ℝ} {tr : List (Act XR)} (h : Start cfg L U r tr r')
    (hm : r.method = .linear) (hp : r.startPose = finS p) (hq : r.targetPose = finS q) (hn : r.total = n) (hn0 : 0 < n) (hv : r.maxVelocity = fin V) (hV : 0 < V)
    (hnum : Numeric mv tr) (hmv : ∀ i, 0 < mv i) (hc : Commanded (finS ph) tr) : Timed ph mv (dist3 p q / n / V) tr := by
  have hn0' : (0 : ℝ) < n := by exact_mod_cast hn0
  have hd0 : 0 ≤ dist3 p q := Real.sqrt_nonneg _
  have et : FloatOps.div (FloatOps.div (distance r.startPose r.targetPose) (Servo.ofNat r.total)) r.maxVelocity = fin (dist3 p q / n / V) := by
    rw [hp, hq, hn, hv, distance_fin]
    simp only [Servo.ofNat, lit, ops_lit, ops_div]
    have : ((n : ℚ) : ℝ) = n := by push_cast; rfl
    rw [this, fin_div _ _ hn0'.ne', fin_div _ _ hV.ne']
  cases h with
  | p2p h1 => rw [hm] at h1; cases h1
  | unreachable v u =>
    have := commanded_tail (still_append (still_readAll v) (still_readAll u)) (by rw [List.append_nil]; exact hc)
    unfold Commanded at this; simp [targets] at this
  | linear _ _ _ hcd => rw [et] at hcd; exact cmd_commanded hcd hnum hmv hc (by positivity)
  | @singular t s3 s5 tr' _ _ _ _ hcd =>
    rw [et] at hcd
    have hst : Still [Act.servo (armServo 3) s3, Act.servo (armServo 5) s5] := by intro j m hm; simp at hm
    have h1 : Commanded (finS ph) tr' := commanded_tail hst hc
    exact (cmd_commanded hcd (fun i s hs => hnum i s (List.mem_cons_of_mem _ (List.mem_cons_of_mem _ hs))) hmv h1 (by positivity)).prepend hst

end Mrc.RC
