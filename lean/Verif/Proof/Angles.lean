import Verif.Spec.Angles
import Verif.Proof.Joints
import Verif.Props.Rounding
import Mathlib.Analysis.Real.Pi.Bounds
/- A host that moves by joint angles only, in rounded arithmetic: the firmware computes no NaN for an arm servo. -/
set_option linter.unusedSectionVars false
set_option linter.unusedSimpArgs false
namespace Mrc.Ang
open Mrc Mrc.Prog Mrc.Spec Mrc.Props XR
open scoped Mrc.Num
variable {R : Rounding} [RX.Libm R]

/-- not NaN. -/
def NN (v : RX R) : Prop := v.val ≠ nan
/-- a number of at most `B`. -/
def FinB (B : ℝ) (v : RX R) : Prop := ∃ x, v.val = fin x ∧ |x| ≤ B

theorem FinB.nn {B : ℝ} {v : RX R} (h : FinB B v) : NN v := by
  obtain ⟨x, e, _⟩ := h; intro h; rw [e] at h; cases h

theorem post_nn {x : XR} (h : x ≠ nan) : R.post x ≠ nan := by
  cases x with
  | fin x => show (if _ then _ else _) ≠ _; split <;> (intro h; cases h)
  | inf s => exact h
  | nan => exact absurd rfl h

theorem lit_nn (q : Rat) : NN (lit q : RX R) := by
  show R.post (fin (q : ℝ)) ≠ nan
  exact post_nn (fun h => by cases h)

theorem mul_nn {a b : RX R} (ha : NN a) {k : ℝ} (hb : b.val = fin k) (hk : k ≠ 0) : NN (a * b) := by
  show R.post (XR.mul a.val b.val) ≠ nan
  apply post_nn
  rw [hb]
  cases h : a.val with
  | fin x => intro h; cases h
  | inf s => show (if _ then _ else _) ≠ _; rw [if_neg hk]; intro h; cases h
  | nan => exact absurd h ha

theorem div_nn {a b : RX R} {x : ℝ} (ha : a.val = fin x) (hb : NN b) (h0 : x ≠ 0 ∨ b.val ≠ fin 0) : NN (a / b) := by
  show R.post (XR.div a.val b.val) ≠ nan
  apply post_nn
  rw [ha]
  cases h : b.val with
  | fin y =>
    show (if _ then (if _ then _ else _) else _) ≠ _
    split
    · rename_i hy
      rcases h0 with h0 | h0
      · rw [if_neg h0]; intro h; cases h
      · rw [h, hy] at h0; exact absurd rfl h0
    · intro h; cases h
  | inf s => intro h; cases h
  | nan => exact absurd h hb

/-- the difference of two bounded numbers. -/
theorem sub_fin' {a b : RX R} {A B : ℝ} (hA : A + B ≤ R.big) (ha : FinB A a) (hb : FinB B b) : ∃ x, (a - b).val = fin x := by
  obtain ⟨x, ex, hx⟩ := ha
  obtain ⟨y, ey, hy⟩ := hb
  refine ⟨R.rnd (x - y), ?_⟩
  rw [RX.sub_val, ex, ey, RX.sub_fin, R.post_fin]
  have := abs_sub x y
  linarith

theorem pi_val : ∃ p : ℝ, (FloatOps.pi : RX R).val = fin p ∧ 3 ≤ p ∧ p ≤ 4 := by
  have h1 := Real.pi_gt_d2
  have h2 := Real.pi_lt_d2
  have hb := R.big_ge
  have h := abs_le.1 (R.err Real.pi)
  have := R.u_le
  have := R.u_nonneg
  have := R.e_le
  rw [abs_of_pos (by linarith)] at h
  have hm := mul_le_mul_of_nonneg_right R.u_le (show 0 ≤ Real.pi by linarith)
  refine ⟨R.rnd Real.pi, R.post_fin (by rw [abs_of_pos (by linarith)]; linarith), by linarith [h.1], by linarith [h.2]⟩

theorem l180 : ∃ p : ℝ, (lit 180 : RX R).val = fin p ∧ 179 ≤ p ∧ p ≤ 181 := by
  have h := abs_le.1 (R.err 180)
  have := R.u_le
  have := R.e_le
  have := R.big_ge
  rw [abs_of_pos (by norm_num)] at h
  refine ⟨R.rnd 180, ?_, by linarith [h.1], by linarith [h.2]⟩
  rw [RX.lit_val, show (((180 : Rat)) : ℝ) = (180 : ℝ) by norm_num, R.post_fin]
  rw [abs_of_pos (by norm_num)]; linarith

theorem rnd_pos_of {x : ℝ} (h : 1 / 100 ≤ x) : 0 < R.rnd x := by
  have h' := (abs_le.1 (R.err x)).1
  rw [abs_of_pos (by linarith)] at h'
  have := mul_le_mul_of_nonneg_right R.u_le (show 0 ≤ x by linarith)
  have := R.e_le
  linarith

theorem rad_val : ∃ k : ℝ, (radToDeg : RX R).val = fin k ∧ k ≠ 0 := by
  obtain ⟨p, ep, p1, p2⟩ := pi_val (R := R)
  obtain ⟨q, eq, q1, q2⟩ := l180 (R := R)
  have hb := R.big_ge
  refine ⟨R.rnd (q / p), ?_, ?_⟩
  · show R.post (XR.div _ _) = _
    rw [ep, eq]
    simp only [XR.div, if_neg (show p ≠ 0 by linarith)]
    apply R.post_fin
    rw [abs_of_pos (by apply div_pos <;> linarith)]
    have : q / p ≤ q := div_le_self (by linarith) (by linarith)
    linarith
  · apply ne_of_gt
    apply rnd_pos_of
    rw [le_div_iff₀ (by linarith)]; linarith

theorem deg_val : ∃ k : ℝ, (degToRad : RX R).val = fin k ∧ k ≠ 0 := by
  obtain ⟨p, ep, p1, p2⟩ := pi_val (R := R)
  obtain ⟨q, eq, q1, q2⟩ := l180 (R := R)
  have hb := R.big_ge
  refine ⟨R.rnd (p / q), ?_, ?_⟩
  · show R.post (XR.div _ _) = _
    rw [ep, eq]
    simp only [XR.div, if_neg (show q ≠ 0 by linarith)]
    apply R.post_fin
    rw [abs_of_pos (by apply div_pos <;> linarith)]
    have : p / q ≤ p := div_le_self (by linarith) (by linarith)
    linarith
  · apply ne_of_gt
    apply rnd_pos_of
    rw [le_div_iff₀ (by linarith)]; linarith

/-! ### the numbers of the text -/

theorem cap_iff (c : Byte) : ¬ Cap c → c ≠ 78 ∧ c ≠ 73 ∧ c ≠ 88 := by
  intro h
  refine ⟨?_, ?_, ?_⟩ <;> (rintro rfl; exact h (by decide))

theorem atof_nn {s : List Byte} (h : ∀ c ∈ s, ¬ Cap c) : NN (atof s : RX R) := by
  have hr : ∀ c ∈ (takeSign s).2, ¬ Cap c := by
    cases s with
    | nil => intro c hc; cases hc
    | cons a s =>
      simp only [takeSign]
      split
      · intro c hc; exact h c (List.mem_cons_of_mem _ hc)
      · exact h
  unfold atof
  generalize takeSign s = ns at hr
  obtain ⟨n, r⟩ := ns
  have p1 : (str "NAN").isPrefixOf r = false := by
    rw [Bool.eq_false_iff]; intro hp
    obtain ⟨t, ht⟩ := List.isPrefixOf_iff_prefix.1 hp
    exact (cap_iff _ (hr 78 (by rw [← ht]; exact List.mem_append_left _ (by decide)))).1 rfl
  have p2 : (str "INF").isPrefixOf r = false := by
    rw [Bool.eq_false_iff]; intro hp
    obtain ⟨t, ht⟩ := List.isPrefixOf_iff_prefix.1 hp
    exact (cap_iff _ (hr 73 (by rw [← ht]; exact List.mem_append_left _ (by decide)))).2.1 rfl
  have p3 : (str "0X").isPrefixOf r = false := by
    rw [Bool.eq_false_iff]; intro hp
    obtain ⟨t, ht⟩ := List.isPrefixOf_iff_prefix.1 hp
    exact (cap_iff _ (hr 88 (by rw [← ht]; exact List.mem_append_left _ (by decide)))).2.2 rfl
  simp only [p1, p2, p3, Bool.false_eq_true, if_false]
  split <;> exact lit_nn _

/-! ### the controller -/

/-- couplings and logical limits that give numbers for numbers; `l`, `h`: the servo ranges, angles up to `M`. -/
structure AngleRobot (cfg : RCfg (RX R)) (l h : Fin 6 → ℝ) (M : ℝ) : Prop where
  lo : ∀ i, FinB 1000000 (cfg.lo i)
  hi : ∀ i, FinB 1000000 (cfg.hi i)
  l2p : ∀ a, (∀ i, FinB 1000000 (a i)) → ∀ i, NN (cfg.l2p a i)
  p2l : ∀ a, (∀ i, InRX (l i - R.slack M) (h i + R.slack M) (a i)) → ∀ i, FinB 10000000 (cfg.p2l a i)

/-- assumed of readings. -/
def E (lo hi : Fin 6 → RX R) (l h : Fin 6 → ℝ) (M : ℝ) (a : Act (RX R)) : Prop :=
  ∀ i s, a = .servo (armServo i) s → s.minA = lo i ∧ s.maxA = hi i ∧ InRX (l i - R.slack M) (h i + R.slack M) s.cur
/-- demanded of what the firmware does. -/
def O (l h : Fin 6 → ℝ) (M : ℝ) (a : Act (RX R)) : Prop := ∀ i m, a = .micro (armServo i) m → goodMicroRX (l i) (h i) M m

/-- the controller's numbers; the arm is moved by angles and jointly. -/
structure RCNum (r : RC (RX R)) : Prop where
  tA : ∀ i, NN (r.targetAngles i)
  vel : NN r.maxVelocity
  pose : r.poseChanged = false
  start : r.state ≠ .startMove
  parts : r.state = .moving → r.step = r.total
  joint : r.method = .p2p ∨ r.state = .idle

section rc
variable {cfg : RCfg (RX R)} {lo hi : Fin 6 → RX R} {l h : Fin 6 → ℝ} {M : ℝ}
local notation "LM" => lmon (F := RX R) (E lo hi l h M) (O l h M)

theorem readAngles_num : (RC.readAngles : Prog (RX R) (Six (RX R))).wp LM (fun _ a => ∀ i, InRX (l i - R.slack M) (h i + R.slack M) (a i)) () := by
  refine wp_mono (fun _ a ha i => ?_) (RC.readAngles_safe (M := LM))
  obtain ⟨s, he, e⟩ := ha i
  rw [e]; exact (he i s rfl).2.2

theorem logical_num (H : AngleRobot cfg l h M) : (RC.getCurrentLogicalAngles cfg).wp LM (fun _ a => ∀ i, FinB 10000000 (a i)) () := by
  rw [RC.getCurrentLogicalAngles, bind_def, wp_bind]
  exact wp_mono (fun _ a ha => H.p2l a ha) readAngles_num

theorem pose_any : (RC.getCurrentPose cfg).wp LM (fun _ _ => True) () := by
  rw [RC.getCurrentPose, bind_def, wp_bind]
  exact wp_mono (fun _ _ _ => trivial) readAngles_num

theorem reject_num (H : AngleRobot cfg l h M) {r : RC (RX R)} (hv : NN r.maxVelocity) (hp : r.poseChanged = false) :
    (RC.reject cfg r).wp LM (fun _ r => RCNum r) () := by
  rw [RC.reject, bind_def, wp_bind]
  refine wp_mono (fun _ p _ => ?_) pose_any
  rw [bind_def, wp_bind]
  refine wp_mono (fun _ a ha => ?_) (logical_num H)
  exact ⟨fun i => (ha i).nn, hv, hp, (fun e => by cases e), (fun e => by cases e), .inr rfl⟩

theorem physical_num (t : Six (RX R)) (is : List (Fin 6)) :
    (RC.violatesPhysical t is).wp LM (fun _ b => b = false → ∀ i ∈ is, flt (t i) (lo i) = false ∧ fgt (t i) (hi i) = false) () := by
  induction is with
  | nil => intro _ i hi; cases hi
  | cons i is ih =>
    simp only [RC.violatesPhysical, readServo, bind_def, Prog.bind, wp]
    intro x hx
    have el := hx i x rfl
    show Prog.wp _ (if _ then _ else _) _ _
    rw [el.1, el.2.1]
    split
    · intro h; cases h
    · rename_i hc
      simp only [Bool.or_eq_true, not_or, Bool.not_eq_true] at hc
      refine wp_mono (fun _ b hb hf j hj => ?_) ih
      rcases List.mem_cons.1 hj with rfl | hj
      · exact hc
      · exact hb hf j hj

theorem lt_nn {a b : RX R} (h : flt a b = true) : NN b := by
  intro e
  have h : XR.lt a.val b.val = true := h
  rw [e] at h
  cases ha : a.val <;> rw [ha] at h <;> cases h

theorem minTime_num (t : Six (RX R)) (is : List (Fin 6)) (acc : RX R) (ha : NN acc) : (RC.minTime t is acc).wp LM (fun _ x => NN x) () := by
  induction is generalizing acc with
  | nil => exact ha
  | cons i is ih =>
    simp only [RC.minTime, readServo, bind_def, Prog.bind, wp]
    intro x hx
    apply ih
    split
    · rename_i hlt; exact lt_nn hlt
    · exact ha

theorem apply_num (hM : M ≤ 1000000) (hl : ∀ i, |l i| ≤ M) (hh : ∀ i, |h i| ≤ M) (t : Six (RX R)) (ht : ∀ i, InRX (l i) (h i) (t i)) (τ : RX R) (hτ : NN τ) (h0 : τ.val ≠ fin 0)
    (is : List (Fin 6)) : (RC.apply t τ is).wp LM (fun _ _ => True) () := by
  have hM0 : 0 ≤ M := le_trans (abs_nonneg _) (hl 0)
  have hS := R.slack_nonneg hM0
  have hSl := R.slack_le hM0
  have hb := R.big_ge
  induction is with
  | nil => trivial
  | cons i is ih =>
    simp only [RC.apply, readServo, doMicro, bind_def, Prog.bind, wp]
    intro x hx
    have a1 := abs_le.1 (hl i)
    have a2 := abs_le.1 (hh i)
    refine ⟨?_, fun y hy => ⟨?_, ?_, ?_, ih⟩⟩
    · intro j m e; injection e with e1 e2; obtain rfl := armServo_inj e1; subst e2
      have ft : FinB M (t i) := by obtain ⟨z, e, z1, z2⟩ := ht i; exact ⟨z, e, abs_le.2 ⟨by linarith, by linarith⟩⟩
      have fc : FinB (M + R.slack M) x.cur := by obtain ⟨z, e, z1, z2⟩ := (hx i x rfl).2.2; exact ⟨z, e, abs_le.2 ⟨by linarith, by linarith⟩⟩
      obtain ⟨d, ed⟩ := sub_fin' (by linarith) ft fc
      have ed : (FloatOps.abs (t i - x.cur)).val = fin |d| := by rw [RX.abs_val, ed]; rfl
      exact div_nn ed hτ (.inr h0)
    · intro j m e; injection e with e1 e2; obtain rfl := armServo_inj e1; subst e2
      exact (hy i y rfl).2.2
    · intro j m e; injection e with e1 e2; subst e2; trivial
    · intro j m e; injection e with e1 e2; obtain rfl := armServo_inj e1; subst e2
      exact ht i

theorem bounded_of_not_viol {B : ℝ} {x a b : RX R} (hx : NN x) (ha : FinB B a) (hb : FinB B b) (h1 : flt x a = false) (h2 : fgt x b = false) : FinB B x := by
  obtain ⟨p, ep, hp⟩ := ha
  obtain ⟨q, eq, hq⟩ := hb
  rcases inRX_of_not_viol ep eq h1 h2 with e | ⟨t, et, t1, t2⟩
  · rw [e] at hx; exact absurd rfl hx
  · have := abs_le.1 hp
    have := abs_le.1 hq
    exact ⟨t, et, abs_le.2 ⟨by linarith, by linarith⟩⟩

theorem command_num (H : AngleRobot cfg l h M) (hM : M ≤ 1000000) (hl : ∀ i, |l i| ≤ M) (hh : ∀ i, |h i| ≤ M) (el : ∀ i, (lo i).val = fin (l i)) (eh : ∀ i, (hi i).val = fin (h i))
    {r : RC (RX R)} (hv : NN r.maxVelocity) (hp : r.poseChanged = false) (hst : r.step = r.total) (hm : r.method = .p2p) (ht : ∀ i, NN (r.targetAngles i))
    (mt : RX R) (hmt : (∀ i, FinB 1000000 (r.targetAngles i)) → NN mt) : (RC.command cfg r r.targetAngles mt).wp LM (fun _ r => RCNum r) () := by
  unfold RC.command
  split
  · exact reject_num H hv hp
  · rename_i hviol
    have hlog : ∀ i, flt (r.targetAngles i) (cfg.lo i) = false ∧ fgt (r.targetAngles i) (cfg.hi i) = false := by
      intro i
      simp only [RC.violatesLogical, List.any_eq_true, not_exists, not_and, Bool.or_eq_true, not_or, Bool.not_eq_true] at hviol
      exact hviol i (List.mem_finRange i)
    have hb : ∀ i, FinB 1000000 (r.targetAngles i) := fun i => bounded_of_not_viol (ht i) (H.lo i) (H.hi i) (hlog i).1 (hlog i).2
    have hph := H.l2p _ hb
    rw [bind_def, wp_bind]
    refine wp_mono (fun _ bad hbad => ?_) (physical_num _ _)
    split
    · exact reject_num H hv hp
    · rename_i hbf
      have hin : ∀ i, InRX (l i) (h i) (cfg.l2p r.targetAngles i) := fun i => by
        obtain ⟨h1, h2⟩ := hbad (by simpa using hbf) i (List.mem_finRange i)
        rcases inRX_of_not_viol (el i) (eh i) h1 h2 with e | e
        · exact absurd (by rw [e]; rfl) (hph i)
        · exact e
      have hend : RCNum { r with state := .moving } := ⟨ht, hv, hp, (fun e => by cases e), fun _ => hst, .inl hm⟩
      rw [bind_def, wp_bind]
      refine wp_mono (fun _ time htime => ?_) (minTime_num _ _ _ (hmt hb))
      split
      · exact hend
      · rename_i hz
        have h0 : time.val ≠ fin 0 := by
          intro e
          apply hz
          show (XR.le time.val (lit 0 : RX R).val && XR.le (lit 0 : RX R).val time.val) = true
          rw [e, zero_val]
          simp [XR.le]
        rw [bind_def, wp_bind]
        exact wp_mono (fun _ _ _ => hend) (apply_num hM hl hh _ hin _ htime h0 _)

/-- the largest of some distances. -/
theorem foldl_max (f : Fin 6 → RX R) (hf : ∀ i, ∃ d : ℝ, (f i).val = fin d ∧ 0 ≤ d) (is : List (Fin 6)) (acc : RX R) (a : ℝ) (ea : acc.val = fin a) (a0 : 0 ≤ a) :
    ∃ m : ℝ, (is.foldl (fun m i => if fgt (f i) m then f i else m) acc).val = fin m ∧ a ≤ m ∧ ∀ i ∈ is, ∀ d, (f i).val = fin d → d ≤ m := by
  induction is generalizing acc a with
  | nil => exact ⟨a, ea, le_rfl, fun i hi => by cases hi⟩
  | cons i is ih =>
    obtain ⟨d, ed, d0⟩ := hf i
    rw [List.foldl_cons]
    by_cases hc : fgt (f i) acc = true
    · rw [if_pos hc]
      have : XR.lt acc.val (f i).val = true := hc
      rw [ea, ed] at this
      simp only [XR.lt, decide_eq_true_eq] at this
      obtain ⟨m, em, h1, h2⟩ := ih (f i) d ed d0
      refine ⟨m, em, by linarith, fun j hj e he => ?_⟩
      rcases List.mem_cons.1 hj with rfl | hj
      · rw [ed] at he; injection he with he; linarith
      · exact h2 j hj e he
    · rw [if_neg hc]
      have : ¬ XR.lt acc.val (f i).val = true := hc
      rw [ea, ed] at this
      simp only [XR.lt, decide_eq_true_eq, not_lt] at this
      obtain ⟨m, em, h1, h2⟩ := ih acc a ea a0
      refine ⟨m, em, by linarith, fun j hj e he => ?_⟩
      rcases List.mem_cons.1 hj with rfl | hj
      · rw [ed] at he; injection he with he; linarith
      · exact h2 j hj e he

theorem moveTime_num {r : RC (RX R)} (heps : 0 < R.rnd (1/10000)) (hv : NN r.maxVelocity) (hs : ∀ i, FinB 10000000 (r.startAngles i)) (ht : ∀ i, FinB 1000000 (r.targetAngles i))
    (hne : ¬ RC.anglesEqual r.startAngles r.targetAngles = true) : NN (r.maxAngleChange / r.maxVelocity * radToDeg) := by
  obtain ⟨k, ek, k0⟩ := rad_val (R := R)
  refine mul_nn ?_ ek k0
  have hb := R.big_ge
  have hd : ∀ i, ∃ d : ℝ, (FloatOps.abs (r.startAngles i - r.targetAngles i) : RX R).val = fin d ∧ 0 ≤ d := fun i => by
    obtain ⟨d, ed⟩ := sub_fin' (by linarith) (hs i) (ht i)
    exact ⟨|d|, by rw [RX.abs_val, ed]; rfl, abs_nonneg _⟩
  obtain ⟨m, em, m0, mm⟩ := foldl_max (fun i => FloatOps.abs (r.startAngles i - r.targetAngles i)) hd (List.finRange 6) (lit 0) 0 zero_val le_rfl
  refine div_nn (x := m) em hv (.inl ?_)
  simp only [RC.anglesEqual, List.all_eq_true, not_forall, Bool.not_eq_true, Bool.not_eq_true', Bool.not_eq_false] at hne
  obtain ⟨i, hi, hge⟩ := hne
  obtain ⟨d, ed, d0⟩ := hd i
  have hge : XR.le (lit (1/10000) : RX R).val (FloatOps.abs (r.startAngles i - r.targetAngles i) : RX R).val = true := hge
  rw [ed, RX.lit_val, show (((1 / 10000 : Rat)) : ℝ) = (1 / 10000 : ℝ) by norm_num, R.post_fin (by rw [abs_of_pos (by norm_num)]; linarith)] at hge
  simp only [XR.le, decide_eq_true_eq] at hge
  have := mm i (List.mem_finRange i) d ed
  linarith

theorem process_num (heps : 0 < R.rnd (1/10000)) (H : AngleRobot cfg l h M) (hM : M ≤ 1000000) (hl : ∀ i, |l i| ≤ M) (hh : ∀ i, |h i| ≤ M)
    (el : ∀ i, (lo i).val = fin (l i)) (eh : ∀ i, (hi i).val = fin (h i)) {r : RC (RX R)} (hr : RCNum r) : (RC.process cfg r).wp LM (fun _ r => RCNum r) () := by
  have raw : ∀ x, O (R := R) l h M (.out (.raw x)) := by intro x i m e; cases e
  unfold RC.process
  split
  · exact hr
  · rename_i hst
    unfold RC.moving
    rw [bind_def, wp_bind]
    refine wp_mono (fun _ b _ => ?_) (RC.allAtTarget_safe _ _)
    split
    · rw [if_pos (hr.parts hst)]
      exact ⟨hr.tA, hr.vel, hr.pose, (fun e => by cases e), (fun e => by cases e), .inr rfl⟩
    · exact hr
  · rename_i hst
    have hm : r.method = .p2p := by
      rcases hr.joint with h | h
      · exact h
      · rw [hst] at h; cases h
    unfold RC.prepare
    simp only [bind_def, emit, Prog.bind, pure_def]
    split
    · exact hr
    · have e1 : (RC.sync cfg r).targetAngles = r.targetAngles := by
        unfold RC.sync; split
        · rfl
        · rw [if_neg (by rw [hr.pose]; simp)]
      have e2 : (RC.sync cfg r).poseChanged = false := by
        unfold RC.sync; split
        · exact hr.pose
        · rw [if_neg (by rw [hr.pose]; simp)]; exact hr.pose
      have e3 : (RC.sync cfg r).method = .p2p := (RC.sync_same cfg r).2.1.trans hm
      have e4 : (RC.sync cfg r).maxVelocity = r.maxVelocity := (RC.sync_same cfg r).2.2
      have key : ∀ p : Prog (RX R) (RC (RX R)), p.wp LM (fun _ r => RCNum r) () →
        (if (!r.anglesChanged && !r.poseChanged) = true then
          (out (.raw (.error "nothing changed, still PREPARE MOVE")) p : Prog (RX R) (RC (RX R))) else p).wp LM (fun _ r => RCNum r) () := by
        intro p hp; split
        · exact ⟨raw _, hp⟩
        · exact hp
      apply key
      rw [if_neg (by rw [e2]; simp)]
      rw [wp_bind]
      refine wp_mono (fun _ sp _ => ?_) pose_any
      rw [wp_bind]
      refine wp_mono (fun _ sa hsa => ?_) (logical_num H)
      split
      · refine ⟨fun i => ?_, ?_, rfl, (fun e => by cases e), (fun e => by cases e), .inr rfl⟩
        · show NN ((RC.sync cfg r).targetAngles i); rw [e1]; exact hr.tA i
        · show NN (RC.sync cfg r).maxVelocity; rw [e4]; exact hr.vel
      · rename_i hne
        simp only [e3]
        unfold RC.startMove
        simp only [bind_def, emit, readServo, Prog.bind, e3]
        refine ⟨raw _, ?_⟩
        refine command_num (r := { RC.sync cfg r with anglesChanged := false, poseChanged := false, startPose := sp, startAngles := sa, step := 0 + 1, total := 1, state := .startMove, method := .p2p })
          H hM hl hh el eh ?_ rfl rfl rfl ?_ _ ?_
        · show NN (RC.sync cfg r).maxVelocity; rw [e4]; exact hr.vel
        · intro i; show NN ((RC.sync cfg r).targetAngles i); rw [e1]; exact hr.tA i
        · intro hb
          refine moveTime_num (r := { RC.sync cfg r with anglesChanged := false, poseChanged := false, startPose := sp, startAngles := sa, step := 0 + 1, total := 1, state := .startMove, method := .p2p })
            heps ?_ hsa hb hne
          show NN (RC.sync cfg r).maxVelocity; rw [e4]; exact hr.vel
  · rename_i hst; exact absurd hst hr.start

end rc

/-! ### the parser -/

/-- what an instruction leaves behind. -/
structure Kept (c : Core (RX R)) : Prop where
  tA : ∀ i, NN (c.rc.targetAngles i)
  vel : NN c.rc.maxVelocity
  pose : c.rc.poseChanged = false
  start : c.rc.state ≠ .startMove
  parts : c.rc.state = .moving → c.rc.step = c.rc.total

theorem upd_nn {a : Six (RX R)} (h : ∀ i, NN (a i)) (j : Fin 6) {v : RX R} (hv : NN v) (i : Fin 6) : NN (RC.upd a j v i) := by
  unfold RC.upd; split
  · exact hv
  · exact h i

set_option maxHeartbeats 2000000 in
theorem exec_kept (cfg : Cfg (RX R)) (s : Core (RX R)) (l : Loc (RX R)) (tok : List Byte) (g : Unit) (hs : Kept s)
    (h1 : NN (atof (tok.drop 1) : RX R)) (h2 : NN ((atof (tok.drop 2) : RX R) * degToRad)) (hp : ∀ i, poseIdx (tok.headD 0) = some i → tok.length = 1 ∧ tok.headD 0 ≠ 78) :
    (Mril.exec cfg s l tok).wp Tok.any (fun _ r => Kept r.1) g := by
  have k1 : Kept { s with rc := s.rc.setMaxVelocity (atof (tok.drop 1)) } := ⟨hs.tA, h1, hs.pose, hs.start, hs.parts⟩
  have k2 : ∀ i, Kept { s with rc := s.rc.setTargetLogicalAngle i ((atof (tok.drop 2) : RX R) * degToRad) } := fun i =>
    ⟨upd_nn hs.tA i h2, hs.vel, hs.pose, (fun e => by cases e), (fun e => by cases e)⟩
  have k3 : ∀ m, Kept { s with rc := s.rc.setMovementMethod m } := fun m => ⟨hs.tA, hs.vel, hs.pose, hs.start, hs.parts⟩
  have k4 : ∀ c, Kept { s with conds := c } := fun m => ⟨hs.tA, hs.vel, hs.pose, hs.start, hs.parts⟩
  have k5 : ∀ c, Kept { s with waitUntil := c } := fun m => ⟨hs.tA, hs.vel, hs.pose, hs.start, hs.parts⟩
  exec_leaves
  all_goals first
    | exact trivial
    | exact hs
    | exact k3 _
    | exact k2 _
    | exact ⟨trivial, trivial, k1⟩
    | exact ⟨trivial, k4 _⟩
    | exact ⟨trivial, trivial⟩
    | exact k4 _
    | exact ⟨trivial, hs⟩
    | exact ⟨trivial, trivial, hs⟩
    | exact fun _ _ => k5 _
    | exact fun _ _ => hs
    | exact fun _ _ => ⟨trivial, trivial, trivial, hs⟩
    | exact fun _ _ _ _ _ _ _ _ _ _ _ _ => hs
    | exact absurd ‹_› (hp _ ‹_›).2
    | exact absurd (hp _ ‹_›).1 ‹_›
    | exact absurd rfl ‹¬ CmdType.read = CmdType.read›

theorem drop_nn {tok : List Byte} (h : ∀ c ∈ tok.tail, ¬ Cap c) (k : Nat) : NN (atof (tok.drop (k + 1)) : RX R) := by
  apply atof_nn
  intro c hc
  refine h c ?_
  cases tok with
  | nil => simp at hc
  | cons a t => rw [List.drop_succ_cons] at hc; exact List.mem_of_mem_drop hc

theorem poses_of {tok : List Byte} (h : tok.head? ∈ [some 88, some 89, some 90, some 65, some 66, some 67] → tok.length = 1) {i : Fin 6} (hi : poseIdx (tok.headD 0) = some i) :
    tok.length = 1 ∧ tok.headD 0 ≠ 78 := by
  rcases tok with _ | ⟨c, t⟩
  · simp [poseIdx] at hi
  · have hc : c = 88 ∨ c = 89 ∨ c = 90 ∨ c = 65 ∨ c = 66 ∨ c = 67 := by
      by_contra hh
      simp only [not_or] at hh
      simp [poseIdx, hh] at hi
    refine ⟨h ?_, ?_⟩
    · rcases hc with rfl | rfl | rfl | rfl | rfl | rfl <;> simp
    · rintro rfl; revert hc; decide

theorem parse_kept (cfg : Cfg (RX R)) (s : Core (RX R)) (n : Nat) (m : List Byte) (ha : AngleText m) (ht : SafeText n m) (h : Kept s) :
    (Mril.parse cfg s m).wp Tok.any (fun _ c => Kept c) () := by
  obtain ⟨k, ek, k0⟩ := deg_val (R := R)
  rw [Mril.parse]
  split
  · exact h
  · rw [wp_bind, Tok.loop_toks cfg m _ _ _ (fun t h => (ht.each t h).1) ht.rest, wp_bind]
    refine wp_mono (fun g r hr => ?_) (Tok.execToks_inv cfg Kept _ { s with rc := s.rc.startTransaction } {} ⟨h.tA, h.vel, h.pose, h.start, h.parts⟩
      (fun t ht s l g hs => exec_kept cfg s l t g hs (drop_nn (ha.plain t ht) 0) (mul_nn (drop_nn (ha.plain t ht) 1) ek k0) (fun i hi => poses_of (ha.poses t ht) hi)) ())
    have hr' : ∀ n, Kept { r.1 with rc := r.1.rc.endTransaction, commandNumber := n } := fun n => ⟨hr.tA, hr.vel, hr.pose, hr.start, hr.parts⟩
    have : (Mril.finish { r.1 with rc := r.1.rc.endTransaction } r.2).wp Tok.any (fun _ c => Kept c) g := by
      simp only [Mril.finish]
      split
      · exact ⟨trivial, hr' _⟩
      · exact hr' _
      · exact hr' _
    unfold Tok.note
    split
    · exact ⟨trivial, this⟩
    · exact this

/-- the invariant. -/
def CoreNum (c : Core (RX R)) : Prop := c.conds.length ≤ 10 ∧ RCNum c.rc

theorem RCNum.kept {c : Core (RX R)} (h : RCNum c.rc) : Kept c := ⟨h.tA, h.vel, h.pose, h.start, h.parts⟩
theorem RCNum.of {c : Core (RX R)} (h : Kept c) (hj : Tok.Jointly c) : RCNum c.rc := ⟨h.tA, h.vel, h.pose, h.start, h.parts, hj⟩

theorem join3 {F : Type} [FloatOps F] {α : Type} {p : Prog F α} {E O : Act F → Prop} {B : Fault → Prop} {Q S T U : α → Prop} {K : Act F → Prop} (h : p.wp Tok.calm (fun _ a => Q a) ())
    (h' : p.wp Tok.any (fun _ a => S a) ()) (h'' : p.wp Tok.any (fun _ a => T a) ()) (ho : p.only K U) (hK : ∀ a, K a → O a) :
    p.wp (lmon E O B) (fun _ a => Q a ∧ S a ∧ T a) () := by
  induction p with
  | ret a => exact ⟨h, h', h''⟩
  | fault f => exact h.elim
  | servo i k ih => exact fun v _ => ih v (h v trivial) (h' v trivial) (h'' v trivial) (ho v).2
  | micro i m k ih => exact ⟨hK _ ho.1, ih h.2 h'.2 h''.2 ho.2⟩
  | now k ih => exact fun v _ => ih v (h v trivial) (h' v trivial) (h'' v trivial) (ho v).2
  | pin p k ih => exact fun v _ => ih v (h v trivial) (h' v trivial) (h'' v trivial) (ho v).2
  | rx k ih => exact fun v _ => ih v (h v trivial) (h' v trivial) (h'' v trivial) (ho v).2
  | eeRead k ih => exact fun v _ => ih v (h v trivial) (h' v trivial) (h'' v trivial) (ho v).2
  | eeWrite a b k ih => exact ⟨hK _ ho.1, ih h.2 h'.2 h''.2 ho.2⟩
  | out o k ih => exact ⟨hK _ ho.1, ih h.2 h'.2 h''.2 ho.2⟩

theorem parse_num (cfg : Cfg (RX R)) (hm : cfg.pinMap.length = 10) {lo hi : Fin 6 → RX R} {l h : Fin 6 → ℝ} {M : ℝ} {c : Core (RX R)} {m : List Byte} (hs : SafeText c.conds.length m)
    (ha : AngleText m) (hc : CoreNum c) : (Mril.parse cfg c m).wp (lmon (E lo hi l h M) (O l h M)) (fun _ c => CoreNum c) () := by
  refine wp_mono (fun _ c' hc' => ?_) (join3 (Tok.parse_good cfg hm c m hs) (parse_kept cfg c _ m ha hs hc.2.kept) (Tok.parse_joint cfg c _ m ha.joints hs hc.2.joint)
    (parse_only cfg c m) fun a ha => ?_)
  · refine ⟨?_, RCNum.of hc'.2.1 hc'.2.2⟩
    rw [hc'.1]
    have := hs.room
    have := hc.1
    omega
  · rintro i m rfl
    have h6 : 6 ≤ (armServo i).val := ha
    exact absurd h6 (by simp [armServo])

theorem angle_tame (cfg : Cfg (RX R)) (hm : cfg.pinMap.length = 10) {lo hi : Fin 6 → RX R} {l h : Fin 6 → ℝ} {M : ℝ} (heps : 0 < R.rnd (1/10000)) (H : AngleRobot cfg.toRCfg l h M)
    (hM : M ≤ 1000000) (hl : ∀ i, |l i| ≤ M) (hh : ∀ i, |h i| ≤ M) (el : ∀ i, (lo i).val = fin (l i)) (eh : ∀ i, (hi i).val = fin (h i)) :
    Tame cfg (E lo hi l h M) (O l h M) CoreNum (fun m => SafeText 10 m ∧ AngleText m) (fun m => SafeText 0 m ∧ AngleText m) where
  rc c hc := wp_mono (fun _ r hr => ⟨hc.1, hr⟩) (process_num heps H hM hl hh el eh hc.2)
  now c m hs hc := parse_num cfg hm (Tok.safeText_mono hs.1 hc.1) hs.2 hc
  instr c m hs hc he := parse_num cfg hm (by rw [he]; exact hs.1) hs.2 hc
  check c hc := by
    unfold Mril.process IOL.isDone
    rw [wp_bind, wp_bind]
    refine ioCheck_wp (M := lmon _ _ _) _ _ (fun _ _ => rfl) fun b => ?_
    cases b with
    | false => exact ⟨hc, fun hh => by simp at hh⟩
    | true =>
      have hc' : CoreNum { c with conds := [] } := ⟨by simp, hc.2⟩
      show Prog.wp _ (if (true && !c.rc.isMoving) = true then _ else _) _ _
      split
      · intro t _
        show Prog.wp _ (if Wait.isDone t c.waitUntil = true then _ else _) _ _
        split
        · show Prog.wp _ (if 0 < c.commandNumber then _ else _) _ _
          split
          · exact ⟨(fun i m e => by cases e), hc', fun _ => rfl⟩
          · exact ⟨hc', fun _ => rfl⟩
        · exact ⟨hc', fun _ => rfl⟩
      · exact ⟨hc', fun _ => rfl⟩
  disp a ha := by
    rintro i m rfl
    rcases ha with ⟨_, _, e⟩ | ⟨_, e⟩ | ⟨_, e⟩ | ⟨_, _, e⟩ <;> cases e
  boot v u hv hu := by
    refine ⟨by simp [CoreInv.boot], fun i => ?_, lit_nn _, rfl, (fun e => by cases e), (fun e => by cases e), .inr rfl⟩
    exact (H.p2l _ (fun j => (hu j j _ rfl).2.2) i).nn

theorem clean_of_angle {r : List Byte} (h : LegiblySent r) (hj : ∀ p ∈ decode r, AngleFrame (frame p)) :
    Clean (FrameOK (fun m => SafeText 10 m ∧ AngleText m) (fun m => SafeText 0 m ∧ AngleText m)) r := by
  refine ⟨(Tok.clean_of_legible h).1, fun p hp => ?_⟩
  have hd : p ∈ decode r := by
    rw [← nrun_decode r.length r (Nat.le_refl _)]
    exact List.mem_filterMap.2 ⟨_, hp, rfl⟩
  obtain ⟨h1, h2, h3⟩ := (Tok.clean_of_legible h).2 p hp
  have h4 := hj p hd
  refine ⟨h1, h2, ?_⟩
  cases hf : frame p with
  | now m => rw [hf] at h3 h4; exact ⟨h3, h4⟩
  | put m => rw [hf] at h3 h4; exact ⟨h3, h4⟩
  | store m => rw [hf] at h3 h4; exact ⟨h3, h4⟩
  | _ => trivial

/-- the conclusion for whole histories. -/
theorem angle_run {cfg : Cfg (RX R)} (hm : cfg.pinMap.length = 10) {w0 : World (RX R)} {junk : Nat → Byte} {l h : Fin 6 → ℝ} {M : ℝ} (heps : 0 < R.rnd (1/10000))
    (H : AngleRobot cfg.toRCfg l h M) (hM : M ≤ 1000000) (hl : ∀ i, |l i| ≤ M) (hh : ∀ i, |h i| ≤ M)
    (h0 : AllGoodRX (fun i => (w0.servos (armServo i)).minA) (fun i => (w0.servos (armServo i)).maxA) l h M w0)
    (hmem : Program (fun m => SafeText 0 m ∧ AngleText m) w0.ee) {evs : List (Ev (RX R))} {s : Sys (RX R)} (hr : Sys.Run cfg w0 junk evs s)
    (hc : Clean (FrameOK (fun m => SafeText 10 m ∧ AngleText m) (fun m => SafeText 0 m ∧ AngleText m)) (w0.rxq ++ arrivals evs)) :
    (∀ f, s.p ≠ .fault f) ∧ ∀ i m, Act.micro (armServo i) m ∈ acts evs → goodMicroRX (l i) (h i) M m := by
  have ht := angle_tame cfg hm (lo := fun i => (w0.servos (armServo i)).minA) (hi := fun i => (w0.servos (armServo i)).maxA) heps H hM hl hh
    (fun i => (h0 i).1.minA) (fun i => (h0 i).1.maxA)
  have := ht.run (W := AllGoodRX (fun i => (w0.servos (armServo i)).minA) (fun i => (w0.servos (armServo i)).maxA) l h M) h0
    (fun w i hw j s e => by
      injection e with e1 e2
      rw [← e2, e1]; exact ⟨(hw j).2.1, (hw j).2.2, (hw j).1.cur⟩)
    (fun a ha i s e => absurd e (ha _ _))
    (fun w i m hw ho j => by
      by_cases e : armServo j = i
      · subst e
        have hfix : ((w.servos (armServo j)).micro m).minA = (w.servos (armServo j)).minA ∧ ((w.servos (armServo j)).micro m).maxA = (w.servos (armServo j)).maxA := by
          cases m <;> exact ⟨rfl, rfl⟩
        have := (hw j).1.micro (ho j m rfl)
        simp only [World.setServo, if_true]
        exact ⟨this, hfix.1.trans (hw j).2.1, hfix.2.trans (hw j).2.2⟩
      · have : (w.setServo i ((w.servos i).micro m)).servos (armServo j) = w.servos (armServo j) := by simp [World.setServo, e]
        rw [this]; exact hw j)
    (fun w hw i => ⟨(hw i).1.tick hM (hl i) (hh i) _, (tick_lim _ _).1.trans (hw i).2.1, (tick_lim _ _).2.trans (hw i).2.2⟩)
    (fun w w' e hw i => by rw [← e]; exact hw i) hmem hr hc
  refine ⟨fun f e => ?_, fun i m hi => this.2.2 _ hi rfl i m rfl⟩
  have h2 := this.2.1
  rw [e] at h2
  exact h2

end Mrc.Ang
