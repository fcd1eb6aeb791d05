import Verif.Spec.Brisk32
import Verif.Proof.Angles
import Verif.Proof.Span
import Verif.Props.LivenessR
import Verif.Props.Mril
/- A host that moves by joint angles without crawling speeds, in binary32: every command of a servo suits the way of the servo (C107). -/
set_option linter.unusedSectionVars false
set_option linter.unusedSimpArgs false
namespace Mrc.Brisk32
open Mrc Mrc.Spec Mrc.Prog Mrc.Props Mrc.Ang XR
open scoped Mrc.Num
variable [L : RX.Libm binary32]

theorem eps4 : 0 < binary32.rnd (1/10000) := by
  have := (b32_bounds (x := 1/10000) (by norm_num)).1
  norm_num at this ⊢
  linarith

/-- no move is planned to take longer (seconds). -/
def T : ℝ := 2000000
/-- no move takes longer, in spite of rounding. -/
def T' : ℝ := 2100000

/-! ### numbers -/

/-- the value rounded to binary32 overflows or is close. -/
theorem post_cases (x : ℝ) : binary32.post (fin x) = fin (binary32.rnd x) ∨ ∃ b, binary32.post (fin x) = inf b := by
  show (if _ then _ else _) = _ ∨ _
  split
  · exact .inl rfl
  · exact .inr ⟨_, if_neg ‹_›⟩

theorem rnd_nonpos {x : ℝ} (h : x ≤ 0) : binary32.rnd x ≤ 0 := by
  have := binary32.mono h
  rwa [binary32.rnd_zero] at this

/-- the speed suits the way from `c` to `t`: not positive (0.1 rad/s is taken), or the way is negligible, or short enough. -/
def Suits (c t : ℝ) (v : F32) : Prop := NN v ∧ ∀ x, v.val = fin x → x ≤ 0 ∨ |t - c| ≤ 1/10000000 ∨ |t - c| ≤ x * T'

/-- a planned duration. -/
def Duration (v : F32) : Prop := (∃ x, v.val = fin x ∧ x ≤ T) ∨ ∃ b, v.val = inf b
/-- the duration after the servos' own limits have been taken into account. -/
def Duration0 (v : F32) : Prop := (∃ x, v.val = fin x ∧ 0 ≤ x ∧ x ≤ T) ∨ v.val = inf false

theorem rad32 : ∃ k : ℝ, (radToDeg : F32).val = fin k ∧ 0 < k ∧ k ≤ 61 := by
  obtain ⟨p, ep, p1, p2⟩ := pi_val (R := binary32)
  obtain ⟨q, eq, q1, q2⟩ := l180 (R := binary32)
  have hb := binary32.big_ge
  have h0 : 0 ≤ q / p := div_nonneg (by linarith) (by linarith)
  have h1 : q / p ≤ 181 / 3 := div_le_div₀ (by norm_num) q2 (by norm_num) p1
  have h2 : 1 ≤ q / p := by rw [le_div_iff₀ (by linarith)]; linarith
  have hr := b32_bounds h0
  refine ⟨binary32.rnd (q / p), ?_, ?_, ?_⟩
  · show binary32.post (XR.div _ _) = _
    rw [ep, eq]
    simp only [XR.div, if_neg (show p ≠ 0 by linarith)]
    apply binary32.post_fin
    rw [abs_of_nonneg h0]; linarith
  · linarith [hr.1]
  · linarith [hr.2]

/-- a speed told by the host. -/
def Speed (v : F32) : Prop := ∀ x, v.val = fin x → x ≤ 0 ∨ 9/10000 ≤ x

theorem duration {m V : F32} {M : ℝ} (hm : m.val = fin M) (h0 : 0 < M) (h1 : M ≤ 22) (hV : NN V) (hs : Speed V) : Duration (m / V * radToDeg) := by
  obtain ⟨k, ek, k0, k1⟩ := rad32
  have hb := b32_big
  -- a quotient times k
  have fromInf : ∀ b, (m / V).val = inf b → Duration (m / V * radToDeg) := fun b e => .inr ⟨_, by rw [RX.mul_val, e, ek]; simp only [XR.mul, if_neg k0.ne']; rfl⟩
  have fromFin : ∀ q, (m / V).val = fin q → q ≤ 25000 → Duration (m / V * radToDeg) := fun q e hq => by
    rcases post_cases (q * k) with h | ⟨b, h⟩
    · refine .inl ⟨binary32.rnd (q * k), by rw [RX.mul_val, e, ek]; exact h, ?_⟩
      rcases le_total q 0 with hq0 | hq0
      · have := rnd_nonpos (mul_nonpos_of_nonpos_of_nonneg hq0 k0.le)
        unfold T; linarith
      · have h2 := (b32_bounds (x := q * k) (mul_nonneg hq0 k0.le)).2
        have h3 : q * k ≤ 25000 * 61 := mul_le_mul hq k1 k0.le (by norm_num)
        unfold T; linarith
    · exact .inr ⟨b, by rw [RX.mul_val, e, ek]; exact h⟩
  cases hv : V.val with
  | nan => exact absurd hv hV
  | inf b =>
    refine fromFin 0 ?_ (by norm_num)
    rw [RX.div_val, hm, hv]
    simp only [XR.div]
    rw [binary32.post_fin (by rw [abs_zero]; norm_num at hb ⊢; linarith), binary32.rnd_zero]
  | fin v =>
    by_cases hz : v = 0
    · refine fromInf (isNeg M) ?_
      rw [RX.div_val, hm, hv]
      simp only [XR.div, if_pos hz, if_neg h0.ne']
      rfl
    · have e : (m / V).val = binary32.post (fin (M / v)) := by
        rw [RX.div_val, hm, hv]
        simp only [XR.div, if_neg hz]
      rcases post_cases (M / v) with h | ⟨b, h⟩
      · refine fromFin _ (e.trans h) ?_
        rcases hs v hv with hn | hp
        · have : M / v ≤ 0 := div_nonpos_of_nonneg_of_nonpos h0.le hn
          linarith [rnd_nonpos this]
        · have h2 : M / v ≤ 22 / (9/10000) := div_le_div₀ (by norm_num) h1 (by norm_num) hp
          have h3 := (b32_bounds (x := M / v) (div_nonneg h0.le (by linarith))).2
          norm_num at h2
          linarith
      · exact fromInf b (e.trans h)

/-- the speed computed for a servo. -/
theorem suits {t x : F32} {tr c : ℝ} (ht : t.val = fin tr) (hx : x.val = fin c) (hd : |tr - c| ≤ 10) {τ : F32} (hτ : Duration0 τ) (h0 : τ.val ≠ fin 0) :
    Suits c tr (FloatOps.abs (t - x) / τ) := by
  have hb := b32_big
  have ed : (FloatOps.abs (t - x) : F32).val = fin (binary32.rnd |tr - c|) := by
    rw [RX.abs_val, RX.sub_val, ht, hx, RX.sub_fin, binary32.post_fin (by norm_num at hb ⊢; linarith)]
    simp only [XR.abs, binary32.abs_rnd]
  have d0 := binary32.rnd_nonneg (abs_nonneg (tr - c))
  have d1 := (b32_bounds (abs_nonneg (tr - c))).1
  refine ⟨div_nn ed ?_ (.inr h0), fun v hv => ?_⟩
  · rcases hτ with ⟨y, e, _⟩ | e <;> (intro h; rw [e] at h; cases h)
  · rcases hτ with ⟨y, e, y0, y1⟩ | e
    · have hy : 0 < y := lt_of_le_of_ne y0 fun h => h0 (by rw [e, ← h])
      rw [RX.div_val, ed, e] at hv
      simp only [XR.div, if_neg hy.ne'] at hv
      rcases post_cases (binary32.rnd |tr - c| / y) with h | ⟨b, h⟩
      · rw [h] at hv; injection hv with hv
        right
        by_cases hs : |tr - c| ≤ 1/10000000
        · exact .inl hs
        · right
          rw [not_le] at hs
          have h2 := (b32_bounds (x := binary32.rnd |tr - c| / y) (div_nonneg d0 hy.le)).1
          rw [hv] at h2
          have h3 : (binary32.rnd |tr - c| / y * (1 - 1 / 16777216) - 1 / 10 ^ 40) * y ≤ v * y := mul_le_mul_of_nonneg_right h2 hy.le
          have h4 : (binary32.rnd |tr - c| / y * (1 - 1 / 16777216) - 1 / 10 ^ 40) * y = binary32.rnd |tr - c| * (1 - 1 / 16777216) - 1 / 10 ^ 40 * y := by
            field_simp
          rw [h4] at h3
          have h5 : (1 : ℝ) / 10 ^ 40 * y ≤ 1 / 10 ^ 30 := by
            have : (1 : ℝ) / 10 ^ 40 * y ≤ 1 / 10 ^ 40 * T := mul_le_mul_of_nonneg_left y1 (by positivity)
            refine this.trans ?_
            unfold T; norm_num
          have h6 : 99 / 100 * |tr - c| ≤ v * y := by
            have e40 : (1 : ℝ) / 10 ^ 40 ≤ 1 / 10 ^ 30 := by norm_num
            have e30 : (1 : ℝ) / 10 ^ 30 ≤ 1 / 10 ^ 12 := by norm_num
            norm_num at *
            nlinarith
          have v0 : 0 ≤ v := by
            rw [← hv]; exact binary32.rnd_nonneg (div_nonneg d0 hy.le)
          have h7 : v * y ≤ v * T := mul_le_mul_of_nonneg_left y1 v0
          unfold T at h7
          unfold T'
          linarith
      · rw [h] at hv; cases hv
    · rw [RX.div_val, ed, e] at hv
      simp only [XR.div] at hv
      rw [binary32.post_fin (by rw [abs_zero]; norm_num at hb ⊢; linarith), binary32.rnd_zero] at hv
      injection hv with hv
      exact .inl hv.ge

/-! ### what the controller does -/

/-- assumed of readings: as in C104, and the servos' maximum speeds are at least 1/1000 rad/s. -/
def E2 (lo hi : Fin 6 → F32) (l h : Fin 6 → ℝ) (a : Act F32) : Prop := E lo hi l h 4 a ∧ ∀ j s, a = .servo (armServo j) s → ∃ m, s.maxVel.val = fin m ∧ 1/1000 ≤ m

/-- all accesses so far. -/
def hmon (lo hi : Fin 6 → F32) (l h : Fin 6 → ℝ) : Mon F32 (List (Act F32)) where
  upd g a := g ++ [a]
  env _ a := E2 lo hi l h a
  ok _ _ := True
  flt _ := True

/-- an access that does not concern an arm servo's command. -/
def Plain (a : Act F32) : Prop := ∀ i m, a ≠ .micro (armServo i) m

/-- the command of one servo. -/
def Command (g : List (Act F32)) : Prop :=
  ∃ (i : Fin 6) (x y : Servo F32) (c : ℝ) (t : F32) (tr : ℝ) (v : F32), x.cur.val = fin c ∧ t.val = fin tr ∧ Suits c tr v ∧
    g = [.servo (armServo i) x, .micro (armServo i) (.setVel v), .servo (armServo i) y, .micro (armServo i) (.setStart y.cur),
      .micro (armServo i) .zeroElapsed, .micro (armServo i) (.setTarget t)]

/-- a sequence of plain accesses and commands. -/
inductive Blocks : List (Act F32) → Prop
  | nil : Blocks []
  | plain {a l} : Plain a → Blocks l → Blocks (a :: l)
  | command {g l} : Command g → Blocks l → Blocks (g ++ l)

theorem Blocks.append {l l' : List (Act F32)} (h : Blocks l) (h' : Blocks l') : Blocks (l ++ l') := by
  induction h with
  | nil => exact h'
  | plain ha _ ih => exact .plain ha ih
  | command hg _ ih => rw [List.append_assoc]; exact .command hg ih

theorem Blocks.snoc {l : List (Act F32)} {a : Act F32} (h : Blocks l) (ha : Plain a) : Blocks (l ++ [a]) := h.append (.plain ha .nil)

theorem blocks_plain {l : List (Act F32)} (h : ∀ a ∈ l, Plain a) : Blocks l := by
  induction l with
  | nil => exact .nil
  | cons a l ih => exact .plain (h a (by simp)) (ih fun b hb => h b (by simp [hb]))

/-- robots of reasonable size: angles of at most 10 rad. -/
structure Compact (cfg : RCfg F32) (l h : Fin 6 → ℝ) : Prop where
  lo : ∀ i, FinB 10 (cfg.lo i)
  hi : ∀ i, FinB 10 (cfg.hi i)
  p2l : ∀ a, (∀ i, InRX (l i - binary32.slack 4) (h i + binary32.slack 4) (a i)) → ∀ i, FinB 11 (cfg.p2l a i)
  l : ∀ i, |l i| ≤ 4
  h : ∀ i, |h i| ≤ 4

section rc
variable {cfg : RCfg F32} {lo hi : Fin 6 → F32} {l h : Fin 6 → ℝ}
local notation "HM" => hmon lo hi l h

theorem plain_servo (i : Fin 8) (s : Servo F32) : Plain (.servo i s) := fun _ _ h => by cases h
theorem plain_out (o : Out F32) : Plain (.out o) := fun _ _ h => by cases h

theorem readAngles_b {g : List (Act F32)} (hg : Blocks g) :
    (RC.readAngles : Prog F32 (Six F32)).wp HM (fun g a => Blocks g ∧ ∀ i, InRX (l i - binary32.slack 4) (h i + binary32.slack 4) (a i)) g := by
  simp only [RC.readAngles, readServo, bind_def, pure_def, Prog.bind, wp]
  intro v0 e0 v1 e1 v2 e2 v3 e3 v4 e4 v5 e5
  refine ⟨(((((hg.snoc (plain_servo _ _)).snoc (plain_servo _ _)).snoc (plain_servo _ _)).snoc (plain_servo _ _)).snoc (plain_servo _ _)).snoc (plain_servo _ _), ?_⟩
  intro i
  match i with
  | 0 => exact (e0.1 0 _ rfl).2.2
  | 1 => exact (e1.1 1 _ rfl).2.2
  | 2 => exact (e2.1 2 _ rfl).2.2
  | 3 => exact (e3.1 3 _ rfl).2.2
  | 4 => exact (e4.1 4 _ rfl).2.2
  | 5 => exact (e5.1 5 _ rfl).2.2

theorem logical_b (C : Compact cfg l h) {g : List (Act F32)} (hg : Blocks g) : (RC.getCurrentLogicalAngles cfg).wp HM (fun g a => Blocks g ∧ ∀ i, FinB 11 (a i)) g := by
  rw [RC.getCurrentLogicalAngles, bind_def, wp_bind]
  exact wp_mono (fun _ a ha => ⟨ha.1, C.p2l a ha.2⟩) (readAngles_b hg)

theorem pose_b {g : List (Act F32)} (hg : Blocks g) : (RC.getCurrentPose cfg).wp HM (fun g _ => Blocks g) g := by
  rw [RC.getCurrentPose, bind_def, wp_bind]
  exact wp_mono (fun _ a ha => ha.1) (readAngles_b hg)

theorem reject_b (C : Compact cfg l h) {r : RC F32} (hv : Speed r.maxVelocity) {g : List (Act F32)} (hg : Blocks g) :
    (RC.reject cfg r).wp HM (fun g r => Blocks g ∧ Speed r.maxVelocity) g := by
  rw [RC.reject, bind_def, wp_bind]
  refine wp_mono (fun _ p hp => ?_) (pose_b hg)
  rw [bind_def, wp_bind]
  exact wp_mono (fun _ a ha => ⟨ha.1, hv⟩) (logical_b C hp)

theorem physical_b (t : Six F32) (is : List (Fin 6)) {g : List (Act F32)} (hg : Blocks g) :
    (RC.violatesPhysical t is).wp HM (fun g b => Blocks g ∧ (b = false → ∀ i ∈ is, flt (t i) (lo i) = false ∧ fgt (t i) (hi i) = false)) g := by
  induction is generalizing g with
  | nil => exact ⟨hg, fun _ i hi => by cases hi⟩
  | cons i is ih =>
    simp only [RC.violatesPhysical, readServo, bind_def, Prog.bind, wp]
    intro x hx
    have el := hx.1 i x rfl
    have hg' : Blocks (g ++ [.servo (armServo i) x]) := hg.snoc (plain_servo _ _)
    show Prog.wp _ (if _ then _ else _) _ _
    rw [el.1, el.2.1]
    split
    · exact ⟨hg', fun h => by cases h⟩
    · rename_i hc
      simp only [Bool.or_eq_true, not_or, Bool.not_eq_true] at hc
      refine wp_mono (fun _ b hb => ⟨hb.1, fun hf j hj => ?_⟩) (ih hg')
      rcases List.mem_cons.1 hj with rfl | hj
      · exact hc
      · exact hb.2 hf j hj

/-- the servo's own time. -/
theorem servoTime {t x m : F32} {tr c mr : ℝ} (ht : t.val = fin tr) (hx : x.val = fin c) (hm : m.val = fin mr) (hd : |tr - c| ≤ 10) (h1 : 1/1000 ≤ mr) :
    ∃ y, (FloatOps.abs (t - x) / m : F32).val = fin y ∧ 0 ≤ y ∧ y ≤ T := by
  have hb := b32_big
  have ed : (FloatOps.abs (t - x) : F32).val = fin (binary32.rnd |tr - c|) := by
    rw [RX.abs_val, RX.sub_val, ht, hx, RX.sub_fin, binary32.post_fin (by norm_num at hb ⊢; linarith)]
    simp only [XR.abs, binary32.abs_rnd]
  have d0 := binary32.rnd_nonneg (abs_nonneg (tr - c))
  have d1 := (b32_bounds (abs_nonneg (tr - c))).2
  have q0 : 0 ≤ binary32.rnd |tr - c| / mr := div_nonneg d0 (by linarith)
  have q1 : binary32.rnd |tr - c| / mr ≤ 11 / (1/1000) := div_le_div₀ (by norm_num) (by linarith) (by norm_num) h1
  have q2 := (b32_bounds q0).2
  norm_num at q1
  refine ⟨binary32.rnd (binary32.rnd |tr - c| / mr), ?_, binary32.rnd_nonneg q0, ?_⟩
  · rw [RX.div_val, ed, hm]
    simp only [XR.div, if_neg (show mr ≠ 0 by linarith)]
    rw [binary32.post_fin]
    rw [abs_of_nonneg q0]; norm_num at hb ⊢; linarith
  · unfold T; linarith

theorem way (C : Compact cfg l h) {i : Fin 6} {tr c : ℝ} (t1 : l i ≤ tr) (t2 : tr ≤ h i) (c1 : l i - binary32.slack 4 ≤ c) (c2 : c ≤ h i + binary32.slack 4) : |tr - c| ≤ 10 := by
  have h1 := abs_le.1 (C.l i)
  have h2 := abs_le.1 (C.h i)
  have := slack32
  exact abs_le.2 ⟨by linarith, by linarith⟩

theorem minTime_b (C : Compact cfg l h) (t : Six F32) (ht : ∀ i, InRX (l i) (h i) (t i)) (is : List (Fin 6)) (acc : F32) (ha : Duration acc ∧ is ≠ [] ∨ Duration0 acc) {g : List (Act F32)}
    (hg : Blocks g) : (RC.minTime t is acc).wp HM (fun g x => Blocks g ∧ Duration0 x) g := by
  induction is generalizing acc g with
  | nil => exact ⟨hg, ha.resolve_left fun h => h.2 rfl⟩
  | cons i is ih =>
    simp only [RC.minTime, readServo, bind_def, Prog.bind, wp]
    intro x hx
    obtain ⟨c, ec, c1, c2⟩ := (hx.1 i x rfl).2.2
    obtain ⟨m, em, hm⟩ := hx.2 i x rfl
    obtain ⟨tr, et, t1, t2⟩ := ht i
    obtain ⟨y, ey, y0, y1⟩ := servoTime et ec em (way C t1 t2 c1 c2) hm
    refine ih _ (.inr ?_) (hg.snoc (plain_servo _ _))
    split
    · exact .inl ⟨y, ey, y0, y1⟩
    · rename_i hn
      have hn : ¬ XR.lt acc.val (FloatOps.abs (t i - x.cur) / x.maxVel : F32).val = true := hn
      rw [ey] at hn
      have ha : Duration acc := by
        rcases ha with h | ⟨z, e, z0, z1⟩ | e
        · exact h.1
        · exact .inl ⟨z, e, z1⟩
        · exact .inr ⟨_, e⟩
      rcases ha with ⟨z, e, z1⟩ | ⟨b, e⟩
      · rw [e] at hn
        simp only [XR.lt, decide_eq_true_eq, not_lt] at hn
        exact .inl ⟨z, e, by linarith, z1⟩
      · cases b with
        | false => exact .inr e
        | true => rw [e] at hn; simp [XR.lt] at hn

theorem apply_b (C : Compact cfg l h) (t : Six F32) (ht : ∀ i, InRX (l i) (h i) (t i)) (τ : F32) (hτ : Duration0 τ) (h0 : τ.val ≠ fin 0) (is : List (Fin 6)) {g : List (Act F32)} (hg : Blocks g) :
    (RC.apply t τ is).wp HM (fun g _ => Blocks g) g := by
  induction is generalizing g with
  | nil => exact hg
  | cons i is ih =>
    simp only [RC.apply, readServo, doMicro, bind_def, Prog.bind, wp]
    intro x hx
    obtain ⟨c, ec, c1, c2⟩ := (hx.1 i x rfl).2.2
    obtain ⟨tr, et, t1, t2⟩ := ht i
    refine ⟨trivial, fun y hy => ⟨trivial, trivial, trivial, ih ?_⟩⟩
    have hb : Blocks (g ++ ([.servo (armServo i) x, .micro (armServo i) (.setVel (FloatOps.abs (t i - x.cur) / τ)), .servo (armServo i) y, .micro (armServo i) (.setStart y.cur),
        .micro (armServo i) .zeroElapsed, .micro (armServo i) (.setTarget (t i))] ++ [])) :=
      hg.append (.command ⟨i, x, y, c, t i, tr, _, ec, et, suits et ec (way C t1 t2 c1 c2) hτ h0, rfl⟩ .nil)
    show Blocks ((((((g ++ [.servo (armServo i) x]) ++ [.micro (armServo i) (.setVel _)]) ++ [.servo (armServo i) y]) ++ [.micro (armServo i) (.setStart y.cur)]) ++ [.micro (armServo i) .zeroElapsed]) ++ [.micro (armServo i) (.setTarget (t i))])
    simpa using hb

theorem command_b (C : Compact cfg l h) (H : AngleRobot cfg l h 4) (el : ∀ i, (lo i).val = fin (l i)) (eh : ∀ i, (hi i).val = fin (h i))
    {r : RC F32} (hv : Speed r.maxVelocity) (ht : ∀ i, NN (r.targetAngles i)) (mt : F32) (hmt : (∀ i, FinB 10 (r.targetAngles i)) → Duration mt) {g : List (Act F32)} (hg : Blocks g) :
    (RC.command cfg r r.targetAngles mt).wp HM (fun g r => Blocks g ∧ Speed r.maxVelocity) g := by
  unfold RC.command
  split
  · exact reject_b C hv hg
  · rename_i hviol
    have hlog : ∀ i, flt (r.targetAngles i) (cfg.lo i) = false ∧ fgt (r.targetAngles i) (cfg.hi i) = false := by
      intro i
      simp only [RC.violatesLogical, List.any_eq_true, not_exists, not_and, Bool.or_eq_true, not_or, Bool.not_eq_true] at hviol
      exact hviol i (List.mem_finRange i)
    have hb : ∀ i, FinB 10 (r.targetAngles i) := fun i => bounded_of_not_viol (ht i) (C.lo i) (C.hi i) (hlog i).1 (hlog i).2
    have hph := H.l2p _ fun i => by obtain ⟨x, e, hx⟩ := hb i; exact ⟨x, e, by linarith⟩
    rw [bind_def, wp_bind]
    refine wp_mono (fun _ bad hbad => ?_) (physical_b _ _ hg)
    obtain ⟨hg, hbad⟩ := hbad
    split
    · exact reject_b C hv hg
    · rename_i hbf
      have hin : ∀ i, InRX (l i) (h i) (cfg.l2p r.targetAngles i) := fun i => by
        obtain ⟨h1, h2⟩ := hbad (by simpa using hbf) i (List.mem_finRange i)
        rcases inRX_of_not_viol (el i) (eh i) h1 h2 with e | e
        · exact absurd (by rw [e]; rfl) (hph i)
        · exact e
      rw [bind_def, wp_bind]
      refine wp_mono (fun _ time htime => ?_) (minTime_b C _ hin _ _ (.inl ⟨hmt hb, by decide⟩) hg)
      obtain ⟨hg, htime⟩ := htime
      split
      · exact ⟨hg, hv⟩
      · rename_i hz
        have h0 : time.val ≠ fin 0 := by
          intro e
          apply hz
          show (XR.le time.val (lit 0 : F32).val && XR.le (lit 0 : F32).val time.val) = true
          rw [e, zero_val]
          simp [XR.le]
        rw [bind_def, wp_bind]
        exact wp_mono (fun _ _ hg => ⟨hg, hv⟩) (apply_b C _ hin _ htime h0 _ hg)

/-- the largest of some distances. -/
theorem foldl_le (f : Fin 6 → F32) (B : ℝ) (hf : ∀ i, ∃ d : ℝ, (f i).val = fin d ∧ 0 ≤ d ∧ d ≤ B) (is : List (Fin 6)) (acc : F32) (a : ℝ) (ea : acc.val = fin a) (a0 : 0 ≤ a) (a1 : a ≤ B) :
    ∃ m : ℝ, (is.foldl (fun m i => if fgt (f i) m then f i else m) acc).val = fin m ∧ 0 ≤ m ∧ m ≤ B := by
  induction is generalizing acc a with
  | nil => exact ⟨a, ea, a0, a1⟩
  | cons i is ih =>
    obtain ⟨d, ed, d0, d1⟩ := hf i
    rw [List.foldl_cons]
    split
    · exact ih (f i) d ed d0 d1
    · exact ih acc a ea a0 a1

theorem moveTime_b {r : RC F32} (hv : NN r.maxVelocity) (hs : Speed r.maxVelocity) (ha : ∀ i, FinB 11 (r.startAngles i)) (ht : ∀ i, FinB 10 (r.targetAngles i))
    (hne : ¬ RC.anglesEqual r.startAngles r.targetAngles = true) : Duration (r.maxAngleChange / r.maxVelocity * radToDeg) := by
  have hb := b32_big
  have hd : ∀ i, ∃ d : ℝ, (FloatOps.abs (r.startAngles i - r.targetAngles i) : F32).val = fin d ∧ 0 ≤ d ∧ d ≤ 211/10 := fun i => by
    obtain ⟨x, ex, hx⟩ := ha i
    obtain ⟨y, ey, hy⟩ := ht i
    have hxy := abs_sub x y
    have hr := (b32_bounds (abs_nonneg (x - y))).2
    refine ⟨|binary32.rnd (x - y)|, ?_, abs_nonneg _, ?_⟩
    · rw [RX.abs_val, RX.sub_val, ex, ey, RX.sub_fin, binary32.post_fin (by norm_num at hb ⊢; linarith)]
      rfl
    · rw [binary32.abs_rnd]; linarith
  obtain ⟨m, em, m0, m1⟩ := foldl_le (fun i => FloatOps.abs (r.startAngles i - r.targetAngles i)) (211/10) hd (List.finRange 6) (lit 0) 0 zero_val le_rfl (by norm_num)
  have mpos : 0 < m := by
    obtain ⟨m', em', -, mm⟩ := foldl_max (fun i => FloatOps.abs (r.startAngles i - r.targetAngles i)) (fun i => by obtain ⟨d, h1, h2, _⟩ := hd i; exact ⟨d, h1, h2⟩) (List.finRange 6) (lit 0) 0 zero_val le_rfl
    rw [em] at em'; injection em' with em'; subst em'
    simp only [RC.anglesEqual, List.all_eq_true, not_forall, Bool.not_eq_true, Bool.not_eq_true', Bool.not_eq_false] at hne
    obtain ⟨i, hi, hge⟩ := hne
    obtain ⟨d, ed, d0, _⟩ := hd i
    have hge : XR.le (lit (1/10000) : F32).val (FloatOps.abs (r.startAngles i - r.targetAngles i) : F32).val = true := hge
    have he := (b32_bounds (x := 1/10000) (by norm_num)).1
    rw [ed, RX.lit_val, show (((1 / 10000 : Rat)) : ℝ) = (1 / 10000 : ℝ) by norm_num, binary32.post_fin (by rw [abs_of_pos (by norm_num)]; norm_num at hb ⊢; linarith)] at hge
    simp only [XR.le, decide_eq_true_eq] at hge
    have := mm i (List.mem_finRange i) d ed
    norm_num at he
    linarith
  exact duration em mpos (by linarith) hv hs

theorem allAtTarget_b (is : List (Fin 6)) (acc : Bool) {g : List (Act F32)} (hg : Blocks g) : (RC.allAtTarget is acc : Prog F32 Bool).wp HM (fun g _ => Blocks g) g := by
  induction is generalizing acc g with
  | nil => exact hg
  | cons i is ih => exact fun v hv => ih _ (hg.snoc (plain_servo _ _))

theorem process_b (C : Compact cfg l h) (H : AngleRobot cfg l h 4) (el : ∀ i, (lo i).val = fin (l i)) (eh : ∀ i, (hi i).val = fin (h i)) {r : RC F32} (hr : RCNum r) (hv : Speed r.maxVelocity)
    {g : List (Act F32)} (hg : Blocks g) : (RC.process cfg r).wp HM (fun g r => Blocks g ∧ Speed r.maxVelocity) g := by
  unfold RC.process
  split
  · exact ⟨hg, hv⟩
  · rename_i hst
    unfold RC.moving
    rw [bind_def, wp_bind]
    refine wp_mono (fun _ b hg => ?_) (allAtTarget_b _ _ hg)
    split
    · rw [if_pos (hr.parts hst)]
      exact ⟨hg, hv⟩
    · exact ⟨hg, hv⟩
  · rename_i hst
    have hm : r.method = .p2p := by
      rcases hr.joint with h | h
      · exact h
      · rw [hst] at h; cases h
    unfold RC.prepare
    simp only [bind_def, emit, Prog.bind, pure_def]
    split
    · exact ⟨hg, hv⟩
    · have e1 : (RC.sync cfg r).targetAngles = r.targetAngles := by
        unfold RC.sync; split
        · rfl
        · rw [if_neg (by rw [hr.pose]; simp)]
      have e2 : (RC.sync cfg r).poseChanged = false := by
        unfold RC.sync; split
        · exact hr.pose
        · rw [if_neg (by rw [hr.pose]; simp)]; exact hr.pose
      have e3 : (RC.sync cfg r).method = .p2p := (RC.sync_same cfg r).2.1.trans hm
      have e4 : (RC.sync cfg r).maxVelocity = r.maxVelocity := (RC.sync_same cfg r).2.2
      have key : ∀ p : Prog F32 (RC F32), (∀ g, Blocks g → p.wp HM (fun g r => Blocks g ∧ Speed r.maxVelocity) g) →
        (if (!r.anglesChanged && !r.poseChanged) = true then
          (out (.raw (.error "nothing changed, still PREPARE MOVE")) p : Prog F32 (RC F32)) else p).wp HM (fun g r => Blocks g ∧ Speed r.maxVelocity) g := by
        intro p hp; split
        · exact ⟨trivial, hp _ (hg.snoc (plain_out _))⟩
        · exact hp _ hg
      apply key
      intro g hg
      rw [if_neg (by rw [e2]; simp)]
      rw [wp_bind]
      refine wp_mono (fun _ sp hg => ?_) (pose_b hg)
      rw [wp_bind]
      refine wp_mono (fun _ sa hsa => ?_) (logical_b C hg)
      obtain ⟨hg, hsa⟩ := hsa
      split
      · refine ⟨hg, ?_⟩
        show Speed (RC.sync cfg r).maxVelocity; rw [e4]; exact hv
      · rename_i hne
        simp only [e3]
        unfold RC.startMove
        simp only [bind_def, emit, readServo, Prog.bind, e3]
        refine ⟨trivial, ?_⟩
        refine command_b (r := { RC.sync cfg r with anglesChanged := false, poseChanged := false, startPose := sp, startAngles := sa, step := 0 + 1, total := 1, state := .startMove, method := .p2p })
          C H el eh ?_ ?_ _ ?_ (hg.snoc (plain_out _))
        · show Speed (RC.sync cfg r).maxVelocity; rw [e4]; exact hv
        · intro i; show NN ((RC.sync cfg r).targetAngles i); rw [e1]; exact hr.tA i
        · intro hb
          refine moveTime_b (r := { RC.sync cfg r with anglesChanged := false, poseChanged := false, startPose := sp, startAngles := sa, step := 0 + 1, total := 1, state := .startMove, method := .p2p })
            ?_ ?_ hsa hb hne
          · show NN (RC.sync cfg r).maxVelocity; rw [e4]; exact hr.vel
          · show Speed (RC.sync cfg r).maxVelocity; rw [e4]; exact hv
  · rename_i hst; exact absurd hst hr.start

/-- one step of the controller: its accesses are a sequence of commands, and the state stays sensible. -/
theorem process_blocks (C : Compact cfg l h) (H : AngleRobot cfg l h 4) (el : ∀ i, (lo i).val = fin (l i)) (eh : ∀ i, (hi i).val = fin (h i)) {r r' : RC F32} (hr : RCNum r)
    (hv : Speed r.maxVelocity) {tr : List (Act F32)} (hx : Exec (RC.process cfg r) tr (.ret r')) (hE : ∀ a ∈ tr, E2 lo hi l h a) : Blocks tr ∧ RCNum r' ∧ Speed r'.maxVelocity := by
  have h1 := (wp_exec hx (process_b C H el eh hr hv .nil) fun pre a post e _ => hE a (by rw [e]; simp)).2
  have e : ∀ (x g : List (Act F32)), x.foldl (hmon lo hi l h).upd g = g ++ x := by
    intro x
    induction x with
    | nil => intro g; simp
    | cons a x ih => intro g; rw [List.foldl_cons, ih]; simp [hmon]
  rw [e] at h1
  have h2 := (wp_exec hx (process_num eps4 H (by norm_num) C.l C.h el eh hr) fun pre a post e _ => (hE a (by rw [e]; simp)).1).2
  exact ⟨h1.1, h2, h1.2⟩

end rc

/-! ### the instructions -/

/-- the core between two steps of the dispatcher. -/
def CoreBrisk (c : Core F32) : Prop := CoreNum c ∧ Speed c.rc.maxVelocity

theorem speed_of {a : List Byte} (h : NumArg (fun v => v ≤ 0 ∨ 1/1000 ≤ v) a) (ha : a ≠ []) : Speed (atof a : F32) := by
  rcases h with rfl | ⟨d, hd, rfl, hp⟩
  · exact absurd rfl ha
  · intro x hx
    have e : (atof d.text : F32).val = binary32.post (fin (d.val : ℝ)) := by rw [C27_decimal d hd]; rfl
    rw [e] at hx
    rcases post_cases (d.val : ℝ) with h | ⟨b, h⟩
    · rw [h] at hx; injection hx with hx
      rcases hp with hp | hp
      · left; rw [← hx]; apply rnd_nonpos; exact_mod_cast hp
      · right
        have h1 : ((1/1000 : ℚ) : ℝ) ≤ (d.val : ℝ) := by exact_mod_cast hp
        have h1 : (1/1000 : ℝ) ≤ (d.val : ℝ) := by simpa using h1
        have h2 := (b32_bounds (x := (d.val : ℝ)) (by linarith)).1
        rw [hx] at h2
        linarith
    · rw [h] at hx; cases hx

theorem exec_speed_other (cfg : Cfg F32) (s : Core F32) (l : Loc F32) (tok : List Byte) (g : Unit) (h86 : tok.headD 0 ≠ 86) (h : Speed s.rc.maxVelocity) :
    (Mril.exec cfg s l tok).wp Tok.any (fun _ r => Speed r.1.rc.maxVelocity) g := by
  exec_leaves
  all_goals first
    | contradiction
    | exact h
    | trivial
    | exact ⟨trivial, h⟩
    | exact ⟨trivial, trivial, h⟩
    | exact fun _ _ => h
    | exact fun _ _ => ⟨trivial, trivial, trivial, h⟩
    | exact fun _ _ _ _ _ _ _ _ _ _ _ _ => h

theorem exec_speed (cfg : Cfg F32) (s : Core F32) (l : Loc F32) (tok : List Byte) (g : Unit) (ht : tok.head? = some 86 → NumArg (fun v => v ≤ 0 ∨ 1/1000 ≤ v) tok.tail)
    (h : Speed s.rc.maxVelocity) : (Mril.exec cfg s l tok).wp Tok.any (fun _ r => Speed r.1.rc.maxVelocity) g := by
  by_cases h86 : tok.headD 0 = 86
  · rcases tok with _ | ⟨c, t⟩
    · simp at h86
    · have h86 : c = 86 := h86
      subst h86
      have ha := ht rfl
      cases t with
      | nil =>
        have e : Mril.exec cfg s l [86] = .ret (s, { l with ctype := .read, resp := l.resp ++ [.velocity s.rc.maxVelocity] }) := by
          simp [Mril.exec]
        rw [e]; exact h
      | cons b bs =>
        have e : Mril.exec cfg s l (86 :: b :: bs) = .micro 6 (.setVel (atof (b :: bs))) (.micro 7 (.setVel (atof (b :: bs)))
            (.ret ({ s with rc := s.rc.setMaxVelocity (atof (b :: bs)) }, { l with ctype := .write }))) := by
          simp [Mril.exec, doMicro, Prog.bind]
        rw [e]
        exact ⟨trivial, trivial, speed_of ha (by simp)⟩
  · exact exec_speed_other cfg s l tok g h86 h

theorem parse_speed (cfg : Cfg F32) (s : Core F32) (n : Nat) (m : List Byte) (ha : BriskText m) (ht : SafeText n m) (h : Speed s.rc.maxVelocity) :
    (Mril.parse cfg s m).wp Tok.any (fun _ c => Speed c.rc.maxVelocity) () := by
  rw [Mril.parse]
  split
  · exact h
  · rw [wp_bind, Tok.loop_toks cfg m _ _ _ (fun t h => (ht.each t h).1) ht.rest, wp_bind]
    refine wp_mono (fun g r hr => ?_) (Tok.execToks_inv cfg (fun c => Speed c.rc.maxVelocity) _ { s with rc := s.rc.startTransaction } {} h
      (fun t ht s l g hs => exec_speed cfg s l t g (ha t ht) hs) ())
    have : (Mril.finish { r.1 with rc := r.1.rc.endTransaction } r.2).wp Tok.any (fun _ c => Speed c.rc.maxVelocity) g := by
      simp only [Mril.finish]
      split
      · exact ⟨trivial, hr⟩
      · exact hr
      · exact hr
    unfold Tok.note
    split
    · exact ⟨trivial, this⟩
    · exact this

theorem wp_both {α : Type} {E E' O : Act F32 → Prop} {p : Prog F32 α} {Q S : α → Prop} (hE : ∀ a, E' a → E a) (h : p.wp (lmon E O) (fun _ a => Q a) ()) (h' : p.wp Tok.any (fun _ a => S a) ()) :
    p.wp (lmon E' O) (fun _ a => Q a ∧ S a) () := by
  induction p with
  | ret a => exact ⟨h, h'⟩
  | fault f => exact h
  | servo i k ih => exact fun v hv => ih v (h v (hE _ hv)) (h' v trivial)
  | micro i m k ih => exact ⟨h.1, ih h.2 h'.2⟩
  | now k ih => exact fun v hv => ih v (h v (hE _ hv)) (h' v trivial)
  | pin p k ih => exact fun v hv => ih v (h v (hE _ hv)) (h' v trivial)
  | rx k ih => exact fun v hv => ih v (h v (hE _ hv)) (h' v trivial)
  | eeRead k ih => exact fun v hv => ih v (h v (hE _ hv)) (h' v trivial)
  | eeWrite a b k ih => exact ⟨h.1, ih h.2 h'.2⟩
  | out o k ih => exact ⟨h.1, ih h.2 h'.2⟩

/-- a property of the result that holds whatever is read. -/
theorem any_of_only {α : Type} {p : Prog F32 α} {K : Act F32 → Prop} {Q : α → Prop} (h : p.only K Q) (g : Unit) : p.wp Tok.any (fun _ a => Q a) g := by
  induction p generalizing g with
  | ret a => exact h
  | fault f => trivial
  | servo i k ih => exact fun v hv => ih v (h v).2 _
  | micro i m k ih => exact ⟨trivial, ih h.2 _⟩
  | now k ih => exact fun v hv => ih v (h v).2 _
  | pin p k ih => exact fun v hv => ih v (h v).2 _
  | rx k ih => exact fun v hv => ih v (h v).2 _
  | eeRead k ih => exact fun v hv => ih v (h v).2 _
  | eeWrite a b k ih => exact ⟨trivial, ih h.2 _⟩
  | out o k ih => exact ⟨trivial, ih h.2 _⟩

theorem process_speed (cfg : RCfg F32) (r : RC F32) (hv : Speed r.maxVelocity) : (RC.process cfg r).wp Tok.any (fun _ r => Speed r.maxVelocity) () := by
  refine any_of_only (only_mono (fun a _ => trivial) (fun r' (h : RC.SameSettings r r') => ?_) (RC.process_only cfg r)) ()
  rw [h.2.2]; exact hv

abbrev NowText (m : List Byte) : Prop := SafeText 10 m ∧ JointText m
abbrev InstrText (m : List Byte) : Prop := SafeText 0 m ∧ JointText m

theorem brisk_tame (cfg : Cfg F32) (hm : cfg.pinMap.length = 10) {lo hi : Fin 6 → F32} {l h : Fin 6 → ℝ} (C : Compact cfg.toRCfg l h) (H : AngleRobot cfg.toRCfg l h 4)
    (el : ∀ i, (lo i).val = fin (l i)) (eh : ∀ i, (hi i).val = fin (h i)) : Tame cfg (E2 lo hi l h) (O l h 4) CoreBrisk NowText InstrText := by
  have ht := angle_tame cfg hm (lo := lo) (hi := hi) eps4 H (by norm_num) C.l C.h el eh
  have hE : ∀ a, E2 lo hi l h a → E lo hi l h 4 a := fun a ha => ha.1
  refine ⟨fun c hc => ?_, fun c m hs hc => ?_, fun c m hs hc he => ?_, fun c hc => ?_, ht.disp, fun v u hv hu => ?_⟩
  · exact wp_both hE (ht.rc c hc.1) (process_speed _ _ hc.2)
  · exact wp_both hE (ht.now c m ⟨hs.1, hs.2.angles⟩ hc.1) (parse_speed cfg c _ m hs.2.brisk hs.1 hc.2)
  · exact wp_both hE (ht.instr c m ⟨hs.1, hs.2.angles⟩ hc.1 he) (parse_speed cfg c _ m hs.2.brisk hs.1 hc.2)
  · refine wp_mono (fun _ c' h' => ⟨⟨h'.1.1, h'.2⟩, h'.1.2⟩) (wp_both hE (ht.check c hc.1) (any_of_only (only_mono (fun a _ => trivial) (fun c' (e : _ ∧ _) => ?_) (mrilProcess_only c)) ()))
    show Speed c'.rc.maxVelocity
    rw [e.1]; exact hc.2
  · refine ⟨ht.boot v u (fun i => (hv i).1) fun i => (hu i).1, fun x hx => .inr ?_⟩
    have hb := b32_big
    have e : (CoreInv.boot cfg (fun i => (v i).cur) fun i => (u i).cur).rc.maxVelocity.val = fin 10 := by
      show (lit 10 : F32).val = fin 10
      rw [RX.lit_val, show (((10 : Rat)) : ℝ) = ((10 : ℤ) : ℝ) by norm_num, binary32.post_fin (by norm_num at hb ⊢; linarith), b32_int (by norm_num)]
      norm_num
    rw [e] at hx; injection hx with hx
    linarith

theorem clean_of_joint {r : List Byte} (h : LegiblySent r) (hj : ∀ p ∈ decode r, JointFrame (frame p)) : Clean (FrameOK NowText InstrText) r := by
  refine ⟨(Tok.clean_of_legible h).1, fun p hp => ?_⟩
  have hd : p ∈ decode r := by
    rw [← nrun_decode r.length r (Nat.le_refl _)]
    exact List.mem_filterMap.2 ⟨_, hp, rfl⟩
  obtain ⟨h1, h2, h3⟩ := (Tok.clean_of_legible h).2 p hp
  have h4 := hj p hd
  refine ⟨h1, h2, ?_⟩
  cases hf : frame p with
  | now m => rw [hf] at h3 h4; exact ⟨h3, h4⟩
  | put m => rw [hf] at h3 h4; exact ⟨h3, h4⟩
  | store m => rw [hf] at h3 h4; exact ⟨h3, h4⟩
  | _ => trivial

/-- what is known of the servos at every moment. -/
structure Servos2 (lo hi : Fin 6 → F32) (l h : Fin 6 → ℝ) (w : World F32) : Prop where
  good : AllGoodRX lo hi l h 4 w
  fast : ∀ i, ∃ m, (w.servos (armServo i)).maxVel.val = fin m ∧ 1/1000 ≤ m

theorem Servos2.env {lo hi : Fin 6 → F32} {l h : Fin 6 → ℝ} {w : World F32} (hw : Servos2 lo hi l h w) (i : Fin 8) : E2 lo hi l h (.servo i (w.servos i)) := by
  refine ⟨fun j s e => ?_, fun j s e => ?_⟩ <;> (injection e with e1 e2; subst e1; subst e2)
  · exact ⟨(hw.good j).2.1, (hw.good j).2.2, (hw.good j).1.cur⟩
  · exact hw.fast j

theorem env_other {lo hi : Fin 6 → F32} {l h : Fin 6 → ℝ} {a : Act F32} (ha : ∀ i s, a ≠ .servo i s) : E2 lo hi l h a := ⟨fun i s e => absurd e (ha _ _), fun i s e => absurd e (ha _ _)⟩

theorem maxVel_micro (s : Servo F32) (m : Servo.Micro F32) : (s.micro m).maxVel = s.maxVel := by cases m <;> rfl

/-- everything about histories with such a host. -/
theorem brisk_run {cfg : Cfg F32} (hm : cfg.pinMap.length = 10) {lo hi : Fin 6 → F32} {l h : Fin 6 → ℝ} (C : Compact cfg.toRCfg l h) (H : AngleRobot cfg.toRCfg l h 4)
    (el : ∀ i, (lo i).val = fin (l i)) (eh : ∀ i, (hi i).val = fin (h i)) {w0 : World F32} {junk : Nat → Byte} (h0 : Servos2 lo hi l h w0)
    (hmem : Program InstrText w0.ee) {evs : List (Ev F32)} {s : Sys F32} (hr : Sys.Run cfg w0 junk evs s) (hc : Clean (FrameOK NowText InstrText) (w0.rxq ++ arrivals evs)) :
    Servos2 lo hi l h s.w ∧ ∀ f, s.p = .ret f → CoreBrisk f.core := by
  obtain ⟨h1, h2, _⟩ := (brisk_tame cfg hm C H el eh).run (W := Servos2 lo hi l h) h0 (fun w i hw => hw.env i) (fun a ha => env_other ha)
    (fun w i m hw ho => ⟨fun j => by
      by_cases e : armServo j = i
      · subst e
        have hfix : ((w.servos (armServo j)).micro m).minA = (w.servos (armServo j)).minA ∧ ((w.servos (armServo j)).micro m).maxA = (w.servos (armServo j)).maxA := by
          cases m <;> exact ⟨rfl, rfl⟩
        have := (hw.good j).1.micro (ho j m rfl)
        simp only [World.setServo, if_true]
        exact ⟨this, hfix.1.trans (hw.good j).2.1, hfix.2.trans (hw.good j).2.2⟩
      · have : (w.setServo i ((w.servos i).micro m)).servos (armServo j) = w.servos (armServo j) := by simp [World.setServo, e]
        rw [this]; exact hw.good j, fun j => by
      by_cases e : armServo j = i
      · subst e; simp only [World.setServo, if_true, maxVel_micro]; exact hw.fast j
      · simp only [World.setServo, e, if_false]; exact hw.fast j⟩)
    (fun w hw => ⟨fun i => ⟨(hw.good i).1.tick (by norm_num) (C.l i) (C.h i) _, (tick_lim _ _).1.trans (hw.good i).2.1, (tick_lim _ _).2.trans (hw.good i).2.2⟩,
      fun i => by simp only [World.isr, (tick_vel _ _).2]; exact hw.fast i⟩)
    (fun w w' e hw => ⟨fun i => by rw [← e]; exact hw.good i, fun i => by rw [← e]; exact hw.fast i⟩) hmem hr hc
  refine ⟨h1, fun f e => ?_⟩
  rw [e] at h2; exact h2.core

end Mrc.Brisk32
