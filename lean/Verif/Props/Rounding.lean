import Verif.Props.Safety
import Verif.Proof.RX
import Verif.Model.Binary32
/-
The servo and the limit safety of the whole firmware in ROUNDED arithmetic: every float format with rounding to a monotone, symmetric grid
(in particular IEEE binary32, Verif/Model/Binary32.lean), any libm.
-/
set_option linter.unusedSectionVars false
set_option linter.unusedSimpArgs false
namespace Mrc.Props
open Mrc Mrc.Spec Mrc.Prog XR
open scoped Mrc.Num
variable {R : Rounding} [RX.Libm R]

/-- `x` is a number in [lo, hi]. -/
def InRX (lo hi : ℝ) (x : RX R) : Prop := ∃ t, x.val = fin t ∧ lo ≤ t ∧ t ≤ hi

theorem InRX.wide {lo hi lo' hi' : ℝ} {x : RX R} (h : InRX lo hi x) (h1 : lo' ≤ lo) (h2 : hi ≤ hi') : InRX lo' hi' x := by
  obtain ⟨t, e, a, b⟩ := h; exact ⟨t, e, by linarith, by linarith⟩

theorem tenth_val : ∃ t : ℝ, (lit (1/10) : RX R).val = fin t ∧ 0 < t ∧ t ≤ 1 := by
  have h := R.err (1 / 10)
  have := R.u_le
  have := R.e_le
  rw [abs_of_pos (by norm_num : (0 : ℝ) < 1 / 10), abs_le] at h
  refine ⟨R.rnd (1 / 10), ?_, by linarith [h.1], by linarith [h.2]⟩
  rw [RX.lit_val, show (((1 / 10 : Rat)) : ℝ) = (1 / 10 : ℝ) by norm_num, R.post_fin]
  rw [abs_of_pos (by norm_num)]; have := R.big_ge; linarith

theorem zero_val : (lit 0 : RX R).val = fin 0 := by
  rw [RX.lit_val, show (((0 : Rat)) : ℝ) = (0 : ℝ) by norm_num, R.post_fin, R.rnd_zero]
  rw [abs_zero]; have := R.big_ge; linarith

/-- whatever number is requested, the speed setting is a non-negative number. -/
theorem clampVel_rx {m v : RX R} {mr : ℝ} (hm : m.val = fin mr) (h0 : 0 ≤ mr) (hv : v.val ≠ nan) : ∃ u, (Servo.clampVel m v).val = fin u ∧ 0 ≤ u := by
  obtain ⟨t, et, t0, _⟩ := tenth_val (R := R)
  unfold Servo.clampVel
  split
  · exact ⟨mr, hm, h0⟩
  · rename_i h1
    split
    · exact ⟨t, et, t0.le⟩
    · rename_i h2
      have h1' : XR.lt m.val v.val ≠ true := h1
      have h2' : XR.le v.val (lit 0 : RX R).val ≠ true := h2
      rw [zero_val] at h2'
      rw [hm] at h1'
      revert hv h1' h2'
      cases hv' : v.val with
      | fin x => intro _ _ h2; refine ⟨x, rfl, ?_⟩; simp [XR.le] at h2; linarith
      | inf b => intro _ h1 h2; cases b <;> simp [XR.lt, XR.le] at h1 h2
      | nan => intro h _ _; exact absurd rfl h

/-- a servo that stays in [lo, hi] (up to rounding) as long as it is only given targets in [lo, hi]. -/
structure GoodRX (lo hi M : ℝ) (s : Servo (RX R)) : Prop where
  minA : s.minA.val = fin lo
  maxA : s.maxA.val = fin hi
  maxV : ∃ m, s.maxVel.val = fin m ∧ 0 ≤ m
  vel : ∃ u, s.vel.val = fin u ∧ 0 ≤ u
  cur : InRX (lo - R.slack M) (hi + R.slack M) s.cur
  start : InRX (lo - R.slack M) (hi + R.slack M) s.start
  target : InRX lo hi s.target

theorem rx_grid {a : RX R} {x : ℝ} (h : a.val = fin x) : R.rnd x = x ∧ |x| ≤ R.big := by
  have := a.grid; rw [h] at this; exact this

/-- one tick keeps start and angle within the slack of a range that contains the target. -/
theorem tick_range {lo hi M : ℝ} (hM : 0 ≤ M) (hM2 : M ≤ 1000000) (hl : |lo| ≤ M) (hh : |hi| ≤ M) {s : Servo (RX R)}
    (hv : ∃ u, s.vel.val = fin u ∧ 0 ≤ u) (hs : InRX (lo - R.slack M) (hi + R.slack M) s.start) (ht : InRX lo hi s.target) (dt : Nat) :
    InRX (lo - R.slack M) (hi + R.slack M) (s.tick dt).cur ∧ InRX (lo - R.slack M) (hi + R.slack M) (s.tick dt).start ∧ (s.tick dt).target = s.target := by
  obtain ⟨v, ev, v0⟩ := hv
  have hs0 := hs
  have ht0 := ht
  obtain ⟨st, es, s1, s2⟩ := hs
  obtain ⟨tg, et, t1, t2⟩ := ht
  have hS := R.slack_nonneg hM
  have hSl := R.slack_le hM
  have hbig := R.big_ge
  rw [abs_le] at hl hh
  have a1 : |st| ≤ M + R.slack M := by rw [abs_le]; constructor <;> linarith [hl.1, hh.2]
  have a2 : |tg| ≤ M := by rw [abs_le]; constructor <;> linarith [hl.1, hh.2]
  have hb : |tg - st| ≤ R.big := by
    have := abs_sub tg st
    linarith
  have gst := (rx_grid es).1
  rcases RX.tick_rx es et ev v0 hb dt with ⟨e, _⟩ | ⟨d0, d1, e⟩
  · rw [e]
    have := ht0.wide (lo' := lo - R.slack M) (hi' := hi + R.slack M) (by linarith) (by linarith)
    exact ⟨this, this, rfl⟩
  · rw [e]
    refine ⟨?_, hs0, rfl⟩
    generalize RX.deltaR R v (u32 (s.elapsed + dt)) = d at *
    show InRX _ _ (RX.of _)
    by_cases c : st < tg
    · rw [abs_of_pos (by linarith)] at d1
      obtain ⟨b1, b2, b3⟩ := R.up hM gst c.le a1 a2 d0 d1
      refine ⟨R.rnd (st + d), ?_, by linarith, by linarith⟩
      rw [if_pos c]
      exact R.post_fin (by linarith)
    · rw [abs_of_nonpos (by linarith), neg_sub] at d1
      obtain ⟨b1, b2, b3⟩ := R.down hM gst (not_lt.1 c) a1 a2 d0 d1
      refine ⟨R.rnd (st - d), ?_, by linarith, by linarith⟩
      rw [if_neg c]
      exact R.post_fin (by linarith)

/-- **C37 with rounding**: if every target given to a servo is a number in [lo, hi], its home angle is in [lo, hi] and no requested velocity is
NaN, then after every history -- any interleaving of target changes, speed changes and timer ticks of any length, also in the middle of a
target change -- its angle is a number in [lo, hi], up to a slack of four rounding errors of the largest angle (binary32, angles below 4 rad:
less than a millionth of a radian). -/
theorem C37_rounded (pin : Int) (m home : RX R) (f1 f2 : Nat) (l h : RX R) {lo hi M mr : ℝ} (hM : M ≤ 1000000) (hl : |lo| ≤ M) (hh : |hi| ≤ M)
    (hm : m.val = fin mr) (hm0 : 0 ≤ mr) (hhome : InRX lo hi home)
    (es : List (SEv (RX R))) (hv : ∀ v, SEv.setVel v ∈ es → v.val ≠ nan) (ht : ∀ x, SEv.setTarget x ∈ es → InRX lo hi x) :
    InRX (lo - R.slack M) (hi + R.slack M) ((SSt.init (Servo.new pin m f1 f2 l h home)).run es).sv.cur := by
  have hM0 : 0 ≤ M := le_trans (abs_nonneg _) hl
  have hS := R.slack_nonneg hM0
  have key : ∀ (es : List (SEv (RX R))) (s : SSt (RX R)), (∀ v, SEv.setVel v ∈ es → v.val ≠ nan) → (∀ x, SEv.setTarget x ∈ es → InRX lo hi x) →
      s.sv.maxVel = m → (∃ u, s.sv.vel.val = fin u ∧ 0 ≤ u) → InRX (lo - R.slack M) (hi + R.slack M) s.sv.cur →
      InRX (lo - R.slack M) (hi + R.slack M) s.sv.start → InRX lo hi s.sv.target →
      InRX (lo - R.slack M) (hi + R.slack M) s.reg → InRX (lo - R.slack M) (hi + R.slack M) (s.run es).sv.cur := by
    intro es
    induction es with
    | nil => intro s _ _ _ _ h _ _ _; exact h
    | cons e es ih =>
      intro s hv ht hmx hu hc hs htg hr
      have hv' : ∀ v, SEv.setVel v ∈ es → v.val ≠ nan := fun v hv2 => hv v (List.mem_cons_of_mem _ hv2)
      have ht' : ∀ x, SEv.setTarget x ∈ es → InRX lo hi x := fun v hv2 => ht v (List.mem_cons_of_mem _ hv2)
      have go := ih (s.step e) hv' ht'
      cases e with
      | setVel v =>
        refine go hmx ?_ hc hs htg hr
        simp only [SSt.step, Servo.micro]; rw [hmx]
        exact clampVel_rx hm hm0 (hv v (List.mem_cons_self ..))
      | tick dt =>
        have h1 := tick_range hM0 hM hl hh hu hs htg dt
        refine go ?_ ?_ h1.1 h1.2.1 ?_ hr
        · simp only [SSt.step, (tick_vel _ _).2]; exact hmx
        · simp only [SSt.step, (tick_vel _ _).1]; exact hu
        · simp only [SSt.step]; rw [h1.2.2]; exact htg
      | load => exact go hmx hu hc hs htg hc
      | storeStart => exact go hmx hu hc hr htg hr
      | zeroElapsed => exact go hmx hu hc hs htg hr
      | setTarget x => exact go hmx hu hc hs (ht x (List.mem_cons_self ..)) hr
  have hw := hhome.wide (lo' := lo - R.slack M) (hi' := hi + R.slack M) (by linarith) (by linarith)
  exact key es _ hv ht rfl ⟨mr, hm, hm0⟩ hw hw hhome hw

theorem tick_lim (s : Servo (RX R)) (dt : Nat) : (s.tick dt).minA = s.minA ∧ (s.tick dt).maxA = s.maxA := by
  unfold Servo.tick; dsimp only; split
  · exact ⟨rfl, rfl⟩
  · split <;> exact ⟨rfl, rfl⟩

theorem GoodRX.tick {lo hi M : ℝ} (hM2 : M ≤ 1000000) (hl : |lo| ≤ M) (hh : |hi| ≤ M) {s : Servo (RX R)} (h : GoodRX lo hi M s) (dt : Nat) :
    GoodRX lo hi M (s.tick dt) := by
  have hM0 : 0 ≤ M := le_trans (abs_nonneg _) hl
  have h1 := tick_range hM0 hM2 hl hh h.vel h.start h.target dt
  have hfix := tick_lim s dt
  refine ⟨by rw [hfix.1]; exact h.minA, by rw [hfix.2]; exact h.maxA, by rw [(tick_vel _ _).2]; exact h.maxV, by rw [(tick_vel _ _).1]; exact h.vel, h1.1, h1.2.1, ?_⟩
  rw [h1.2.2]; exact h.target

/-- the stores that keep a servo in range. -/
def goodMicroRX (lo hi M : ℝ) : Servo.Micro (RX R) → Prop
  | .setStart x => InRX (lo - R.slack M) (hi + R.slack M) x
  | .zeroElapsed => True
  | .setTarget x => InRX lo hi x
  | .setVel v => v.val ≠ nan

theorem GoodRX.micro {lo hi M : ℝ} {s : Servo (RX R)} (h : GoodRX lo hi M s) {m : Servo.Micro (RX R)} (hm : goodMicroRX lo hi M m) : GoodRX lo hi M (s.micro m) := by
  obtain ⟨h1, h2, h3, h4, h5, h6, h7⟩ := h
  cases m with
  | setStart x => exact ⟨h1, h2, h3, h4, h5, hm, h7⟩
  | zeroElapsed => exact ⟨h1, h2, h3, h4, h5, h6, h7⟩
  | setTarget x => exact ⟨h1, h2, h3, h4, h5, h6, hm⟩
  | setVel v =>
    obtain ⟨mv, emv, m0⟩ := h3
    exact ⟨h1, h2, ⟨mv, emv, m0⟩, clampVel_rx emv m0 hm, h5, h6, h7⟩

/-- NaN of the format. -/
def nanRX : RX R := ⟨nan, trivial⟩
theorem eq_nanRX {x : RX R} (h : x.val = nan) : x = nanRX := RX.ext h

/-- assumed of servo readings: in range; demanded of stores into arm servos: angles in range or NaN. -/
def safeMonRX (lo hi : Fin 6 → RX R) (l h : Fin 6 → ℝ) (M : ℝ) : Mon (RX R) Unit where
  upd _ _ := ()
  env _ a := ∀ i s, a = .servo (armServo i) s → s.minA = lo i ∧ s.maxA = hi i ∧ InRX (l i - R.slack M) (h i + R.slack M) s.cur
  ok _ a := ∀ i m, a = .micro (armServo i) m → m = .setTarget nanRX ∨ m = .setVel nanRX ∨ goodMicroRX (l i) (h i) M m

theorem inRX_of_not_viol {lo hi : ℝ} {x l h : RX R} (el : l.val = fin lo) (eh : h.val = fin hi) (h1 : flt x l = false) (h2 : fgt x h = false) :
    x = nanRX ∨ InRX lo hi x := by
  have h1' : XR.lt x.val l.val = false := h1
  have h2' : XR.lt h.val x.val = false := h2
  rw [el] at h1'
  rw [eh] at h2'
  cases hx : x.val with
  | nan => exact .inl (eq_nanRX hx)
  | inf b => rw [hx] at h1' h2'; cases b <;> simp [XR.lt] at h1' h2'
  | fin t =>
    rw [hx] at h1' h2'
    exact .inr ⟨t, hx, by simpa [XR.lt] using h1', by simpa [XR.lt] using h2'⟩

theorem safeMonRX_safe (cfg : RCfg (RX R)) {lo hi : Fin 6 → RX R} {l h : Fin 6 → ℝ} (el : ∀ i, (lo i).val = fin (l i)) (eh : ∀ i, (hi i).val = fin (h i)) (M : ℝ) :
    SafeMon cfg lo hi (fun i x => InRX (l i - R.slack M) (h i + R.slack M) x) (safeMonRX lo hi l h M) where
  env i s h := h i s rfl
  vel i v := by
    intro j m e; injection e with _ e2; subst e2
    by_cases hv : v.val = nan
    · rw [eq_nanRX hv]; exact .inr (.inl rfl)
    · exact .inr (.inr hv)
  start i x hx := by intro j m e; injection e with e1 e2; obtain rfl := armServo_inj e1; subst e2; exact .inr (.inr hx)
  zero i := by intro j m e; injection e with e1 e2; subst e2; exact .inr (.inr trivial)
  target i t hf := by
    intro j m e; injection e with e1 e2; obtain rfl := armServo_inj e1; subst e2
    rcases inRX_of_not_viol (el i) (eh i) (hf.2 i).1 (hf.2 i).2 with h | h
    · rw [h]; exact .inl rfl
    · exact .inr (.inr h)
  raw x := by intro j m e; cases e

theorem safe_coreRX (cfg : Cfg (RX R)) {lo hi : Fin 6 → RX R} {l h : Fin 6 → ℝ} (el : ∀ i, (lo i).val = fin (l i)) (eh : ∀ i, (hi i).val = fin (h i)) (M : ℝ) :
    CoreInv cfg (safeMonRX lo hi l h M) (fun _ _ => True) (fun _ _ => True) where
  flt _ := trivial
  weak _ _ _ := trivial
  disp g c a _ ha := ⟨fun i m e => by subst e; exact absurd ha (by simp [dispAct]), trivial⟩
  dispJ g c a _ ha := ⟨fun i m e => by subst e; exact absurd ha (by simp [dispAct]), trivial⟩
  rc g c _ := wp_mono (fun _ _ _ => trivial) (RC.process_safe (safeMonRX_safe cfg.toRCfg el eh M) c.rc ⟨fun _ => trivial, fun _ _ _ _ _ => trivial⟩)
  parse g c m src _ := by
    refine ⟨fun i m' e => (by cases e), ?_⟩
    refine wp_mono (fun _ _ _ => trivial) (wp_of_only (parse_only cfg c m) () (fun a ha => ⟨rfl, ?_⟩) (fun _ => trivial))
    rintro i m rfl
    have h6 : 6 ≤ (armServo i).val := ha
    exact absurd h6 (by simp [armServo])
  check g c _ := by
    refine wp_mono (fun _ _ _ => trivial) (wp_of_only (mrilProcess_only c) () (fun a ha => ⟨rfl, ?_⟩) (fun _ => trivial))
    rintro i m rfl
    exact absurd ha (by simp [checkAct])

theorem setup_safeRX (cfg : Cfg (RX R)) (junk : Nat → Byte) (lo hi : Fin 6 → RX R) (l h : Fin 6 → ℝ) (M : ℝ) :
    (setup cfg junk).wp (safeMonRX lo hi l h M) (fun _ _ => True) () := by
  simp only [setup, RC.new, RC.getCurrentPose, RC.getCurrentLogicalAngles, RC.readAngles, readServo, bind_def, pure_def, Prog.bind, wp]
  intros; trivial

/-- every arm servo is good, and has the limits lo, hi. -/
def AllGoodRX (lo hi : Fin 6 → RX R) (l h : Fin 6 → ℝ) (M : ℝ) (w : World (RX R)) : Prop :=
  ∀ i, GoodRX (l i) (h i) M (w.servos (armServo i)) ∧ (w.servos (armServo i)).minA = lo i ∧ (w.servos (armServo i)).maxA = hi i

theorem allGoodRX_run {cfg : Cfg (RX R)} {w0 : World (RX R)} {junk : Nat → Byte} {lo hi : Fin 6 → RX R} {l h : Fin 6 → ℝ} {M : ℝ}
    (el : ∀ i, (lo i).val = fin (l i)) (eh : ∀ i, (hi i).val = fin (h i)) (hM : M ≤ 1000000) (hl : ∀ i, |l i| ≤ M) (hh : ∀ i, |h i| ≤ M)
    (h0 : AllGoodRX lo hi l h M w0) {evs : List (Ev (RX R))} {s : Sys (RX R)} (hr : Sys.Run cfg w0 junk evs s)
    (hn : ∀ i, Act.micro (armServo i) (.setTarget nanRX) ∉ acts evs ∧ Act.micro (armServo i) (.setVel nanRX) ∉ acts evs) :
    AllGoodRX lo hi l h M s.w ∧ s.p.wp (safeMonRX lo hi l h M) (fun _ _ => True) () := by
  induction hr with
  | init => exact ⟨h0, setup_safeRX cfg junk lo hi l h M⟩
  | @step evs s e t hr hs ih =>
    have hn1 : ∀ i, Act.micro (armServo i) (.setTarget nanRX) ∉ acts evs ∧ Act.micro (armServo i) (.setVel nanRX) ∉ acts evs := fun i => by
      have := hn i; rw [acts_append] at this; simp only [List.mem_append, not_or] at this; exact ⟨this.1.1, this.2.1⟩
    have hn2 : ∀ i, Act.micro (armServo i) (.setTarget nanRX) ∉ acts [e] ∧ Act.micro (armServo i) (.setVel nanRX) ∉ acts [e] := fun i => by
      have := hn i; rw [acts_append] at this; simp only [List.mem_append, not_or] at this; exact ⟨this.1.2, this.2.2⟩
    obtain ⟨hg, hw⟩ := ih hn1
    cases hs with
    | loop => exact ⟨hg, (safe_coreRX cfg el eh M).loop_wp _ trivial⟩
    | servo =>
      refine ⟨hg, hw _ ?_⟩
      intro i s e; injection e with e1 e2
      subst e1; subst e2
      exact ⟨(hg i).2.1, (hg i).2.2, (hg i).1.cur⟩
    | @micro w i m k =>
      refine ⟨?_, hw.2⟩
      intro j
      by_cases e : armServo j = i
      · subst e
        have hm : goodMicroRX (l j) (h j) M m := by
          rcases hw.1 j m rfl with rfl | rfl | h
          · exact absurd (by simp [acts]) (hn2 j).1
          · exact absurd (by simp [acts]) (hn2 j).2
          · exact h
        have hfix : ((w.servos (armServo j)).micro m).minA = (w.servos (armServo j)).minA ∧ ((w.servos (armServo j)).micro m).maxA = (w.servos (armServo j)).maxA := by
          cases m <;> exact ⟨rfl, rfl⟩
        have := (hg j).1.micro hm
        simp only [World.setServo, if_true]
        exact ⟨this, hfix.1.trans (hg j).2.1, hfix.2.trans (hg j).2.2⟩
      · have : (w.setServo i ((w.servos i).micro m)).servos (armServo j) = w.servos (armServo j) := by simp [World.setServo, e]
        rw [this]; exact hg j
    | now => exact ⟨hg, hw _ (fun i s e => by cases e)⟩
    | pin => exact ⟨hg, hw _ (fun i s e => by cases e)⟩
    | rxNone h => exact ⟨hg, hw _ (fun i s e => by cases e)⟩
    | rxSome h => exact ⟨hg, hw _ (fun i s e => by cases e)⟩
    | eeRead => exact ⟨hg, hw _ (fun i s e => by cases e)⟩
    | eeWrite => exact ⟨hg, hw.2⟩
    | out => exact ⟨hg, hw.2⟩
    | isr =>
      refine ⟨fun i => ?_, hw⟩
      exact ⟨(hg i).1.tick hM (hl i) (hh i) _, (tick_lim _ _).1.trans (hg i).2.1, (tick_lim _ _).2.trans (hg i).2.2⟩
    | clock t ht => exact ⟨hg, hw⟩
    | pins f => exact ⟨hg, hw⟩
    | arrive bs => exact ⟨hg, hw⟩

/-- **C62 with rounding**: power up with any storage contents, any robot (kinematics, couplings, logical limits), any float format and any libm; arm
servos that start at a home position within their range [l, h], angles up to `M`. Let any bytes arrive, any inputs change and the timer interrupt
run between any two accesses. Unless the firmware stored a NaN as target angle or velocity, every arm servo is within its range up to a slack of
four rounding errors. -/
theorem C62_rounded {cfg : Cfg (RX R)} {w0 : World (RX R)} {junk : Nat → Byte} {l h : Fin 6 → ℝ} {M : ℝ} (hM : M ≤ 1000000) (hl : ∀ i, |l i| ≤ M) (hh : ∀ i, |h i| ≤ M)
    (h0 : ∀ i, ∃ pin m mr f1 f2 lo hi home, w0.servos (armServo i) = Servo.new pin m f1 f2 lo hi home ∧
      m.val = fin mr ∧ 0 ≤ mr ∧ lo.val = fin (l i) ∧ hi.val = fin (h i) ∧ InRX (l i) (h i) home)
    {evs : List (Ev (RX R))} {s : Sys (RX R)} (hr : Sys.Run cfg w0 junk evs s)
    (hn : ∀ i, Act.micro (armServo i) (.setTarget nanRX) ∉ acts evs ∧ Act.micro (armServo i) (.setVel nanRX) ∉ acts evs) (i : Fin 6) :
    ∃ x : ℝ, (s.w.servos (armServo i)).cur.val = fin x ∧ l i - R.slack M ≤ x ∧ x ≤ h i + R.slack M := by
  have hM0 : 0 ≤ M := le_trans (abs_nonneg _) (hl 0)
  have hS := R.slack_nonneg hM0
  refine ((allGoodRX_run (lo := fun i => (w0.servos (armServo i)).minA) (hi := fun i => (w0.servos (armServo i)).maxA) (l := l) (h := h) (M := M)
    ?_ ?_ hM hl hh ?_ hr hn).1 i).1.cur
  · intro i; obtain ⟨pin, m, mr, f1, f2, lo, hi, home, e, _, _, e1, _⟩ := h0 i; rw [e]; exact e1
  · intro i; obtain ⟨pin, m, mr, f1, f2, lo, hi, home, e, _, _, _, e1, _⟩ := h0 i; rw [e]; exact e1
  · intro i
    obtain ⟨pin, m, mr, f1, f2, lo, hi, home, e, em, m0, e1, e2, hhome⟩ := h0 i
    have hw := hhome.wide (lo' := l i - R.slack M) (hi' := h i + R.slack M) (by linarith) (by linarith)
    refine ⟨?_, rfl, rfl⟩
    rw [e]
    exact ⟨e1, e2, ⟨mr, em, m0⟩, ⟨mr, em, m0⟩, hw, hw, hhome⟩

end Mrc.Props
