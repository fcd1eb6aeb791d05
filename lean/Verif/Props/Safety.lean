import Verif.Props.Servo
import Verif.Props.Motion
import Verif.Proof.CoreWp
import Verif.Proof.Safe
import Verif.Model.Config
/-
C62: no arm servo ever leaves its range, whatever the inputs, the storage contents and the interleaving with the timer interrupt.
Over the exact numbers XR.
-/
set_option linter.unusedSectionVars false
set_option linter.unusedSimpArgs false
namespace Mrc.Props
open Mrc Mrc.Spec Mrc.Prog XR
open scoped Mrc.Num

/-- a servo that stays in [lo, hi] as long as it is only given targets in [lo, hi]. -/
structure GoodServo (lo hi : ℝ) (s : Servo XR) : Prop where
  minA : s.minA = fin lo
  maxA : s.maxA = fin hi
  maxV : ∃ m, s.maxVel = fin m ∧ 0 ≤ m
  vel : ∃ u, s.vel = fin u ∧ 0 ≤ u
  cur : InR lo hi s.cur
  start : InR lo hi s.start
  target : InR lo hi s.target

theorem GoodServo.tick {lo hi : ℝ} {s : Servo XR} (h : GoodServo lo hi s) (dt : Nat) : GoodServo lo hi (s.tick dt) := by
  obtain ⟨h1, h2, h3, ⟨u, eu, u0⟩, h5, ⟨st, es1, s1, s2⟩, ⟨tg, et, t1, t2⟩⟩ := h
  have hd : 0 ≤ u * ((u32 (s.elapsed + dt) : ℕ) : ℝ) / 1000 := by positivity
  have hb := between hd s1 s2 t1 t2
  rw [tick_fin s st tg u dt es1 et eu]
  refine ⟨h1, h2, h3, ⟨u, eu, u0⟩, ⟨_, rfl, hb⟩, ⟨_, rfl, ?_⟩, ⟨tg, et, t1, t2⟩⟩
  split
  · exact ⟨t1, t2⟩
  · exact ⟨s1, s2⟩

/-- the stores that keep a servo in range. -/
def goodMicro (lo hi : ℝ) : Servo.Micro XR → Prop
  | .setStart x => InR lo hi x
  | .zeroElapsed => True
  | .setTarget x => InR lo hi x
  | .setVel v => v ≠ nan

theorem GoodServo.micro {lo hi : ℝ} {s : Servo XR} (h : GoodServo lo hi s) {m : Servo.Micro XR} (hm : goodMicro lo hi m) : GoodServo lo hi (s.micro m) := by
  obtain ⟨h1, h2, ⟨mv, emv, m0⟩, h4, h5, h6, h7⟩ := h
  cases m with
  | setStart x => exact ⟨h1, h2, ⟨mv, emv, m0⟩, h4, h5, hm, h7⟩
  | zeroElapsed => exact ⟨h1, h2, ⟨mv, emv, m0⟩, h4, h5, h6, h7⟩
  | setTarget x => exact ⟨h1, h2, ⟨mv, emv, m0⟩, h4, h5, h6, hm⟩
  | setVel v =>
    obtain ⟨u, e1, e2, _⟩ := clampVel_pos mv m0 v hm
    exact ⟨h1, h2, ⟨mv, emv, m0⟩, ⟨u, by simp only [Servo.micro]; rw [emv]; exact e1, e2⟩, h5, h6, h7⟩

/-- assumed of servo readings: in range; demanded of stores into arm servos: angles in range or NaN. -/
def safeMon (lo hi : Fin 6 → ℝ) : Mon XR Unit where
  upd _ _ := ()
  env _ a := ∀ i s, a = .servo (armServo i) s → s.minA = fin (lo i) ∧ s.maxA = fin (hi i) ∧ InR (lo i) (hi i) s.cur
  ok _ a := ∀ i m, a = .micro (armServo i) m → m = .setTarget nan ∨ m = .setVel nan ∨ goodMicro (lo i) (hi i) m

theorem armServo_inj {i j : Fin 6} (h : armServo i = armServo j) : i = j := by
  apply Fin.ext; exact congrArg (fun x : Fin 8 => x.val) h

theorem inR_of_not_viol {lo hi : ℝ} {x : XR} (h1 : flt x (fin lo) = false) (h2 : fgt x (fin hi) = false) : x = nan ∨ InR lo hi x := by
  cases x with
  | nan => exact .inl rfl
  | inf b => cases b <;> simp [flt, fgt, FloatOps.lt, XR.lt] at h1 h2
  | fin x => exact .inr ⟨x, rfl, by simpa [flt] using h1, by simpa [fgt] using h2⟩

theorem safeMon_safe (cfg : RCfg XR) (lo hi : Fin 6 → ℝ) : SafeMon cfg (finS lo) (finS hi) (fun i x => InR (lo i) (hi i) x) (safeMon lo hi) where
  env i s h := h i s rfl
  vel i v := by
    intro j m e; injection e with _ e2; subst e2
    by_cases hv : v = nan
    · subst hv; exact .inr (.inl rfl)
    · exact .inr (.inr hv)
  start i x hx := by intro j m e; injection e with e1 e2; obtain rfl := armServo_inj e1; subst e2; exact .inr (.inr hx)
  zero i := by intro j m e; injection e with e1 e2; subst e2; exact .inr (.inr trivial)
  target i t hf := by
    intro j m e; injection e with e1 e2; obtain rfl := armServo_inj e1; subst e2
    rcases inR_of_not_viol (hf.2 i).1 (hf.2 i).2 with h | h
    · rw [h]; exact .inl rfl
    · exact .inr (.inr h)
  raw x := by intro j m e; cases e

theorem safe_core (cfg : Cfg XR) (lo hi : Fin 6 → ℝ) : CoreInv cfg (safeMon lo hi) (fun _ _ => True) (fun _ _ => True) where
  flt _ := trivial
  weak _ _ _ := trivial
  disp g c a _ ha := ⟨fun i m e => by subst e; exact absurd ha (by simp [dispAct]), trivial⟩
  dispJ g c a _ ha := ⟨fun i m e => by subst e; exact absurd ha (by simp [dispAct]), trivial⟩
  rc g c _ := wp_mono (fun _ _ _ => trivial) (RC.process_safe (safeMon_safe cfg.toRCfg lo hi) c.rc ⟨fun _ => trivial, fun _ _ _ _ _ => trivial⟩)
  parse g c m src _ := by
    refine ⟨fun i m' e => (by cases e), ?_⟩
    refine wp_mono (fun _ _ _ => trivial) (wp_of_only (parse_only cfg c m) () (fun a ha => ⟨rfl, ?_⟩) (fun _ => trivial))
    rintro i m rfl
    have h6 : 6 ≤ (armServo i).val := ha
    exact absurd h6 (by simp [armServo])
  check g c _ := by
    refine wp_mono (fun _ _ _ => trivial) (wp_of_only (mrilProcess_only c) () (fun a ha => ⟨rfl, ?_⟩) (fun _ => trivial))
    rintro i m rfl
    exact absurd ha (by simp [checkAct])

/-- every arm servo is good. -/
def AllGood (lo hi : Fin 6 → ℝ) (w : World XR) : Prop := ∀ i, GoodServo (lo i) (hi i) (w.servos (armServo i))

theorem setup_safe (cfg : Cfg XR) (junk : Nat → Byte) (lo hi : Fin 6 → ℝ) : (setup cfg junk).wp (safeMon lo hi) (fun _ _ => True) () := by
  simp only [setup, RC.new, RC.getCurrentPose, RC.getCurrentLogicalAngles, RC.readAngles, readServo, bind_def, pure_def, Prog.bind, wp]
  intros; trivial

theorem allGood_micro {lo hi : Fin 6 → ℝ} {w : World XR} (h : AllGood lo hi w) {i : Fin 8} {m : Servo.Micro XR}
    (hm : ∀ j, i = armServo j → goodMicro (lo j) (hi j) m) : AllGood lo hi (w.setServo i ((w.servos i).micro m)) := by
  intro j
  by_cases e : armServo j = i
  · subst e
    simpa [World.setServo] using (h j).micro (hm j rfl)
  · have : (w.setServo i ((w.servos i).micro m)).servos (armServo j) = w.servos (armServo j) := by simp [World.setServo, e]
    rw [this]; exact h j

theorem allGood_run {cfg : Cfg XR} {w0 : World XR} {junk : Nat → Byte} {lo hi : Fin 6 → ℝ} (h0 : AllGood lo hi w0) {evs : List (Ev XR)} {s : Sys XR}
    (h : Sys.Run cfg w0 junk evs s)
    (hn : ∀ i, Act.micro (armServo i) (.setTarget nan) ∉ acts evs ∧ Act.micro (armServo i) (.setVel nan) ∉ acts evs) :
    AllGood lo hi s.w ∧ s.p.wp (safeMon lo hi) (fun _ _ => True) () := by
  induction h with
  | init => exact ⟨h0, setup_safe cfg junk lo hi⟩
  | @step evs s e t h hs ih =>
    have hn1 : ∀ i, Act.micro (armServo i) (.setTarget nan) ∉ acts evs ∧ Act.micro (armServo i) (.setVel nan) ∉ acts evs := fun i => by
      have := hn i; rw [acts_append] at this; simp only [List.mem_append, not_or] at this; exact ⟨this.1.1, this.2.1⟩
    have hn2 : ∀ i, Act.micro (armServo i) (.setTarget nan) ∉ acts [e] ∧ Act.micro (armServo i) (.setVel nan) ∉ acts [e] := fun i => by
      have := hn i; rw [acts_append] at this; simp only [List.mem_append, not_or] at this; exact ⟨this.1.2, this.2.2⟩
    obtain ⟨hg, hw⟩ := ih hn1
    cases hs with
    | loop => exact ⟨hg, (safe_core cfg lo hi).loop_wp _ trivial⟩
    | servo =>
      refine ⟨hg, hw _ ?_⟩
      intro i s e; injection e with e1 e2
      subst e1; subst e2
      exact ⟨(hg i).minA, (hg i).maxA, (hg i).cur⟩
    | @micro w i m k =>
      refine ⟨allGood_micro hg ?_, hw.2⟩
      intro j e; subst e
      rcases hw.1 j m rfl with rfl | rfl | h
      · exact absurd (by simp [acts]) (hn2 j).1
      · exact absurd (by simp [acts]) (hn2 j).2
      · exact h
    | now => exact ⟨hg, hw _ (fun i s e => by cases e)⟩
    | pin => exact ⟨hg, hw _ (fun i s e => by cases e)⟩
    | rxNone h => exact ⟨hg, hw _ (fun i s e => by cases e)⟩
    | rxSome h => exact ⟨hg, hw _ (fun i s e => by cases e)⟩
    | eeRead => exact ⟨hg, hw _ (fun i s e => by cases e)⟩
    | eeWrite => exact ⟨hg, hw.2⟩
    | out => exact ⟨hg, hw.2⟩
    | isr => exact ⟨fun i => (hg i).tick _, hw⟩
    | clock t ht => exact ⟨hg, hw⟩
    | pins f => exact ⟨hg, hw⟩
    | arrive bs => exact ⟨hg, hw⟩

theorem goodServo_new {pin : Int} {m lo hi home : ℝ} {f1 f2 : Nat} (hm : 0 ≤ m) (h1 : lo ≤ home) (h2 : home ≤ hi) :
    GoodServo lo hi (Servo.new pin (fin m) f1 f2 (fin lo) (fin hi) (fin home)) :=
  ⟨rfl, rfl, ⟨m, rfl, hm⟩, ⟨m, rfl, hm⟩, ⟨home, rfl, h1, h2⟩, ⟨home, rfl, h1, h2⟩, ⟨home, rfl, h1, h2⟩⟩

/-- **C62**: power up with any storage contents, any robot (kinematics, couplings, limits) whose arm servos start at a home position within
their range; let any bytes arrive, any inputs change and the timer interrupt run between any two accesses. Unless the firmware stored
a NaN as target angle or velocity, every arm servo is still within its range. -/
theorem C62_range {cfg : Cfg XR} {w0 : World XR} {junk : Nat → Byte} {lo hi : Fin 6 → ℝ}
    (h0 : ∀ i, ∃ pin m f1 f2 home, w0.servos (armServo i) = Servo.new pin (fin m) f1 f2 (fin (lo i)) (fin (hi i)) (fin home) ∧
      0 ≤ m ∧ lo i ≤ home ∧ home ≤ hi i)
    {evs : List (Ev XR)} {s : Sys XR} (h : Sys.Run cfg w0 junk evs s)
    (hn : ∀ i, Act.micro (armServo i) (.setTarget nan) ∉ acts evs ∧ Act.micro (armServo i) (.setVel nan) ∉ acts evs) (i : Fin 6) :
    ∃ x : ℝ, (s.w.servos (armServo i)).cur = fin x ∧ lo i ≤ x ∧ x ≤ hi i := by
  refine ((allGood_run (lo := lo) (hi := hi) (fun i => ?_) h hn).1 i).cur
  obtain ⟨pin, m, f1, f2, home, e, hm, h1, h2⟩ := h0 i
  rw [e]; exact goodServo_new hm h1 h2

theorem deg_fin (q : Rat) : (deg q : XR) = fin ((q : ℝ) * (Real.pi / 180)) := by
  have h : ((180 : Rat) : ℝ) ≠ 0 := by norm_num
  simp only [deg, degToRad, lit, ops_pi, ops_lit, ops_div, fin_div _ _ h, fin_mul]; norm_num

/-- the constants of a servo. -/
def fixedPart {F : Type} (s : Servo F) : Int × F × Nat × Nat × F × F × F := (s.pin, s.home, s.minFreq, s.maxFreq, s.minA, s.maxA, s.maxVel)

theorem fixed_tick {F : Type} [FloatOps F] (s : Servo F) (dt : Nat) : fixedPart (s.tick dt) = fixedPart s := by
  unfold Servo.tick; simp only; split
  · rfl
  · split <;> rfl
theorem fixed_micro {F : Type} [FloatOps F] (s : Servo F) (m : Servo.Micro F) : fixedPart (s.micro m) = fixedPart s := by cases m <;> rfl

/-- **C62/2**: pin, calibration, range and speed limit of all eight servos never change. -/
theorem C62_constants {F : Type} [FloatOps F] {cfg : Cfg F} {w0 : World F} {junk : Nat → Byte} {evs : List (Ev F)} {s : Sys F} (h : Sys.Run cfg w0 junk evs s) (i : Fin 8) :
    (s.w.servos i).pin = (w0.servos i).pin ∧ (s.w.servos i).minFreq = (w0.servos i).minFreq ∧ (s.w.servos i).maxFreq = (w0.servos i).maxFreq ∧
    (s.w.servos i).minA = (w0.servos i).minA ∧ (s.w.servos i).maxA = (w0.servos i).maxA ∧ (s.w.servos i).maxVel = (w0.servos i).maxVel := by
  have key : fixedPart (s.w.servos i) = fixedPart (w0.servos i) := by
    induction h with
    | init => rfl
    | @step evs s e t h hs ih =>
      rw [← ih]
      cases hs with
      | @micro w j m k =>
        by_cases e : i = j
        · subst e; simp [World.setServo, fixed_micro]
        · simp [World.setServo, e]
      | isr => exact fixed_tick _ _
      | _ => rfl
  simp only [fixedPart, Prod.mk.injEq] at key
  obtain ⟨h1, h2, h3, h4, h5, h6, h7⟩ := key
  exact ⟨h1, h3, h4, h5, h6, h7⟩

/-- **C62/3**: what the servo hardware gets: under the conditions of C62_range and with a proper range, the pulse width of every arm servo is defined and
between its two calibration values at every moment. -/
theorem C62_pulse {cfg : Cfg XR} {w0 : World XR} {junk : Nat → Byte} {lo hi : Fin 6 → ℝ} {f1 f2 : Fin 6 → Nat}
    (h0 : ∀ i, ∃ pin m home, w0.servos (armServo i) = Servo.new pin (fin m) (f1 i) (f2 i) (fin (lo i)) (fin (hi i)) (fin home) ∧
      0 ≤ m ∧ lo i ≤ home ∧ home ≤ hi i)
    (hlt : ∀ i, lo i < hi i) (hf : ∀ i, f1 i ≤ 2147483647 ∧ f2 i ≤ 2147483647)
    {evs : List (Ev XR)} {s : Sys XR} (h : Sys.Run cfg w0 junk evs s)
    (hn : ∀ i, Act.micro (armServo i) (.setTarget nan) ∉ acts evs ∧ Act.micro (armServo i) (.setVel nan) ∉ acts evs) (i : Fin 6) :
    ∃ p, (s.w.servos (armServo i)).pulse = some p ∧ min (f1 i : ℤ) (f2 i) ≤ p ∧ p ≤ max (f1 i : ℤ) (f2 i) := by
  obtain ⟨x, e, x1, x2⟩ := C62_range (lo := lo) (hi := hi) (fun i => by
    obtain ⟨pin, m, home, e, r⟩ := h0 i; exact ⟨pin, m, _, _, home, e, r⟩) h hn i
  obtain ⟨_, c2, c3, c4, c5, _⟩ := C62_constants h (armServo i)
  obtain ⟨pin, m, home, ew, _⟩ := h0 i
  rw [ew] at c2 c3 c4 c5
  have := C40_pulse_range _ x (lo i) (hi i) e c4 c5 (hlt i) x1 x2 (by rw [c2]; exact (hf i).1) (by rw [c3]; exact (hf i).2)
  rw [c2, c3] at this
  exact this

/-- the arm servos of the robot kit start within their ranges. -/
theorem kit_ready (w0 : World XR) (hw : w0.servos = Kit.servos) (i : Fin 6) : ∃ pin m home, w0.servos (armServo i) =
      Servo.new pin (fin m) (Kit.freq (armServo i)).1 (Kit.freq (armServo i)).2 (fin ((Kit.minDeg (armServo i) : ℝ) * (Real.pi / 180)))
        (fin ((Kit.maxDeg (armServo i) : ℝ) * (Real.pi / 180))) (fin home) ∧
      0 ≤ m ∧ (Kit.minDeg (armServo i) : ℝ) * (Real.pi / 180) ≤ home ∧ home ≤ (Kit.maxDeg (armServo i) : ℝ) * (Real.pi / 180) := by
  refine ⟨Kit.pin (armServo i), (Kit.velDeg (armServo i) : ℝ) * (Real.pi / 180), 0, ?_, ?_, ?_, ?_⟩
  · rw [hw]; simp only [Kit.servos, deg_fin, lit]; simp
  · have := Real.pi_pos
    have : (0 : ℝ) ≤ (Kit.velDeg (armServo i) : ℝ) := by
      have : (0 : ℚ) ≤ Kit.velDeg (armServo i) := by fin_cases i <;> decide
      exact_mod_cast this
    positivity
  · have hp := Real.pi_pos
    have : (Kit.minDeg (armServo i) : ℝ) ≤ 0 := by
      have : Kit.minDeg (armServo i) ≤ 0 := by fin_cases i <;> decide
      exact_mod_cast this
    nlinarith
  · have hp := Real.pi_pos
    have : (0 : ℝ) ≤ (Kit.maxDeg (armServo i) : ℝ) := by
      have : 0 ≤ Kit.maxDeg (armServo i) := by fin_cases i <;> decide
      exact_mod_cast this
    positivity

/-- **C62/4**: the robot kit as configured: every arm servo stays within the angles of the configuration, and its pulse within the calibration. -/
theorem C62_kit {cfg : Cfg XR} {w0 : World XR} (hw : w0.servos = Kit.servos) {junk : Nat → Byte} {evs : List (Ev XR)} {s : Sys XR} (h : Sys.Run cfg w0 junk evs s)
    (hn : ∀ i, Act.micro (armServo i) (.setTarget nan) ∉ acts evs ∧ Act.micro (armServo i) (.setVel nan) ∉ acts evs) (i : Fin 6) :
    (∃ x : ℝ, (s.w.servos (armServo i)).cur = fin (x * (Real.pi / 180)) ∧ Kit.minDeg (armServo i) ≤ x ∧ x ≤ Kit.maxDeg (armServo i)) ∧
    ∃ p, (s.w.servos (armServo i)).pulse = some p ∧ min ((Kit.freq (armServo i)).1 : ℤ) (Kit.freq (armServo i)).2 ≤ p ∧
      p ≤ max ((Kit.freq (armServo i)).1 : ℤ) (Kit.freq (armServo i)).2 := by
  have hp := Real.pi_pos
  constructor
  · obtain ⟨x, e, x1, x2⟩ := C62_range (fun i => by obtain ⟨pin, m, home, e, r⟩ := kit_ready w0 hw i; exact ⟨pin, m, _, _, home, e, r⟩) h hn i
    refine ⟨x / (Real.pi / 180), by rw [e]; congr 1; field_simp, ?_, ?_⟩
    · rw [le_div_iff₀ (by positivity)]; exact x1
    · rw [div_le_iff₀ (by positivity)]; exact x2
  · refine C62_pulse (f1 := fun i => (Kit.freq (armServo i)).1) (f2 := fun i => (Kit.freq (armServo i)).2) (kit_ready w0 hw) (fun i => ?_) (fun i => ?_) h hn i
    · have : (Kit.minDeg (armServo i) : ℝ) < Kit.maxDeg (armServo i) := by
        have : Kit.minDeg (armServo i) < Kit.maxDeg (armServo i) := by fin_cases i <;> decide
        exact_mod_cast this
      have : 0 < Real.pi / 180 := by positivity
      nlinarith
    · fin_cases i <;> decide

theorem tick_nan (s : Servo XR) (st v : ℝ) (dt : Nat) (h1 : s.start = fin st) (h2 : s.target = nan) (h3 : s.vel = fin v) :
    s.tick dt = { s with elapsed := u32 (s.elapsed + dt), cur := fin (st - v * (u32 (s.elapsed + dt) : ℕ) / 1000) } := by
  have e1000 : ((1000 : Rat) : ℝ) ≠ 0 := by norm_num
  unfold Servo.tick fgt Servo.ofNat lit
  simp only [h1, h2, h3, ops_lit, fin_mul, fin_div _ _ e1000, nan_sub, ops_abs, fin_sub, ops_lt]
  simp [FloatOps.lt, FloatOps.abs, XR.lt, XR.abs]

/-- **C62/5**, why NaN is excluded: a servo at rest within its range [-1, 1] with a speed limit of 50 per second that is given the target NaN runs away:
`n` interrupts later it stands at -n. -/
theorem C62_nan (n : ℕ) (hn : n ≤ 1000000) :
    ((Servo.tick · 20)^[n] ((Servo.new 3 (fin 50) 700 2300 (fin (-1)) (fin 1) (fin 0) : Servo XR).setTargetRadAngle nan)).cur = fin (-(n : ℝ)) := by
  have key : ∀ n : ℕ, n ≤ 1000000 → let s := (Servo.tick · 20)^[n] ((Servo.new 3 (fin 50) 700 2300 (fin (-1)) (fin 1) (fin 0) : Servo XR).setTargetRadAngle nan)
      s.start = fin 0 ∧ s.target = nan ∧ s.vel = fin 50 ∧ s.elapsed = 20 * n ∧ s.cur = fin (-(n : ℝ)) := by
    intro n
    induction n with
    | zero => intro _; refine ⟨rfl, rfl, rfl, rfl, ?_⟩; simp [Servo.setTargetRadAngle, Servo.new, Servo.micro]
    | succ n ih =>
      intro h
      obtain ⟨h1, h2, h3, h4, _⟩ := ih (by omega)
      simp only [Function.iterate_succ', Function.comp]
      rw [tick_nan _ 0 50 20 h1 h2 h3]
      refine ⟨h1, h2, h3, ?_, ?_⟩
      · simp only [h4]; unfold u32; omega
      · simp only [h4]
        have : u32 (20 * n + 20) = 20 * n + 20 := by unfold u32; omega
        rw [this]; congr 1; push_cast; ring
  exact (key n hn).2.2.2.2

/-- the conditions of C62_kit can be met: power-up, bytes arrive, the interrupt runs, the program begins. -/
example : ∃ (w0 : World XR) (evs : List (Ev XR)) (s : Sys XR), w0.servos = Kit.servos ∧ Sys.Run Kit.cfg w0 (fun _ => 0) evs s ∧ evs.length = 4 ∧
    (∀ i, Act.micro (armServo i) (.setTarget nan) ∉ acts evs ∧ Act.micro (armServo i) (.setVel nan) ∉ acts evs) := by
  let w0 : World XR := { servos := Kit.servos, now := 1, pins := fun _ => false, rxq := [], ee := fun _ => 0, outs := [] }
  refine ⟨w0, _, _, rfl, .step (.step (.step (.step .init (.arrive (str "X10"))) .isr) .servo) .isr, rfl, ?_⟩
  intro i; simp [acts]

end Mrc.Props
