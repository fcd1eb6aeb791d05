import Verif.Props.Safety
import Verif.Props.Units
import Verif.Proof.MrilWp
import Verif.Proof.Demo
/-
C70, C75: the additional axes R6, R7 (AdditionalAxisController.h, MRILParser.cpp:122-133, 215-244).
-/
set_option linter.unusedSectionVars false
set_option linter.unusedSimpArgs false
namespace Mrc.Props
open Mrc Mrc.Spec Mrc.Prog XR
open scoped Mrc.Num

/-- the servo of additional axis R6 / R7. -/
def axServo (j : Fin 2) : Fin 8 := ⟨6 + j.val, by omega⟩

/-- assumed of readings of the axis: in range; demanded of stores: like for the arm, but targets are arbitrary. -/
def axMon (j : Fin 2) (lo hi : ℝ) : Mon XR Unit where
  upd _ _ := ()
  env _ a := ∀ s, a = .servo (axServo j) s → InR lo hi s.cur
  ok _ a := ∀ m, a = .micro (axServo j) m → (∃ x, m = .setTarget x) ∨ m = .setVel nan ∨ goodMicro lo hi m

theorem arm_ne_ax (i : Fin 6) (j : Fin 2) : armServo i ≠ axServo j := by
  intro e; have := congrArg Fin.val e; simp [armServo, axServo] at this; omega

theorem ax_exec (cfg : Cfg XR) (j : Fin 2) (lo hi : ℝ) (s : Core XR) (l : Loc XR) (tok : List Byte) (g : Unit) :
    (Mril.exec cfg s l tok).wp (axMon j lo hi) (fun _ _ => True) g := by
  have hsv : ∀ v : XR, v = nan ∨ goodMicro lo hi (.setVel v) := fun v => by by_cases h : v = nan <;> simp [h, goodMicro]
  have hv : ∀ (i : Fin 8) (v : XR), (axMon j lo hi).ok () (.micro i (.setVel v)) := by
    intro i v m e; injection e with _ e; subst e
    rcases hsv v with rfl | h
    · exact .inr (.inl rfl)
    · exact .inr (.inr h)
  have hin : ∀ a : Fin 8, ∀ (sv : Servo XR) , (axMon j lo hi).env () (.servo a sv) → (axMon j lo hi).ok () (.micro a (.setStart sv.cur)) := by
    intro a sv h m e; injection e with e1 e2; subst e2; subst e1
    exact .inr (.inr (h sv rfl))
  have hz : ∀ a : Fin 8, (axMon j lo hi).ok () (.micro a .zeroElapsed) := by
    intro a m e; injection e with e1 e2; subst e2; exact .inr (.inr trivial)
  have ht : ∀ (a : Fin 8) (x : XR), (axMon j lo hi).ok () (.micro a (.setTarget x)) := by
    intro a x m e; injection e with e1 e2; subst e2; exact .inl ⟨x, rfl⟩
  have ho : ∀ o, (axMon j lo hi).ok () (.out o) := by intro o m e; cases e
  exec_leaves
  all_goals simp only [Prog.bind, wp, forall_const, implies_true, and_true, ho, true_and]
  all_goals first
    | trivial
    | exact ⟨hv _ _, hv _ _⟩
    | exact fun v h => ⟨hin _ v h, hz _, ht _ _⟩
    | skip

theorem ax_core (cfg : Cfg XR) (j : Fin 2) (lo hi : ℝ) : CoreInv cfg (axMon j lo hi) (fun _ _ => True) (fun _ _ => True) where
  flt _ := trivial
  weak _ _ _ := trivial
  disp g c a _ ha := ⟨fun m e => by subst e; exact absurd ha (by simp [dispAct]), trivial⟩
  dispJ g c a _ ha := ⟨fun m e => by subst e; exact absurd ha (by simp [dispAct]), trivial⟩
  rc g c _ := by
    refine wp_mono (fun _ _ _ => trivial) (wp_of_only (RC.process_only cfg.toRCfg c.rc) () (fun a ha => ⟨rfl, ?_⟩) (fun _ => trivial))
    rintro m rfl
    have h6 : (axServo j).val < 6 := ha
    exact absurd h6 (by simp [axServo])
  parse g c m src _ := by
    refine ⟨fun m' e => (by cases e), ?_⟩
    refine parse_wp (axMon j lo hi) cfg (fun _ _ _ => True) (fun _ _ => True) trivial (fun g s l tok _ => ax_exec cfg j lo hi s l tok g)
      (fun g s l _ => ⟨fun m e => (by cases e), trivial⟩) m _ c (fun _ => trivial) (fun _ => trivial) (fun g s l _ => ?_)
    unfold Mril.finish
    split
    · simp only [send, bind_def, pure_def, Prog.bind, wp]; exact ⟨fun m e => (by cases e), trivial⟩
    · trivial
    · trivial
  check g c _ := by
    refine wp_mono (fun _ _ _ => trivial) (wp_of_only (mrilProcess_only c) () (fun a ha => ⟨rfl, ?_⟩) (fun _ => trivial))
    rintro m rfl
    exact absurd ha (by simp [checkAct])

theorem setup_ax (cfg : Cfg XR) (junk : Nat → Byte) (j : Fin 2) (lo hi : ℝ) : (setup cfg junk).wp (axMon j lo hi) (fun _ _ => True) () := by
  simp only [setup, RC.new, RC.getCurrentPose, RC.getCurrentLogicalAngles, RC.readAngles, readServo, bind_def, pure_def, Prog.bind, wp]
  intros; trivial

theorem ax_run {cfg : Cfg XR} {w0 : World XR} {junk : Nat → Byte} {j : Fin 2} {lo hi : ℝ} (h0 : GoodServo lo hi (w0.servos (axServo j))) {evs : List (Ev XR)} {s : Sys XR}
    (h : Sys.Run cfg w0 junk evs s) (hn : Act.micro (axServo j) (.setVel nan) ∉ acts evs) (ht : ∀ x, Act.micro (axServo j) (.setTarget x) ∈ acts evs → InR lo hi x) :
    GoodServo lo hi (s.w.servos (axServo j)) ∧ s.p.wp (axMon j lo hi) (fun _ _ => True) () := by
  induction h with
  | init => exact ⟨h0, setup_ax cfg junk j lo hi⟩
  | @step evs s e t h hs ih =>
    rw [acts_append] at hn ht
    simp only [List.mem_append, not_or] at hn ht
    obtain ⟨hg, hw⟩ := ih hn.1 (fun x hx => ht x (.inl hx))
    have hn2 := hn.2
    have ht2 := fun x hx => ht x (.inr hx)
    cases hs with
    | loop => exact ⟨hg, (ax_core cfg j lo hi).loop_wp _ trivial⟩
    | servo =>
      refine ⟨hg, hw _ ?_⟩
      intro s e; injection e with e1 e2
      subst e1; subst e2
      exact hg.cur
    | @micro w i m k =>
      refine ⟨?_, hw.2⟩
      by_cases e : i = axServo j
      · subst e
        have hm : goodMicro lo hi m := by
          rcases hw.1 m rfl with ⟨x, rfl⟩ | rfl | h
          · exact ht2 x (by simp [acts])
          · exact absurd (by simp [acts]) hn2
          · exact h
        simpa [World.setServo] using hg.micro hm
      · have : (w.setServo i ((w.servos i).micro m)).servos (axServo j) = w.servos (axServo j) := by
          have e' : axServo j ≠ i := fun h => e h.symm
          simp [World.setServo, e']
        rw [this]; exact hg
    | now => exact ⟨hg, hw _ (fun s e => by cases e)⟩
    | pin => exact ⟨hg, hw _ (fun s e => by cases e)⟩
    | rxNone h => exact ⟨hg, hw _ (fun s e => by cases e)⟩
    | rxSome h => exact ⟨hg, hw _ (fun s e => by cases e)⟩
    | eeRead => exact ⟨hg, hw _ (fun s e => by cases e)⟩
    | eeWrite => exact ⟨hg, hw.2⟩
    | out => exact ⟨hg, hw.2⟩
    | isr => exact ⟨hg.tick _, hw⟩
    | _ => exact ⟨hg, hw⟩

/-- **C70**: in any run of the whole device, an additional axis whose R commands all name angles within its range (and that is never given NaN as velocity)
stays within its range, and its pulse width between the two calibration values. The range itself is not checked by the firmware, see `C70_unchecked_false`. -/
theorem C70_range_partial {cfg : Cfg XR} {w0 : World XR} {junk : Nat → Byte} (j : Fin 2) {pin : Int} {m lo hi home : ℝ} {f1 f2 : Nat}
    (h0 : w0.servos (axServo j) = Servo.new pin (fin m) f1 f2 (fin lo) (fin hi) (fin home)) (hm : 0 ≤ m) (h1 : lo ≤ home) (h2 : home ≤ hi) (hlt : lo < hi)
    (hf1 : f1 ≤ 2147483647) (hf2 : f2 ≤ 2147483647)
    {evs : List (Ev XR)} {s : Sys XR} (h : Sys.Run cfg w0 junk evs s) (hn : Act.micro (axServo j) (.setVel nan) ∉ acts evs)
    (ht : ∀ x, Act.micro (axServo j) (.setTarget x) ∈ acts evs → ∃ v, x = fin v ∧ lo ≤ v ∧ v ≤ hi) :
    (∃ x : ℝ, (s.w.servos (axServo j)).cur = fin x ∧ lo ≤ x ∧ x ≤ hi) ∧
    ∃ p, (s.w.servos (axServo j)).pulse = some p ∧ min (f1 : ℤ) f2 ≤ p ∧ p ≤ max (f1 : ℤ) f2 := by
  have hg := (ax_run (lo := lo) (hi := hi) (by rw [h0]; exact goodServo_new hm h1 h2) h hn ht).1
  obtain ⟨x, e, x1, x2⟩ := hg.cur
  refine ⟨⟨x, e, x1, x2⟩, ?_⟩
  obtain ⟨_, c2, c3, c4, c5, _⟩ := C62_constants h (axServo j)
  rw [h0] at c2 c3 c4 c5
  have := C40_pulse_range _ x lo hi e c4 c5 hlt x1 x2 (by rw [c2]; exact hf1) (by rw [c3]; exact hf2)
  rw [c2, c3] at this
  exact this

/-- the conditions can be met by the kit: power-up, "R61" arrives, the interrupt runs, the program begins. -/
example : ∃ (w0 : World XR) (evs : List (Ev XR)) (s : Sys XR), Sys.Run Kit.cfg w0 (fun _ => 0) evs s ∧ evs.length = 4 ∧
    w0.servos (axServo 0) = Servo.new 20 (fin (160 * (Real.pi / 180))) 1888 1122 (fin 0) (fin (1 * (Real.pi / 180))) (fin 0) ∧
    Act.micro (axServo 0) (.setVel nan) ∉ acts evs ∧ (∀ x, Act.micro (axServo 0) (.setTarget x) ∉ acts evs) := by
  let w0 : World XR := { servos := Kit.servos, now := 1, pins := fun _ => false, rxq := [], ee := fun _ => 0, outs := [] }
  refine ⟨w0, _, _, .step (.step (.step (.step .init (.arrive (str "R61"))) .isr) .servo) .isr, rfl, ?_, by simp [acts], by simp [acts]⟩
  show Servo.new _ (deg 160) _ _ (deg 0) (deg 1) (lit 0) = _
  rw [deg_fin, deg_fin, deg_fin]
  simp [lit, Kit.pin, Kit.freq, axServo]

/-- **C70/2**, the missing check: the command "R62" (2 degrees) makes the firmware store 2 degrees as the target of the kit's axis R6, whose range is 0 to 1 degree; -/
theorem C70_unchecked_false {cfg : Cfg XR} {s : Core XR} {l : Loc XR} {tr : List (Act XR)} {r : Core XR × Loc XR} (h : Does (Mril.exec cfg s l (str "R62")) tr r) :
    .micro (axServo 0) (.setTarget (fin (2 / 180 * Real.pi))) ∈ tr := by
  obtain ⟨_, sv, e⟩ := C28_additional_axis cfg s l 0 [50] (by simp) tr r h
  have h2 : (atof [50] : XR) = fin 2 := by
    have h : (atof (Dec.text ⟨false, [2], none⟩) : XR) = FloatOps.ofRat _ := C27_decimal (⟨false, [2], none⟩ : Dec) (.inl (by simp))
    have e1 : Dec.text ⟨false, [2], none⟩ = [50] := by decide
    have e2 : Dec.val ⟨false, [2], none⟩ = 2 := by simp [Dec.val, natVal]
    rw [e1, e2] at h; rw [h]; simp
  have e180 : ((180 : Rat) : ℝ) ≠ 0 := by norm_num
  have e3 : (FloatOps.mul (FloatOps.div (atof [50]) (FloatOps.ofRat 180)) FloatOps.pi : XR) = fin (2 / 180 * Real.pi) := by
    rw [h2, ops_lit, ops_div, fin_div _ _ e180, ops_pi, ops_mul, fin_mul]; norm_num
  rw [e, e3]
  simp [axServo]

/-- and one second later the servo stands there, driven with a pulse of 356 µs, far outside of its calibrated 1122 to 1888 µs. -/
theorem C70_pulse_false : ((((Kit.servos 6 : Servo XR).setTargetRadAngle (fin (2 / 180 * Real.pi))).tick 1000).pulse) = some 356 := by
  have hp := Real.pi_pos
  have e0 : (Kit.servos 6 : Servo XR) = Servo.new 20 (fin (160 * (Real.pi / 180))) 1888 1122 (fin 0) (fin (1 * (Real.pi / 180))) (fin 0) := by
    show Servo.new _ (deg 160) _ _ (deg 0) (deg 1) (lit 0) = _
    rw [deg_fin, deg_fin, deg_fin]
    simp [lit, Kit.pin, Kit.freq]
  have hu : u32 (0 + 1000) = 1000 := by decide
  have hc : (((Kit.servos 6 : Servo XR).setTargetRadAngle (fin (2 / 180 * Real.pi))).tick 1000).cur = fin (2 / 180 * Real.pi) := by
    rw [e0, tick_fin _ 0 (2 / 180 * Real.pi) (160 * (Real.pi / 180)) 1000 rfl rfl rfl]
    simp only [Servo.setTargetRadAngle, Servo.micro, Servo.new, hu]
    rw [if_pos]
    rw [sub_zero, abs_of_nonneg (by positivity), abs_of_nonneg (by positivity)]
    push_cast; linarith
  have hk : fixedPart (((Kit.servos 6 : Servo XR).setTargetRadAngle (fin (2 / 180 * Real.pi))).tick 1000) = fixedPart (Kit.servos 6) := by rw [fixed_tick]; rfl
  generalize (((Kit.servos 6 : Servo XR).setTargetRadAngle (fin (2 / 180 * Real.pi))).tick 1000) = s at *
  rw [e0] at hk
  simp only [fixedPart, Servo.new, Prod.mk.injEq] at hk
  obtain ⟨-, -, k3, k4, k5, k6, -⟩ := hk
  have e : Servo.mapFloat s.cur s.minA s.maxA (Servo.ofNat s.minFreq) (Servo.ofNat s.maxFreq) = fin ((356 : ℕ) : ℝ) := by
    have hz : 1 * (Real.pi / 180) - 0 ≠ 0 := by rw [sub_zero]; positivity
    simp only [Servo.mapFloat, Servo.ofNat, lit, ops_lit, hc, k3, k4, k5, k6, fin_sub, fin_mul, fin_div _ _ hz, fin_add]
    congr 1; push_cast; field_simp; ring
  unfold Servo.pulse
  rw [e]
  show XR.toInt _ = _
  simp only [XR.toInt]
  rw [trunc_nat, if_pos (by norm_num)]
  rfl

/-! ### C75 waiting for the additional axes -/

section
open Mrc.Demo

/-- **C75/2**, what is missing: the instruction "N5 R690" is reported as finished (N1 5) and the next one is started although axis R6 has not moved yet. -/
theorem C75_not_awaited_false : (kit ":QN5R690\x0d:QX10\x0d" 3).1.filterMap (fun | .out (.msg (.n1 n)) => some n | _ => none) = [5] ∧ (Dev.after (kit ":QN5R690\x0d:QX10\x0d" 3).1).started = [str "N5R690", str "X10"] ∧
    ((kit ":QN5R690\x0d:QX10\x0d" 3).2.2.servos 6).cur = 0 ∧ ((kit ":QN5R690\x0d:QX10\x0d" 3).2.2.servos 6).target = 3/2 := by
  decide +kernel
end

end Mrc.Props
