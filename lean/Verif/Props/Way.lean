import Verif.Proof.Way
import Verif.Spec.Way
import Verif.Props.LineEnd
/-
C119, C120: how the arm moves.
-/
set_option linter.unusedSectionVars false
set_option linter.unusedSimpArgs false
namespace Mrc.Rest
open Mrc Mrc.Spec Mrc.Prog Mrc.Props Mrc.Host Mrc.Brisk XR
open scoped Mrc.Num

/-- what the interrupt does to a servo on its way. -/
theorem Steady.course {s : Servo XR} (h : Steady s) :
    ∃ t v c c' : ℝ, s.target = fin t ∧ s.vel = fin v ∧ s.cur = fin c ∧ (s.tick 20).cur = fin c' ∧ min c t ≤ c' ∧ c' ≤ max c t ∧ |c' - c| ≤ v * (20 / 1000) := by
  obtain ⟨a, t, v, c, h1, h2, h3, h4, h5, h6, h7⟩ := h
  have e := tick_fin s a t v 20 h1 h2 h3
  have h0 : 0 ≤ v * ((u32 (s.elapsed + 20) : ℕ) : ℝ) / 1000 := by positivity
  have hv : 0 ≤ v * (20 / 1000) := by positivity
  rw [abs_of_nonneg h0] at e
  rcases h7 with ⟨rfl, rfl⟩ | ⟨k1, k2, k3⟩
  · refine ⟨c, v, c, c, h2, h3, h4, ?_, by simp, by simp, by simpa using hv⟩
    rw [e, sub_self, abs_zero]
    by_cases g : 0 < v * ((u32 (s.elapsed + 20) : ℕ) : ℝ) / 1000
    · rw [if_pos g, if_pos g]
    · rw [if_neg g, if_neg g, if_neg (lt_irrefl _)]
      have : v * ((u32 (s.elapsed + 20) : ℕ) : ℝ) / 1000 = 0 := le_antisymm (not_lt.1 g) h0
      rw [this, sub_zero]
  · -- the timer does not overflow
    have hno : s.elapsed + 20 < 4294967296 := by
      by_contra hcon
      have : (4294967276 : ℝ) ≤ s.elapsed := by exact_mod_cast (show 4294967276 ≤ s.elapsed by omega)
      have : v * 4294967 ≤ v * s.elapsed / 1000 := by
        rw [le_div_iff₀ (by norm_num)]
        have := mul_le_mul_of_nonneg_left this h5.le
        linarith
      have : v * 4294967 ≤ v * 2000000 := by unfold T at h6; linarith
      linarith
    have eu : u32 (s.elapsed + 20) = s.elapsed + 20 := Nat.mod_eq_of_lt hno
    rw [eu] at e
    have hmono : v * ((s.elapsed + 20 : ℕ) : ℝ) / 1000 = v * s.elapsed / 1000 + v * (20 / 1000) := by push_cast; ring
    have h0' : 0 ≤ v * s.elapsed / 1000 := by positivity
    rw [hmono] at e
    generalize v * s.elapsed / 1000 = δ at *
    obtain ⟨η, hη⟩ : ∃ η, v * (20 / 1000) = η := ⟨_, rfl⟩
    rw [hη] at e hv hmono
    by_cases g : |t - a| < δ + η
    · rw [if_pos g, if_pos g] at e
      refine ⟨t, v, c, t, h2, h3, h4, by rw [e], min_le_right _ _, le_max_right _ _, ?_⟩
      rw [k3, hη]
      split
      · rename_i hat
        rw [abs_of_pos (by linarith)] at g k2
        rw [abs_of_nonneg (by linarith)]; linarith
      · rename_i hat
        rw [not_lt] at hat
        rw [abs_of_nonpos (by linarith)] at g k2
        rw [abs_of_nonpos (by linarith)]; linarith
    · rw [if_neg g, if_neg g] at e
      rw [not_lt] at g
      refine ⟨t, v, c, _, h2, h3, h4, by rw [e], ?_, ?_, ?_⟩ <;> rw [k3] <;> split <;> rename_i hat
      · rw [abs_of_pos (by linarith)] at g k2
        exact (min_le_left _ _).trans (by linarith)
      · rw [not_lt] at hat
        rw [abs_of_nonpos (by linarith)] at g k2
        exact (min_le_right _ _).trans (by linarith)
      · rw [abs_of_pos (by linarith)] at g k2
        exact le_trans (by linarith) (le_max_right _ _)
      · exact le_trans (by linarith) (le_max_left _ _)
      · rw [hη, abs_of_nonneg (by linarith)]; linarith
      · rw [hη, abs_of_nonpos (by linarith)]; linarith

end Mrc.Rest

namespace Mrc.Props
open Mrc Mrc.Prog Mrc.Spec Mrc.Demo Mrc.Rest Mrc.Kine Mrc.Lip XR Mrc.Host
open Mrc.Brisk (servo_step brisk_run)
open scoped Mrc.Num

section
variable {w0 : World XR} (hw : w0.servos = Kit.servos) {junk : Nat → Byte} {σ : ℕ → Sys XR} {ev : ℕ → Ev XR} (h : Endless Kit.cfg w0 junk σ ev)
  (hmem : BriskStorage w0.ee) (hc : ∀ n, BrisklySent (w0.rxq ++ arrivals (sofar ev n))) (hu : Unbroken ev)
include hw h hmem hc hu

/-- at every interrupt every servo is on its way. -/
theorem kit_isr {n : ℕ} (hi : ev n = .isr) (i : Fin 6) : Steady ((σ n).w.servos (armServo i)) :=
  isr_order h (fun _ => Steady.tick) (steady_cmd hw h hmem hc hu) (kit_passes hw h hmem hc hu) (fun i => (kit_steady hw i).1) hu hi i

/-- a step of the history: the position of a servo changes by an interrupt only, and only towards the target. -/
theorem kit_step (n : ℕ) (i : Fin 6) : ∃ t c c' : ℝ, ((σ n).w.servos (armServo i)).target = fin t ∧ ((σ n).w.servos (armServo i)).cur = fin c ∧ ((σ (n + 1)).w.servos (armServo i)).cur = fin c' ∧
    (c' = c ∨ ∃ v, ((σ n).w.servos (armServo i)).vel = fin v ∧ min c t ≤ c' ∧ c' ≤ max c t ∧ |c' - c| ≤ v * (20 / 1000)) ∧
    (((σ (n + 1)).w.servos (armServo i)).target = fin t ∨ ∃ t', ev n = .act (.micro (armServo i) (.setTarget t')) ∧ ((σ (n + 1)).w.servos (armServo i)).target = t') := by
  have hS := (brisk_run kit_compact (robotFin_kit _ _) rfl (kit_servos2 hw) (program_of hmem) (h.run n) (hc n)).1
  obtain ⟨c, ec, _⟩ := (hS.servos.arm i).1.cur
  obtain ⟨t, et, _⟩ := (hS.servos.arm i).1.target
  cases hev : ev n with
  | isr =>
    obtain ⟨t', v, c', c'', e1, e2, e3, e4, e5, e6, e7⟩ := (kit_isr hw h hmem hc hu hev i).course
    refine ⟨t', c', c'', e1, e3, ?_, .inr ⟨v, e2, e5, e6, e7⟩, .inl ?_⟩
    · rw [servo_step h, hev]; exact e4
    · rw [servo_step h, hev]; simp only [evServo]; rw [tick_target]; exact e1
  | act x =>
    by_cases hx : ∃ m, x = .micro (armServo i) m
    · obtain ⟨m, rfl⟩ := hx
      refine ⟨t, c, c, et, ec, ?_, .inl rfl, ?_⟩
      · rw [servo_step h, hev]; cases m <;> simpa [evServo, Servo.micro] using ec
      · rw [servo_step h, hev]
        cases m with
        | setTarget t' => exact .inr ⟨t', rfl, by simp [evServo, Servo.micro]⟩
        | _ => exact .inl (by simpa [evServo, Servo.micro] using et)
    · have hs : (σ (n + 1)).w.servos (armServo i) = (σ n).w.servos (armServo i) := by
        rw [servo_step h, hev]
        cases x with
        | micro j m =>
          simp only [evServo]
          rw [if_neg]; rintro rfl; exact hx ⟨m, rfl⟩
        | _ => rfl
      exact ⟨t, c, c, et, ec, by rw [hs]; exact ec, .inl rfl, .inl (by rw [hs]; exact et)⟩
  | _ =>
    have hs : (σ (n + 1)).w.servos (armServo i) = (σ n).w.servos (armServo i) := by rw [servo_step h, hev]; rfl
    exact ⟨t, c, c, et, ec, by rw [hs]; exact ec, .inl rfl, .inl (by rw [hs]; exact et)⟩

/-- the speed of a servo never exceeds its maximum. -/
theorem kit_vel (n : ℕ) (i : Fin 6) : ((σ n).w.servos (armServo i)).maxVel = fin ((Kit.velDeg (armServo i) : ℝ) * (Real.pi / 180)) ∧
    ∀ v, ((σ n).w.servos (armServo i)).vel = fin v → v ≤ (Kit.velDeg (armServo i) : ℝ) * (Real.pi / 180) := by
  have hm : (1 : ℝ) / 10 ≤ (Kit.velDeg (armServo i) : ℝ) * (Real.pi / 180) := by
    have hp := Real.pi_gt_three
    have : (10 : ℝ) ≤ (Kit.velDeg (armServo i) : ℝ) := by
      have : 10 ≤ Kit.velDeg (armServo i) := by fin_cases i <;> decide
      exact_mod_cast this
    nlinarith
  have hb : (w0.servos (armServo i)).maxVel = fin ((Kit.velDeg (armServo i) : ℝ) * (Real.pi / 180)) ∧ (w0.servos (armServo i)).vel = fin ((Kit.velDeg (armServo i) : ℝ) * (Real.pi / 180)) := by
    rw [hw]; constructor <;> simp only [Kit.servos, deg_fin, lit, Servo.new]
  generalize (Kit.velDeg (armServo i) : ℝ) * (Real.pi / 180) = m at *
  induction n with
  | zero =>
    rw [h.boot]
    exact ⟨hb.1, fun v hv => by rw [show (w0.servos (armServo i)).vel = fin v from hv] at hb; exact (XR.fin.inj hb.2).le⟩
  | succ n ih =>
    rw [servo_step h]
    cases ev n with
    | isr =>
      refine ⟨by simp only [evServo]; rw [Brisk.maxVel_tick]; exact ih.1, fun v hv => ih.2 v ?_⟩
      rw [← hv]; simp only [evServo, Servo.tick]
      split
      · rfl
      · split <;> rfl
    | act x =>
      cases x with
      | micro j q =>
        simp only [evServo]
        split
        · refine ⟨by rw [Brisk.maxVel_micro]; exact ih.1, fun v hv => ?_⟩
          cases q with
          | setVel y =>
            simp only [Servo.micro, Servo.clampVel, ih.1] at hv
            split at hv
            · exact (XR.fin.inj hv).ge
            · rename_i g
              split at hv
              · have := XR.fin.inj hv; rw [← this]; push_cast; exact hm
              · subst hv
                simpa [fgt] using g
          | _ => exact ih.2 v hv
        · exact ih
      | _ => exact ih
    | _ => exact ih

/-- **C120**: the robot kit over the exact numbers, with a careful host that asks for no crawling speeds and interrupts that do not fall into the command of a servo. Nothing but the servo
interrupt changes the position of a servo, and by one interrupt a servo turns by no more than 20 ms at its maximum speed: the arm never jumps. -/
theorem C120_smooth (n : ℕ) (i : Fin 6) : ∃ c c' : ℝ, ((σ n).w.servos (armServo i)).cur = fin c ∧ ((σ (n + 1)).w.servos (armServo i)).cur = fin c' ∧
    (ev n ≠ .isr → c' = c) ∧ |c' - c| ≤ (Kit.velDeg (armServo i) : ℝ) * (Real.pi / 180) * (20 / 1000) := by
  obtain ⟨t, c, c', e1, e2, e3, e4, _⟩ := kit_step hw h hmem hc hu n i
  refine ⟨c, c', e2, e3, fun hn => ?_, ?_⟩
  · have hs : ((σ (n + 1)).w.servos (armServo i)).cur = ((σ n).w.servos (armServo i)).cur := by
      rw [servo_step h]
      cases hev : ev n with
      | isr => exact absurd hev hn
      | act x =>
        cases x with
        | micro j q =>
          simp only [evServo]
          split
          · cases q <;> rfl
          · rfl
        | _ => rfl
      | _ => rfl
    rw [e2, e3] at hs
    exact XR.fin.inj hs
  · have hp : (0 : ℝ) ≤ (Kit.velDeg (armServo i) : ℝ) * (Real.pi / 180) * (20 / 1000) := by
      have : (0 : ℝ) ≤ (Kit.velDeg (armServo i) : ℝ) := by
        have : 0 ≤ Kit.velDeg (armServo i) := by fin_cases i <;> decide
        exact_mod_cast this
      have := Real.pi_pos
      positivity
    rcases e4 with rfl | ⟨v, g1, _, _, g2⟩
    · simpa using hp
    · refine g2.trans (mul_le_mul_of_nonneg_right ((kit_vel hw h hmem hc hu n i).2 v g1) (by norm_num))

/-- what never leaves a range: the position of a servo, as long as it is sent to places within the range. -/
theorem kit_within {k0 e : ℕ} {i : Fin 6} {lo hi : ℝ} (h0 : ∃ c, ((σ k0).w.servos (armServo i)).cur = fin c ∧ lo ≤ c ∧ c ≤ hi) (h1 : ∃ t, ((σ k0).w.servos (armServo i)).target = fin t ∧ lo ≤ t ∧ t ≤ hi)
    (hs : ∀ j, k0 ≤ j → j < e → ∀ t', ev j = .act (.micro (armServo i) (.setTarget t')) → ∃ t, t' = fin t ∧ lo ≤ t ∧ t ≤ hi) {n : ℕ} (h2 : k0 ≤ n) (h3 : n ≤ e) :
    (∃ c, ((σ n).w.servos (armServo i)).cur = fin c ∧ lo ≤ c ∧ c ≤ hi) ∧ ∃ t, ((σ n).w.servos (armServo i)).target = fin t ∧ lo ≤ t ∧ t ≤ hi := by
  induction n, h2 using Nat.le_induction with
  | base => exact ⟨h0, h1⟩
  | succ n hn ih =>
    obtain ⟨⟨c, ec, c1, c2⟩, t, et, t1, t2⟩ := ih (by omega)
    obtain ⟨t', c', c'', e1, e2, e3, e4, e5⟩ := kit_step hw h hmem hc hu n i
    rw [et] at e1; injection e1 with e1; subst e1
    rw [ec] at e2; injection e2 with e2; subst e2
    refine ⟨⟨c'', e3, ?_⟩, ?_⟩
    · rcases e4 with rfl | ⟨v, _, g1, g2, _⟩
      · exact ⟨c1, c2⟩
      · exact ⟨(le_min c1 t1).trans g1, g2.trans (max_le c2 t2)⟩
    · rcases e5 with e5 | ⟨t', g1, g2⟩
      · exact ⟨t, e5, t1, t2⟩
      · obtain ⟨t'', g3, g4⟩ := hs n hn (by omega) t' g1
        exact ⟨t'', g2.trans g3, g4⟩

/-- a servo that is sent nowhere comes nearer to its target. -/
theorem kit_nearer {k0 e : ℕ} {i : Fin 6} {c t : ℝ} (h0 : ((σ k0).w.servos (armServo i)).cur = fin c) (h1 : ((σ k0).w.servos (armServo i)).target = fin t)
    (hs : ∀ j, k0 ≤ j → j < e → ∀ t', ev j = .act (.micro (armServo i) (.setTarget t')) → t' = fin t) {n : ℕ} (h2 : k0 ≤ n) (h3 : n ≤ e) :
    (∃ c', ((σ n).w.servos (armServo i)).cur = fin c' ∧ |c' - t| ≤ |c - t|) ∧ ((σ n).w.servos (armServo i)).target = fin t := by
  induction n, h2 using Nat.le_induction with
  | base => exact ⟨⟨c, h0, le_refl _⟩, h1⟩
  | succ n hn ih =>
    obtain ⟨⟨c0, ec, c1⟩, et⟩ := ih (by omega)
    obtain ⟨t', c', c'', e1, e2, e3, e4, e5⟩ := kit_step hw h hmem hc hu n i
    rw [et] at e1; injection e1 with e1; subst e1
    rw [ec] at e2; injection e2 with e2; subst e2
    refine ⟨⟨c'', e3, ?_⟩, ?_⟩
    · rcases e4 with rfl | ⟨v, _, g1, g2, _⟩
      · exact c1
      · refine le_trans ?_ c1
        rcases le_total c0 t with g | g
        · rw [min_eq_left g] at g1; rw [max_eq_right g] at g2
          rw [abs_of_nonpos (by linarith), abs_of_nonpos (by linarith)]; linarith
        · rw [min_eq_right g] at g1; rw [max_eq_left g] at g2
          rw [abs_of_nonneg (by linarith), abs_of_nonneg (by linarith)]; linarith
    · rcases e5 with e5 | ⟨t', g1, g2⟩
      · exact e5
      · exact g2.trans (hs n hn (by omega) t' g1)

omit hw h hmem hc hu in
/-- where servo `i` is sent in a list of commands that sends every servo once. -/
theorem six6_target {tr : List (Act XR)} {p : Six XR} (h : armTargets tr = six6 p) {i : Fin 6} {y : XR} (hy : .micro (armServo i) (.setTarget y) ∈ tr) : y = p i := by
  have : (armServo i, y) ∈ six6 p := by
    rw [← h, armTargets, List.mem_filter, targets, List.mem_filterMap]
    exact ⟨⟨_, hy, rfl⟩, by simp [armServo]⟩
  obtain ⟨j, _, e⟩ := List.mem_map.1 this
  injection e with e1 e2
  rw [← armServo_inj e1, e2]

omit hw h hmem hc hu in
/-- a stretch of the history, cut in two. -/
theorem span_cut {a n : ℕ} {m tr : List (Act XR)} (h : acts (span ev a n) = m ++ tr) : ∃ d ≤ n, acts (span ev a d) = m ∧ acts (span ev (a + d) (n - d)) = tr := by
  obtain ⟨l1, l2, e, h1, h2⟩ := List.filterMap_eq_append_iff.1 h
  have hl := congrArg List.length e
  simp only [span, List.length_map, List.length_range, List.length_append] at hl
  have key : span ev a n = span ev a l1.length ++ span ev (a + l1.length) (n - l1.length) := by
    have : n = l1.length + (n - l1.length) := by omega
    generalize hd : n - l1.length = d at *
    subst this
    simp only [span, List.range_add, List.map_append, List.map_map]
    congr 1
    apply List.map_congr_left
    intro j _
    simp only [Function.comp]
    congr 1; omega
  rw [key] at e
  obtain ⟨e1, e2⟩ := List.append_inj e (by simp [span])
  exact ⟨l1.length, by omega, by rw [e1]; exact h1, by rw [e2]; exact h2⟩

/-- all commands of a stretch, for one servo. -/
theorem kit_move {k0 k e : ℕ} (hk : k0 < k) (hke : k ≤ e) {x : Act XR} (h0 : ev k0 = .act x) {i : Fin 6} (hx : ∀ m, x ≠ .micro (armServo i) m) (hun : Untouched ev (armServo i) k e) {a : Fin 6 → ℝ}
    (hm : Moved (Kit.cfg : Cfg XR).toRCfg kitL kitU (finS a) (acts (span ev (k0 + 1) (k - (k0 + 1))))) :
    ∀ j, k0 ≤ j → j < e → ∀ t', ev j = .act (.micro (armServo i) (.setTarget t')) → t' = fin (kitServo a i) := by
  intro j j1 j2 t' ej
  have hl2p : (Kit.cfg : Cfg XR).l2p (finS a) = finS fun i => if i = 2 then a 2 + a 1 else a i := kit_l2p a
  rcases Nat.eq_or_lt_of_le j1 with rfl | j1
  · rw [h0] at ej; injection ej with ej; exact absurd ej (hx _)
  rcases Nat.lt_or_ge j k with g | g
  · have hmem : Act.micro (armServo i) (.setTarget t') ∈ acts (span ev (k0 + 1) (k - (k0 + 1))) := acts_mem.2 (mem_span.2 ⟨j, by omega, by omega, ej⟩)
    cases hm with
    | went _ g2 _ => rw [six6_target g2 hmem, hl2p]; rfl
    | there _ _ _ g3 => exact absurd hmem (g3 i _)
    | noTime _ _ _ _ _ g3 => exact absurd hmem (g3 i _)
    | refused _ g3 => exact absurd hmem (g3 i _)
  · exact absurd ej (hun j g j2 _)

/-- a servo at rest. -/
theorem rest_fin {k : ℕ} {i : Fin 6} (hst : ((σ k).w.servos (armServo i)).atTarget = true) :
    ∃ c t, ((σ k).w.servos (armServo i)).cur = fin c ∧ ((σ k).w.servos (armServo i)).target = fin t ∧ |c - t| < 1 / 1000000 := by
  have hS := (brisk_run kit_compact (robotFin_kit _ _) rfl (kit_servos2 hw) (program_of hmem) (h.run k) (hc k)).1
  obtain ⟨c, ec, _⟩ := (hS.servos.arm i).1.cur
  obtain ⟨t, et, _⟩ := (hS.servos.arm i).1.target
  exact ⟨c, t, ec, et, (Rest.atTarget_iff ec et).1 hst⟩

/-- no servo leaves the range between where it is when the move begins and where it is sent. -/
theorem kit_amid {k0 k e : ℕ} (hk : k0 < k) (hke : k ≤ e) {x : Act XR} (h0 : ev k0 = .act x) (hx : ∀ (i : Fin 6) m, x ≠ .micro (armServo i) m)
    (hst : ∀ i : Fin 6, ((σ k0).w.servos (armServo i)).atTarget = true) (hun : ∀ i : Fin 6, Untouched ev (armServo i) k e) {a : Fin 6 → ℝ}
    (hm : Moved (Kit.cfg : Cfg XR).toRCfg kitL kitU (finS a) (acts (span ev (k0 + 1) (k - (k0 + 1))))) :
    ∃ c0, ArmAt (σ k0).w c0 ∧ ∀ n, k0 ≤ n → n ≤ e → ArmAmid (σ n).w (1 / 1000000) c0 (kitServo a) := by
  choose c t ec et hct using fun i => rest_fin hw h hmem hc hu (hst i)
  refine ⟨c, ec, fun n h1 h2 => ?_⟩
  have key : ∀ i, ∃ c', ((σ n).w.servos (armServo i)).cur = fin c' ∧ Amid (1 / 1000000) (c i) (kitServo a i) c' := fun i => by
    have := abs_lt.1 (hct i)
    have m1 := min_le_left (c i) (kitServo a i)
    have m2 := min_le_right (c i) (kitServo a i)
    have m3 := le_max_left (c i) (kitServo a i)
    have m4 := le_max_right (c i) (kitServo a i)
    refine (kit_within hw h hmem hc hu (lo := min (c i) (kitServo a i) - 1 / 1000000) (hi := max (c i) (kitServo a i) + 1 / 1000000) ⟨c i, ec i, by linarith, by linarith⟩
      ⟨t i, et i, by linarith, by linarith⟩ (fun j j1 j2 t' ej => ?_) h1 h2).1
    exact ⟨_, kit_move hw h hmem hc hu hk hke h0 (hx i) (hun i) hm j j1 j2 t' ej, by linarith, by linarith⟩
  choose c' e1 e2 using key
  exact ⟨c', e1, e2⟩

/-- every servo comes nearer all the time to where it is sent. -/
theorem kit_closer {k0 k e : ℕ} (hk : k0 < k) (hke : k ≤ e) {x : Act XR} (h0 : ev k0 = .act x) (hx : ∀ (i : Fin 6) m, x ≠ .micro (armServo i) m)
    (hst : ∀ i : Fin 6, ((σ k0).w.servos (armServo i)).atTarget = true) (hun : ∀ i : Fin 6, Untouched ev (armServo i) k e) {a : Fin 6 → ℝ}
    (hm : Moved (Kit.cfg : Cfg XR).toRCfg kitL kitU (finS a) (acts (span ev (k0 + 1) (k - (k0 + 1))))) {n n' : ℕ} (h1 : k0 ≤ n) (h2 : n ≤ n') (h3 : n' ≤ e) :
    ∃ b b', ArmAt (σ n).w b ∧ ArmAt (σ n').w b' ∧ ∀ i, |b' i - kitServo a i| ≤ |b i - kitServo a i| + 2 / 1000000 := by
  have key : ∀ i : Fin 6, ∃ b b', ((σ n).w.servos (armServo i)).cur = fin b ∧ ((σ n').w.servos (armServo i)).cur = fin b' ∧ |b' - kitServo a i| ≤ |b - kitServo a i| + 2 / 1000000 := fun i => by
    have hs := kit_move hw h hmem hc hu hk hke h0 (hx i) (hun i) hm
    generalize kitServo a i = q at *
    obtain ⟨c, t, ec, et, hct⟩ := rest_fin hw h hmem hc hu (hst i)
    -- where the servo is sent, at any time
    have ph : ∀ l, k0 ≤ l → l ≤ e → ∃ b, ((σ l).w.servos (armServo i)).cur = fin b ∧
        (((σ l).w.servos (armServo i)).target = fin t ∧ |b - t| < 1 / 1000000 ∨ ((σ l).w.servos (armServo i)).target = fin q) := by
      intro l l1
      induction l, l1 using Nat.le_induction with
      | base => exact fun _ => ⟨c, ec, .inl ⟨et, hct⟩⟩
      | succ l l1 ih =>
        intro l2
        obtain ⟨b, eb, ih⟩ := ih (by omega)
        obtain ⟨t', c', c'', e1, e2, e3, e4, e5⟩ := kit_step hw h hmem hc hu l i
        refine ⟨c'', e3, ?_⟩
        rcases e5 with e5 | ⟨t'', g1, g2⟩
        · rcases ih with ⟨i1, i2⟩ | i1
          · obtain ⟨⟨c3, k1, k2⟩, k3⟩ := kit_nearer hw h hmem hc hu (k0 := l) (e := l + 1) eb i1 (fun j j1 j2 t3 ej => by
              have : j = l := by omega
              subst this
              have e6 : ((σ (j + 1)).w.servos (armServo i)).target = t3 := by rw [servo_step h, ej]; simp [evServo, Servo.micro]
              rw [← e6, e5, ← e1, i1]) (by omega) (le_refl _)
            rw [e3] at k1; injection k1 with k1; subst k1
            exact .inl ⟨k3, lt_of_le_of_lt k2 i2⟩
          · rw [e1] at i1; exact .inr (e5.trans i1)
        · exact .inr (g2.trans (hs l l1 (by omega) _ g1))
    obtain ⟨b, eb, hb⟩ := ph n h1 (by omega)
    -- since time `n`
    have since : ∀ l, n ≤ l → l ≤ e → ∃ b', ((σ l).w.servos (armServo i)).cur = fin b' ∧
        (((σ l).w.servos (armServo i)).target = fin t ∧ |b' - t| < 1 / 1000000 ∧ |b - t| < 1 / 1000000 ∨ ((σ l).w.servos (armServo i)).target = fin q ∧ |b' - q| ≤ |b - q| + 2 / 1000000) := by
      intro l l1
      induction l, l1 using Nat.le_induction with
      | base =>
        intro _
        refine ⟨b, eb, ?_⟩
        rcases hb with hb | hb
        · exact .inl ⟨hb.1, hb.2, hb.2⟩
        · exact .inr ⟨hb, by linarith⟩
      | succ l l1 ih =>
        intro l2
        obtain ⟨b', eb', ih⟩ := ih (by omega)
        obtain ⟨t', c', c'', e1, e2, e3, e4, e5⟩ := kit_step hw h hmem hc hu l i
        rw [eb'] at e2; injection e2 with e2; subst e2
        have near : ∀ j, l ≤ j → j < l + 1 → ∀ t3, ev j = .act (.micro (armServo i) (.setTarget t3)) → ((σ (l + 1)).w.servos (armServo i)).target = t3 := fun j j1 j2 t3 ej => by
          have : j = l := by omega
          subst this
          rw [servo_step h, ej]; simp [evServo, Servo.micro]
        refine ⟨c'', e3, ?_⟩
        rcases e5 with e5 | ⟨t'', g1, g2⟩
        · obtain ⟨⟨c3, k1, k2⟩, k3⟩ := kit_nearer hw h hmem hc hu (k0 := l) (e := l + 1) eb' e1 (fun j j1 j2 t3 ej => by rw [← near j j1 j2 t3 ej, e5]) (by omega) (le_refl _)
          rw [e3] at k1; injection k1 with k1; subst k1
          rcases ih with ⟨i1, i2, i3⟩ | ⟨i1, i2⟩
          · rw [e1] at i1; injection i1 with i1; subst i1
            exact .inl ⟨e5, lt_of_le_of_lt k2 i2, i3⟩
          · rw [e1] at i1; injection i1 with i1; subst i1
            exact .inr ⟨e5, k2.trans i2⟩
        · right
          refine ⟨g2.trans (hs l (by omega) (by omega) _ g1), ?_⟩
          have hcc : c'' = b' := by
            have : ((σ (l + 1)).w.servos (armServo i)).cur = ((σ l).w.servos (armServo i)).cur := by rw [servo_step h, g1]; simp [evServo, Servo.micro]
            rw [e3, eb'] at this; exact XR.fin.inj this
          subst hcc
          rcases ih with ⟨_, i2, i3⟩ | ⟨_, i2⟩
          · have h1 := abs_lt.1 i2
            have h2 := abs_lt.1 i3
            have : |c'' - b| ≤ 2 / 1000000 := abs_le.2 ⟨by linarith, by linarith⟩
            have := abs_sub_le c'' b q
            linarith
          · exact i2
    obtain ⟨b', eb', hb'⟩ := since n' h2 h3
    refine ⟨b, b', eb, eb', ?_⟩
    rcases hb' with ⟨_, i2, i3⟩ | ⟨_, i2⟩
    · have h1 := abs_lt.1 i2
      have h2 := abs_lt.1 i3
      have : |b' - b| ≤ 2 / 1000000 := abs_le.2 ⟨by linarith, by linarith⟩
      have := abs_sub_le b' b q
      linarith
    · exact i2
  choose b b' e1 e2 e3 using key
  exact ⟨b, b', e1, e2, e3⟩

variable (hi : CalmImmediates ev)
include hi

/-- **C119**: the robot kit over the exact numbers, with a careful host that asks for no crawling speeds and gives immediate instructions that name a place only while the arm is at rest, and
interrupts that do not fall into the command of a servo. An instruction told all six angles with M0, from queue or storage or begun at once while no move is under way, and reported as finished at
time `k`. From its beginning (time `k0`) until a servo is commanded after the report, every servo is between where it was and where it is told to go, to 1e-6 radians (no overshoot, no detour), and
comes nearer to where it is told to go all the time, to 2e-6 radians (it never turns back). -/
theorem C119_told {k0 k : ℕ} {src : Src} {cs : List Cmd} (hb : ev k0 = .act (.out (.ghost src (text cs)))) (hs : src ≠ .immediate ∨ CalmAt ev k0) (ht : TellsAngles cs) (hM : Chooses 48 cs)
    {d : Fin 6 → Dec} (hd : ∀ i, Last NamesAngle cs i (d i)) (hk : k0 < k) (hr : ReportsAt ev k) (hq : ∀ i, k0 < i → i < k → ¬ Directs ev i)
    {e : ℕ} (hke : k ≤ e) (hn : ∀ i : Fin 6, Untouched ev (armServo i) k e) :
    (∃ c0, ArmAt (σ k0).w c0 ∧ ∀ n, k0 ≤ n → n ≤ e → ArmAmid (σ n).w (1 / 1000000) c0 (kitServo fun i => radians (d i))) ∧
    ∀ n n', k0 ≤ n → n ≤ n' → n' ≤ e → ∃ b b', ArmAt (σ n).w b ∧ ArmAt (σ n').w b' ∧
      ∀ i, |b' i - kitServo (fun i => radians (d i)) i| ≤ |b i - kitServo (fun i => radians (d i)) i| + 2 / 1000000 := by
  obtain ⟨y, h1, hy⟩ := reportsAt_iff.1 hr
  obtain ⟨t, g1, g2⟩ := C110_angles (h.run (k + 1)).trace (kit_limits hw (h.run (k + 1))) ht hM hs (acts_between hk hb h1) (quiet_mid hw h hmem hc hu hi hq) hy
  have : t = finS fun i => radians (d i) := funext fun i => (g1 i _ (hd i)).trans (angle_fin (last_ok (fun _ _ _ h => h.1) (hd i)))
  subst this
  have rest := fun i => (rest_begin hw h hmem hc hu hi hb hs i).2
  exact ⟨kit_amid hw h hmem hc hu hk hke hb (by simp) rest hn g2, fun n n' => kit_closer hw h hmem hc hu hk hke hb (by simp) rest hn g2⟩

/-- **C119**: the same for the six coordinates of a pose with M0 within reach: on the way to angles that put the tool at the pose told. -/
theorem C119_pose {k0 k : ℕ} {src : Src} {cs : List Cmd} (hb : ev k0 = .act (.out (.ghost src (text cs)))) (hs : src ≠ .immediate ∨ CalmAt ev k0) (ht : TellsPose cs) (hM : Chooses 48 cs)
    {d : Fin 6 → Dec} (hd : ∀ i, Last NamesPose cs i (d i)) (hr' : InReach kitG (poseOfDec d)) (hk : k0 < k) (hr : ReportsAt ev k) (hq : ∀ i, k0 < i → i < k → ¬ Directs ev i)
    {e : ℕ} (hke : k ≤ e) (hn : ∀ i : Fin 6, Untouched ev (armServo i) k e) :
    ∃ A : Fin 6 → ℝ, PutsAt kitG A (poseOfDec d) ∧ (∃ c0, ArmAt (σ k0).w c0 ∧ ∀ n, k0 ≤ n → n ≤ e → ArmAmid (σ n).w (1 / 1000000) c0 (kitServo A)) ∧
      ∀ n n', k0 ≤ n → n ≤ n' → n' ≤ e → ∃ b b', ArmAt (σ n).w b ∧ ArmAt (σ n').w b' ∧ ∀ i, |b' i - kitServo A i| ≤ |b i - kitServo A i| + 2 / 1000000 := by
  obtain ⟨y, h1, hy⟩ := reportsAt_iff.1 hr
  obtain ⟨P, g1, g2⟩ := C110_pose (h.run (k + 1)).trace (kit_limits hw (h.run (k + 1))) ht hM hs (acts_between hk hb h1) (quiet_mid hw h hmem hc hu hi hq) hy
  have : P = finS (poseOfDec d) := funext fun i => (g1 i _ (hd i)).trans (coordinate_fin (last_ok (fun _ _ _ h => h.1) (hd i)))
  subst this
  have rest := fun i => (rest_begin hw h hmem hc hu hi hb hs i).2
  rcases g2 with g2 | ⟨t, g2, g4⟩
  · exact absurd hr' (kit_inv_none g2)
  · obtain ⟨A, rfl, hA⟩ := kit_puts g2
    exact ⟨A, hA, kit_amid hw h hmem hc hu hk hke hb (by simp) rest hn g4, fun n n' => kit_closer hw h hmem hc hu hk hke hb (by simp) rest hn g4⟩

end
end Mrc.Props
