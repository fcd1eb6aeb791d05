import Verif.Proof.Speed
import Verif.Props.Way
/-
C121: the arm moves at the speed told.
-/
set_option linter.unusedSectionVars false
set_option linter.unusedSimpArgs false
namespace Mrc.Props
open Mrc Mrc.Prog Mrc.Spec Mrc.Demo Mrc.Rest Mrc.Kine Mrc.Lip XR Mrc.Host
open Mrc.Brisk (servo_step brisk_run next_act span_cons)
open scoped Mrc.Num

theorem le_widest (a b : Fin 6 → ℝ) (i : Fin 6) : |a i - b i| ≤ widest a b := by
  unfold widest
  fin_cases i <;> simp

theorem widest_of (a b : Fin 6 → ℝ) : ∃ i, widest a b = |a i - b i| := by
  unfold widest
  rcases max_choice (max (max |a 0 - b 0| |a 1 - b 1|) (max |a 2 - b 2| |a 3 - b 3|)) (max |a 4 - b 4| |a 5 - b 5|) with e | e <;> rw [e]
  · rcases max_choice (max |a 0 - b 0| |a 1 - b 1|) (max |a 2 - b 2| |a 3 - b 3|) with e | e <;> rw [e]
    · rcases max_choice |a 0 - b 0| |a 1 - b 1| with e | e <;> rw [e] <;> exact ⟨_, rfl⟩
    · rcases max_choice |a 2 - b 2| |a 3 - b 3| with e | e <;> rw [e] <;> exact ⟨_, rfl⟩
  · rcases max_choice |a 4 - b 4| |a 5 - b 5| with e | e <;> rw [e] <;> exact ⟨_, rfl⟩

/-- the time planned, over the exact numbers. -/
theorem planned_fin (V : ℝ) (hV : 0 < V) (s t : Fin 6 → ℝ) :
    Told.planned (fin V) (finS s) (finS t) = fin (widest s t / (V * (Real.pi / 180))) := by
  obtain ⟨T, h1, h2, h3, h4⟩ := RC.foldl_max (fun i => |s i - t i|) (List.finRange 6) 0
  have hT : T = widest s t := by
    apply le_antisymm
    · rcases h4 with h4 | ⟨i, _, h4⟩
      · rw [h4]; exact (abs_nonneg _).trans (le_widest s t 0)
      · rw [h4]; exact le_widest s t i
    · obtain ⟨i, e⟩ := widest_of s t
      rw [e]; exact h3 i (List.mem_finRange i)
  have hpi := Real.pi_pos
  unfold Told.planned
  have e0 : (lit 0 : XR) = fin 0 := by simp
  have e1 : ∀ i, FloatOps.abs (FloatOps.sub (finS s i) (finS t i)) = fin |s i - t i| := fun i => by
    have : FloatOps.sub (finS s i) (finS t i) = fin (s i - t i) := fin_sub _ _
    rw [this, ops_abs]
  simp only [e0, e1]
  rw [h1, hT, ops_div, fin_div _ _ hV.ne']
  simp only [radToDeg, lit, ops_pi, ops_lit, ops_div, fin_div _ _ hpi.ne', ops_mul, fin_mul]
  congr 1
  push_cast
  field_simp

section
variable {F : Type} [FloatOps F]
open Told

/-- **C121**: in every history, whatever the arithmetic: an instruction that gives angles (M0) and a speed. When it is reported as finished, and nothing else that concerns the arm was started in between,
the arm has been left alone, or every servo was commanded once, so that all take the same time: the time the furthest turn needs at the speed told, or the time the slowest servo needs. -/
theorem C121_angles {cfg : Cfg F} {junk : Nat → Byte} {tr : List (Act F)} {p : Prog F (FW F)} (h : Trace cfg junk tr p) {L U : Six F} (hl : Limits L U tr)
    {cs : List Cmd} (ht : TellsAngles cs) (hM : Chooses 48 cs) {v : Dec} (hv : LastSpeed cs v) {pre mid post : List (Act F)} {src : Src} {a : Act F} (hs : src ≠ .immediate ∨ Calm pre)
    (e : tr = pre ++ .out (.ghost src (text cs)) :: mid ++ a :: post) (hm : ∀ x ∈ mid, ¬ DirectsI x) (ha : reports a) :
    ∃ t : Six F, (∀ i d, Last NamesAngle cs i d → t i = angle d) ∧ (ArmStill mid ∨ Sped cfg.toRCfg (atof v.text) t mid) := by
  have hi : a.isInput = false := by
    match a, ha with
    | .out _, _ => rfl
  have H := run_phases (cfg := cfg) (L := L) (U := U) (m := text cs) (V := atof v.text) (X := False) (T := fun t => ∀ i d, Last NamesAngle cs i d → t i = angle d) (fun {c c' tr} hf hst he => by
    have hT := (only_exec he (parse_tell cfg cs ht.toPlain (tells_ne ht.some) c (hf.same (by rw [hst]; decide)))).2
    have hV := (only_exec he (parse_vel cfg cs ht.ok c hv)).2
    obtain ⟨c0, hc0, i, d, hn⟩ := ht.some
    refine ⟨hT.st ⟨c0, hc0, .inl ⟨i, d, hn⟩⟩, hT.m0 hM, hV, .inr ⟨c'.rc.targetAngles, hT.ang, .inl ⟨hT.angC.2 ht.some, ?_, rfl⟩⟩⟩
    rw [← Bool.not_eq_true, hT.posC]
    rintro ⟨x, hx, i, d, hn⟩; exact ht.noPose x hx i d hn)
  exact (sound H h hl hs ha hi (angles_directs ht) hm e).resolve_left id

/-- **C121**: the same for an instruction that gives a pose. -/
theorem C121_poses {cfg : Cfg F} {junk : Nat → Byte} {tr : List (Act F)} {p : Prog F (FW F)} (h : Trace cfg junk tr p) {L U : Six F} (hl : Limits L U tr)
    {cs : List Cmd} (ht : TellsPose cs) (hM : Chooses 48 cs) {v : Dec} (hv : LastSpeed cs v) {pre mid post : List (Act F)} {src : Src} {a : Act F} (hs : src ≠ .immediate ∨ Calm pre)
    (e : tr = pre ++ .out (.ghost src (text cs)) :: mid ++ a :: post) (hm : ∀ x ∈ mid, ¬ DirectsI x) (ha : reports a) :
    ∃ P : Six F, (∀ i d, Last NamesPose cs i d → P i = coordinate i d) ∧ (cfg.inv P = none ∨ ∃ t, cfg.inv P = some t ∧ (ArmStill mid ∨ Sped cfg.toRCfg (atof v.text) t mid)) := by
  have hi : a.isInput = false := by
    match a, ha with
    | .out _, _ => rfl
  have H := run_phases (cfg := cfg) (L := L) (U := U) (m := text cs) (V := atof v.text) (X := ∃ P : Six F, (∀ i d, Last NamesPose cs i d → P i = coordinate i d) ∧ cfg.inv P = none)
    (T := fun t => ∃ P : Six F, (∀ i d, Last NamesPose cs i d → P i = coordinate i d) ∧ cfg.inv P = some t) (fun {c c' tr} hf hst he => by
    have hT := (only_exec he (parse_tell cfg cs ht.toPlain (tells_ne ht.some) c (hf.same (by rw [hst]; decide)))).2
    have hV := (only_exec he (parse_vel cfg cs ht.ok c hv)).2
    obtain ⟨c0, hc0, i, d, hn⟩ := ht.some
    refine ⟨hT.st ⟨c0, hc0, .inr ⟨i, d, hn⟩⟩, hT.m0 hM, hV, ?_⟩
    cases hv : cfg.inv c'.rc.targetPose with
    | none => exact .inl ⟨_, hT.pos, hv⟩
    | some t =>
      refine .inr ⟨t, ⟨_, hT.pos, hv⟩, .inr ⟨?_, hT.posC.2 ht.some, hv⟩⟩
      rw [← Bool.not_eq_true, hT.angC]
      rintro ⟨x, hx, i, d, hn⟩; exact ht.noAngle x hx i d hn)
  rcases sound H h hl hs ha hi (pose_directs ht) hm e with ⟨P, h1, h2⟩ | ⟨t, ⟨P, h1, h2⟩, h3⟩
  · exact ⟨P, h1, .inl h2⟩
  · exact ⟨P, h1, .inr ⟨t, h2, h3⟩⟩

end

section
variable {ev : ℕ → Ev XR}

/-- where the command of servo `i` is in a stretch that commands every servo once. -/
theorem sped_times {a k : ℕ} {pre post : List (Act XR)} {p : Six XR} {τ : XR} {x y : Fin 6 → Servo XR} (he : acts (span ev a k) = pre ++ applyT p τ x y (List.finRange 6) ++ post)
    (h1 : ArmStill pre) (h2 : ArmStill post) (i : Fin 6) :
    ∃ n1 n2 n3 n4 n5 n6, a ≤ n1 ∧ n1 < n2 ∧ n2 < n3 ∧ n3 < n4 ∧ n4 < n5 ∧ n5 < n6 ∧ n6 < a + k ∧ ev n1 = .act (.servo (armServo i) (x i)) ∧
      ev n2 = .act (.micro (armServo i) (.setVel (FloatOps.div (FloatOps.abs (FloatOps.sub (p i) (x i).cur)) τ))) ∧ ev n3 = .act (.servo (armServo i) (y i)) ∧
      ev n4 = .act (.micro (armServo i) (.setStart (y i).cur)) ∧ ev n5 = .act (.micro (armServo i) .zeroElapsed) ∧ ev n6 = .act (.micro (armServo i) (.setTarget (p i))) ∧
      ∀ j, a ≤ j → j < a + k → ∀ m, ev j = .act (.micro (armServo i) m) → j = n2 ∨ j = n4 ∨ j = n5 ∨ j = n6 := by
  obtain ⟨l1, l2, hl⟩ := List.mem_iff_append.1 (List.mem_finRange i)
  have hnd : (l1 ++ i :: l2).Nodup := hl ▸ List.nodup_finRange 6
  rw [List.nodup_append] at hnd
  have hi1 : i ∉ l1 := fun hm => hnd.2.2 i hm i (by simp) rfl
  have hi2 : i ∉ l2 := (List.nodup_cons.1 hnd.2.1).1
  have other : ∀ l : List (Fin 6), i ∉ l → ∀ m, Act.micro (armServo i) m ∉ applyT p τ x y l := by
    intro l hn m hm
    obtain ⟨j, hj, hm⟩ := List.mem_flatMap.1 hm
    have hne : armServo i ≠ armServo j := fun e => hn (armServo_inj e ▸ hj)
    simp at hm
    rcases hm with ⟨e, _⟩ | ⟨e, _⟩ | ⟨e, _⟩ | ⟨e, _⟩ <;> exact hne e
  have e1 : applyT p τ x y (List.finRange 6) = applyT p τ x y l1 ++ (.servo (armServo i) (x i) :: .micro (armServo i) (.setVel (FloatOps.div (FloatOps.abs (FloatOps.sub (p i) (x i).cur)) τ)) ::
      .servo (armServo i) (y i) :: .micro (armServo i) (.setStart (y i).cur) :: .micro (armServo i) .zeroElapsed :: .micro (armServo i) (.setTarget (p i)) :: applyT p τ x y l2) := by
    rw [hl]; simp [applyT, List.flatMap_append, List.flatMap_cons]
  rw [e1] at he
  simp only [List.append_assoc, List.cons_append] at he
  rw [← List.append_assoc] at he
  obtain ⟨d, hd, g1, g2⟩ := span_cut he
  obtain ⟨n1, a1, b1, e1, u1, r1⟩ := next_act g2
  obtain ⟨n2, a2, b2, e2, u2, r2⟩ := next_act r1
  obtain ⟨n3, a3, b3, e3, u3, r3⟩ := next_act r2
  obtain ⟨n4, a4, b4, e4, u4, r4⟩ := next_act r3
  obtain ⟨n5, a5, b5, e5, u5, r5⟩ := next_act r4
  obtain ⟨n6, a6, b6, e6, u6, r6⟩ := next_act r5
  refine ⟨n1, n2, n3, n4, n5, n6, by omega, by omega, by omega, by omega, by omega, by omega, by omega, e1, e2, e3, e4, e5, e6, fun j j1 j2 m ej => ?_⟩
  by_contra hcon
  simp only [not_or] at hcon
  obtain ⟨c2, c4, c5, c6⟩ := hcon
  rcases Nat.lt_or_ge j (a + d) with g | g
  · have : Act.micro (armServo i) m ∈ acts (span ev a d) := acts_mem.2 (mem_span.2 ⟨j, j1, g, ej⟩)
    rw [g1] at this
    rcases List.mem_append.1 this with hm | hm
    · exact h1 i m hm
    · exact other l1 hi1 m hm
  rcases Nat.lt_or_ge j n1 with g' | g'
  · exact u1 j g g' _ ej
  rcases Nat.eq_or_lt_of_le g' with rfl | g'
  · rw [e1] at ej; cases ej
  rcases Nat.lt_or_ge j n2 with g'' | g''
  · exact u2 j (by omega) g'' _ ej
  rcases Nat.lt_or_ge j n3 with g3 | g3
  · exact u3 j (by omega) g3 _ ej
  rcases Nat.eq_or_lt_of_le g3 with rfl | g3
  · rw [e3] at ej; cases ej
  rcases Nat.lt_or_ge j n4 with g4 | g4
  · exact u4 j (by omega) g4 _ ej
  rcases Nat.lt_or_ge j n5 with g5 | g5
  · exact u5 j (by omega) g5 _ ej
  rcases Nat.lt_or_ge j n6 with g6 | g6
  · exact u6 j (by omega) g6 _ ej
  have : Act.micro (armServo i) m ∈ acts (span ev (n6 + 1) (n5 + 1 + (n4 + 1 + (n3 + 1 + (n2 + 1 + (n1 + 1 + (a + d + (k - d) - (n1 + 1)) - (n2 + 1)) - (n3 + 1)) - (n4 + 1)) - (n5 + 1)) - (n6 + 1))) :=
    acts_mem.2 (mem_span.2 ⟨j, by omega, by omega, ej⟩)
  rw [r6] at this
  rcases List.mem_append.1 this with hm | hm
  · exact other l2 hi2 m hm
  · exact h2 i m hm

end

theorem slowest_fin' (p c mv : Fin 6 → ℝ) (m : Fin 6 → Servo XR) (hc : ∀ i, (m i).cur = fin (c i)) (hm : ∀ i, (m i).maxVel = fin (mv i)) (hp : ∀ i, 0 < mv i) (acc : ℝ) :
    ∃ T, slowest (finS p) m (List.finRange 6) (fin acc) = fin T ∧ acc ≤ T ∧ (T = acc ∨ ∃ i, T = |p i - c i| / mv i) := by
  obtain ⟨T, h1, h2, _, h4⟩ := RC.foldl_max (fun i => |p i - c i| / mv i) (List.finRange 6) acc
  refine ⟨T, ?_, h2, h4.imp id fun ⟨i, _, e⟩ => ⟨i, e⟩⟩
  rw [← h1]
  unfold slowest
  refine foldl_congr _ _ _ (fun a i _ => ?_) _
  have e : FloatOps.div (FloatOps.abs (FloatOps.sub (finS p i) (m i).cur)) (m i).maxVel = fin (|p i - c i| / mv i) := by
    rw [hc, hm]
    have : FloatOps.sub (finS p i) (fin (c i)) = fin (p i - c i) := fin_sub _ _
    rw [this, ops_abs, ops_div, fin_div _ _ (hp i).ne']
  simp only [e]

/-- angles close to each other are close as logical angles. -/
theorem logical_near {b c : Fin 6 → ℝ} {ε : ℝ} (h : ∀ i, |b i - c i| < ε) (i : Fin 6) : |kitLogical b i - kitLogical c i| < 2 * ε := by
  have h1 := abs_lt.1 (h 1)
  have h2 := abs_lt.1 (h 2)
  have h3 := abs_lt.1 (h i)
  rw [abs_lt]
  unfold kitLogical
  split <;> constructor <;> linarith [h1.1, h1.2, h2.1, h2.2, h3.1, h3.2]

/-- angles close to each other are as wide from others. -/
theorem widest_near {b c a : Fin 6 → ℝ} {ε : ℝ} (h : ∀ i, |b i - c i| ≤ ε) : widest b a ≤ widest c a + ε := by
  obtain ⟨i, e⟩ := widest_of b a
  rw [e]
  have := le_widest c a i
  have := h i
  have := abs_sub_le (b i) (c i) (a i)
  linarith

section
variable {F : Type} {ev : ℕ → Ev F}

theorem interrupts_isr {a b : ℕ} (h : a ≤ b) (hb : ev b = .isr) : interrupts ev a (b + 1) = interrupts ev a b + 1 := by
  unfold interrupts
  rw [List.range_succ, List.filter_append, List.length_append]
  congr 1
  simp [h, hb]

theorem interrupts_other {a b : ℕ} (hb : a ≤ b → ev b ≠ .isr) : interrupts ev a (b + 1) = interrupts ev a b := by
  unfold interrupts
  rw [List.range_succ, List.filter_append, List.length_append, Nat.add_eq_left]
  by_cases h : a ≤ b
  · have := hb h
    cases hev : ev b <;> simp_all
  · simp [h]

theorem interrupts_self (a : ℕ) : interrupts ev a a = 0 := by
  unfold interrupts
  rw [List.length_eq_zero_iff, List.filter_eq_nil_iff]
  intro n hn
  have := List.mem_range.1 hn
  simp; omega

theorem interrupts_anti {a a' : ℕ} (h : a ≤ a') (b : ℕ) : interrupts ev a' b ≤ interrupts ev a b := by
  induction b with
  | zero => simp [interrupts]
  | succ b ih =>
    by_cases hb : ev b = .isr
    · by_cases g : a' ≤ b
      · rw [interrupts_isr g hb, interrupts_isr (h.trans g) hb]; omega
      · rw [interrupts_other fun x => absurd x g]
        by_cases g' : a ≤ b
        · rw [interrupts_isr g' hb]; omega
        · rw [interrupts_other fun x => absurd x g']; exact ih
    · rw [interrupts_other fun _ => hb, interrupts_other fun _ => hb]; exact ih

end

section
variable {w0 : World XR} (hw : w0.servos = Kit.servos) {junk : Nat → Byte} {σ : ℕ → Sys XR} {ev : ℕ → Ev XR} (h : Endless Kit.cfg w0 junk σ ev)
  (hmem : BriskStorage w0.ee) (hc : ∀ n, BrisklySent (w0.rxq ++ arrivals (sofar ev n))) (hu : Unbroken ev)
include hw h hmem hc hu

/-- a servo at rest that is sent nowhere stays. -/
theorem kit_idle {k0 e : ℕ} {i : Fin 6} {c t : ℝ} (h0 : ((σ k0).w.servos (armServo i)).cur = fin c) (h1 : ((σ k0).w.servos (armServo i)).target = fin t) (hct : |c - t| < 1 / 1000000)
    (hs : ∀ j, k0 ≤ j → j < e → ∀ t', ev j ≠ .act (.micro (armServo i) (.setTarget t'))) {n : ℕ} (h2 : k0 ≤ n) (h3 : n ≤ e) :
    ∃ c', ((σ n).w.servos (armServo i)).cur = fin c' ∧ |c' - c| < 1 / 1000000 := by
  obtain ⟨c', e1, e2, e3⟩ := (kit_within hw h hmem hc hu (lo := min c t) (hi := max c t) ⟨c, h0, min_le_left _ _, le_max_left _ _⟩ ⟨t, h1, min_le_right _ _, le_max_right _ _⟩
    (fun j j1 j2 t' ej => absurd ej (hs j j1 j2 t')) h2 h3).1
  refine ⟨c', e1, lt_of_le_of_lt ?_ hct⟩
  rcases le_total c t with g | g
  · rw [min_eq_left g] at e2; rw [max_eq_right g] at e3
    rw [abs_of_nonneg (by linarith), abs_of_nonpos (by linarith)]; linarith
  · rw [min_eq_right g] at e2; rw [max_eq_left g] at e3
    rw [abs_of_nonpos (by linarith), abs_of_nonneg (by linarith)]; linarith

/-- how far a servo turns. -/
theorem kit_crawl {a b : ℕ} (hab : a ≤ b) {i : Fin 6} {v : ℝ} (hv : ∀ n, a ≤ n → n < b → ((σ n).w.servos (armServo i)).vel = fin v) {c : ℝ} (h0 : ((σ a).w.servos (armServo i)).cur = fin c) :
    ∃ c', ((σ b).w.servos (armServo i)).cur = fin c' ∧ |c' - c| ≤ v * (20 / 1000) * interrupts ev a b := by
  induction b, hab using Nat.le_induction with
  | base => exact ⟨c, h0, by rw [interrupts_self]; simp⟩
  | succ b hb ih =>
    obtain ⟨c1, e1, e2⟩ := ih fun n g1 g2 => hv n g1 (by omega)
    obtain ⟨t, c', c'', f1, f2, f3, f4, _⟩ := kit_step hw h hmem hc hu b i
    rw [e1] at f2; injection f2 with f2; subst f2
    refine ⟨c'', f3, ?_⟩
    have htri := abs_sub_le c'' c1 c
    by_cases hev : ev b = .isr
    · rw [interrupts_isr hb hev]
      push_cast
      rcases f4 with f4 | ⟨v', g1, _, _, g2⟩
      · obtain ⟨_, v', _, _, k1, k2, k3, k4, k5, k6, k7⟩ := (kit_isr hw h hmem hc hu hev i).course
        rw [hv b hb (by omega)] at k2; injection k2 with k2; subst k2
        have : 0 ≤ v * (20 / 1000) := (abs_nonneg _).trans k7
        rw [f4]; linarith
      · rw [hv b hb (by omega)] at g1; injection g1 with g1; subst g1
        linarith
    · rw [interrupts_other fun _ => hev]
      obtain ⟨d, d', k1, k2, k3, _⟩ := C120_smooth hw h hmem hc hu b i
      rw [e1] at k1; injection k1 with k1; subst k1
      rw [f3] at k2; injection k2 with k2; subst k2
      rw [k3 hev]; exact e2

/-- what a move at the speed `V` (radians per second) does to servo `i`: it is commanded at the times `n2` to `n6`. -/
structure Runs (σ : ℕ → Sys XR) (k0 k e : ℕ) (i : Fin 6) (c0 p τ : ℝ) (n2 n6 : ℕ) (x y v : ℝ) : Prop where
  o2 : k0 < n2
  o6 : n2 < n6
  ok : n6 < k
  nx : |x - c0| < 1 / 1000000
  ny : |y - c0| < 1 / 1000000
  still : ∀ n, k0 ≤ n → n ≤ n6 + 1 → ∃ c, ((σ n).w.servos (armServo i)).cur = fin c ∧ |c - c0| < 1 / 1000000
  vel : ∀ n, n2 < n → n ≤ e → ((σ n).w.servos (armServo i)).vel = fin v
  how : v = |p - x| / τ ∨ v = (Kit.velDeg (armServo i) : ℝ) * (Real.pi / 180) ∧ v < |p - x| / τ ∨ p = x ∧ v = 1 / 10
  tgt : ∀ n, n6 < n → n ≤ e → ((σ n).w.servos (armServo i)).target = fin p
  start : ((σ (n6 + 1)).w.servos (armServo i)).start = fin y

/-- a stretch of time that begins at rest: what is read before the first command. -/
theorem kit_early {a d : ℕ} {c0 t : Fin 6 → ℝ} (hc0 : ArmAt (σ a).w c0) (et : ∀ i : Fin 6, ((σ a).w.servos (armServo i)).target = fin (t i)) (hct : ∀ i, |c0 i - t i| < 1 / 1000000)
    {pre rest : List (Act XR)} (h6 : acts (span ev a d) = pre ++ rest) (h1 : ArmStill pre) (i : Fin 6) (s : Servo XR) (hs : Act.servo (armServo i) s ∈ pre) :
    (∃ c, s.cur = fin c ∧ |c - c0 i| < 1 / 1000000) ∧ s.maxVel = fin ((Kit.velDeg (armServo i) : ℝ) * (Real.pi / 180)) := by
  obtain ⟨q1, q2, rfl⟩ := List.mem_iff_append.1 hs
  have he : acts (span ev a d) = q1 ++ (.servo (armServo i) s :: (q2 ++ rest)) := by rw [h6]; simp
  obtain ⟨d', hd, g1, g2⟩ := span_cut he
  obtain ⟨r, r1, r2, r3, r4, _⟩ := next_act g2
  have := h.read r3
  subst this
  refine ⟨kit_idle hw h hmem hc hu (hc0 i) (et i) (hct i) (e := r) (fun j j1 j2 t' ej => ?_) (by omega) (le_refl _), (kit_vel hw h hmem hc hu r i).1⟩
  rcases Nat.lt_or_ge j (a + d') with g | g
  · have : Act.micro (armServo i) (.setTarget t') ∈ acts (span ev a d') := acts_mem.2 (mem_span.2 ⟨j, by omega, g, ej⟩)
    rw [g1] at this
    exact h1 i _ (List.mem_append_left _ this)
  · exact r4 j g j2 _ ej

/-- a stretch of time that begins at rest, in which every servo is commanded once. -/
theorem kit_runs {a b e : ℕ} (hab : a ≤ b) (hbe : b ≤ e) {c0 t : Fin 6 → ℝ} (hc0 : ArmAt (σ a).w c0) (et : ∀ i : Fin 6, ((σ a).w.servos (armServo i)).target = fin (t i)) (hct : ∀ i, |c0 i - t i| < 1 / 1000000)
    (hun : ∀ i : Fin 6, Untouched ev (armServo i) b e) {p : Fin 6 → ℝ} {τ : ℝ} (hτ : 0 < τ) {pre post : List (Act XR)} {x y : Fin 6 → Servo XR}
    (h6 : acts (span ev a (b - a)) = pre ++ applyT (finS p) (fin τ) x y (List.finRange 6) ++ post) (h1 : ArmStill pre) (h2 : ArmStill post) (i : Fin 6) :
    ∃ n2 n6 x y v, Runs σ a b e i (c0 i) (p i) τ n2 n6 x y v ∧ Untouched ev (armServo i) (n6 + 1) e ∧ ∀ j, j ≤ b → Untouched ev (armServo i) j b → n6 < j := by
  have hend : a + (b - a) = b := by omega
  have quiet : ∀ (i : Fin 6) (r : ℕ), a ≤ r → (∀ j, a ≤ j → j < r → ∀ t', ev j ≠ .act (.micro (armServo i) (.setTarget t'))) →
      ∃ c, ((σ r).w.servos (armServo i)).cur = fin c ∧ |c - c0 i| < 1 / 1000000 := fun i r hr hno =>
    kit_idle hw h hmem hc hu (hc0 i) (et i) (hct i) (e := r) (fun j j1 j2 t' ej => hno j j1 j2 t' ej) hr (le_refl _)
  obtain ⟨n1, n2, n3, n4, n5, n6, l1, l2, l3, l4, l5, l6, l7, f1, f2, f3, f4, f5, f6, only⟩ := sped_times h6 h1 h2 i
  rw [hend] at l7 only
  have hno : ∀ r, r ≤ n6 → ∀ j, a ≤ j → j < r → ∀ t', ev j ≠ .act (.micro (armServo i) (.setTarget t')) := fun r hr j j1 j2 t' ej => by
    rcases only j (by omega) (by omega) _ ej with rfl | rfl | rfl | rfl
    · rw [f2] at ej; cases ej
    · rw [f4] at ej; cases ej
    · rw [f5] at ej; cases ej
    · omega
  have st : ∀ n, a ≤ n → n ≤ n6 → ∃ c, ((σ n).w.servos (armServo i)).cur = fin c ∧ |c - c0 i| < 1 / 1000000 := fun n g1 g2 => quiet i n g1 (hno n g2)
  have st' : ∀ n, a ≤ n → n ≤ n6 + 1 → ∃ c, ((σ n).w.servos (armServo i)).cur = fin c ∧ |c - c0 i| < 1 / 1000000 := fun n g1 g2 => by
    rcases Nat.eq_or_lt_of_le g2 with rfl | g2
    · rw [servo_step h, f6]
      simpa [evServo, Servo.micro] using st n6 (by omega) (le_refl _)
    · exact st n g1 (by omega)
  obtain ⟨xc, x1, x2⟩ := st n1 (by omega) (by omega)
  obtain ⟨yc, y1, y2⟩ := st n3 (by omega) (by omega)
  have hx := h.read f1
  have hy := h.read f3
  rw [← hx] at x1
  rw [← hy] at y1
  have ef2 : FloatOps.div (FloatOps.abs (FloatOps.sub (finS p i) (x i).cur)) (fin τ) = fin (|p i - xc| / τ) := by
    rw [x1]
    have : FloatOps.sub (finS p i) (fin xc) = fin (p i - xc) := fin_sub _ _
    rw [this, ops_abs, ops_div, fin_div _ _ hτ.ne']
  rw [ef2] at f2
  -- the speed just after it is stored
  have hvel : ∃ v : ℝ, ((σ (n2 + 1)).w.servos (armServo i)).vel = fin v ∧
      (v = |p i - xc| / τ ∨ v = (Kit.velDeg (armServo i) : ℝ) * (Real.pi / 180) ∧ v < |p i - xc| / τ ∨ p i = xc ∧ v = 1 / 10) := by
    rw [servo_step h, f2]
    simp only [evServo, if_true, Servo.micro, Servo.clampVel, (kit_vel hw h hmem hc hu n2 i).1]
    have hq : 0 ≤ |p i - xc| / τ := by positivity
    split
    · rename_i g
      exact ⟨_, rfl, .inr (.inl ⟨rfl, by simpa [fgt] using g⟩)⟩
    · split
      · rename_i g
        refine ⟨1 / 10, by simp [lit], .inr (.inr ⟨?_, rfl⟩)⟩
        have g : |p i - xc| / τ ≤ 0 := by simpa [fle, lit] using g
        have : |p i - xc| / τ = 0 := le_antisymm g hq
        rcases div_eq_zero_iff.1 this with g' | g'
        · linarith [abs_eq_zero.1 g']
        · exact absurd g' hτ.ne'
      · exact ⟨_, rfl, .inl rfl⟩
  obtain ⟨v, v1, v2⟩ := hvel
  have hlater : ∀ j, n2 < j → j < e → ∀ w, ev j ≠ .act (.micro (armServo i) (.setVel w)) := fun j j1 j2 w ej => by
    rcases Nat.lt_or_ge j b with g | g
    · rcases only j (by omega) g _ ej with rfl | rfl | rfl | rfl
      · omega
      · rw [f4] at ej; cases ej
      · rw [f5] at ej; cases ej
      · rw [f6] at ej; cases ej
    · exact hun i j g j2 _ ej
  -- the start
  have hstart : ∀ n, n4 < n → n ≤ n6 → ∃ q, ((σ n).w.servos (armServo i)).start = fin q ∧ |q - c0 i| < 1 / 1000000 := by
    intro n g1
    induction n, g1 using Nat.le_induction with
    | base =>
      intro _
      refine ⟨yc, ?_, y2⟩
      rw [show n4.succ = n4 + 1 from rfl, servo_step h, f4]; simp [evServo, Servo.micro, y1]
    | succ n g1 ih =>
      intro g2
      obtain ⟨q, q1, q2⟩ := ih (by omega)
      have htn : ((σ n).w.servos (armServo i)).target = fin (t i) := by
        rw [← et i]
        refine Brisk.proj_stays h (fun s => s.target) (by omega) fun j j1 j2 => ?_
        have hjj : ∀ t', ev j ≠ .act (.micro (armServo i) (.setTarget t')) := fun t' ej => by
          exact hno n6 (le_refl _) j j1 (by omega) t' ej
        generalize ev j = q at hjj
        cases q with
        | isr => simp only [evServo]; rw [tick_target]
        | act q =>
          cases q with
          | micro i' m' =>
            simp only [evServo]
            split
            · rename_i hi'
              subst hi'
              cases m' with
              | setTarget w => exact absurd rfl (hjj w)
              | _ => rfl
            · rfl
          | _ => rfl
        | _ => rfl
      rw [servo_step h]
      cases hev : ev n with
      | isr =>
        simp only [evServo]
        have : (((σ n).w.servos (armServo i)).tick 20).start = ((σ n).w.servos (armServo i)).start ∨ (((σ n).w.servos (armServo i)).tick 20).start = ((σ n).w.servos (armServo i)).target := by
          simp only [Servo.tick]
          split
          · exact .inr rfl
          · split <;> exact .inl rfl
        rcases this with g | g
        · exact ⟨q, g.trans q1, q2⟩
        · exact ⟨t i, g.trans htn, by rw [abs_sub_comm]; exact hct i⟩
      | act q' =>
        cases q' with
        | micro i' m' =>
          simp only [evServo]
          split
          · rename_i hi'
            subst hi'
            rcases only n (by omega) (by omega) _ hev with rfl | rfl | rfl | rfl
            · omega
            · omega
            · rw [f5] at hev; injection hev with hev; injection hev with _ hev; subst hev
              exact ⟨q, q1, q2⟩
            · omega
          · exact ⟨q, q1, q2⟩
        | _ => exact ⟨q, q1, q2⟩
      | _ => exact ⟨q, q1, q2⟩
  obtain ⟨q, q1, q2⟩ := hstart n6 (by omega) (le_refl _)
  have hfree : Untouched ev (armServo i) (n6 + 1) e := fun j j1 j2 m' ej => by
    rcases Nat.lt_or_ge j b with g | g
    · rcases only j (by omega) g _ ej with g' | g' | g' | g' <;> omega
    · exact hun i j g (by omega) _ ej
  refine ⟨n2, n6, xc, q, v, ⟨by omega, by omega, l7, x2, q2, st', fun n g1 g2 => ?_, v2, fun n g1 g2 => ?_, ?_⟩, hfree, fun j j1 j2 => ?_⟩
  · rw [← v1]
    refine Brisk.proj_stays h (fun s => s.vel) (by omega) fun j j1 j2 => ?_
    have := hlater j (by omega) (by omega)
    generalize ev j = q at this
    cases q with
    | isr => simp only [evServo, Servo.tick]; split <;> [rfl; (split <;> rfl)]
    | act q =>
      cases q with
      | micro i' m' =>
        simp only [evServo]
        split
        · rename_i hi'
          subst hi'
          cases m' with
          | setVel w => exact absurd rfl (this w)
          | _ => rfl
        · rfl
      | _ => rfl
    | _ => rfl
  · have e1 : ((σ (n6 + 1)).w.servos (armServo i)).target = fin (p i) := by
      rw [servo_step h, f6]; simp [evServo, Servo.micro, finS]
    rw [← e1]
    refine keep_stays (P := fun s => s.target = ((σ (n6 + 1)).w.servos (armServo i)).target) h (fun s hs => by rw [tick_target]; exact hs) (by omega) (fun j j1 j2 => hfree j j1 (by omega)) rfl
  · rw [servo_step h, f6]; simpa [evServo, Servo.micro] using q1
  · by_contra hcon
    exact j2 n6 (by omega) l7 _ f6

/-- all there is to know about a move at a speed. -/
theorem kit_sped {k0 k e : ℕ} (hk : k0 < k) (hke : k ≤ e) {z : Act XR} (h0 : ev k0 = .act z) (hz : ∀ (i : Fin 6) m, z ≠ .micro (armServo i) m)
    (hst : ∀ i : Fin 6, ((σ k0).w.servos (armServo i)).atTarget = true) (hun : ∀ i : Fin 6, Untouched ev (armServo i) k e) {a : Fin 6 → ℝ} {V : ℝ} (hV : 0 < V)
    {c0 : Fin 6 → ℝ} (hc0 : ArmAt (σ k0).w c0)
    (hm : Told.Sped (Kit.cfg : Cfg XR).toRCfg (fin V) (finS a) (acts (span ev (k0 + 1) (k - (k0 + 1))))) :
    98 / 1000000 ≤ widest (kitLogical c0) a ∧ ∃ τ : ℝ, 0 < τ ∧ widest (kitLogical c0) a - 2 / 1000000 ≤ V * (Real.pi / 180) * τ ∧
      (∀ T, widest (kitLogical c0) a + 2 / 1000000 ≤ V * (Real.pi / 180) * T → (∀ i, |kitServo a i - c0 i| + 1 / 1000000 ≤ (Kit.velDeg (armServo i) : ℝ) * (Real.pi / 180) * T) → τ ≤ T) ∧
      ∀ i, ∃ n2 n6 x y v, Runs σ k0 k e i (c0 i) (kitServo a i) τ n2 n6 x y v ∧ Untouched ev (armServo i) (n6 + 1) e ∧ ∀ j, j ≤ k → Untouched ev (armServo i) j k → n6 < j := by
  obtain ⟨pre, post, u, m, x, y, h1, h2, h3, h4, h5, h6⟩ := hm
  have hend : k0 + 1 + (k - (k0 + 1)) = k := by omega
  have hV' : 0 < V * (Real.pi / 180) := by have := Real.pi_pos; positivity
  have hl2p : (Kit.cfg : Cfg XR).l2p (finS a) = finS (kitServo a) := kit_l2p a
  have hl2p' : (Kit.cfg : Cfg XR).toRCfg.l2p (finS a) = finS (kitServo a) := hl2p
  choose t et hct using fun i : Fin 6 => (show ∃ t, ((σ k0).w.servos (armServo i)).target = fin t ∧ |c0 i - t| < 1 / 1000000 by
    obtain ⟨c, t, e1, e2, e3⟩ := rest_fin hw h hmem hc hu (hst i)
    rw [hc0 i] at e1; injection e1 with e1; subst e1
    exact ⟨t, e2, e3⟩)
  have hzs : ArmStill [z] := fun i m hm => hz i m (List.mem_singleton.1 hm).symm
  have hspan : acts (span ev k0 (k - k0)) = z :: acts (span ev (k0 + 1) (k - (k0 + 1))) := by
    rw [show k - k0 = (k - (k0 + 1)) + 1 by omega, span_cons, h0]
    rfl
  have h1' : ArmStill (z :: pre) := Told.armStill_append (a := [z]).2 ⟨hzs, h1⟩
  have early : ∀ (i : Fin 6) (s : Servo XR), Act.servo (armServo i) s ∈ pre → (∃ c, s.cur = fin c ∧ |c - c0 i| < 1 / 1000000) ∧ s.maxVel = fin ((Kit.velDeg (armServo i) : ℝ) * (Real.pi / 180)) :=
    fun i s hs => kit_early hw h hmem hc hu (a := k0) (d := k - k0) hc0 et hct (pre := z :: pre) (rest := applyT _ _ x y (List.finRange 6) ++ post) (by rw [hspan, h6]; simp only [List.append_assoc, List.cons_append]; rfl) h1' i s (by simp [hs])
  choose uc hu1 hu2 using fun i => (early i (u i) (h3 i)).1
  choose mc hm1 hm2 using fun i => (early i (m i) (h4 i)).1
  have hcurs : curs u = finS uc := funext hu1
  have hS : (Kit.cfg : Cfg XR).toRCfg.p2l (curs u) = finS (kitLogical uc) := by rw [hcurs]; exact kit_p2l uc
  rw [hS] at h5 h6
  rw [hl2p', planned_fin V hV] at h6
  have hmv : ∀ i : Fin 6, (0 : ℝ) < (Kit.velDeg (armServo i) : ℝ) * (Real.pi / 180) := fun i => by
    have hp := Real.pi_pos
    have : (0 : ℝ) < (Kit.velDeg (armServo i) : ℝ) := by
      have : 0 < Kit.velDeg (armServo i) := by fin_cases i <;> decide
      exact_mod_cast this
    positivity
  obtain ⟨τ, t1, t2, t3⟩ := slowest_fin' (kitServo a) mc (fun i => (Kit.velDeg (armServo i) : ℝ) * (Real.pi / 180)) m hm1 (fun i => (early i (m i) (h4 i)).2) hmv
    (widest (kitLogical uc) a / (V * (Real.pi / 180)))
  rw [t1] at h6
  have hW1 : widest (kitLogical uc) a ≤ widest (kitLogical c0) a + 2 / 1000000 :=
    widest_near fun i => le_of_lt (lt_of_lt_of_le (logical_near hu2 i) (by norm_num))
  have hW2 : widest (kitLogical c0) a ≤ widest (kitLogical uc) a + 2 / 1000000 :=
    widest_near fun i => by rw [abs_sub_comm]; exact le_of_lt (lt_of_lt_of_le (logical_near hu2 i) (by norm_num))
  have hW3 : 1 / 10000 ≤ widest (kitLogical uc) a := by
    by_contra hcon
    rw [(RC.anglesEqual_fin (kitLogical uc) a).2 fun i => lt_of_le_of_lt (le_widest _ _ i) (not_le.1 hcon)] at h5
    cases h5
  have hτ : 0 < τ := lt_of_lt_of_le (div_pos (by linarith) hV') t2
  refine ⟨by linarith, τ, hτ, ?_, ?_, ?_⟩
  · rw [div_le_iff₀ hV'] at t2
    linarith
  · intro T hT1 hT2
    rcases t3 with t3 | ⟨i, t3⟩
    · rw [t3, div_le_iff₀ hV']; linarith
    · rw [t3, div_le_iff₀ (hmv i)]
      have := hT2 i
      have g := abs_lt.1 (hm2 i)
      have : |kitServo a i - mc i| ≤ |kitServo a i - c0 i| + 1 / 1000000 := by
        have := abs_sub_le (kitServo a i) (c0 i) (mc i)
        have : |c0 i - mc i| < 1 / 1000000 := by rw [abs_sub_comm]; exact hm2 i
        linarith
      linarith
  · exact fun i => kit_runs hw h hmem hc hu hk.le hke hc0 et hct hun hτ (pre := z :: pre) (post := post) (x := x) (y := y) (by rw [hspan, h6]; simp only [List.append_assoc, List.cons_append]) h1' h2 i

variable (hi : CalmImmediates ev)
include hi

/-- no step of a servo is faster than its share of the speed. -/
theorem kit_paced {k0 k e : ℕ} (hk : k0 < k) (hke : k ≤ e) {z : Act XR} (h0 : ev k0 = .act z) (hz : ∀ (i : Fin 6) m, z ≠ .micro (armServo i) m)
    (hst : ∀ i : Fin 6, ((σ k0).w.servos (armServo i)).atTarget = true) (hun : ∀ i : Fin 6, Untouched ev (armServo i) k e) {a : Fin 6 → ℝ} {V : ℝ} (hV : 0 < V)
    {c0 : Fin 6 → ℝ} (hc0 : ArmAt (σ k0).w c0)
    (hm : ArmStill (acts (span ev (k0 + 1) (k - (k0 + 1)))) ∨ Told.Sped (Kit.cfg : Cfg XR).toRCfg (fin V) (finS a) (acts (span ev (k0 + 1) (k - (k0 + 1)))))
    {n : ℕ} (h1 : k0 ≤ n) (h2 : n < e) (i : Fin 6) : ∃ c c', ((σ n).w.servos (armServo i)).cur = fin c ∧ ((σ (n + 1)).w.servos (armServo i)).cur = fin c' ∧
      |c' - c| ≤ share (V * (Real.pi / 180)) (widest (kitLogical c0) a) |kitServo a i - c0 i| * (20 / 1000) + 2 / 1000000 := by
  have hV' : 0 < V * (Real.pi / 180) := by have := Real.pi_pos; positivity
  have hsh : 0 ≤ share (V * (Real.pi / 180)) (widest (kitLogical c0) a) |kitServo a i - c0 i| := by
    unfold share
    apply div_nonneg _ (le_max_left _ _)
    have := abs_nonneg (kitServo a i - c0 i)
    positivity
  obtain ⟨t', c, c', e1, e2, e3, e4, _⟩ := kit_step hw h hmem hc hu n i
  refine ⟨c, c', e2, e3, ?_⟩
  obtain ⟨c1, t, f1, f2, f3⟩ := rest_fin hw h hmem hc hu (hst i)
  rw [hc0 i] at f1; injection f1 with f1; subst f1
  rcases hm with hm | hm
  · have key : ∀ m, k0 ≤ m → m ≤ e → ∃ b, ((σ m).w.servos (armServo i)).cur = fin b ∧ |b - c0 i| < 1 / 1000000 := fun m m1 m2 =>
      kit_idle hw h hmem hc hu (hc0 i) f2 f3 (fun j j1 j2 t' ej => by
        rcases Nat.eq_or_lt_of_le j1 with rfl | j1
        · rw [h0] at ej; injection ej with ej; exact hz i _ ej
        · rcases Nat.lt_or_ge j k with g | g
          · exact hm i _ (acts_mem.2 (mem_span.2 ⟨j, by omega, by omega, ej⟩))
          · exact hun i j g j2 _ ej) m1 m2
    obtain ⟨b, b1, b2⟩ := key n h1 (by omega)
    obtain ⟨b', b3, b4⟩ := key (n + 1) (by omega) (by omega)
    rw [e2] at b1; injection b1 with b1; subst b1
    rw [e3] at b3; injection b3 with b3; subst b3
    have := abs_sub_le c' (c0 i) c
    rw [abs_sub_comm (c0 i) c] at this
    linarith
  · obtain ⟨hW, τ, hτ, t1, _, hruns⟩ := kit_sped hw h hmem hc hu hk hke h0 hz hst hun hV hc0 hm
    obtain ⟨n2, n6, x, y, v, R, _, _⟩ := hruns i
    rcases Nat.lt_or_ge n (n6 + 1) with g | g
    · obtain ⟨b, b1, b2⟩ := R.still n h1 (by omega)
      obtain ⟨b', b3, b4⟩ := R.still (n + 1) (by omega) (by omega)
      rw [e2] at b1; injection b1 with b1; subst b1
      rw [e3] at b3; injection b3 with b3; subst b3
      have := abs_sub_le c' (c0 i) c
      rw [abs_sub_comm (c0 i) c] at this
      linarith
    · have hv : ((σ n).w.servos (armServo i)).vel = fin v := R.vel n (by have := R.o6; omega) (by omega)
      have hx : |kitServo a i - x| ≤ |kitServo a i - c0 i| + 1 / 1000000 := by
        have := abs_sub_le (kitServo a i) (c0 i) x
        have := R.nx
        rw [abs_sub_comm] at this
        linarith
      have hq : |kitServo a i - x| / τ ≤ share (V * (Real.pi / 180)) (widest (kitLogical c0) a) |kitServo a i - c0 i| := by
        unfold share
        rw [max_eq_right (by linarith), div_le_div_iff₀ hτ (by linarith)]
        have h3 : |kitServo a i - x| * (widest (kitLogical c0) a - 2 / 1000000) ≤ |kitServo a i - x| * (V * (Real.pi / 180) * τ) := mul_le_mul_of_nonneg_left t1 (abs_nonneg _)
        have h4 : |kitServo a i - x| * (V * (Real.pi / 180) * τ) ≤ (|kitServo a i - c0 i| + 1 / 1000000) * (V * (Real.pi / 180) * τ) := mul_le_mul_of_nonneg_right hx (by positivity)
        linarith
      rcases R.how with g' | ⟨_, g'⟩ | ⟨g', _⟩
      · rcases e4 with rfl | ⟨v', k1, _, _, k2⟩
        · rw [sub_self, abs_zero]; linarith
        · rw [hv] at k1; injection k1 with k1; subst k1
          rw [g'] at k2
          linarith
      · rcases e4 with rfl | ⟨v', k1, _, _, k2⟩
        · rw [sub_self, abs_zero]; linarith
        · rw [hv] at k1; injection k1 with k1; subst k1
          linarith
      · -- it is there already
        obtain ⟨b, b1, b2⟩ := R.still (n6 + 1) (by have := R.o2; have := R.o6; omega) (le_refl _)
        have hp := R.nx
        rw [← g'] at hp
        have key : ∀ m, n6 + 1 ≤ m → m ≤ e → ∃ b', ((σ m).w.servos (armServo i)).cur = fin b' ∧ |b' - c0 i| ≤ 1 / 1000000 := fun m m1 m2 => by
          have := abs_lt.1 b2
          have := abs_lt.1 hp
          obtain ⟨⟨b', k1, k2, k3⟩, _⟩ := kit_within hw h hmem hc hu (k0 := n6 + 1) (e := e) (i := i) (lo := c0 i - 1 / 1000000) (hi := c0 i + 1 / 1000000) ⟨b, b1, by linarith, by linarith⟩
            ⟨_, R.tgt (n6 + 1) (by omega) (by omega), by linarith, by linarith⟩ (fun j j1 j2 t' ej => by
              have e6 : ((σ (j + 1)).w.servos (armServo i)).target = t' := by rw [servo_step h, ej]; simp [evServo, Servo.micro]
              rw [R.tgt (j + 1) (by omega) (by omega)] at e6
              exact ⟨_, e6.symm, by linarith, by linarith⟩) m1 m2
          exact ⟨b', k1, abs_le.2 ⟨by linarith, by linarith⟩⟩
        obtain ⟨b, b1, b2⟩ := key n g (by omega)
        obtain ⟨b', b3, b4⟩ := key (n + 1) (by omega) (by omega)
        rw [e2] at b1; injection b1 with b1; subst b1
        rw [e3] at b3; injection b3 with b3; subst b3
        have := abs_sub_le c' (c0 i) c
        rw [abs_sub_comm (c0 i) c] at this
        linarith

/-- the time a move takes at least. -/
theorem kit_least {k0 k : ℕ} (hk : k0 < k) {z : Act XR} (h0 : ev k0 = .act z) (hz : ∀ (i : Fin 6) m, z ≠ .micro (armServo i) m) (hr : ReportsAt ev k)
    (hst : ∀ i : Fin 6, ((σ k0).w.servos (armServo i)).atTarget = true) {a : Fin 6 → ℝ} {V : ℝ} (hV : 0 < V)
    {c0 : Fin 6 → ℝ} (hc0 : ArmAt (σ k0).w c0) (hm : Told.Sped (Kit.cfg : Cfg XR).toRCfg (fin V) (finS a) (acts (span ev (k0 + 1) (k - (k0 + 1))))) (i : Fin 6) :
    |kitServo a i - c0 i| ≤ share (V * (Real.pi / 180)) (widest (kitLogical c0) a) |kitServo a i - c0 i| * (20 / 1000 * interrupts ev k0 k) + 2 / 1000000 := by
  have hV' : 0 < V * (Real.pi / 180) := by have := Real.pi_pos; positivity
  obtain ⟨hW, τ, hτ, t1, _, hruns⟩ := kit_sped hw h hmem hc hu hk (le_refl k) h0 hz hst (fun i j g1 g2 => absurd g2 (by omega)) hV hc0 hm
  obtain ⟨n2, n6, x, y, v, R, _, _⟩ := hruns i
  obtain ⟨c1, t, f1, f2, f3⟩ := rest_fin hw h hmem hc hu (rest_kit hw h hmem hc hu hi hr i).2
  have ho := R.o2; have ho' := R.o6; have ho'' := R.ok
  rw [R.tgt k R.ok (le_refl _)] at f2; injection f2 with f2; subst f2
  obtain ⟨b, b1, b2⟩ := R.still (n2 + 1) (by omega) (by omega)
  obtain ⟨c2, g1, g2⟩ := kit_crawl hw h hmem hc hu (a := n2 + 1) (b := k) (by omega) (fun n m1 m2 => R.vel n (by omega) (by omega)) b1
  rw [f1] at g1; injection g1 with g1; subst g1
  have hx : |kitServo a i - x| ≤ |kitServo a i - c0 i| + 1 / 1000000 := by
    have := abs_sub_le (kitServo a i) (c0 i) x
    have := R.nx
    rw [abs_sub_comm] at this
    linarith
  have hq : |kitServo a i - x| / τ ≤ share (V * (Real.pi / 180)) (widest (kitLogical c0) a) |kitServo a i - c0 i| := by
    unfold share
    rw [max_eq_right (by linarith), div_le_div_iff₀ hτ (by linarith)]
    have h3 : |kitServo a i - x| * (widest (kitLogical c0) a - 2 / 1000000) ≤ |kitServo a i - x| * (V * (Real.pi / 180) * τ) := mul_le_mul_of_nonneg_left t1 (abs_nonneg _)
    have h4 : |kitServo a i - x| * (V * (Real.pi / 180) * τ) ≤ (|kitServo a i - c0 i| + 1 / 1000000) * (V * (Real.pi / 180) * τ) := mul_le_mul_of_nonneg_right hx (by positivity)
    linarith
  have hsh : 0 ≤ share (V * (Real.pi / 180)) (widest (kitLogical c0) a) |kitServo a i - c0 i| := le_trans (by positivity) hq
  have hN : (0 : ℝ) ≤ 20 / 1000 * (interrupts ev (n2 + 1) k : ℝ) := by positivity
  have hNN : 20 / 1000 * (interrupts ev (n2 + 1) k : ℝ) ≤ 20 / 1000 * (interrupts ev k0 k : ℝ) := by
    have : interrupts ev (n2 + 1) k ≤ interrupts ev k0 k := interrupts_anti (by omega) k
    have : (interrupts ev (n2 + 1) k : ℝ) ≤ (interrupts ev k0 k : ℝ) := by exact_mod_cast this
    linarith
  have hall := mul_le_mul_of_nonneg_left hNN hsh
  have s1 := abs_sub_le (kitServo a i) c1 (c0 i)
  have s2 := abs_sub_le c1 b (c0 i)
  rw [abs_sub_comm] at f3
  rcases R.how with g' | ⟨_, g'⟩ | ⟨g', _⟩
  · have : v * (20 / 1000 * (interrupts ev (n2 + 1) k : ℝ)) ≤ share (V * (Real.pi / 180)) (widest (kitLogical c0) a) |kitServo a i - c0 i| * (20 / 1000 * (interrupts ev (n2 + 1) k : ℝ)) :=
      mul_le_mul_of_nonneg_right (by rw [g']; exact hq) hN
    linarith
  · have : v * (20 / 1000 * (interrupts ev (n2 + 1) k : ℝ)) ≤ share (V * (Real.pi / 180)) (widest (kitLogical c0) a) |kitServo a i - c0 i| * (20 / 1000 * (interrupts ev (n2 + 1) k : ℝ)) :=
      mul_le_mul_of_nonneg_right (g'.le.trans hq) hN
    linarith
  · have := R.nx
    rw [← g'] at this
    have := mul_nonneg hsh (hN.trans hNN)
    linarith

/-- the time a move takes at most: where the servos are then. -/
theorem kit_most {k0 k e : ℕ} (hk : k0 < k) (hke : k ≤ e) {z : Act XR} (h0 : ev k0 = .act z) (hz : ∀ (i : Fin 6) m, z ≠ .micro (armServo i) m) (hr : ReportsAt ev k)
    (hst : ∀ i : Fin 6, ((σ k0).w.servos (armServo i)).atTarget = true) (hun : ∀ i : Fin 6, Untouched ev (armServo i) k e) {a : Fin 6 → ℝ} {V : ℝ} (hV : 0 < V)
    {c0 : Fin 6 → ℝ} (hc0 : ArmAt (σ k0).w c0) (hm : Told.Sped (Kit.cfg : Cfg XR).toRCfg (fin V) (finS a) (acts (span ev (k0 + 1) (k - (k0 + 1)))))
    {T : ℝ} (hT1 : widest (kitLogical c0) a + 2 / 1000000 ≤ V * (Real.pi / 180) * T) (hT2 : ∀ i, |kitServo a i - c0 i| + 1 / 1000000 ≤ (Kit.velDeg (armServo i) : ℝ) * (Real.pi / 180) * T)
    {j n : ℕ} (hj : ∀ i : Fin 6, Untouched ev (armServo i) j k) (hjk : j ≤ k) (hjn : j ≤ n) (hne : n ≤ e) (hN : T ≤ 20 / 1000 * interrupts ev j n) (i : Fin 6) :
    ∃ c, ((σ n).w.servos (armServo i)).cur = fin c ∧ |c - kitServo a i| ≤ 2 / 1000000 := by
  obtain ⟨hW, τ, hτ, _, t2, hruns⟩ := kit_sped hw h hmem hc hu hk hke h0 hz hst hun hV hc0 hm
  obtain ⟨n2, n6, x, y, v, R, hfree, hlast⟩ := hruns i
  have h6j := hlast j hjk (hj i)
  have hτT := t2 T hT1 hT2
  have ho := R.o2; have ho' := R.o6; have ho'' := R.ok
  -- since the command: in order, and the clock runs
  have hS : ∀ m, n6 + 1 ≤ m → m ≤ e → Steady ((σ m).w.servos (armServo i)) := fun m m1 m2 =>
    keep_stays h (fun _ => Steady.tick) m1 (fun l g1 g2 => hfree l g1 (by omega))
      (order_at h (fun _ => Steady.tick) (fun _ => Steady.stays) (steady_cmd hw h hmem hc hu) (kit_passes hw h hmem hc hu) (fun i => (kit_steady hw i).1) hr (by omega) fun l g1 g2 => hfree l g1 (by omega))
  have hclock : ∀ m, n6 + 1 ≤ m → m ≤ e → ((σ m).w.servos (armServo i)).start = fin (kitServo a i) ∨
      ((σ m).w.servos (armServo i)).start = fin y ∧ 20 * interrupts ev (n6 + 1) m ≤ ((σ m).w.servos (armServo i)).elapsed := by
    intro m m1
    induction m, m1 using Nat.le_induction with
    | base => exact fun _ => .inr ⟨R.start, by rw [interrupts_self]; omega⟩
    | succ m m1 ih =>
      intro m2
      have ih := ih (by omega)
      by_cases hev : ev m = .isr
      · rw [interrupts_isr m1 hev, servo_step h, hev]
        simp only [evServo]
        obtain ⟨s, t, v', c, s1, s2, s3, s4, s5, s6, s7⟩ := hS m m1 (by omega)
        rw [R.tgt m (by omega) (by omega)] at s2; injection s2 with s2; subst s2
        rw [tick_fin _ s (kitServo a i) v' 20 s1 (R.tgt m (by omega) (by omega)) s3]
        simp only
        split
        · exact .inl rfl
        · rcases s7 with ⟨rfl, _⟩ | ⟨k1, k2, _⟩
          · exact .inl rfl
          · rcases ih with ih | ⟨i1, i2⟩
            · rw [s1] at ih; exact .inl ih
            · right
              refine ⟨by rw [← s1]; exact i1, ?_⟩
              have hno : ((σ m).w.servos (armServo i)).elapsed + 20 < 4294967296 := by
                by_contra hcon
                have : (4294967276 : ℝ) ≤ ((σ m).w.servos (armServo i)).elapsed := by exact_mod_cast (show 4294967276 ≤ ((σ m).w.servos (armServo i)).elapsed by omega)
                have : v' * 4294967 ≤ v' * ((σ m).w.servos (armServo i)).elapsed / 1000 := by
                  rw [le_div_iff₀ (by norm_num)]
                  have := mul_le_mul_of_nonneg_left this s5.le
                  linarith
                have : v' * 4294967 ≤ v' * 2000000 := by unfold Brisk.T at s6; linarith
                linarith
              have eu : u32 (((σ m).w.servos (armServo i)).elapsed + 20) = ((σ m).w.servos (armServo i)).elapsed + 20 := Nat.mod_eq_of_lt hno
              rw [eu]; omega
      · rw [interrupts_other fun _ => hev]
        have hs : (σ (m + 1)).w.servos (armServo i) = (σ m).w.servos (armServo i) := by
          rw [servo_step h]
          have := hfree m m1 (by omega)
          generalize ev m = q at this hev
          cases q with
          | isr => exact absurd rfl hev
          | act q =>
            cases q with
            | micro i' m' =>
              simp only [evServo]
              rw [if_neg]; rintro rfl; exact this m' rfl
            | _ => rfl
          | _ => rfl
        rw [hs]; exact ih
  have hnn : n6 + 1 ≤ n := by omega
  obtain ⟨s, t, v', c, s1, s2, s3, s4, s5, s6, s7⟩ := hS n hnn hne
  rw [R.tgt n (by omega) hne] at s2; injection s2 with s2; subst s2
  rw [R.vel n (by omega) hne] at s3; injection s3 with s3; subst s3
  refine ⟨c, s4, ?_⟩
  rcases s7 with ⟨_, g⟩ | ⟨k1, k2, k3⟩
  · rw [g, sub_self, abs_zero]; norm_num
  have hel : 0 ≤ v * ((σ n).w.servos (armServo i)).elapsed / 1000 := by positivity
  have hdist : |c - kitServo a i| = |kitServo a i - s| - v * ((σ n).w.servos (armServo i)).elapsed / 1000 := by
    rw [k3]
    split
    · rename_i g
      rw [abs_of_pos (show 0 < kitServo a i - s by linarith)] at k2 ⊢
      rw [abs_of_nonpos (by linarith)]; ring
    · rename_i g
      rw [not_lt] at g
      rw [abs_of_nonpos (show kitServo a i - s ≤ 0 by linarith)] at k2 ⊢
      rw [abs_of_nonneg (by linarith)]; ring
  rw [hdist]
  rcases hclock n hnn hne with g | ⟨g1, g2⟩
  · rw [s1] at g; injection g with g; subst g
    rw [sub_self, abs_zero]; linarith
  · rw [s1] at g1; injection g1 with g1; subst g1
    have hT : T ≤ ((σ n).w.servos (armServo i)).elapsed / 1000 := by
      have h1 : interrupts ev j n ≤ interrupts ev (n6 + 1) n := interrupts_anti (by omega) n
      have h2 : 20 * interrupts ev j n ≤ ((σ n).w.servos (armServo i)).elapsed := by omega
      have h3 : (20 : ℝ) * interrupts ev j n ≤ ((σ n).w.servos (armServo i)).elapsed := by exact_mod_cast h2
      rw [le_div_iff₀ (by norm_num)]
      linarith
    have hvT : v * T ≤ v * ((σ n).w.servos (armServo i)).elapsed / 1000 := by
      rw [mul_div_assoc]; exact mul_le_mul_of_nonneg_left hT s5.le
    have d1 := R.nx
    have d2 := R.ny
    have tri := abs_sub_le (kitServo a i) (c0 i) s
    have tri2 := abs_sub_le (kitServo a i) x s
    have tri3 := abs_sub_le x (c0 i) s
    rw [abs_sub_comm (c0 i) s] at tri tri3
    rcases R.how with g | ⟨g, _⟩ | ⟨g, _⟩
    · have : |kitServo a i - x| ≤ v * T := by
        rw [g, div_mul_eq_mul_div, le_div_iff₀ hτ]
        exact mul_le_mul_of_nonneg_left hτT (abs_nonneg _)
      linarith
    · have := hT2 i
      rw [← g] at this
      linarith
    · rw [g, sub_self, abs_zero] at tri2
      rw [g]; linarith

/-- a point to point move at the speed told. -/
theorem kit_keeps {k0 k e : ℕ} (hk : k0 < k) (hke : k ≤ e) {z : Act XR} (h0 : ev k0 = .act z) (hz : ∀ (i : Fin 6) m, z ≠ .micro (armServo i) m) (hr : ReportsAt ev k)
    (hst : ∀ i : Fin 6, ((σ k0).w.servos (armServo i)).atTarget = true) (hst' : ∀ i : Fin 6, Steady ((σ k0).w.servos (armServo i)))
    (hun : ∀ i : Fin 6, Untouched ev (armServo i) k e) {a : Fin 6 → ℝ} {V : ℝ} (hV : 0 < V)
    (hmov : Moved (Kit.cfg : Cfg XR).toRCfg kitL kitU (finS a) (acts (span ev (k0 + 1) (k - (k0 + 1)))))
    (hm : ArmStill (acts (span ev (k0 + 1) (k - (k0 + 1)))) ∨ Told.Sped (Kit.cfg : Cfg XR).toRCfg (fin V) (finS a) (acts (span ev (k0 + 1) (k - (k0 + 1))))) :
    ∃ c, ArmAt (σ k0).w c ∧ KeepsSpeed σ ev (V * (Real.pi / 180)) c a k0 k e := by
  have hV' : 0 < V * (Real.pi / 180) := by have := Real.pi_pos; positivity
  choose c0 t hc0 et hct using fun i => rest_fin hw h hmem hc hu (hst i)
  -- an arm that does not move is there already
  have near : KitFits a → ArmStill (acts (span ev (k0 + 1) (k - (k0 + 1)))) →
      (∀ i, |kitLogical c0 i - a i| < 112 / 1000000) ∧ ∀ n, k0 ≤ n → n ≤ e → ∃ b, ArmAt (σ n).w b ∧ ∀ i, |kitLogical b i - a i| < 12 / 100000 := by
    intro hf hs
    have key : ∀ m, k0 ≤ m → m ≤ e → ∃ b, ArmAt (σ m).w b ∧ ∀ i, |b i - c0 i| < 1 / 1000000 := fun m m1 m2 => by
      choose b b1 b2 using fun i : Fin 6 => kit_idle hw h hmem hc hu (hc0 i) (et i) (hct i) (e := e) (fun j j1 j2 t' ej => by
        rcases Nat.eq_or_lt_of_le j1 with rfl | j1
        · rw [h0] at ej; injection ej with ej; exact hz i _ ej
        · rcases Nat.lt_or_ge j k with g | g
          · exact hs i _ (acts_mem.2 (mem_span.2 ⟨j, by omega, by omega, ej⟩))
          · exact hun i j g j2 _ ej) m1 m2
      exact ⟨b, b1, b2⟩
    obtain ⟨b, b1, b2⟩ := kit_now hw h hmem hc hu hi hk h0 hz hst hst' hr hf hmov (le_refl k) (fun i j g1 g2 => absurd g2 (by omega))
    obtain ⟨b', b3, b4⟩ := key k hk.le hke
    have : b' = b := funext fun i => XR.fin.inj ((b3 i).symm.trans (b1 i))
    subst this
    have h1 : ∀ i, |kitLogical c0 i - a i| < 112 / 1000000 := fun i => by
      have g1 := logical_near b4 i
      have g2 := b2 i
      have := abs_sub_le (kitLogical c0 i) (kitLogical b' i) (a i)
      rw [abs_sub_comm (kitLogical c0 i) (kitLogical b' i)] at this
      linarith
    refine ⟨h1, fun n n1 n2 => ?_⟩
    obtain ⟨b, k1, k2⟩ := key n n1 n2
    refine ⟨b, k1, fun i => ?_⟩
    have g1 := logical_near k2 i
    have g2 := h1 i
    have := abs_sub_le (kitLogical b i) (kitLogical c0 i) (a i)
    linarith
  refine ⟨c0, hc0, fun n h1 h2 i => kit_paced hw h hmem hc hu hi hk hke h0 hz hst hun hV hc0 hm h1 h2 i, fun hf hW => ?_, fun hf T hT1 hT2 j hj0 hjk hj n hjn hne hN => ?_⟩
  · rcases hm with hm | hm
    · obtain ⟨i, e⟩ := widest_of (kitLogical c0) a
      have := (near hf hm).1 i
      rw [e] at hW
      linarith
    · have least := kit_least hw h hmem hc hu hi hk h0 hz hr hst hV hc0 hm
      generalize 20 / 1000 * (interrupts ev k0 k : ℝ) = N at least ⊢
      -- a servo that turns by half of it
      obtain ⟨i, hi2⟩ : ∃ i, widest (kitLogical c0) a ≤ 2 * |kitServo a i - c0 i| := by
        obtain ⟨i, e⟩ := widest_of (kitLogical c0) a
        by_cases g : i = 2
        · subst g
          simp only [kitLogical, if_true] at e
          have e1 : kitServo a 1 = a 1 := by simp [kitServo]
          have e2 : kitServo a 2 = a 2 + a 1 := by simp [kitServo]
          by_contra hcon
          push Not at hcon
          have q1 := hcon 1
          have q2 := hcon 2
          rw [e1] at q1
          rw [e2] at q2
          have tri : |c0 2 - c0 1 - a 2| ≤ |a 2 + a 1 - c0 2| + |a 1 - c0 1| := by
            have := abs_add_le (-(a 2 + a 1 - c0 2)) (a 1 - c0 1)
            rw [abs_neg] at this
            have e3 : -(a 2 + a 1 - c0 2) + (a 1 - c0 1) = c0 2 - c0 1 - a 2 := by ring
            rw [e3] at this
            exact this
          linarith
        · refine ⟨i, ?_⟩
          have e1 : kitServo a i = a i := by simp [kitServo, g]
          have e2 : kitLogical c0 i = c0 i := by simp [kitLogical, g]
          rw [e, e1, e2, abs_sub_comm]
          have := abs_nonneg (a i - c0 i)
          linarith
      have hl := least i
      unfold share at hl
      rw [max_eq_right (by linarith)] at hl
      generalize |kitServo a i - c0 i| = x at hl hi2
      generalize widest (kitLogical c0) a = W at *
      generalize V * (Real.pi / 180) = U at *
      have hW' : 0 < W - 2 / 1000000 := by linarith
      rw [div_mul_eq_mul_div, ← sub_le_iff_le_add, le_div_iff₀ hW'] at hl
      -- `(x - 2e-6) (W - 2e-6) ≤ U (x + 1e-6) N`
      have hx : 5 / 1000 ≤ x := by linarith
      have h3 : 9994 / 10000 * (x + 1 / 1000000) ≤ x - 2 / 1000000 := by linarith
      have h4 : 9998 / 10000 * W ≤ W - 2 / 1000000 := by linarith
      have h5 : 9994 / 10000 * (x + 1 / 1000000) * (9998 / 10000 * W) ≤ (x - 2 / 1000000) * (W - 2 / 1000000) := mul_le_mul h3 h4 (by linarith) (by linarith)
      have h6 : (x + 1 / 1000000) * (9994 / 10000 * (9998 / 10000) * W) ≤ (x + 1 / 1000000) * (U * N) := by
        calc _ = 9994 / 10000 * (x + 1 / 1000000) * (9998 / 10000 * W) := by ring
          _ ≤ _ := h5
          _ ≤ _ := hl
          _ = _ := by ring
      have h7 := le_of_mul_le_mul_left h6 (by linarith)
      linarith
  · rcases hm with hm | hm
    · exact (near hf hm).2 n (by omega) hne
    · choose b b1 b2 using kit_most hw h hmem hc hu hi hk hke h0 hz hr hst hun hV hc0 hm hT1 hT2 hj hjk hjn hne hN
      refine ⟨b, b1, fun i => ?_⟩
      have e : a i = kitLogical (kitServo a) i := by
        unfold kitLogical kitServo
        by_cases g : i = 2
        · subst g; simp
        · simp [g]
      rw [e]
      have := logical_near (b := b) (c := kitServo a) (ε := 3 / 1000000) (fun i => lt_of_le_of_lt (b2 i) (by norm_num)) i
      linarith

/-- **C121**: the robot kit over the exact numbers, with a careful host that asks for no crawling speeds and gives immediate instructions that name a place only while the arm is at rest, and
interrupts that do not fall into the command of a servo. An instruction told all six angles with M0 and a speed (V, degrees per second, positive), from queue or storage or begun at once while no move is
under way, and reported as finished at time `k`. The arm keeps the speed: on its way no servo turns faster than its share of the speed told, in proportion to how far it has to turn (the axis that
has to turn furthest at the speed told, or less if a servo cannot); the report comes no earlier than the furthest turn takes at the speed told; and when this time, or the time the servos need for it
at their maximum speeds, has passed, the arm is there. -/
theorem C121_told {k0 k : ℕ} {src : Src} {cs : List Cmd} (hb : ev k0 = .act (.out (.ghost src (text cs)))) (hs : src ≠ .immediate ∨ CalmAt ev k0) (ht : TellsAngles cs) (hM : Chooses 48 cs)
    {d : Fin 6 → Dec} (hd : ∀ i, Last NamesAngle cs i (d i)) {v : Dec} (hv : LastSpeed cs v) (hv0 : 0 < v.val) (hk : k0 < k) (hr : ReportsAt ev k)
    (hq : ∀ i, k0 < i → i < k → ¬ Directs ev i) {e : ℕ} (hke : k ≤ e) (hn : ∀ i : Fin 6, Untouched ev (armServo i) k e) :
    ∃ c, ArmAt (σ k0).w c ∧ KeepsSpeed σ ev (radians v) c (fun i => radians (d i)) k0 k e := by
  obtain ⟨y, h1, hy⟩ := reportsAt_iff.1 hr
  have hmid := quiet_mid hw h hmem hc hu hi hq
  obtain ⟨t, g1, g2⟩ := C110_angles (h.run (k + 1)).trace (kit_limits hw (h.run (k + 1))) ht hM hs (acts_between hk hb h1) hmid hy
  have : t = finS fun i => radians (d i) := funext fun i => (g1 i _ (hd i)).trans (angle_fin (last_ok (fun _ _ _ h => h.1) (hd i)))
  subst this
  obtain ⟨t, g3, g4⟩ := C121_angles (h.run (k + 1)).trace (kit_limits hw (h.run (k + 1))) ht hM hv hs (acts_between hk hb h1) hmid hy
  have : t = finS fun i => radians (d i) := funext fun i => (g3 i _ (hd i)).trans (angle_fin (last_ok (fun _ _ _ h => h.1) (hd i)))
  subst this
  rw [Host.atof_dec hv.1] at g4
  exact kit_keeps hw h hmem hc hu hi hk hke hb (by simp) hr (fun i => (rest_begin hw h hmem hc hu hi hb hs i).2) (fun i => (rest_begin hw h hmem hc hu hi hb hs i).1) hn (by exact_mod_cast hv0) g2 g4

/-- **C121**: the same for the six coordinates of a pose with M0 within reach, on the way to angles that put the tool at the pose told. -/
theorem C121_pose {k0 k : ℕ} {src : Src} {cs : List Cmd} (hb : ev k0 = .act (.out (.ghost src (text cs)))) (hs : src ≠ .immediate ∨ CalmAt ev k0) (ht : TellsPose cs) (hM : Chooses 48 cs)
    {d : Fin 6 → Dec} (hd : ∀ i, Last NamesPose cs i (d i)) (hr' : InReach kitG (poseOfDec d)) {v : Dec} (hv : LastSpeed cs v) (hv0 : 0 < v.val) (hk : k0 < k) (hr : ReportsAt ev k)
    (hq : ∀ i, k0 < i → i < k → ¬ Directs ev i) {e : ℕ} (hke : k ≤ e) (hn : ∀ i : Fin 6, Untouched ev (armServo i) k e) :
    ∃ A : Fin 6 → ℝ, PutsAt kitG A (poseOfDec d) ∧ ∃ c, ArmAt (σ k0).w c ∧ KeepsSpeed σ ev (radians v) c A k0 k e := by
  obtain ⟨y, h1, hy⟩ := reportsAt_iff.1 hr
  have hmid := quiet_mid hw h hmem hc hu hi hq
  obtain ⟨P, g1, g2⟩ := C110_pose (h.run (k + 1)).trace (kit_limits hw (h.run (k + 1))) ht hM hs (acts_between hk hb h1) hmid hy
  have : P = finS (poseOfDec d) := funext fun i => (g1 i _ (hd i)).trans (coordinate_fin (last_ok (fun _ _ _ h => h.1) (hd i)))
  subst this
  obtain ⟨P, g3, g4⟩ := C121_poses (h.run (k + 1)).trace (kit_limits hw (h.run (k + 1))) ht hM hv hs (acts_between hk hb h1) hmid hy
  have : P = finS (poseOfDec d) := funext fun i => (g3 i _ (hd i)).trans (coordinate_fin (last_ok (fun _ _ _ h => h.1) (hd i)))
  subst this
  rcases g2 with g2 | ⟨t, g2, g5⟩
  · exact absurd hr' (kit_inv_none g2)
  · rcases g4 with g4 | ⟨t', g4, g6⟩
    · rw [g2] at g4; cases g4
    rw [g2] at g4; cases g4
    obtain ⟨A, rfl, hA⟩ := kit_puts g2
    rw [Host.atof_dec hv.1] at g6
    exact ⟨A, hA, kit_keeps hw h hmem hc hu hi hk hke hb (by simp) hr (fun i => (rest_begin hw h hmem hc hu hi hb hs i).2) (fun i => (rest_begin hw h hmem hc hu hi hb hs i).1) hn
      (by exact_mod_cast hv0) g5 g6⟩

end
end Mrc.Props
