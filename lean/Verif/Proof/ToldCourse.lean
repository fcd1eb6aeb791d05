import Verif.Proof.ToldInstr
/- A whole course of point to point moves (C87). -/
set_option linter.unusedSectionVars false
set_option linter.unusedSimpArgs false
namespace Mrc.Told
open Mrc Mrc.Prog Mrc.Spec Mrc.Props
variable {F : Type} [FloatOps F]

/-- phases of one point to point move of a course. -/
inductive Go (cfg : RCfg F) (L U A P : Six F) (mid : List (Act F)) (r : RC F) : Prop
  | told : r.state = .prepareMove → (RC.sync cfg r).targetAngles = A → (RC.sync cfg r).targetPose = P → ¬ (r.poseChanged = true ∧ r.anglesChanged = true) → ArmStill mid →
      Go cfg L U A P mid r
  | sent : r.state = .moving → r.step = r.total → r.targetAngles = A → r.targetPose = P → armTargets mid = six6 (cfg.l2p A) → Go cfg L U A P mid r
  | zero (v : Fin 6 → Servo F) (mt : F) : r.state = .moving → r.step = r.total → r.targetAngles = A → r.targetPose = P → (∀ i, .servo (armServo i) (v i) ∈ mid) →
      feq (timeFor (cfg.l2p A) v mt) (lit 0) = true → ArmStill mid → Go cfg L U A P mid r
  | done : r.state = .idle → r.targetAngles = A → r.targetPose = P → Moved cfg L U A mid → Go cfg L U A P mid r

theorem Go.append {cfg : RCfg F} {L U A P : Six F} {mid tr : List (Act F)} {r : RC F} (h : Go cfg L U A P mid r) (ht : ArmStill tr) : Go cfg L U A P (mid ++ tr) r := by
  cases h with
  | told h1 h2 h3 h4 h5 => exact .told h1 h2 h3 h4 (armStill_append.2 ⟨h5, ht⟩)
  | sent h1 h2 h3 h4 h5 => exact .sent h1 h2 h3 h4 (by rw [armTargets_append, h5, armTargets_armStill ht, List.append_nil])
  | zero v mt h1 h2 h3 h4 h5 h6 h7 => exact .zero v mt h1 h2 h3 h4 (fun i => by simp [h5 i]) h6 (armStill_append.2 ⟨h7, ht⟩)
  | done h1 h2 h3 h4 => exact .done h1 h2 h3 (h4.append ht)

theorem Go.step {cfg : RCfg F} {L U A P : Six F} (hfit : Fits cfg L U A) {mid tr : List (Act F)} {r r' : RC F} (hf : Fl r) (hmeth : r.method = .p2p) (h : Go cfg L U A P mid r)
    (hp : RC.Pro cfg L U r tr r') : Go cfg L U A P (mid ++ tr) r' := by
  cases hp with
  | idle => exact h.append armStill_nil
  | start hs => exact absurd hs hf.notStart
  | moving hs hm =>
    cases h with
    | told h2 => rw [hs] at h2; cases h2
    | done h2 => rw [hs] at h2; cases h2
    | sent h2 h3 h4 h5 h6 =>
      cases hm with
      | wait v _ => exact (Go.sent h2 h3 h4 h5 h6).append (armStill_still (RC.still_readAll v))
      | finish v hv _ =>
        refine .done rfl h4 h5 (.went hfit ?_ (arrived_read hv))
        rw [armTargets_append, h6, armTargets_armStill (armStill_still (RC.still_readAll v)), List.append_nil]
      | next v _ hne => exact absurd h3 hne
    | zero v mt h2 h3 h4 h5 h6 h7 h8 =>
      cases hm with
      | wait v' _ => exact (Go.zero v mt h2 h3 h4 h5 h6 h7 h8).append (armStill_still (RC.still_readAll v'))
      | finish v' hv _ =>
        exact .done rfl h4 h5 (.noTime v mt hfit (fun i => by simp [h6 i]) h7 (armStill_append.2 ⟨h8, armStill_still (RC.still_readAll v')⟩))
      | next v _ hne => exact absurd h3 hne
  | prepare hs hp =>
    cases h with
    | sent h2 => rw [hs] at h2; cases h2
    | zero _ _ h2 => rw [hs] at h2; cases h2
    | done h2 => rw [hs] at h2; cases h2
    | told h2 h3 h4 h5 h6 =>
      cases hp with
      | transaction ht => rw [hf.closed] at ht; cases ht
      | both _ ha hb => exact absurd ⟨ha, hb⟩ h5
      | same e v u _ _ he hq =>
        rw [h3] at hq
        have hst : ArmStill (e ++ readAll v ++ readAll u) :=
          armStill_still (RC.still_append (RC.still_append (RC.still_raw he) (RC.still_readAll v)) (RC.still_readAll u))
        refine .done rfl h3 h4 (.there (curs u) ?_ hq (armStill_append.2 ⟨h6, hst⟩))
        exact RC.reading_readAll u fun a ha => by simp [ha]
      | @start e v u n tr' _ _ _ he hq hn hst =>
        have hpre : ArmStill (mid ++ (e ++ readAll v ++ readAll u)) :=
          armStill_append.2 ⟨h6, armStill_still (RC.still_append (RC.still_append (RC.still_raw he) (RC.still_readAll v)) (RC.still_readAll u))⟩
        rw [← List.append_assoc]
        have hm' : (RC.sync cfg r).method = .p2p := (RC.sync_same cfg r).2.1.trans hmeth
        have hn1 : n = 1 := by
          rcases hn with ⟨_, rfl⟩ | ⟨hl, _⟩
          · rfl
          · rw [hmeth] at hl; cases hl
        subst hn1
        cases hst with
        | unreachable _ _ hm => rw [show _ = _ from hm'] at hm; cases hm
        | linear hm => rw [show _ = _ from hm'] at hm; cases hm
        | singular hm => rw [show _ = _ from hm'] at hm; cases hm
        | @p2p tr2 _ hm hc =>
          rw [show _ = A from h3] at hc
          have hout : ∀ o : Out F, ArmStill [Act.out o] := fun o => armStill_still (RC.still_out1 o)
          rcases cmd_arm hc with ⟨c1, c2, c3⟩ | ⟨c1, rfl, c3⟩
          · exact absurd hfit c1
          · rcases c3 with c3 | ⟨c3, v', mt, c4, c5⟩
            · refine .sent rfl rfl rfl h4 ?_
              rw [armTargets_append, armTargets_armStill hpre, List.nil_append, ← List.singleton_append, armTargets_append, armTargets_armStill (hout _), c3, List.nil_append]
            · refine .zero v' mt rfl rfl rfl h4 (fun i => by simp [c4 i]) c5 (armStill_append.2 ⟨hpre, ?_⟩)
              exact armStill_append (a := [_]).2 ⟨hout _, c3⟩

theorem Go.stop {cfg : RCfg F} {L U A P : Six F} {mid : List (Act F)} {r : RC F} (h : Go cfg L U A P mid r) (hs : r.state = .idle) :
    Moved cfg L U A mid ∧ r.targetAngles = A ∧ r.targetPose = P := by
  cases h with
  | told h2 => rw [hs] at h2; cases h2
  | sent h2 => rw [hs] at h2; cases h2
  | zero _ _ h2 => rw [hs] at h2; cases h2
  | done _ h1 h2 h3 => exact ⟨h3, h1, h2⟩

/-! ### instructions that tell nothing -/

theorem same_trans {a b c : RC F} (h : Same a b) (h' : Same b c) : Same a c :=
  ⟨h'.1.trans h.1, h'.2.1.trans h.2.1, h'.2.2.1.trans h.2.2.1, h'.2.2.2.1.trans h.2.2.2.1, h'.2.2.2.2.trans h.2.2.2.2⟩

theorem execAll_quiet (cfg : Cfg F) (cs : List Cmd) (h : ∀ c ∈ cs, Plain1 c ∧ (∀ i d, ¬ NamesAngle c i d) ∧ (∀ i d, ¬ NamesPose c i d)) (r0 : RC F) (s : Core F) (l : Loc F)
    (ht : Same r0 s.rc) : (execAll cfg cs s l).only (fun _ => True) (fun r => Same r0 r.1.rc) := by
  induction cs generalizing s l with
  | nil => exact ht
  | cons c cs ih =>
    simp only [execAll]
    rw [only_bind]
    obtain ⟨h1, h2, h3⟩ := h c (by simp)
    exact only_mono (fun _ h => h) (fun r hr => ih (fun x hx => h x (by simp [hx])) r.1 r.2 (same_trans ht (hr.same h2 h3))) (exec_eff cfg s l c h1)

/-- the movement method stays point to point. -/
theorem execAll_p2p (cfg : Cfg F) (cs : List Cmd) (h : ∀ c ∈ cs, Plain1 c) (hp : PtP cs) (s : Core F) (l : Loc F) (ht : s.rc.method = .p2p) :
    (execAll cfg cs s l).only (fun _ => True) (fun r => r.1.rc.method = .p2p) := by
  induction cs generalizing s l with
  | nil => exact ht
  | cons c cs ih =>
    simp only [execAll]
    rw [only_bind]
    refine only_mono (fun _ h => h) (fun r hr => ih (fun x hx => h x (by simp [hx])) (fun x hx => hp x (by simp [hx])) r.1 r.2 ?_) (exec_eff cfg s l c (h c (by simp)))
    by_cases hl : c.letter = 77
    · rcases hp c (by simp) hl with h' | h'
      · rw [hr.meth (.inr h')]; exact ht
      · exact hr.m0 (by cases c; simp_all)
    · rw [hr.meth (.inl hl)]; exact ht

theorem finish_only {Q : RC F → Prop} (c : Core F) (l : Loc F) (h : Q c.rc) : (Mril.finish c l).only (fun _ => True) (fun c => Q c.rc) := by
  unfold Mril.finish
  simp only [send, bind_def, Prog.bind]
  split
  · exact ⟨trivial, h⟩
  · exact h
  · exact h

theorem parse_p2p (cfg : Cfg F) (cs : List Cmd) (h : Plain cs) (hp : PtP cs) (c : Core F) (ht : c.rc.method = .p2p) :
    (Mril.parse cfg c (text cs)).only (fun _ => True) (fun c' => c'.rc.method = .p2p) := by
  by_cases hne : cs = []
  · subst hne; exact ht
  rw [parse_text cfg cs h.ok hne, only_bind]
  refine only_mono (fun _ h => h) (fun r hr => ?_) (execAll_p2p cfg cs (plain1 h) hp { c with rc := c.rc.startTransaction } {} ht)
  exact finish_only (Q := fun r => r.method = .p2p) { r.1 with rc := r.1.rc.endTransaction } r.2 hr

theorem parse_quiet (cfg : Cfg F) (cs : List Cmd) (h : TellsNothing cs) (c : Core F) :
    (Mril.parse cfg c (text cs)).only (fun _ => True) (fun c' => Same c.rc c'.rc) := by
  by_cases hne : cs = []
  · subst hne; exact same_refl _
  rw [parse_text cfg cs h.ok hne, only_bind]
  refine only_mono (fun _ h => h) (fun r hr => ?_)
    (execAll_quiet cfg cs (fun x hx => ⟨plain1 h.toPlain x hx, h.noAngle x hx, h.noPose x hx⟩) c.rc { c with rc := c.rc.startTransaction } {} ⟨rfl, rfl, rfl, rfl, rfl⟩)
  exact finish_only (Q := fun r => Same c.rc r) { r.1 with rc := r.1.rc.endTransaction } r.2 hr

/-- quiet instructions in the middle: `step` and `total` are kept too. -/
theorem exec_steps (cfg : Cfg F) (c : Core F) (l : Loc F) (tok : List Byte) :
    (Mril.exec cfg c l tok).only (fun _ => True) (fun r => r.1.rc.step = c.rc.step ∧ r.1.rc.total = c.rc.total) := by
  exec_leaves
  all_goals simp only [Prog.bind, only, true_and, forall_const]
  all_goals first
    | exact ⟨rfl, rfl⟩
    | exact fun _ => ⟨rfl, rfl⟩
    | exact fun _ _ _ _ _ _ => ⟨rfl, rfl⟩
    | trivial
    | exact fun _ => trivial
    | exact fun _ _ _ _ _ _ => trivial

theorem execAll_steps (cfg : Cfg F) (cs : List Cmd) (r0 : RC F) (s : Core F) (l : Loc F) (ht : s.rc.step = r0.step ∧ s.rc.total = r0.total) :
    (execAll cfg cs s l).only (fun _ => True) (fun r => r.1.rc.step = r0.step ∧ r.1.rc.total = r0.total) := by
  induction cs generalizing s l with
  | nil => exact ht
  | cons c cs ih =>
    simp only [execAll]
    rw [only_bind]
    exact only_mono (fun _ h => h) (fun r hr => ih r.1 r.2 ⟨hr.1.trans ht.1, hr.2.trans ht.2⟩) (exec_steps cfg s l c.text)

theorem parse_steps (cfg : Cfg F) (cs : List Cmd) (h : ∀ c ∈ cs, c.Ok) (c : Core F) :
    (Mril.parse cfg c (text cs)).only (fun _ => True) (fun c' => c'.rc.step = c.rc.step ∧ c'.rc.total = c.rc.total) := by
  by_cases hne : cs = []
  · subst hne; exact ⟨rfl, rfl⟩
  rw [parse_text cfg cs h hne, only_bind]
  refine only_mono (fun _ h => h) (fun r hr => ?_) (execAll_steps cfg cs c.rc { c with rc := c.rc.startTransaction } {} ⟨rfl, rfl⟩)
  exact finish_only (Q := fun r => r.step = c.rc.step ∧ r.total = c.rc.total) { r.1 with rc := r.1.rc.endTransaction } r.2 hr

theorem sync_same' {cfg : RCfg F} {r r' : RC F} (h : Same r r') : (RC.sync cfg r').targetAngles = (RC.sync cfg r).targetAngles ∧ (RC.sync cfg r').targetPose = (RC.sync cfg r).targetPose := by
  obtain ⟨h1, h2, h3, h4, h5⟩ := h
  simp only [RC.sync, h3, h4, h1, h2]
  repeat' split
  all_goals exact ⟨by first | rfl | assumption, by first | rfl | assumption⟩

theorem Go.same {cfg : RCfg F} {L U A P : Six F} {mid : List (Act F)} {r r' : RC F} (h : Go cfg L U A P mid r) (hs : Same r r') (hn : r'.step = r.step ∧ r'.total = r.total) :
    Go cfg L U A P mid r' := by
  have hy := sync_same' (cfg := cfg) hs
  obtain ⟨s1, s2, s3, s4, s5⟩ := hs
  cases h with
  | told h1 h2 h3 h4 h5 => exact .told (s5.trans h1) (hy.1.trans h2) (hy.2.trans h3) (by rw [s3, s4]; exact h4) h5
  | sent h1 h2 h3 h4 h5 => exact .sent (s5.trans h1) (by rw [hn.1, hn.2, h2]) (s1.trans h3) (s2.trans h4) h5
  | zero v mt h1 h2 h3 h4 h5 h6 h7 => exact .zero v mt (s5.trans h1) (by rw [hn.1, hn.2, h2]) (s1.trans h3) (s2.trans h4) h5 h6 h7
  | done h1 h2 h3 h4 => exact .done (s5.trans h1) (s1.trans h2) (s2.trans h3) h4

/-! ### the course -/

theorem isGhost_begins {a : Act F} (h : BeginsI a) : isGhost a := by obtain ⟨s, m, rfl⟩ := h; trivial
theorem begins_isGhost {a : Act F} (h : isGhost a) : BeginsI a := by
  match a, h with
  | .out (.ghost s m), _ => exact ⟨s, m, rfl⟩

theorem snoc_inj {α : Type} {a b : List α} {x y : α} (h : a ++ [x] = b ++ [y]) : a = b ∧ x = y := by
  obtain ⟨h1, h2⟩ := List.append_inj' h rfl
  exact ⟨h1, by injection h2⟩

theorem course_fits {cfg : RCfg F} {L U A P : Six F} {tr mid : List (Act F)} (h : Course cfg L U tr A P mid) : Fits cfg L U A := by
  induction h with
  | home _ _ _ _ h => exact h
  | act _ _ ih => exact ih
  | quiet _ _ _ ih => exact ih
  | tell _ _ _ _ h => exact h

theorem course_other {cfg : RCfg F} {L U A P : Six F} {tr mid : List (Act F)} {a : Act F} (h : Course cfg L U (tr ++ [a]) A P mid) (ha : ¬ isGhost a) :
    ∃ mid', mid = mid' ++ [a] ∧ Course cfg L U tr A P mid' := by
  generalize e : tr ++ [a] = tr' at h
  cases h with
  | home tr2 _ _ _ _ => obtain ⟨_, rfl⟩ := snoc_inj e; exact absurd trivial ha
  | act h _ => obtain ⟨rfl, rfl⟩ := snoc_inj e; exact ⟨_, rfl, h⟩
  | quiet h _ _ => obtain ⟨_, rfl⟩ := snoc_inj e; exact absurd trivial ha
  | tell h _ _ _ _ => obtain ⟨_, rfl⟩ := snoc_inj e; exact absurd trivial ha

theorem course_others {cfg : RCfg F} {L U A P : Six F} {tr tr' mid : List (Act F)} (h : Course cfg L U (tr ++ tr') A P mid) (ha : ∀ a ∈ tr', ¬ isGhost a) :
    ∃ mid', mid = mid' ++ tr' ∧ Course cfg L U tr A P mid' := by
  induction tr' using List.reverseRecOn generalizing mid with
  | nil => exact ⟨mid, by simp, by simpa using h⟩
  | append_singleton l a ih =>
    rw [← List.append_assoc] at h
    obtain ⟨m1, rfl, h1⟩ := course_other h (ha a (by simp))
    obtain ⟨m2, rfl, h2⟩ := ih h1 fun x hx => ha x (by simp [hx])
    exact ⟨m2, by simp, h2⟩

/-- the monitor: the history so far. -/
def cmon (cfg : RCfg F) (L U : Six F) : Mon F (List (Act F)) where
  upd g a := g ++ [a]
  env _ a := ∀ i s, a = .servo (armServo i) s → s.minA = L i ∧ s.maxA = U i
  ok g a := reports a → ∀ A P mid, Course cfg L U g A P mid → Moved cfg L U A mid

theorem foldl_snoc {α : Type} (l g : List α) : l.foldl (fun g a => g ++ [a]) g = g ++ l := by
  induction l generalizing g with
  | nil => simp
  | cons a l ih => rw [List.foldl_cons, ih]; simp

/-- the invariant. -/
def CI (cfg : RCfg F) (L U : Six F) (g : List (Act F)) (c : Core F) : Prop :=
  Fl c.rc ∧ ∀ A P mid, Course cfg L U g A P mid → c.rc.method = .p2p ∧ Go cfg L U A P mid c.rc

theorem method_rc {cfg : RCfg F} {r r' : RC F} {tr : List (Act F)} (he : Exec (RC.process cfg r) tr (.ret r')) : r'.method = r.method :=
  (only_exec he (RC.process_only _ _)).2.2.1

theorem course_core {cfg : Cfg F} {L U : Six F} :
    CoreInv cfg (cmon cfg.toRCfg L U) (CI cfg.toRCfg L U) (fun g c => CI cfg.toRCfg L U g c ∧ (c.done = true → c.rc.state = .idle)) where
  flt _ := trivial
  weak _ _ h := h.1
  disp g c a h ha := by
    obtain ⟨h1, h2, h3⟩ := disp_not ha
    refine ⟨fun hr => absurd hr h2, h.1, fun A P mid hc => ?_⟩
    obtain ⟨mid', rfl, hc'⟩ := course_other hc h1
    obtain ⟨hm, hg⟩ := h.2 A P mid' hc'
    exact ⟨hm, hg.append (armStill_quiet (by simpa using h3))⟩
  dispJ g c a h ha := by
    obtain ⟨h1, h2, h3⟩ := disp_not ha
    refine ⟨fun hr => absurd hr h2, ⟨h.1.1, fun A P mid hc => ?_⟩, h.2⟩
    obtain ⟨mid', rfl, hc'⟩ := course_other hc h1
    obtain ⟨hm, hg⟩ := h.1.2 A P mid' hc'
    exact ⟨hm, hg.append (armStill_quiet (by simpa using h3))⟩
  rc g c h := by
    refine wp_exec_intro (E := fun a => ∀ i s, a = .servo (armServo i) s → s.minA = L i ∧ s.maxA = U i) (fun _ => trivial) (fun _ _ h => h) ?_ ?_
    · intro tr a q he _ hr
      exact absurd hr (rc_not ((only_exec he (RC.process_only _ _)).1 a (by simp))).2
    · intro tr r he hE
      have hl : Limits L U tr := fun i s hs => hE _ hs rfl i s rfl
      have hp := RC.process_exec he hl
      refine ⟨pro_fl hp h.1, fun A P mid hc => ?_⟩
      have hg : ∀ a ∈ tr, ¬ isGhost a := fun a ha => (rc_not ((only_exec he (RC.process_only _ _)).1 a ha)).1
      simp only [cmon] at hc
      rw [foldl_snoc] at hc
      have hfit := course_fits hc
      obtain ⟨mid', rfl, hc'⟩ := course_others hc hg
      obtain ⟨hm, hgo⟩ := h.2 A P mid' hc'
      exact ⟨(method_rc he).trans hm, hgo.step hfit h.1 hm hp⟩
  parse g c x src h := by
    have hfl : Fl c.rc ∧ ∀ A P mid, Course cfg.toRCfg L U g A P mid → c.rc.method = .p2p ∧ Go cfg.toRCfg L U A P mid c.rc := by
      split at h
      · exact h
      · exact h.1.1
    have hst : src ≠ .immediate → c.rc.state = .idle := by
      intro hs; rw [if_neg hs] at h; exact h.1.2 h.2
    refine ⟨fun hr A P mid hc => ?_, ?_⟩
    · have hs : src ≠ .immediate := by rintro rfl; exact hr
      exact ((hfl.2 A P mid hc).2.stop (hst hs)).1
    · refine wp_exec_intro (E := fun _ => True) (fun _ => trivial) (fun _ _ _ => trivial) ?_ ?_
      · intro tr a q he _ hr
        exact absurd hr (mril_not ((only_exec he (parse_only cfg c x)).1 a (by simp))).2.1
      · intro tr c' he _
        have hg : ∀ a ∈ tr, ¬ isGhost a := fun a ha => (mril_not ((only_exec he (parse_only cfg c x)).1 a ha)).1
        have hq : ArmStill tr := armStill_quiet fun a ha => (mril_not ((only_exec he (parse_only cfg c x)).1 a ha)).2.2
        refine ⟨(only_exec he (parse_fl cfg c x hfl.1)).2, fun A P mid hc => ?_⟩
        simp only [cmon] at hc
        rw [foldl_snoc] at hc
        obtain ⟨mid', rfl, hc'⟩ := course_others hc hg
        suffices hh : c'.rc.method = .p2p ∧ Go cfg.toRCfg L U A P mid' c'.rc from ⟨hh.1, hh.2.append hq⟩
        -- told angles
        have kA : ∀ {cs A}, x = text cs → src ≠ .immediate → TellsAngles cs → (∀ r : RC F, Tell cs c.rc r → r.targetAngles = A) → Go cfg.toRCfg L U A (cfg.fwd A) [] c'.rc := by
          intro cs A e hs ht hA
          subst e
          have hT := (only_exec he (parse_tell cfg cs ht.toPlain (by rintro rfl; obtain ⟨_, h, _⟩ := ht.some; cases h) c (hfl.1.same (by rw [hst hs]; decide)))).2
          obtain ⟨c0, hc0, i, d, hn⟩ := ht.some
          have ha := hT.angC.2 ht.some
          have hp : c'.rc.poseChanged = false := by
            rw [← Bool.not_eq_true, hT.posC]
            rintro ⟨x, hx, i, d, hn⟩; exact ht.noPose x hx i d hn
          refine .told (hT.st ⟨c0, hc0, .inl ⟨i, d, hn⟩⟩) ?_ ?_ (by simp [hp]) armStill_nil
          · simp only [RC.sync, ha, if_true]; exact hA _ hT
          · simp only [RC.sync, ha, if_true]; rw [hA _ hT]
        have kP : ∀ {cs A P}, x = text cs → src ≠ .immediate → TellsPose cs → cfg.inv P = some A → (∀ r : RC F, Tell cs c.rc r → r.targetPose = P) → Go cfg.toRCfg L U A P [] c'.rc := by
          intro cs A P e hs ht hi hA
          subst e
          have hT := (only_exec he (parse_tell cfg cs ht.toPlain (by rintro rfl; obtain ⟨_, h, _⟩ := ht.some; cases h) c (hfl.1.same (by rw [hst hs]; decide)))).2
          obtain ⟨c0, hc0, i, d, hn⟩ := ht.some
          have hp := hT.posC.2 ht.some
          have ha : c'.rc.anglesChanged = false := by
            rw [← Bool.not_eq_true, hT.angC]
            rintro ⟨x, hx, i, d, hn⟩; exact ht.noAngle x hx i d hn
          refine .told (hT.st ⟨c0, hc0, .inr ⟨i, d, hn⟩⟩) ?_ ?_ (by simp [ha]) armStill_nil
          · simp [RC.sync, ha, hp, hA _ hT, hi]
          · simp [RC.sync, ha, hp, hA _ hT, hi]
        have six_ext : ∀ {f g : Six F}, (∀ i, f i = g i) → f = g := fun h => funext h
        generalize e : g ++ [Act.out (.ghost src x)] = tr' at hc'
        cases hc' with
        | act h1 h2 => obtain ⟨_, rfl⟩ := snoc_inj e; exact absurd ⟨_, _, rfl⟩ h2
        | home tr2 hs ht hM _ =>
          obtain ⟨_, e2⟩ := snoc_inj e
          injection e2 with e2; injection e2 with e3 e4
          subst e3
          cases ht with
          | angles ht hA =>
            have hT := (only_exec he (by rw [e4]; exact parse_tell cfg _ ht.toPlain (by rintro rfl; obtain ⟨_, h, _⟩ := ht.some; cases h) c (hfl.1.same (by rw [hst hs]; decide)))).2
            refine ⟨hT.m0 hM, kA e4 hs ht fun r hr => six_ext fun i => ?_⟩
            obtain ⟨d, hd, e⟩ := hA i
            rw [e]; exact hr.ang i d hd
          | pose ht hP hi =>
            have hT := (only_exec he (by rw [e4]; exact parse_tell cfg _ ht.toPlain (by rintro rfl; obtain ⟨_, h, _⟩ := ht.some; cases h) c (hfl.1.same (by rw [hst hs]; decide)))).2
            refine ⟨hT.m0 hM, kP e4 hs ht hi fun r hr => six_ext fun i => ?_⟩
            obtain ⟨d, hd, e⟩ := hP i
            rw [e]; exact hr.pos i d hd
        | quiet h1 ht hp =>
          obtain ⟨rfl, e2⟩ := snoc_inj e
          injection e2 with e2; injection e2 with e3 e4
          subst e3; subst e4
          obtain ⟨hm, hgo⟩ := hfl.2 _ _ _ h1
          refine ⟨(only_exec he (parse_p2p cfg _ ht.toPlain hp c hm)).2, ?_⟩
          exact (hgo.append (armStill_still (RC.still_out1 _))).same (only_exec he (parse_quiet cfg _ ht c)).2 (only_exec he (parse_steps cfg _ ht.ok c)).2
        | @tell _ A0 P0 mid0 _ cs _ _ h1 hs ht hp _ =>
          obtain ⟨rfl, e2⟩ := snoc_inj e
          injection e2 with e2; injection e2 with e3 e4
          subst e3
          obtain ⟨hm, hgo⟩ := hfl.2 _ _ _ h1
          obtain ⟨_, o1, o2⟩ := hgo.stop (hst hs)
          have he' : Exec (Mril.parse cfg c (text cs)) tr (.ret c') := by rw [← e4]; exact he
          cases ht with
          | angles ht hA hk =>
            refine ⟨(only_exec he' (parse_p2p cfg _ ht.toPlain hp c hm)).2, kA e4 hs ht fun r hr => six_ext fun i => ?_⟩
            by_cases hn : ∃ d, Last NamesAngle cs i d
            · obtain ⟨d, hd⟩ := hn
              rw [hA i d hd, hr.ang i d hd]
            · have hno := not_last hn
              rw [hk i hno, hr.angKeep i hno, o1]
          | pose ht hP hk hi =>
            refine ⟨(only_exec he' (parse_p2p cfg _ ht.toPlain hp c hm)).2, kP e4 hs ht hi fun r hr => six_ext fun i => ?_⟩
            by_cases hn : ∃ d, Last NamesPose cs i d
            · obtain ⟨d, hd⟩ := hn
              rw [hP i d hd, hr.pos i d hd]
            · have hno := not_last hn
              rw [hk i hno, hr.posKeep i hno, o2]
  check g c h := by
    refine wp_exec_intro (E := fun _ => True) (fun _ => trivial) (fun _ _ _ => trivial) ?_ ?_
    · intro tr a q he _ hr A P mid hc
      have hk := (only_exec he (mrilProcess_only c)).1
      have hg : ∀ a ∈ tr, ¬ isGhost a := fun a ha => (check_not (hk a (by simp [ha]))).1
      have hq : ∀ a ∈ tr, quiet a := fun a ha => (check_not (hk a (by simp [ha]))).2
      simp only [cmon] at hc
      rw [foldl_snoc] at hc
      obtain ⟨mid', rfl, hc'⟩ := course_others hc hg
      refine (((h.2 _ _ _ hc').2.append (armStill_quiet hq)).stop ?_).1
      have hka := hk a (by simp)
      match a, hka, hr with
      | .out (.msg (.n1 n)), _, _ =>
        obtain ⟨c', rfl⟩ := check_n1 he n (by simp)
        have hmem : (Act.out (.msg (.n1 n)) : Act F) ∈ tr ++ [.out (.msg (.n1 n))] := by simp
        rcases process_spec _ _ _ he with ⟨_, _, _, _, e, _⟩ | ⟨_, e, _⟩ | ⟨hm, _⟩
        · rw [e] at hmem; simp [metRead, unmetRead] at hmem
        · rw [e] at hmem; simp [metRead] at hmem
        · simpa [RC.isMoving] using hm
    · intro tr c' he _
      have hk := (only_exec he (mrilProcess_only c))
      have hg : ∀ a ∈ tr, ¬ isGhost a := fun a ha => (check_not (hk.1 a ha)).1
      have hq : ∀ a ∈ tr, quiet a := fun a ha => (check_not (hk.1 a ha)).2
      have hrc : c'.rc = c.rc := hk.2.1
      refine ⟨⟨by rw [hrc]; exact h.1, fun A P mid hc => ?_⟩, fun hd => ?_⟩
      · simp only [cmon] at hc
        rw [foldl_snoc] at hc
        obtain ⟨mid', rfl, hc'⟩ := course_others hc hg
        obtain ⟨hm, hgo⟩ := h.2 _ _ _ hc'
        rw [hrc]
        exact ⟨hm, hgo.append (armStill_quiet hq)⟩
      · rw [hrc]
        rcases process_spec _ _ _ he with ⟨_, _, _, _, _, e⟩ | ⟨_, _, e⟩ | ⟨hm, _⟩
        · rw [e] at hd; cases hd
        · rw [e] at hd; cases hd
        · simpa [RC.isMoving] using hm

theorem course_ghost {cfg : RCfg F} {L U A P : Six F} {tr mid : List (Act F)} (h : Course cfg L U tr A P mid) : ∃ a ∈ tr, isGhost a := by
  induction h with
  | home tr2 _ _ _ _ => exact ⟨_, List.mem_append_right _ (List.mem_singleton.2 rfl), trivial⟩
  | act h _ ih => obtain ⟨a, ha, h'⟩ := ih; exact ⟨a, by simp [ha], h'⟩
  | quiet h _ _ => exact ⟨_, List.mem_append_right _ (List.mem_singleton.2 rfl), trivial⟩
  | tell h _ _ _ _ => exact ⟨_, List.mem_append_right _ (List.mem_singleton.2 rfl), trivial⟩

theorem course_sound {cfg : Cfg F} {L U : Six F} {junk : Nat → Byte} {tr : List (Act F)} {p : Prog F (FW F)} (h : Trace cfg junk tr p) (hl : Limits L U tr) :
    (∀ {pre post : List (Act F)} {a : Act F}, reports a → a.isInput = false → tr = pre ++ a :: post → ∀ {A P : Six F} {mid : List (Act F)},
      Course cfg.toRCfg L U pre A P mid → Moved cfg.toRCfg L U A mid) ∧
    p.wp (cmon cfg.toRCfg L U) (fun g s => CI cfg.toRCfg L U g s.core) tr := by
  have := Trace.sound (cfg := cfg) (junk := junk) (cmon cfg.toRCfg L U) (fun g s => CI cfg.toRCfg L U g s.core) [] ?_
    (fun g s hs => course_core.loop_wp s hs) h ?_
  · constructor
    · intro pre post a ha hi e A P mid hc
      have := this.1 pre a post e hi ha A P mid
      simp only [cmon, foldl_snoc, List.nil_append] at this
      exact this hc
    · have := this.2
      simpa only [cmon, foldl_snoc, List.nil_append] using this
  · simp only [setup, RC.new, RC.getCurrentPose, RC.getCurrentLogicalAngles, RC.readAngles, readServo, bind_def, pure_def, Prog.bind, wp]
    intros
    refine ⟨⟨fun _ => ⟨rfl, rfl⟩, rfl, fun h => (by cases h)⟩, fun A P mid hc => ?_⟩
    obtain ⟨a, ha, hg⟩ := course_ghost hc
    simp only [cmon, List.nil_append, List.cons_append, List.mem_cons, List.not_mem_nil, or_false] at ha
    exfalso
    rcases ha with rfl | rfl | rfl | rfl | rfl | rfl | rfl | rfl | rfl | rfl | rfl | rfl | rfl <;> exact hg
  · intro pre a post e _ i s hs
    exact hl i s (by rw [e, hs]; simp)

end Mrc.Told
