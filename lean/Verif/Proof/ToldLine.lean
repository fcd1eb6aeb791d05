import Verif.Proof.Told
/- The phases of a linear move (C86). -/
set_option linter.unusedSectionVars false
namespace Mrc.Told
open Mrc Mrc.Prog Mrc.Spec Mrc.Props
variable {F : Type} [FloatOps F]

theorem reading_append {mid tr : List (Act F)} {a : Six F} (h : Reading mid a) : Reading (mid ++ tr) a := fun i => by
  obtain ⟨s, hs, e⟩ := h i; exact ⟨s, by simp [hs], e⟩

theorem wayPoint_append {cfg : RCfg F} {S P : Six F} {n k : ℕ} {mid tr : List (Act F)} {t : Six F} (h : WayPoint cfg S P n k mid t) : WayPoint cfg S P n k (mid ++ tr) t := by
  cases h with
  | plain h1 h2 => exact .plain h1 h2
  | singular h1 h2 h3 h4 => exact .singular h1 h2 (by simp [h3]) (by simp [h4])

/-- the phases of a linear move to a pose and angles with the property `T`. -/
inductive Lin (cfg : RCfg F) (L U : Six F) (T : Six F → Six F → Prop) (mid : List (Act F)) (r : RC F) : Prop
  | told (P A : Six F) : T P A → r.state = .prepareMove → r.method = .linear → (RC.sync cfg r).targetPose = P → (RC.sync cfg r).targetAngles = A →
      ¬ (r.poseChanged = true ∧ r.anglesChanged = true) → ArmStill mid → Lin cfg L U T mid r
  | on (P A : Six F) (o : Option (Six F)) : T P A → r.state = .moving → r.method = .linear → r.targetPose = P →
      0 < r.step → (0 < r.total → r.step ≤ r.total) → RC.linearSteps r.startPose P = some r.total → Line cfg L U r.startPose P r.total r.step o mid → Lin cfg L U T mid r
  | done (P A : Six F) : T P A → r.state = .idle → LineMoved cfg L U P A mid → Lin cfg L U T mid r

theorem Lin.append {cfg : RCfg F} {L U : Six F} {T : Six F → Six F → Prop} {mid tr : List (Act F)} {r : RC F} (h : Lin cfg L U T mid r) (ht : ArmStill tr) :
    Lin cfg L U T (mid ++ tr) r := by
  cases h with
  | told P A h1 h2 h3 h4 h5 h6 h7 => exact .told P A h1 h2 h3 h4 h5 h6 (armStill_append.2 ⟨h7, ht⟩)
  | on P A o h1 h2 h3 h4 h7 h8 h9 h10 => exact .on P A o h1 h2 h3 h4 h7 h8 h9 (.wait h10 ht)
  | done P A h1 h2 h3 =>
    refine .done P A h1 h2 ?_
    cases h3 with
    | along S n o h3 h4 h5 h6 => exact .along S n o h3 h4 (.wait h5 ht) (arrived_append_still h6 ht)
    | stopped S n k o h3 h4 h5 h6 h7 =>
      exact .stopped S n k o h3 h4 (.wait h5 ht) (arrived_append_still h6 ht)
        (h7.imp id fun ⟨m, x, t, e, hx, h, h'⟩ => ⟨m, x ++ tr, t, by rw [e, List.append_assoc], armStill_append.2 ⟨hx, ht⟩, wayPoint_append h, h'⟩)
    | there b h1 h2 h3 => exact .there b (reading_append h1) h2 (armStill_append.2 ⟨h3, ht⟩)

/-- one way point. -/
theorem start_lin {cfg : RCfg F} {L U : Six F} {T : Six F → Six F → Prop} {mid tr : List (Act F)} {r r' : RC F} (hs : RC.Start cfg L U r tr r') {P A : Six F}
    {o : Option (Six F)} (hT : T P A) (hm : r.method = .linear) (hP : r.targetPose = P)
    (hk : 0 < r.total → r.step < r.total) (hn : RC.linearSteps r.startPose P = some r.total) (hl : Line cfg L U r.startPose P r.total r.step o mid) (har : Arrived mid) :
    Lin cfg L U T (mid ++ tr) r' := by
  have key : ∀ (t : Six F) (mt : F) (tr : List (Act F)) (r' : RC F) (pre : List (Act F)), Still pre → WayPoint cfg r.startPose P r.total (r.step + 1) pre t →
      RC.Cmd cfg L U { r with step := r.step + 1 } t mt tr r' → Lin cfg L U T (mid ++ (pre ++ tr)) r' := by
    intro t mt tr r' pre hst hw hc
    have hw' : WayPoint cfg r.startPose P r.total (r.step + 1) (pre ++ tr) t := wayPoint_append hw
    rcases cmd_arm hc with ⟨c1, c2, c3⟩ | ⟨c1, rfl, c3⟩
    · have hq : ArmStill (pre ++ tr) := armStill_append.2 ⟨armStill_still hst, c2⟩
      exact .done P A hT c3 (.stopped _ r.total r.step o hn hk (.wait hl hq) (arrived_append_still har hq) (.inr ⟨mid, _, t, rfl, hq, hw', c1⟩))
    · refine .on P A (some t) hT rfl hm hP (Nat.succ_pos _) hk hn ?_
      refine .next hl har hw' c1 ?_
      rcases c3 with c3 | ⟨c3, v, mt, c4, c5⟩
      · left; rw [armTargets_append, armTargets_armStill (armStill_still hst), c3, List.nil_append]
      · exact .inr ⟨armStill_append.2 ⟨armStill_still hst, c3⟩, v, mt, fun i => by simp [c4 i], c5⟩
  cases hs with
  | p2p h => rw [hm] at h; cases h
  | unreachable v u _ hi =>
    rw [RC.waypoint_eq] at hi
    have hq : ArmStill (readAll v ++ readAll u) := armStill_still (RC.still_append (RC.still_readAll v) (RC.still_readAll u))
    refine .done P A hT rfl (.stopped _ r.total r.step o hn hk (.wait hl hq) (arrived_append_still har hq) (.inl ?_))
    rw [← hP]; exact hi
  | @linear t _ _ _ hi hns hc =>
    rw [RC.waypoint_eq] at hi
    refine key t _ tr r' [] (fun _ _ h => by cases h) (.plain ?_ ?_) hc
    · rw [← hP]; exact hi
    · unfold NearSingular; rw [hns]; decide
  | @singular t s3 s5 tr' _ _ hi hns hc =>
    rw [RC.waypoint_eq] at hi
    refine key _ _ tr' r' [.servo 3 s3, .servo 5 s5] (fun _ _ h => by simp at h) (.singular (t := t) ?_ hns (by simp) (by simp)) hc
    rw [← hP]; exact hi

theorem Lin.step {cfg : RCfg F} {L U : Six F} {T : Six F → Six F → Prop} {mid tr : List (Act F)} {r r' : RC F} (hf : Fl r) (h : Lin cfg L U T mid r)
    (hp : RC.Pro cfg L U r tr r') : Lin cfg L U T (mid ++ tr) r' := by
  cases hp with
  | idle => exact h.append armStill_nil
  | start hs => exact absurd hs hf.notStart
  | moving hs hm =>
    cases h with
    | told _ _ _ h2 => rw [hs] at h2; cases h2
    | done _ _ _ h2 => rw [hs] at h2; cases h2
    | on P A o h1 h2 h3 h4 h7 h8 h9 h10 =>
      cases hm with
      | wait v _ => exact (Lin.on P A o h1 h2 h3 h4 h7 h8 h9 h10).append (armStill_still (RC.still_readAll v))
      | finish v hv he =>
        have hq : ArmStill (readAll v) := armStill_still (RC.still_readAll v)
        refine .done P A h1 rfl (.along _ r.total o (by rw [← he]; exact h7) h9 ?_ (arrived_read hv))
        rw [he] at h10; exact .wait h10 hq
      | @next v tr' _ hv hne hst =>
        rw [← List.append_assoc]
        exact start_lin hst h1 h3 h4 (fun h => lt_of_le_of_ne (h8 h) hne) h9 (.wait h10 (armStill_still (RC.still_readAll v))) (arrived_read hv)
  | prepare hs hp =>
    cases h with
    | on _ _ _ _ h2 => rw [hs] at h2; cases h2
    | done _ _ _ h2 => rw [hs] at h2; cases h2
    | told P A h1 h2 h3 h4 h5 h6 h7 =>
      cases hp with
      | transaction ht => rw [hf.closed] at ht; cases ht
      | both _ ha hb => exact absurd ⟨ha, hb⟩ h6
      | same e v u _ _ he hq =>
        rw [h5] at hq
        have hst : ArmStill (e ++ readAll v ++ readAll u) :=
          armStill_still (RC.still_append (RC.still_append (RC.still_raw he) (RC.still_readAll v)) (RC.still_readAll u))
        refine .done P A h1 rfl (.there (curs u) ?_ hq (armStill_append.2 ⟨h7, hst⟩))
        exact RC.reading_readAll u fun a ha => by simp [ha]
      | @start e v u n tr' _ _ _ he hq hn hst =>
        have hpre : ArmStill (mid ++ (e ++ readAll v ++ readAll u)) :=
          armStill_append.2 ⟨h7, armStill_still (RC.still_append (RC.still_append (RC.still_raw he) (RC.still_readAll v)) (RC.still_readAll u))⟩
        rw [← List.append_assoc]
        have hmeth : (RC.sync cfg r).method = .linear := (RC.sync_same cfg r).2.1.trans h3
        have hn1 : RC.linearSteps (cfg.fwd (cfg.p2l (curs v))) P = some n := by
          rcases hn with ⟨hl, _⟩ | ⟨_, hl⟩
          · rw [h3] at hl; cases hl
          · rw [← h4]; exact hl
        exact start_lin hst h1 hmeth h4 (fun h => h) hn1 (.begin (a := curs v) hpre (RC.reading_readAll v fun a ha => by simp [ha]) rfl) (arrived_armStill hpre)

theorem Lin.stop {cfg : RCfg F} {L U : Six F} {T : Six F → Six F → Prop} {mid : List (Act F)} {r : RC F} (h : Lin cfg L U T mid r) (hs : r.state = .idle) :
    ∃ P A, T P A ∧ LineMoved cfg L U P A mid := by
  cases h with
  | told _ _ _ h2 => rw [hs] at h2; cases h2
  | on _ _ _ _ h2 => rw [hs] at h2; cases h2
  | done P A h1 _ h3 => exact ⟨P, A, h1, h3⟩

theorem line_phases {cfg : Cfg F} {L U : Six F} {m : List Byte} {T : Six F → Six F → Prop}
    (hb : ∀ {c c' tr}, Fl c.rc → c.rc.state = .idle → Exec (Mril.parse cfg c m) tr (.ret c') →
      c'.rc.state = .prepareMove ∧ c'.rc.method = .linear ∧ ¬ (c'.rc.poseChanged = true ∧ c'.rc.anglesChanged = true) ∧
        T (RC.sync cfg.toRCfg c'.rc).targetPose (RC.sync cfg.toRCfg c'.rc).targetAngles) :
    Phases cfg L U m (fun mid => ∃ P A, T P A ∧ LineMoved cfg.toRCfg L U P A mid) (fun mid r => Lin cfg.toRCfg L U T mid r) where
  step hf h hp := h.step hf hp
  stop h hs := h.stop hs
  skip h ht := h.append (armStill_quiet ht)
  begins hf hs he := by
    obtain ⟨h1, h2, h3, h4⟩ := hb hf hs he
    exact .told _ _ h4 h1 h2 rfl rfl h3 (armStill_quiet fun a ha => (mril_not ((only_exec he (parse_only _ _ _)).1 a ha)).2.2)

end Mrc.Told
