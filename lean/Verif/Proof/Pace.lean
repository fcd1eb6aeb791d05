import Verif.Proof.ToldLine
import Verif.Proof.Speed
/-
With which speed a straight move is commanded (C122).
-/
set_option linter.unusedSectionVars false
namespace Mrc.Told
open Mrc Mrc.Prog Mrc.Spec Mrc.Props
variable {F : Type} [FloatOps F]

/-- the time the controller plans for one of `n` parts of the line from `S` to `P` at the speed `V`. -/
def portion (V : F) (S P : Six F) (n : ℕ) : F := FloatOps.div (FloatOps.div (RC.distance S P) (Servo.ofNat n)) V

/-- the commands for way point `k`: every servo is sent there, all in the same time; or the way needs no time. -/
def Part (cfg : RCfg F) (L U : Six F) (V : F) (S P : Six F) (n k : ℕ) (tr : List (Act F)) : Prop :=
  ∃ t, WayPoint cfg S P n k tr t ∧ Fits cfg L U t ∧
    ((ArmStill tr ∧ ∃ m : Fin 6 → Servo F, (∀ i, .servo (armServo i) (m i) ∈ tr) ∧ feq (slowest (cfg.l2p t) m (List.finRange 6) (portion V S P n)) (lit 0) = true) ∨
    ∃ (pre post : List (Act F)) (m x y : Fin 6 → Servo F), ArmStill pre ∧ ArmStill post ∧ (∀ i, .servo (armServo i) (m i) ∈ pre) ∧
      tr = pre ++ applyT (cfg.l2p t) (slowest (cfg.l2p t) m (List.finRange 6) (portion V S P n)) x y (List.finRange 6) ++ post)

theorem wayPoint_prepend {cfg : RCfg F} {S P : Six F} {n k : ℕ} {mid tr : List (Act F)} {t : Six F} (h : WayPoint cfg S P n k tr t) : WayPoint cfg S P n k (mid ++ tr) t := by
  cases h with
  | plain h1 h2 => exact .plain h1 h2
  | singular h1 h2 h3 h4 => exact .singular h1 h2 (by simp [h3]) (by simp [h4])

theorem Part.append {cfg : RCfg F} {L U : Six F} {V : F} {S P : Six F} {n k : ℕ} {tr x : List (Act F)} (h : Part cfg L U V S P n k tr) (hx : ArmStill x) : Part cfg L U V S P n k (tr ++ x) := by
  obtain ⟨t, h1, h2, h3⟩ := h
  refine ⟨t, wayPoint_append h1, h2, h3.imp (fun ⟨h, m, a, b⟩ => ⟨armStill_append.2 ⟨h, hx⟩, m, fun i => by simp [a i], b⟩) fun ⟨pre, post, m, y, z, a, b, c, e⟩ =>
    ⟨pre, post ++ x, m, y, z, a, armStill_append.2 ⟨b, hx⟩, c, by rw [e]; simp⟩⟩

theorem Part.prepend {cfg : RCfg F} {L U : Six F} {V : F} {S P : Six F} {n k : ℕ} {tr x : List (Act F)} (h : Part cfg L U V S P n k tr) (hx : ArmStill x) : Part cfg L U V S P n k (x ++ tr) := by
  obtain ⟨t, h1, h2, h3⟩ := h
  refine ⟨t, wayPoint_prepend h1, h2, h3.imp (fun ⟨h, m, a, b⟩ => ⟨armStill_append.2 ⟨hx, h⟩, m, fun i => by simp [a i], b⟩) fun ⟨pre, post, m, y, z, a, b, c, e⟩ =>
    ⟨x ++ pre, post, m, y, z, armStill_append.2 ⟨hx, a⟩, b, fun i => by simp [c i], by rw [e]; simp⟩⟩

/-- the first `k` of `n` parts of the line from `S` to `P` have been commanded. -/
inductive Pace (cfg : RCfg F) (L U : Six F) (V : F) (S P : Six F) (n : ℕ) : ℕ → List (Act F) → Prop
  | begin {mid a} : ArmStill mid → Reading mid a → S = cfg.fwd (cfg.p2l a) → Pace cfg L U V S P n 0 mid
  | next {k mid tr} : Pace cfg L U V S P n k mid → Arrived mid → Part cfg L U V S P n (k + 1) tr → Pace cfg L U V S P n (k + 1) (mid ++ tr)
  | wait {k mid tr} : Pace cfg L U V S P n k mid → ArmStill tr → Pace cfg L U V S P n k (mid ++ tr)

/-- without the times. -/
theorem Pace.line {cfg : RCfg F} {L U : Six F} {V : F} {S P : Six F} {n k : ℕ} {mid : List (Act F)} (h : Pace cfg L U V S P n k mid) : ∃ o, Line cfg L U S P n k o mid := by
  induction h with
  | begin h1 h2 h3 => exact ⟨_, .begin h1 h2 h3⟩
  | wait _ h2 ih => obtain ⟨o, ih⟩ := ih; exact ⟨o, .wait ih h2⟩
  | next _ h2 h3 ih =>
    obtain ⟨o, ih⟩ := ih
    obtain ⟨t, g1, g2, g3⟩ := h3
    refine ⟨some t, .next ih h2 g1 g2 ?_⟩
    rcases g3 with ⟨g3, m, g4, g5⟩ | ⟨pre, post, m, x, y, a, b, c, e⟩
    · exact .inr ⟨g3, m, _, g4, g5⟩
    · left
      rw [e, armTargets_append, armTargets_append, armTargets_armStill a, armTargets_armStill b, List.nil_append, List.append_nil]
      apply armTargets_commanded
      unfold Commanded
      rw [RC.targets_apply]

/-- the way point `k` cannot be taken: it is out of reach or violates the limits. -/
def Hindered (cfg : RCfg F) (L U S P : Six F) (n k : ℕ) (mid : List (Act F)) : Prop :=
  cfg.inv (linePoint S P k n) = none ∨ ∃ m tr t, mid = m ++ tr ∧ WayPoint cfg S P n k tr t ∧ ¬ Fits cfg L U t

theorem Hindered.append {cfg : RCfg F} {L U S P : Six F} {n k : ℕ} {mid : List (Act F)} (h : Hindered cfg L U S P n k mid) (x : List (Act F)) : Hindered cfg L U S P n k (mid ++ x) :=
  h.imp id fun ⟨m, y, t, e, h, h'⟩ => ⟨m, y ++ x, t, by rw [e, List.append_assoc], wayPoint_append h, h'⟩

/-- a straight move to `P` is over. -/
def Paced (cfg : RCfg F) (L U : Six F) (V : F) (P : Six F) (mid : List (Act F)) : Prop :=
  ArmStill mid ∨ ∃ S n k, RC.linearSteps S P = some n ∧ (0 < n → k ≤ n) ∧ Pace cfg L U V S P n k mid ∧ Arrived mid ∧ (k = n ∨ Hindered cfg L U S P n (k + 1) mid)

/-- the phases. -/
inductive LinV (cfg : RCfg F) (L U : Six F) (V : F) (T : Six F → Prop) (mid : List (Act F)) (r : RC F) : Prop
  | told (P : Six F) : T P → r.state = .prepareMove → r.method = .linear → r.maxVelocity = V → (RC.sync cfg r).targetPose = P →
      ¬ (r.poseChanged = true ∧ r.anglesChanged = true) → ArmStill mid → LinV cfg L U V T mid r
  | on (P : Six F) : T P → r.state = .moving → r.method = .linear → r.maxVelocity = V → r.targetPose = P → (0 < r.total → r.step ≤ r.total) →
      RC.linearSteps r.startPose P = some r.total → Pace cfg L U V r.startPose P r.total r.step mid → LinV cfg L U V T mid r
  | done (P : Six F) : T P → r.state = .idle → Paced cfg L U V P mid → LinV cfg L U V T mid r

theorem LinV.append {cfg : RCfg F} {L U : Six F} {V : F} {T : Six F → Prop} {mid tr : List (Act F)} {r : RC F} (h : LinV cfg L U V T mid r) (ht : ArmStill tr) :
    LinV cfg L U V T (mid ++ tr) r := by
  cases h with
  | told P h1 h2 h3 h4 h5 h6 h7 => exact .told P h1 h2 h3 h4 h5 h6 (armStill_append.2 ⟨h7, ht⟩)
  | on P h1 h2 h3 h4 h5 h6 h7 h8 => exact .on P h1 h2 h3 h4 h5 h6 h7 (.wait h8 ht)
  | done P h1 h2 h3 =>
    exact .done P h1 h2 (h3.imp (fun h => armStill_append.2 ⟨h, ht⟩) fun ⟨S, n, k, a, b, c, d, f⟩ => ⟨S, n, k, a, b, .wait c ht, arrived_append_still d ht, f.imp id fun f => f.append _⟩)

/-- one part. -/
theorem start_linV {cfg : RCfg F} {L U : Six F} {V : F} {T : Six F → Prop} {mid tr : List (Act F)} {r r' : RC F} (hs : RC.Start cfg L U r tr r') {P : Six F}
    (hT : T P) (hm : r.method = .linear) (hV : r.maxVelocity = V) (hP : r.targetPose = P)
    (hk : 0 < r.total → r.step < r.total) (hn : RC.linearSteps r.startPose P = some r.total) (hl : Pace cfg L U V r.startPose P r.total r.step mid) (har : Arrived mid) :
    LinV cfg L U V T (mid ++ tr) r' := by
  have stopped : ∀ {x : List (Act F)}, ArmStill x → r'.state = .idle → Hindered cfg L U r.startPose P r.total (r.step + 1) (mid ++ x) → LinV cfg L U V T (mid ++ x) r' := fun hq h hh =>
    .done P hT h (.inr ⟨_, r.total, r.step, hn, fun h => (hk h).le, .wait hl hq, arrived_append_still har hq, .inr hh⟩)
  have key : ∀ (t : Six F) (tr pre : List (Act F)), Still pre → WayPoint cfg r.startPose P r.total (r.step + 1) pre t →
      RC.Cmd cfg L U { r with step := r.step + 1 } t (portion V r.startPose P r.total) tr r' → LinV cfg L U V T (mid ++ (pre ++ tr)) r' := by
    intro t tr pre hst hw hc
    have on : ∀ {x : List (Act F)}, Part cfg L U V r.startPose P r.total (r.step + 1) x → LinV cfg L U V T (mid ++ x) { r with step := r.step + 1, state := .moving } := fun hp =>
      .on P hT rfl hm hV hP hk hn (.next hl har hp)
    cases hc with
    | refused l v' u' hnf hl' =>
      exact stopped (armStill_append.2 ⟨armStill_still hst, armStill_still (RC.still_append (RC.still_append (RC.still_reads hl') (RC.still_readAll v')) (RC.still_readAll u'))⟩) rfl
        (.inr ⟨mid, _, t, rfl, wayPoint_append hw, hnf⟩)
    | zero v' m' hf hz =>
      refine on ⟨t, wayPoint_append hw, hf, .inl ⟨armStill_append.2 ⟨armStill_still hst, armStill_still (RC.still_append (RC.still_readAll v') (RC.still_readAll m'))⟩, m', fun i => ?_, hz⟩⟩
      simp only [List.mem_append]; exact .inr (.inr (mem_readAll m' i))
    | moved v' m' x y hf hz =>
      refine on ⟨t, wayPoint_append hw, hf, .inr ⟨pre ++ (readAll v' ++ readAll m'), [], m', x, y, ?_, armStill_nil, fun i => ?_, by simp⟩⟩
      · exact armStill_append.2 ⟨armStill_still hst, armStill_still (RC.still_append (RC.still_readAll v') (RC.still_readAll m'))⟩
      · simp only [List.mem_append]; exact .inr (.inr (mem_readAll m' i))
  subst hP hV
  cases hs with
  | p2p h => rw [hm] at h; cases h
  | unreachable v u _ hi =>
    rw [RC.waypoint_eq] at hi
    exact stopped (armStill_still (RC.still_append (RC.still_readAll v) (RC.still_readAll u))) rfl (.inl hi)
  | @linear t _ _ _ hi hns hc =>
    rw [RC.waypoint_eq] at hi
    refine key t tr [] (fun _ _ h => by cases h) (.plain hi ?_) hc
    unfold NearSingular; rw [hns]; decide
  | @singular t s3 s5 tr' _ _ hi hns hc =>
    rw [RC.waypoint_eq] at hi
    exact key _ tr' [.servo 3 s3, .servo 5 s5] (fun _ _ h => by simp at h) (.singular (t := t) hi hns (by simp) (by simp)) hc

theorem LinV.step {cfg : RCfg F} {L U : Six F} {V : F} {T : Six F → Prop} {mid tr : List (Act F)} {r r' : RC F} (hf : Fl r) (h : LinV cfg L U V T mid r)
    (hp : RC.Pro cfg L U r tr r') : LinV cfg L U V T (mid ++ tr) r' := by
  cases hp with
  | idle => exact h.append armStill_nil
  | start hs => exact absurd hs hf.notStart
  | moving hs hm =>
    cases h with
    | told _ _ h2 => rw [hs] at h2; cases h2
    | done _ _ h2 => rw [hs] at h2; cases h2
    | on P h1 h2 h3 h4 h5 h6 h7 h8 =>
      cases hm with
      | wait v _ => exact (LinV.on P h1 h2 h3 h4 h5 h6 h7 h8).append (armStill_still (RC.still_readAll v))
      | finish v hv he =>
        exact .done P h1 rfl (.inr ⟨_, r.total, r.step, h7, h6, .wait h8 (armStill_still (RC.still_readAll v)), arrived_read hv, .inl he⟩)
      | @next v tr' _ hv hne hst =>
        rw [← List.append_assoc]
        exact start_linV hst h1 h3 h4 h5 (fun h => lt_of_le_of_ne (h6 h) hne) h7 (.wait h8 (armStill_still (RC.still_readAll v))) (arrived_read hv)
  | prepare hs hp =>
    cases h with
    | on _ _ h2 => rw [hs] at h2; cases h2
    | done _ _ h2 => rw [hs] at h2; cases h2
    | told P h1 h2 h3 hV h4 h6 h7 =>
      cases hp with
      | transaction ht => rw [hf.closed] at ht; cases ht
      | both _ ha hb => exact absurd ⟨ha, hb⟩ h6
      | same e v u _ _ he hq =>
        exact .done P h1 rfl (.inl (armStill_append.2 ⟨h7, armStill_still (RC.still_append (RC.still_append (RC.still_raw he) (RC.still_readAll v)) (RC.still_readAll u))⟩))
      | @start e v u n tr' _ _ _ he hq hn hst =>
        have hpre : ArmStill (mid ++ (e ++ readAll v ++ readAll u)) :=
          armStill_append.2 ⟨h7, armStill_still (RC.still_append (RC.still_append (RC.still_raw he) (RC.still_readAll v)) (RC.still_readAll u))⟩
        rw [← List.append_assoc]
        have hn1 : RC.linearSteps (cfg.fwd (cfg.p2l (curs v))) P = some n := by
          rcases hn with ⟨hl, _⟩ | ⟨_, hl⟩
          · rw [h3] at hl; cases hl
          · rw [← h4]; exact hl
        exact start_linV hst h1 ((RC.sync_same cfg r).2.1.trans h3) ((sync_vel cfg r).trans hV) h4 (fun h => h) hn1
          (.begin (a := curs v) hpre (RC.reading_readAll v fun a ha => by simp [ha]) rfl) (arrived_armStill hpre)

theorem LinV.stop {cfg : RCfg F} {L U : Six F} {V : F} {T : Six F → Prop} {mid : List (Act F)} {r : RC F} (h : LinV cfg L U V T mid r) (hs : r.state = .idle) :
    ∃ P, T P ∧ Paced cfg L U V P mid := by
  cases h with
  | told _ _ h2 => rw [hs] at h2; cases h2
  | on _ _ h2 => rw [hs] at h2; cases h2
  | done P h1 _ h3 => exact ⟨P, h1, h3⟩

theorem pace_phases {cfg : Cfg F} {L U : Six F} {m : List Byte} {V : F} {T : Six F → Prop}
    (hb : ∀ {c c' tr}, Fl c.rc → c.rc.state = .idle → Exec (Mril.parse cfg c m) tr (.ret c') →
      c'.rc.state = .prepareMove ∧ c'.rc.method = .linear ∧ c'.rc.maxVelocity = V ∧ ¬ (c'.rc.poseChanged = true ∧ c'.rc.anglesChanged = true) ∧ T (RC.sync cfg.toRCfg c'.rc).targetPose) :
    Phases cfg L U m (fun mid => ∃ P, T P ∧ Paced cfg.toRCfg L U V P mid) (fun mid r => LinV cfg.toRCfg L U V T mid r) where
  step hf h hp := h.step hf hp
  stop h hs := h.stop hs
  skip h ht := h.append (armStill_quiet ht)
  begins hf hs he := by
    obtain ⟨h1, h2, h3, h4, h5⟩ := hb hf hs he
    exact .told _ h5 h1 h2 h3 rfl h4 (armStill_quiet fun a ha => (mril_not ((only_exec he (parse_only _ _ _)).1 a ha)).2.2)

end Mrc.Told
