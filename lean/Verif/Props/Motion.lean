import Verif.Proof.Motion
import Verif.Proof.DemoX
import Verif.Props.Controller
import Verif.Props.Servo
/-
C43 (second half), C45-C48: numeric properties of moves, over the exact numbers XR.
-/
set_option linter.unusedSectionVars false
namespace Mrc.Props
open Mrc Mrc.Prog Mrc.Spec Mrc.RC XR
open scoped Mrc.Num

/-! ### C48 (point to point) -/

/-- core: the preparation of a point-to-point move ends at once, or goes over to commanding with a positive time. -/
theorem p2p_core {cfg : RCfg XR} {L U : Six XR} {r r' : RC XR} {tr : List (Act XR)} (h : Exec (process cfg r) tr (.ret r')) (hl : Limits L U tr)
    (h1 : r.state = .prepareMove) (h2 : r.inTransaction = false) (h5 : r.method = .p2p) {τ : Fin 6 → ℝ} {V : ℝ} (ht : (sync cfg r).targetAngles = finS τ)
    (hboth : ¬ (r.poseChanged = true ∧ r.anglesChanged = true)) (hV : r.maxVelocity = fin V) (hVp : 0 < V)
    (hfin : ∀ a, Reading tr a → ∃ s, cfg.p2l a = finS s) :
    AlreadyThere cfg τ tr r' ∨
    ∃ l tr2 r0 b s mt, tr = l ++ tr2 ∧ Still l ∧ Cmd cfg L U r0 (finS τ) (fin mt) tr2 r' ∧ Reading tr b ∧ cfg.p2l b = finS s ∧ 0 < mt ∧ ∀ i, |s i - τ i| * (180 / Real.pi) / V ≤ mt := by
  have hmm : (sync cfg r).method = .p2p := (sync_same cfg r).2.1.trans h5
  have hvv : (sync cfg r).maxVelocity = fin V := by
    refine Eq.trans ?_ hV
    unfold sync; split
    · rfl
    · split
      · split <;> rfl
      · rfl
  cases process_exec h hl with
  | idle hi => rw [h1] at hi; cases hi
  | moving hi _ => rw [h1] at hi; cases hi
  | start hi _ => rw [h1] at hi; cases hi
  | prepare _ hpr =>
    cases hpr with
    | transaction ht => rw [h2] at ht; cases ht
    | both _ hp' ha' => exact absurd ⟨hp', ha'⟩ hboth
    | same e v u _ _ he hq =>
      have hr : Reading (e ++ readAll v ++ readAll u) (curs u) := reading_readAll u fun a ha => List.mem_append_right _ ha
      obtain ⟨s, hs⟩ := hfin _ hr
      refine .inl ⟨still_append (still_append (still_raw he) (still_readAll v)) (still_readAll u), rfl, curs u, s, hr, hs, ?_⟩
      rw [ht, hs] at hq
      exact (anglesEqual_fin s τ).1 hq
    | @start e v u n tr1 _ _ _ he hq hn' hs =>
      have hst : Still (e ++ readAll v ++ readAll u) := still_append (still_append (still_raw he) (still_readAll v)) (still_readAll u)
      have hr : Reading (e ++ readAll v ++ readAll u ++ tr1) (curs u) :=
        reading_readAll u fun a ha => List.mem_append_left _ (List.mem_append_right _ ha)
      obtain ⟨s, hs'⟩ := hfin _ hr
      rw [ht, hs'] at hq
      have hq' : ∃ i, 1 / 10000 ≤ |s i - τ i| := by
        by_contra hc
        push Not at hc
        rw [(anglesEqual_fin s τ).2 hc] at hq; cases hq
      cases hs with
      | unreachable _ _ hm => simp only [hmm] at hm; cases hm
      | linear hm => simp only [hmm] at hm; cases hm
      | singular hm => simp only [hmm] at hm; cases hm
      | @p2p tr2 _ _ hc =>
        simp only [ht, hvv] at hc hr ⊢
        obtain ⟨M, hM, hM0, hMi⟩ := maxAngleChange_fin ({ sync cfg r with anglesChanged := false, poseChanged := false, startPose := cfg.fwd (cfg.p2l (curs v)), startAngles := cfg.p2l (curs u), step := 0, total := n, state := .startMove }) s τ hs' ht
        simp only [ht, hvv] at hM
        rw [hM] at hc hr ⊢
        have et : FloatOps.mul (FloatOps.div (fin M) (fin V)) radToDeg = fin (M / V * (180 / Real.pi)) := by
          rw [radToDeg_eq, ops_div, ops_mul, fin_div _ _ hVp.ne', fin_mul]
        rw [et] at hc hr ⊢
        obtain ⟨i0, hi0⟩ := hq'
        have hMp : 0 < M := lt_of_lt_of_le (by norm_num) (hi0.trans (hMi i0))
        have hst2 : Still (e ++ readAll v ++ readAll u ++ [Act.out (.raw (.moveInTime (fin (M / V * (180 / Real.pi)))))]) := still_append hst (still_out1 _)
        rw [List.append_cons]
        rw [List.append_cons] at hr
        refine .inr ⟨_, tr2, _, curs u, s, _, rfl, hst2, hc, hr, hs', by positivity, fun i => ?_⟩
        have := hMi i
        have hpi : 0 < 180 / Real.pi := by positivity
        rw [div_mul_eq_mul_div]
        gcongr

theorem goal_sync {cfg : RCfg XR} {r : RC XR} {τ : Fin 6 → ℝ} (hg : Goal cfg r (finS τ)) :
    (sync cfg r).targetAngles = finS τ ∧ ¬ (r.poseChanged = true ∧ r.anglesChanged = true) := by
  have ht : (sync cfg r).targetAngles = finS τ := by
    unfold sync
    rcases hg with ⟨ha, _, e⟩ | ⟨ha, hb, e⟩
    · rw [if_pos ha]; exact e.symm
    · rw [if_neg (by simp [ha]), if_pos hb, e]
  have hboth : ¬ (r.poseChanged = true ∧ r.anglesChanged = true) := by
    rcases hg with ⟨ha, hb, _⟩ | ⟨ha, hb, _⟩ <;> simp [ha, hb]
  exact ⟨ht, hboth⟩

/-- **C48/1** (and the common core of C43 and C45): a point-to-point move to the logical angles `τ`, with a speed V > 0 (degrees per second): the call of process() that prepares it
refuses it (a limit is violated), or finds the robot already there, or commands all six axes at once, all with one common time, which is at least (the way of every logical axis in
degrees) / V and at least what every servo needs at its maximum speed. -/
theorem C48_p2p {cfg : RCfg XR} {L U : Six XR} {r r' : RC XR} {tr : List (Act XR)} (h : Exec (process cfg r) tr (.ret r')) (hl : Limits L U tr)
    (h1 : r.state = .prepareMove) (h2 : r.inTransaction = false) (h5 : r.method = .p2p) {τ p mv : Fin 6 → ℝ} {V : ℝ} (hg : Goal cfg r (finS τ))
    (hV : r.maxVelocity = fin V) (hVp : 0 < V) (hp : cfg.l2p (finS τ) = finS p) (hn : Numeric mv tr) (hmv : ∀ i, 0 < mv i)
    (hfin : ∀ a, Reading tr a → ∃ s, cfg.p2l a = finS s) :
    (¬ Fits cfg L U (finS τ) ∧ GaveUp cfg tr r') ∨ AlreadyThere cfg τ tr r' ∨
    (Fits cfg L U (finS τ) ∧ r'.state = .moving ∧ Commanded (finS p) tr ∧
      ∃ b s mt, Reading tr b ∧ cfg.p2l b = finS s ∧ Timed p mv mt tr ∧ ∀ i, |s i - τ i| * (180 / Real.pi) / V ≤ mt) := by
  rcases p2p_core h hl h1 h2 h5 (goal_sync hg).1 (goal_sync hg).2 hV hVp hfin with h | ⟨l, tr2, r0, b, s, mt, rfl, hst, hc, hr, hs, hmt, hi⟩
  · exact .inr (.inl h)
  · have hn2 : Numeric mv tr2 := fun i s hs => hn i s (List.mem_append_right _ hs)
    rcases cmd_timed hc hn2 hmv hp hmt with ⟨hf, hg⟩ | ⟨hf, hr', hcd, htm⟩
    · exact .inl ⟨hf, hg.prepend hst⟩
    · exact .inr (.inr ⟨hf, by rw [hr'], hcd.prepend hst, b, s, mt, hr, hs, htm.prepend hst, hi⟩)

/-! ### C41 in numbers -/

/-- **C41/3**: over the exact numbers: every angle given to a servo is within the servo's limits, or NaN. -/
theorem C41_in_range {cfg : RCfg XR} {lo hi : Fin 6 → ℝ} {r : RC XR} {tr : List (Act XR)} {q : Prog XR (RC XR)} (h : Exec (process cfg r) tr q)
    (hl : Limits (finS lo) (finS hi) tr) {j : Fin 8} {x : XR} (hx : Act.micro j (.setTarget x) ∈ tr) :
    ∃ i, j = armServo i ∧ (x = nan ∨ InR (lo i) (hi i) x) := by
  obtain ⟨i, t, hj, rfl, hf⟩ := C41_limits h hl hx
  refine ⟨i, hj, ?_⟩
  have := hf.2 i
  cases hx' : cfg.l2p t i with
  | nan => exact .inl rfl
  | inf s =>
    rw [hx'] at this
    cases s
    · exact absurd this.2 (by simp [finS, fgt]; rfl)
    · exact absurd this.1 (by simp [finS, flt]; rfl)
  | fin y =>
    rw [hx'] at this
    simp only [flt, fgt, finS, ops_lt, decide_eq_false_iff_not, not_lt] at this
    exact .inr ⟨y, rfl, this⟩

/-! ### C42, C50: unreachable poses in point-to-point moves -/

/-- **C50 is false**: when an unreachable pose is commanded while the robot rests where its target angles are, the next process() call does nothing at all except that it goes idle: the unreachable pose
is retained as the target, so that later settings of single coordinates start from it (every number type, kinematics and servo behaviour). -/
theorem C50_retained_false {F : Type} [FloatOps F] {cfg : RCfg F} {L U : Six F} {r r' : RC F} {tr : List (Act F)} (h : Exec (process cfg r) tr (.ret r')) (hl : Limits L U tr)
    (h1 : r.state = .prepareMove) (h2 : r.inTransaction = false) (h3 : r.anglesChanged = false) (h4 : r.poseChanged = true) (hi : cfg.inv r.targetPose = none)
    (hrest : ∀ b, Reading tr b → anglesEqual (cfg.p2l b) r.targetAngles = true) :
    Still tr ∧ r'.isMoving = false ∧ r'.targetPose = r.targetPose := by
  have hsync : sync cfg r = r := by
    unfold sync; rw [if_neg (by simp [h3]), if_pos h4, hi]
  cases process_exec h hl with
  | idle hi => rw [h1] at hi; cases hi
  | moving hi _ => rw [h1] at hi; cases hi
  | start hi _ => rw [h1] at hi; cases hi
  | prepare _ hpr =>
    cases hpr with
    | transaction ht => rw [h2] at ht; cases ht
    | both _ _ ha => rw [h3] at ha; cases ha
    | same e v u _ _ he hq =>
      refine ⟨still_append (still_append (still_raw he) (still_readAll v)) (still_readAll u), rfl, ?_⟩
      simp only [hsync]
    | @start e v u n tr1 _ _ _ he hq hn' hs =>
      have := hrest (curs u) (reading_readAll u fun a ha => List.mem_append_left _ (List.mem_append_right _ ha))
      rw [hsync, this] at hq; cases hq

/-- **C42 is false for point-to-point moves to an unreachable pose**: if the target angles of an earlier command are admissible and not where the robot is, the robot is sent there. -/
theorem C42_unreachable_false {cfg : RCfg XR} {L U : Six XR} {r r' : RC XR} {tr : List (Act XR)} (h : Exec (process cfg r) tr (.ret r')) (hl : Limits L U tr)
    (h1 : r.state = .prepareMove) (h2 : r.inTransaction = false) (h3 : r.anglesChanged = false) (h4 : r.poseChanged = true) (h5 : r.method = .p2p) (hi : cfg.inv r.targetPose = none)
    {τ p c mv : Fin 6 → ℝ} {V : ℝ} (hτ : r.targetAngles = finS τ) (hV : r.maxVelocity = fin V) (hVp : 0 < V) (hf : Fits cfg L U (finS τ)) (hp : cfg.l2p (finS τ) = finS p)
    (hn : Numeric mv tr) (hmv : ∀ i, 0 < mv i) (hfin : ∀ a, Reading tr a → ∃ s, cfg.p2l a = finS s ∧ ∃ i, 1 / 10000 ≤ |s i - τ i|) :
    r'.isMoving = true ∧ Commanded (finS p) tr := by
  have hsync : sync cfg r = r := by
    unfold sync; rw [if_neg (by simp [h3]), if_pos h4, hi]
  rcases p2p_core h hl h1 h2 h5 (by rw [hsync]; exact hτ) (by simp [h3]) hV hVp (fun a ha => by obtain ⟨s, h, _⟩ := hfin a ha; exact ⟨s, h⟩) with
    ⟨_, _, b, s, hb, hs, hlt⟩ | ⟨l, tr2, r0, b, s, mt, rfl, hst, hc, hr, hs, hmt, _⟩
  · obtain ⟨s', hs', i, hi⟩ := hfin b hb
    rw [hs] at hs'
    have e : s i = s' i := by have := congrFun hs' i; simp only [finS] at this; injection this
    have := hlt i
    rw [e] at this
    linarith
  · rcases cmd_timed hc (fun i s hs => hn i s (List.mem_append_right _ hs)) hmv hp hmt with ⟨hf', _⟩ | ⟨_, hr', hcd, _⟩
    · exact absurd hf hf'
    · exact ⟨by unfold isMoving; rw [hr']; rfl, hcd.prepend hst⟩

/-! ### C43 (second half) -/

/-- the method calls of a history. -/
def callsOf {F : Type} : List (CEv F) → List (Call F)
  | [] => []
  | .call c :: es => c :: callsOf es
  | .process _ :: es => callsOf es

/-- **C43/2**: in a transaction, from the first target set on, calls of process() have no effect: when the transaction ends, the targets are exactly those set last, and
the move is waiting to be prepared. -/
theorem C43_retained {F : Type} [FloatOps F] {cfg : RCfg F} {r r1 : RC F} {c : Call F} {es : List (CEv F)} (hr : r.inTransaction = true) (hc : Call.setsTarget c = true)
    (h : CHist cfg r (.call c :: es) r1) (hes : CEv.call .endTransaction ∉ es) (hst : CEv.call .stop ∉ es) :
    r1 = (c :: callsOf es).foldl RC.call r ∧ r1.state = .prepareMove ∧
    (∀ i, r1.targetAngles i = lastSet (Call.angle i) (r.targetAngles i) (c :: callsOf es)) ∧
    (∀ i, r1.targetPose i = lastSet (Call.pose i) (r.targetPose i) (c :: callsOf es)) := by
  have key : ∀ (r1 : RC F) (es : List (CEv F)) (r2 : RC F), CHist cfg r1 es r2 → CEv.call .endTransaction ∉ es → CEv.call .stop ∉ es → r1.inTransaction = true →
      r1.state = .prepareMove → r2 = (callsOf es).foldl RC.call r1 ∧ r2.state = .prepareMove := by
    intro r1 es r2 h
    induction h with
    | nil r => intro _ _ _ hs; exact ⟨rfl, hs⟩
    | @call r c es r' _ ih =>
      intro hn hn2 ht hs
      refine ih (fun h => hn (List.mem_cons_of_mem _ h)) (fun h => hn2 (List.mem_cons_of_mem _ h)) ?_ ?_
      · cases c <;> first | exact ht | rfl | exact absurd List.mem_cons_self hn
      · cases c <;> first | exact hs | rfl | exact absurd List.mem_cons_self hn2
    | @process r tr0 r1 es r' he _ ih =>
      intro hn hn2 ht hs
      have hproc : process cfg r = .ret r := by
        unfold process; rw [hs]; show prepare cfg r = _; unfold prepare; rw [if_pos ht]; rfl
      rw [hproc] at he
      cases he with
      | nil => exact ih (fun h => hn (List.mem_cons_of_mem _ h)) (fun h => hn2 (List.mem_cons_of_mem _ h)) ht hs
      | cons hs' _ => cases hs'
  cases h with
  | call h =>
    have := key _ es r1 h hes hst (by cases c <;> first | exact hr | cases hc) (by cases c <;> first | rfl | cases hc)
    have e : r1 = (c :: callsOf es).foldl RC.call r := this.1
    refine ⟨e, this.2, ?_, ?_⟩
    · rw [e]; exact (C49_set_get r _).2.1
    · rw [e]; exact (C49_set_get r _).1

/-- setters of angles, the velocity and the method. -/
def Call.anglesOnly {F : Type} : Call F → Bool
  | .setTargetLogicalAngle .. | .setTargetLogicalAngles .. | .setMaxVelocity .. => true
  | _ => false

/-- **C43/3**: angles set in a transaction (in any number of calls, process() called in between at will) are applied together, in one move, by the first process() call after
endTransaction -- unless they violate a limit or are where the robot already is. -/
theorem C43_together {cfg : RCfg XR} {L U : Six XR} {r r1 r' : RC XR} {c : Call XR} {es : List (CEv XR)} {tr : List (Act XR)} (hr : r.inTransaction = true) (h5 : r.method = .p2p)
    (hpc : r.poseChanged = false) (hc : Call.setsTarget c = true) (h : CHist cfg r (.call c :: es) r1) (hca : ∀ d ∈ c :: callsOf es, Call.anglesOnly d = true)
    (hp : Exec (process cfg r1.endTransaction) tr (.ret r')) (hl : Limits L U tr) {τ p mv : Fin 6 → ℝ} {V : ℝ}
    (hτ : ∀ i, lastSet (Call.angle i) (r.targetAngles i) (c :: callsOf es) = fin (τ i)) (hV : lastSet Call.velocity r.maxVelocity (c :: callsOf es) = fin V) (hVp : 0 < V)
    (hlp : cfg.l2p (finS τ) = finS p) (hn : Numeric mv tr) (hmv : ∀ i, 0 < mv i) (hfin : ∀ a, Reading tr a → ∃ s, cfg.p2l a = finS s) :
    (¬ Fits cfg L U (finS τ) ∧ GaveUp cfg tr r') ∨ AlreadyThere cfg τ tr r' ∨ (Fits cfg L U (finS τ) ∧ r'.state = .moving ∧ Commanded (finS p) tr) := by
  have mem : ∀ {es : List (CEv XR)} {d}, CEv.call d ∈ es → d ∈ callsOf es := by
    intro es
    induction es with
    | nil => intro d h; cases h
    | cons e es ih =>
      intro d h
      cases e with
      | call c =>
        rcases List.mem_cons.1 h with h | h
        · cases h; exact List.mem_cons_self
        · exact List.mem_cons_of_mem _ (ih h)
      | process t =>
        rcases List.mem_cons.1 h with h | h
        · cases h
        · exact ih h
  have h1 : CEv.call .endTransaction ∉ es := fun h => by have := hca _ (List.mem_cons_of_mem _ (mem h)); cases this
  have h2 : CEv.call .stop ∉ es := fun h => by have := hca _ (List.mem_cons_of_mem _ (mem h)); cases this
  obtain ⟨e, hs, ha, _⟩ := C43_retained hr hc h h1 h2
  have hm : r1.method = .p2p := by
    rw [e, (C49_set_get r _).2.2.2, ← h5]
    have : (c :: callsOf es).filterMap Call.movement = [] := by
      rw [List.filterMap_eq_nil_iff]; intro d hd; have := hca d hd; cases d <;> first | rfl | cases this
    unfold lastSet; rw [this]; rfl
  have hflags : ∀ (cs : List (Call XR)) (r : RC XR), (∀ d ∈ cs, Call.anglesOnly d = true) → (cs.foldl RC.call r).poseChanged = r.poseChanged ∧
      (r.anglesChanged = true → (cs.foldl RC.call r).anglesChanged = true) := by
    intro cs
    induction cs with
    | nil => intro r _; exact ⟨rfl, id⟩
    | cons d cs ih =>
      intro r hd
      have hd0 := hd d List.mem_cons_self
      have := ih (r.call d) (fun d h => hd d (List.mem_cons_of_mem _ h))
      refine ⟨this.1.trans ?_, fun h => this.2 ?_⟩
      · cases d <;> first | rfl | cases hd0
      · cases d <;> first | exact h | rfl | cases hd0
  have hpose : r1.poseChanged = false := by rw [e, (hflags _ _ hca).1, hpc]
  have hang : r1.anglesChanged = true := by
    rw [e, List.foldl_cons]
    refine (hflags _ _ (fun d h => hca d (List.mem_cons_of_mem _ h))).2 ?_
    have := hca c List.mem_cons_self
    cases c <;> first | (cases this; done) | (cases hc; done) | rfl
  have hta : r1.targetAngles = finS τ := by funext i; rw [ha i, hτ i]; rfl
  have hv : r1.maxVelocity = fin V := by rw [e, (C49_set_get r _).2.2.1, hV]
  have := C48_p2p hp hl (r := r1.endTransaction) hs rfl hm (τ := τ) (.inl ⟨hang, hpose, hta.symm⟩) hv hVp hlp hn hmv hfin
  rcases this with h | h | ⟨h1, h2, h3, _⟩
  · exact .inl h
  · exact .inr (.inl h)
  · exact .inr (.inr ⟨h1, h2, h3⟩)

/-! ### C45 -/

/-- **C45**: in a point-to-point move that is started while the arm stands still at the servo angles `c`, all axes cover the same fraction of their way at the same time: there is
one time T such that every axis `i`, `ds` being the lengths of the timer ticks since it was commanded, is at `c i + (p i - c i) * min 1 (elapsed time / T)`; so all arrive
after the time T.  The first tick after T finishes the move exactly. -/
theorem C45_together {cfg : RCfg XR} {L U : Six XR} {r r' : RC XR} {tr : List (Act XR)} (h : Exec (process cfg r) tr (.ret r')) (hl : Limits L U tr)
    (h1 : r.state = .prepareMove) (h2 : r.inTransaction = false) (h5 : r.method = .p2p) {τ p c mv : Fin 6 → ℝ} {V : ℝ} (hg : Goal cfg r (finS τ))
    (hV : r.maxVelocity = fin V) (hVp : 0 < V) (hp : cfg.l2p (finS τ) = finS p) (hn : Rest c mv tr) (hmv : ∀ i, 0 < mv i)
    (hfin : ∀ a, Reading tr a → ∃ s, cfg.p2l a = finS s) (hmove : ¬ Still tr) :
    ∃ T, 0 < T ∧ ∀ i (sv : Servo XR), sv.cur = fin (c i) → sv.maxVel = fin (mv i) → ∀ ds : List ℕ, ds.sum < 4294967296 →
      (ds.foldl Servo.tick (after i tr sv)).cur = fin (c i + (p i - c i) * min 1 ((ds.sum : ℝ) / 1000 / T)) := by
  rcases p2p_core h hl h1 h2 h5 (goal_sync hg).1 (goal_sync hg).2 hV hVp hfin with h | ⟨l, tr2, r0, b, s, mt, rfl, hst, hc, hr, hs, hmt, hi⟩
  · exact absurd h.1 hmove
  · have hn2 : Rest c mv tr2 := fun i s hs => hn i s (List.mem_append_right _ hs)
    have hm2 : ¬ Still tr2 := fun h => hmove (still_append hst h)
    obtain ⟨T, h3, h4, h5⟩ := cmd_rest hc hn2 hmv hp hm2
    have hT : 0 < T := by linarith
    refine ⟨T, hT, fun i sv hcur hmx ds hds => ?_⟩
    rw [after_append, after_still i hst, h5 i sv, ops_div, fin_div _ _ hT.ne']
    have hw : |p i - c i| / T ≤ mv i := by
      have := h4 i
      rw [div_le_iff₀ (hmv i)] at this
      rw [div_le_iff₀ hT]; linarith
    have hvel : (sv.micro (.setVel (fin (|p i - c i| / T)))).vel = fin (if |p i - c i| / T ≤ 0 then 1 / 10 else |p i - c i| / T) := by
      show Servo.clampVel sv.maxVel _ = _
      rw [hmx, clampVel_fin, if_neg (not_lt.2 hw)]
    have hvp : 0 < (if |p i - c i| / T ≤ 0 then (1 / 10 : ℝ) else |p i - c i| / T) := by split <;> [norm_num; exact not_le.1 (by assumption)]
    have := C38_position ⟨sv.micro (.setVel (fin (|p i - c i| / T))), fin 0⟩ (c i) (p i) _ hcur hvel hvp ds hds
    rw [run_eq_ticks] at this
    have e : (SSt.run ⟨sv.micro (.setVel (fin (|p i - c i| / T))), fin 0⟩ (SEv.command (fin (p i)))).sv =
        ((((sv.micro (.setVel (fin (|p i - c i| / T)))).micro (.setStart (fin (c i)))).micro .zeroElapsed).micro (.setTarget (fin (p i)))) := by
      simp only [SSt.run, SEv.command, List.foldl_cons, List.foldl_nil, SSt.step]
      rw [show (sv.micro (.setVel (fin (|p i - c i| / T)))).cur = fin (c i) from hcur]
    rw [e] at this
    rw [this]
    congr 1
    exact position_fraction (c i) (p i) T ds.sum hT


/-! ### C46 -/

theorem linePoint_fin (p q : Fin 6 → ℝ) (k n : ℕ) (hn : 0 < n) : linePoint (finS p) (finS q) k n = finS (onLine p q k n) := by
  funext i
  have hn' : ((n : ℚ) : ℝ) ≠ 0 := by exact_mod_cast hn.ne'
  unfold linePoint onLine finS
  split
  · simp only [Servo.ofNat, lit, ops_lit]
    have : FloatOps.div (fin ((k : ℚ) : ℝ)) (fin ((n : ℚ) : ℝ)) = fin ((k : ℝ) / n) := by rw [ops_div, fin_div _ _ hn']; simp
    rw [this]
    show (fin (p i) + (fin (q i) - fin (p i)) * fin ((k : ℝ) / n) : XR) = _
    rename_i hi
    simp only [fin_sub, fin_mul, fin_add, if_pos hi]
  · rename_i hi; simp only [if_neg hi]

/-- **C46**: the way points of a linear move from `p` to `q` (of a length below 2^30 - 1 units) are planned in `n = ⌊2 * length⌋ + 1` steps; way point `k` divides the straight line from
start to target position in the ratio k : n - k, all have the target orientation, consecutive ones are equally far and less than half a unit apart, the zeroth is the start and the last
one is the target. -/
theorem C46_line (p q : Fin 6 → ℝ) (hd : dist3 p q < 1073741823) :
    ∃ n, linearSteps (finS p) (finS q) = some n ∧ n = ⌊2 * dist3 p q⌋₊ + 1 ∧ (∀ k, linePoint (finS p) (finS q) k n = finS (onLine p q k n)) ∧
    (∀ k, dist3 (onLine p q k n) (onLine p q (k + 1) n) = dist3 p q / n) ∧ dist3 p q / n < 1 / 2 ∧
    (∀ k i, 3 ≤ i.val → onLine p q k n i = q i) ∧ (∀ i, i.val < 3 → onLine p q 0 n i = p i) ∧ onLine p q n n = q := by
  have hd0 : 0 ≤ dist3 p q := Real.sqrt_nonneg _
  refine ⟨_, linearSteps_fin p q hd, rfl, fun k => linePoint_fin p q k _ (Nat.succ_pos _), fun k => ?_, ?_, ?_, ?_, ?_⟩
  · set n := ⌊2 * dist3 p q⌋₊ + 1
    have hn : (0 : ℝ) < n := by positivity
    have e : ∀ i : Fin 6, i.val < 3 → onLine p q (k + 1) n i - onLine p q k n i = (q i - p i) / n := by
      intro i hi
      simp only [onLine, if_pos hi]
      push_cast
      field_simp
      ring
    unfold dist3
    rw [e 0 (by decide), e 1 (by decide), e 2 (by decide)]
    have : ((q 0 - p 0) / n) ^ 2 + ((q 1 - p 1) / n) ^ 2 + ((q 2 - p 2) / n) ^ 2 = ((q 0 - p 0) ^ 2 + (q 1 - p 1) ^ 2 + (q 2 - p 2) ^ 2) / (n : ℝ) ^ 2 := by
      field_simp
    rw [this, Real.sqrt_div' _ (by positivity), Real.sqrt_sq hn.le]
  · have := Nat.lt_floor_add_one (2 * dist3 p q)
    push_cast
    rw [div_lt_iff₀ (by positivity)]
    linarith
  · intro k i hi
    simp only [onLine, if_neg (not_lt.2 hi)]
  · intro i hi
    simp [onLine, hi]
  · funext i
    have : ((⌊2 * dist3 p q⌋₊ + 1 : ℕ) : ℝ) ≠ 0 := by positivity
    unfold onLine
    split
    · rw [div_self this]; ring
    · rfl

/-! ### C67 in numbers -/

/-- **C67/2**: point-to-point and linear moves between poses that are numbers and less than 2^30 - 1 units apart have defined behaviour. -/
theorem C67_linear {cfg : RCfg XR} {L U : Six XR} {r : RC XR} {tr : List (Act XR)} {f : Fault} (h : Exec (process cfg r) tr (.fault f)) (hl : Limits L U tr) (hm : r.method ≠ .circular)
    {q : Fin 6 → ℝ} (hq : (sync cfg r).targetPose = finS q) (hp : ∀ a, Reading tr a → ∃ p, cfg.fwd (cfg.p2l a) = finS p ∧ dist3 p q < 1073741823) : False := by
  rcases C67_defined h hl with ⟨h, _⟩ | ⟨_, _, _, a, ha, hn⟩
  · exact hm h
  · obtain ⟨p, hp, hd⟩ := hp a ha
    rw [hp, hq, linearSteps_fin p q hd] at hn
    cases hn

/-! ### C47 and C48 (linear) -/

section Linear
variable {cfg : RCfg XR} {L U : Six XR} {p q mv : Fin 6 → ℝ} {n : ℕ} {V : ℝ} {t : ℕ → Six XR} {ph : ℕ → Fin 6 → ℝ}

/-- the plan of a linear move: all its way points are reachable without touching a limit or the wrist singularity, the servo angles are numbers, the speed is positive. -/
structure Plan (cfg : RCfg XR) (L U : Six XR) (p q : Fin 6 → ℝ) (n : ℕ) (t : ℕ → Six XR) (ph : ℕ → Fin 6 → ℝ) : Prop where
  pos : 0 < dist3 p q
  npos : 0 < n
  reach : ∀ k, 1 ≤ k → k ≤ n → cfg.inv (finS (onLine p q k n)) = some (t k)
  regular : ∀ k, 1 ≤ k → k ≤ n → ¬ NearSingular (t k)
  fits : ∀ k, 1 ≤ k → k ≤ n → Fits cfg L U (t k)
  num : ∀ k, 1 ≤ k → k ≤ n → cfg.l2p (t k) = finS (ph k)

/-- the controller is under way on the plan, `k` segments having been started. -/
def OnPlan (p q : Fin 6 → ℝ) (n : ℕ) (V : ℝ) (k : ℕ) (r : RC XR) : Prop :=
  r.state = .moving ∧ r.method = .linear ∧ r.step = k ∧ r.total = n ∧ r.startPose = finS p ∧ r.targetPose = finS q ∧ r.maxVelocity = fin V

/-- a segment: way point `k` is commanded, all axes with one common time of at least length / n / V. -/
def Segment (p q mv : Fin 6 → ℝ) (n : ℕ) (V : ℝ) (ph : ℕ → Fin 6 → ℝ) (k : ℕ) (tr : List (Act XR)) : Prop :=
  Commanded (finS (ph k)) tr ∧ Timed (ph k) mv (dist3 p q / n / V) tr

theorem start_plan (hP : Plan cfg L U p q n t ph) (hV : 0 < V) (hmv : ∀ i, 0 < mv i) {r r' : RC XR} {k : ℕ} {tr : List (Act XR)} (hr : OnPlan p q n V k { r with state := .moving })
    (hk : k < n) (h : Start cfg L U r tr r') (hn : Numeric mv tr) : OnPlan p q n V (k + 1) r' ∧ Segment p q mv n V ph (k + 1) tr := by
  obtain ⟨_, hm, hs, ht, hp, hq, hv⟩ := hr
  simp only at hm hs ht hp hq hv
  have hw : waypoint { r with step := r.step + 1 } = finS (onLine p q (k + 1) n) := by
    rw [waypoint_eq]; simp only [hp, hq, hs, ht]; exact linePoint_fin p q _ _ hP.npos
  have hre := hP.reach (k + 1) (by omega) (by omega)
  have hn0 : (0 : ℝ) < n := by exact_mod_cast hP.npos
  have et : FloatOps.div (FloatOps.div (distance r.startPose r.targetPose) (Servo.ofNat r.total)) r.maxVelocity = fin (dist3 p q / n / V) := by
    rw [hp, hq, ht, hv, distance_fin]
    simp only [Servo.ofNat, lit, ops_lit, ops_div]
    have : ((n : ℚ) : ℝ) = n := by push_cast; rfl
    rw [this, fin_div _ _ hn0.ne', fin_div _ _ hV.ne']
  cases h with
  | p2p h1 => rw [hm] at h1; cases h1
  | unreachable _ _ _ h1 => rw [hw, hre] at h1; cases h1
  | singular _ h1 h2 => rw [hw, hre] at h1; cases h1; exact absurd h2 (hP.regular (k + 1) (by omega) (by omega))
  | linear _ h1 h2 hc =>
    rw [hw, hre] at h1; cases h1
    rw [et] at hc
    have hpos := hP.pos
    rcases cmd_timed hc hn hmv (hP.num (k + 1) (by omega) (by omega)) (by positivity) with h | ⟨_, e, hcd, htm⟩
    · exact absurd (hP.fits (k + 1) (by omega) (by omega)) h.1
    · refine ⟨?_, hcd, htm⟩
      subst e
      exact ⟨rfl, hm, by simp [hs], ht, hp, hq, hv⟩

theorem commanded_targets {p : Fin 6 → ℝ} {tr : List (Act XR)} (h : Commanded (finS p) tr) : ∃ a l, targets tr = a :: l := by
  unfold Commanded at h; rw [h]; exact ⟨_, _, rfl⟩

theorem targets_nil_of_still {tr : List (Act XR)} (h : Still tr) : targets tr = [] := targets_still h

theorem moves_still {tr : List (Act XR)} {es : List (CEv XR)} (h : Still tr) : moves (.process tr :: es) = moves es := by
  simp only [moves, targets_still h]

theorem moves_commanded {p : Fin 6 → ℝ} {tr : List (Act XR)} {es : List (CEv XR)} (h : Commanded (finS p) tr) : moves (.process tr :: es) = tr :: moves es := by
  obtain ⟨a, l, e⟩ := commanded_targets h
  simp only [moves, e]

theorem plan_run (hP : Plan cfg L U p q n t ph) (hV : 0 < V) (hmv : ∀ i, 0 < mv i) {r r' : RC XR} {es : List (CEv XR)} (h : CHist cfg r es r') :
    ∀ k, OnPlan p q n V k r → k ≤ n → Undisturbed es → (∀ tr, CEv.process tr ∈ es → Limits L U tr ∧ Numeric mv tr) →
    ∃ m, k + (moves es).length = m ∧ m ≤ n ∧ (∀ j (hj : j < (moves es).length), Segment p q mv n V ph (k + j + 1) (moves es)[j]) ∧ (OnPlan p q n V m r' ∨ r'.isMoving = false ∧ m = n) := by
  have idle : ∀ {r r' : RC XR} {es : List (CEv XR)}, CHist cfg r es r' → r.state = .idle → Undisturbed es → moves es = [] ∧ r'.isMoving = false := by
    intro r r' es h
    induction h with
    | nil r => intro hs _; exact ⟨rfl, by unfold isMoving; rw [hs]; rfl⟩
    | @call r c es r' _ ih => intro _ hu; exact absurd List.mem_cons_self (hu c)
    | @process r tr r1 es r' he _ ih =>
      intro hs hu
      have hproc : process cfg r = .ret r := by unfold process; rw [hs]; rfl
      rw [hproc] at he
      cases he with
      | nil => have := ih hs (fun c hc => hu c (List.mem_cons_of_mem _ hc)); exact ⟨by simpa [moves, targets] using this.1, this.2⟩
      | cons hs' _ => cases hs'
  induction h with
  | nil r => intro k hr hk _ _; exact ⟨k, rfl, hk, fun j hj => by simp [moves] at hj, .inl hr⟩
  | @call r c es r' _ ih => intro k _ _ hu _; exact absurd List.mem_cons_self (hu c)
  | @process r tr r1 es r' he hes ih =>
    intro k hr hk hu hall
    have hu' : Undisturbed es := fun c hc => hu c (List.mem_cons_of_mem _ hc)
    have hall' : ∀ tr, CEv.process tr ∈ es → Limits L U tr ∧ Numeric mv tr := fun tr h => hall tr (List.mem_cons_of_mem _ h)
    obtain ⟨hl, hnum⟩ := hall tr List.mem_cons_self
    cases process_exec he hl with
    | idle hi => rw [hr.1] at hi; cases hi
    | prepare hi _ => rw [hr.1] at hi; cases hi
    | start hi _ => rw [hr.1] at hi; cases hi
    | moving _ hm =>
      cases hm with
      | wait v _ =>
        rw [moves_still (still_readAll v)]
        exact ih k hr hk hu' hall'
      | finish v _ e =>
        rw [moves_still (still_readAll v)]
        have hi := idle hes rfl hu'
        rw [hi.1]
        refine ⟨k, rfl, hk, fun j hj => by simp at hj, .inr ⟨hi.2, ?_⟩⟩
        rw [← hr.2.2.1, ← hr.2.2.2.1]; exact e
      | @next v tr1 _ _ hne hs =>
        have hkn : k < n := by
          have h1 := hr.2.2.1; have h2 := hr.2.2.2.1
          omega
        have := start_plan (r := { r with state := .startMove }) hP hV hmv (k := k) (by have := hr; exact ⟨rfl, this.2⟩) hkn hs (fun i s hs => hnum i s (List.mem_append_right _ hs))
        have hcd : Commanded (finS (ph (k + 1))) (readAll v ++ tr1) := this.2.1.prepend (still_readAll v)
        rw [moves_commanded hcd]
        obtain ⟨m, h1, h2, h3, h4⟩ := ih (k + 1) this.1 hkn hu' hall'
        refine ⟨m, by simp only [List.length_cons]; omega, h2, fun j hj => ?_, h4⟩
        cases j with
        | zero => exact ⟨hcd, this.2.2.prepend (still_readAll v)⟩
        | succ j =>
          have := h3 j (by simpa using hj)
          rw [List.getElem_cons_succ, show k + (j + 1) + 1 = k + 1 + j + 1 by omega]
          exact this

/-- **C47/1, C46 and C48/2 for whole moves**: a linear move from the pose `p` of the arm standing still at `c` to the pose `q`, all of whose way points are reachable and admissible: however often
process() is called and whatever it sees of the servos, the calls that give targets to servos are, in this order, segment 1, 2, ..., m of the plan of n = ⌊2 * length⌋ + 1 segments,
each commanding its way point (C46) with one common time of at least length / n / V (C48), m ≤ n, and the controller reports "idle" only when m = n. -/
theorem C47_segments {r r' : RC XR} {c : Fin 6 → ℝ} {tr0 : List (Act XR)} {es : List (CEv XR)} (h : CHist cfg r (.process tr0 :: es) r')
    (h1 : r.state = .prepareMove) (h2 : r.inTransaction = false) (h3 : r.anglesChanged = false) (h4 : r.poseChanged = true) (h5 : r.method = .linear)
    (hv : r.maxVelocity = fin V) (hV : 0 < V) (hq : r.targetPose = finS q) (hc : Rest c mv tr0) (hp : cfg.fwd (cfg.p2l (finS c)) = finS p)
    (hd : dist3 p q < 1073741823) (hn : n = ⌊2 * dist3 p q⌋₊ + 1) (hP : Plan cfg L U p q n t ph) (hmv : ∀ i, 0 < mv i)
    (hne : anglesEqual (cfg.p2l (finS c)) (t n) = false)
    (hu : Undisturbed es) (hl : Limits L U tr0) (hall : ∀ tr, CEv.process tr ∈ es → Limits L U tr ∧ Numeric mv tr) :
    let ms := moves (.process tr0 :: es)
    1 ≤ ms.length ∧ ms.length ≤ n ∧ (∀ j (hj : j < ms.length), Segment p q mv n V ph (j + 1) ms[j]) ∧ (r'.isMoving = false → ms.length = n) := by
  have hnum : Numeric mv tr0 := fun i s hs => ⟨⟨_, (hc i s hs).1⟩, (hc i s hs).2⟩
  have hread : ∀ {v : Fin 6 → Servo XR}, (∀ a ∈ readAll v, a ∈ tr0) → curs v = finS c := by
    intro v hv
    funext i
    exact (hc i _ (hv _ (List.mem_map.2 ⟨i, List.mem_finRange i, rfl⟩))).1
  have hlast : onLine p q n n = q := by
    obtain ⟨n', _, e, _, _, _, _, _, h⟩ := C46_line p q hd
    rw [hn, ← e]; exact h
  have htn : cfg.inv (finS q) = some (t n) := by
    have := hP.reach n hP.npos (le_refl _)
    rwa [hlast] at this
  have hsync : sync cfg r = { r with targetAngles := t n } := by
    unfold sync; rw [if_neg (by simp [h3]), if_pos h4, hq, htn]
  cases h with
  | @process _ _ r1 _ _ he hes =>
    have hfirst : OnPlan p q n V 1 r1 ∧ Segment p q mv n V ph 1 tr0 := by
      cases process_exec he hl with
      | idle hi => rw [h1] at hi; cases hi
      | moving hi _ => rw [h1] at hi; cases hi
      | start hi _ => rw [h1] at hi; cases hi
      | prepare _ hpr =>
        cases hpr with
        | transaction ht => rw [h2] at ht; cases ht
        | both _ _ ha => rw [h3] at ha; cases ha
        | same e v u _ _ _ heq =>
          rw [hread (v := u) (fun a ha => List.mem_append_right _ ha), hsync] at heq
          rw [hne] at heq; cases heq
        | @start e v u k tr1 _ _ _ he' _ hk hs =>
          have ev : curs v = finS c := hread fun a ha => List.mem_append_left _ (List.mem_append_left _ (List.mem_append_right _ ha))
          have hst : Still (e ++ readAll v ++ readAll u) := still_append (still_append (still_raw he') (still_readAll v)) (still_readAll u)
          have hkn : k = n := by
            rcases hk with ⟨hm, _⟩ | ⟨_, hk⟩
            · rw [h5] at hm; cases hm
            · rw [ev, hp, hsync] at hk
              simp only [hq] at hk
              rw [linearSteps_fin p q hd] at hk
              rw [hn]; exact (Option.some.inj hk).symm
          subst hkn
          rw [ev, hp, hsync] at hs
          have := start_plan hP hV hmv (k := 0) (by exact ⟨rfl, h5, rfl, rfl, rfl, hq, hv⟩) hP.npos hs (fun i s hs => hnum i s (List.mem_append_right _ hs))
          exact ⟨this.1, this.2.1.prepend hst, this.2.2.prepend hst⟩
    have hm : moves (CEv.process tr0 :: es) = tr0 :: moves es := moves_commanded hfirst.2.1
    obtain ⟨m, e1, e2, e3, e4⟩ := plan_run hP hV hmv hes 1 hfirst.1 hP.npos hu hall
    simp only [hm]
    refine ⟨by simp, by simp only [List.length_cons]; omega, fun j hj => ?_, fun hi => ?_⟩
    · cases j with
      | zero => exact hfirst.2
      | succ j =>
        have := e3 j (by simpa using hj)
        rw [List.getElem_cons_succ, show j + 1 + 1 = 1 + j + 1 by omega]
        exact this
    · rcases e4 with h | ⟨_, h⟩
      · unfold isMoving at hi; rw [h.1] at hi; cases hi
      · simp only [List.length_cons]; omega

end Linear

/-- **C48/2**: every segment of a linear move that gives angles to the servos is given one common time, of at least its length (length of the way / number of segments) / V, and of at least
what every servo needs; here for the segments after the first. -/
theorem C48_linear {cfg : RCfg XR} {L U : Six XR} {r r' : RC XR} {tr : List (Act XR)} (h : Exec (process cfg r) tr (.ret r')) (hl : Limits L U tr) (h1 : r.state = .moving)
    (h5 : r.method = .linear) {p q ph mv : Fin 6 → ℝ} {V : ℝ} (hp : r.startPose = finS p) (hq : r.targetPose = finS q) (hn0 : 0 < r.total) (hv : r.maxVelocity = fin V) (hV : 0 < V)
    (hnum : Numeric mv tr) (hmv : ∀ i, 0 < mv i) (hc : Commanded (finS ph) tr) : Timed ph mv (dist3 p q / r.total / V) tr := by
  have hnil : ∀ {l : List (Act XR)}, Still l → ¬ Commanded (finS ph) l := by
    intro l hl hc
    unfold Commanded at hc
    rw [targets_still hl] at hc
    simp at hc
  cases process_exec h hl with
  | idle hi => rw [h1] at hi; cases hi
  | prepare hi _ => rw [h1] at hi; cases hi
  | start hi _ => rw [h1] at hi; cases hi
  | moving _ hm =>
    cases hm with
    | wait v _ => exact absurd hc (hnil (still_readAll v))
    | finish v _ _ => exact absurd hc (hnil (still_readAll v))
    | next v _ _ hs =>
      exact (start_commanded (r := { r with state := .startMove }) hs h5 hp hq rfl hn0 hv hV (fun i s hs => hnum i s (List.mem_append_right _ hs)) hmv
        (commanded_tail (still_readAll v) hc)).prepend (still_readAll v)

/-- **C48/3**: the same for the first segment; the length is measured from where the arm was seen. -/
theorem C48_linear_first {cfg : RCfg XR} {L U : Six XR} {r r' : RC XR} {tr : List (Act XR)} (h : Exec (process cfg r) tr (.ret r')) (hl : Limits L U tr) (h1 : r.state = .prepareMove)
    (h3 : r.anglesChanged = false) (h4 : r.poseChanged = true) (h5 : r.method = .linear) {q ph mv : Fin 6 → ℝ} {V : ℝ} (hq : r.targetPose = finS q) (hv : r.maxVelocity = fin V)
    (hV : 0 < V) (hnum : Numeric mv tr) (hmv : ∀ i, 0 < mv i) (hfin : ∀ a, Reading tr a → ∃ p, cfg.fwd (cfg.p2l a) = finS p ∧ dist3 p q < 1073741823) (hc : Commanded (finS ph) tr) :
    ∃ a p, Reading tr a ∧ cfg.fwd (cfg.p2l a) = finS p ∧ Timed ph mv (dist3 p q / ((⌊2 * dist3 p q⌋₊ + 1 : ℕ) : ℝ) / V) tr := by
  have hnil : ∀ {l : List (Act XR)}, Still l → ¬ Commanded (finS ph) l := by
    intro l hl hc
    unfold Commanded at hc
    rw [targets_still hl] at hc
    simp at hc
  have hsync : (sync cfg r).targetPose = r.targetPose ∧ (sync cfg r).maxVelocity = r.maxVelocity ∧ (sync cfg r).method = r.method := by
    unfold sync; rw [if_neg (by simp [h3]), if_pos h4]; split <;> exact ⟨rfl, rfl, rfl⟩
  cases process_exec h hl with
  | idle hi => rw [h1] at hi; cases hi
  | moving hi _ => rw [h1] at hi; cases hi
  | start hi _ => rw [h1] at hi; cases hi
  | prepare _ hpr =>
    cases hpr with
    | transaction ht => exact absurd hc (hnil still_nil)
    | both _ _ ha => rw [h3] at ha; cases ha
    | same e v u _ _ he _ => exact absurd hc (hnil (still_append (still_append (still_raw he) (still_readAll v)) (still_readAll u)))
    | @start e v u k tr1 _ _ _ he _ hk hs =>
      have hst : Still (e ++ readAll v ++ readAll u) := still_append (still_append (still_raw he) (still_readAll v)) (still_readAll u)
      have hr : Reading (e ++ readAll v ++ readAll u ++ tr1) (curs v) :=
        reading_readAll v fun a ha => List.mem_append_left _ (List.mem_append_left _ (List.mem_append_right _ ha))
      obtain ⟨p, hp, hd⟩ := hfin _ hr
      have hkn : k = ⌊2 * dist3 p q⌋₊ + 1 := by
        rcases hk with ⟨hm, _⟩ | ⟨_, hk⟩
        · rw [h5] at hm; cases hm
        · rw [hp, hsync.1, hq, linearSteps_fin p q hd] at hk
          exact (Option.some.inj hk).symm
      refine ⟨curs v, p, hr, hp, ?_⟩
      have := start_commanded (n := k) hs (hsync.2.2.trans h5) hp (hsync.1.trans hq) rfl (by rw [hkn]; omega) (hsync.2.1.trans hv) hV (fun i s hs => hnum i s (List.mem_append_right _ hs)) hmv
        (commanded_tail hst hc)
      rw [hkn] at this
      exact this.prepend hst

section Bound
variable {F : Type} [FloatOps F] {cfg : RCfg F} {L U : Six F}

private theorem cmd_next {r r' : RC F} {t : Six F} {mt : F} {tr : List (Act F)} (h : Cmd cfg L U r t mt tr r') : r'.state = .idle ∨ r' = { r with state := .moving } := by
  cases h with
  | refused => exact .inl rfl
  | zero => exact .inr rfl
  | moved => exact .inr rfl

private theorem start_next {r r' : RC F} {tr : List (Act F)} (h : Start cfg L U r tr r') :
    (r'.state = .idle ∧ Still tr) ∨ r' = { r with state := .moving, step := r.step + 1 } := by
  have hseg := start_seg h
  have hidle : r'.state = .idle → Still tr := by
    intro hi
    rcases hseg with h | ⟨_, _, h, _⟩
    · exact h.1
    · rw [hi] at h; cases h
  cases h with
  | p2p _ hc => exact (cmd_next hc).imp (fun h => ⟨h, hidle h⟩) id
  | unreachable => exact .inl ⟨rfl, hidle rfl⟩
  | linear _ _ _ hc => exact (cmd_next hc).imp (fun h => ⟨h, hidle h⟩) id
  | singular _ _ _ hc => exact (cmd_next hc).imp (fun h => ⟨h, hidle h⟩) id

private theorem moves_le (tr : List (Act F)) (es : List (CEv F)) : (moves (.process tr :: es)).length ≤ (moves es).length + 1 := by
  simp only [moves]; split
  · omega
  · simp

private theorem moves_still' {tr : List (Act F)} {es : List (CEv F)} (h : Still tr) : moves (.process tr :: es) = moves es := by
  simp only [moves, targets_still h]

private theorem idle_run {r r' : RC F} {es : List (CEv F)} (h : CHist cfg r es r') : r.state = .idle → Undisturbed es → moves es = [] ∧ r'.state = .idle := by
  induction h with
  | nil r => intro hs _; exact ⟨rfl, hs⟩
  | @call r c es r' _ ih => intro _ hu; exact absurd List.mem_cons_self (hu c)
  | @process r tr r1 es r' he _ ih =>
    intro hs hu
    have hproc : process cfg r = .ret r := by unfold process; rw [hs]; rfl
    rw [hproc] at he
    cases he with
    | nil => have := ih hs (fun c hc => hu c (List.mem_cons_of_mem _ hc)); exact ⟨by simpa [moves, targets] using this.1, this.2⟩
    | cons hs' _ => cases hs'

/-- **C47/2** (every number type, kinematics and servo behaviour): a move of which `step` of `total` segments have been started gives targets to servos in at most `total - step` further calls of
process(), however often process() is called. -/
theorem C47_at_most {r r' : RC F} {es : List (CEv F)} (h : CHist cfg r es r') (hs : r.state = .moving) (hst : r.step ≤ r.total) (hu : Undisturbed es)
    (hl : ∀ tr, CEv.process tr ∈ es → Limits L U tr) : (moves es).length ≤ r.total - r.step := by
  induction h with
  | nil r => simp [moves]
  | @call r c es r' _ ih => exact absurd List.mem_cons_self (hu c)
  | @process r tr r1 es r' he hes ih =>
    have hu' : Undisturbed es := fun c hc => hu c (List.mem_cons_of_mem _ hc)
    have hl' : ∀ tr, CEv.process tr ∈ es → Limits L U tr := fun tr h => hl tr (List.mem_cons_of_mem _ h)
    cases process_exec he (hl tr List.mem_cons_self) with
    | idle hi => rw [hs] at hi; cases hi
    | prepare hi _ => rw [hs] at hi; cases hi
    | start hi _ => rw [hs] at hi; cases hi
    | moving _ hm =>
      cases hm with
      | wait v _ => rw [moves_still' (still_readAll v)]; exact ih hs hst hu' hl'
      | finish v _ e => rw [moves_still' (still_readAll v), (idle_run hes rfl hu').1]; simp
      | @next v tr1 _ _ hne hst' =>
        rcases start_next hst' with ⟨hi, hs1⟩ | e
        · rw [moves_still' (still_append (still_readAll v) hs1), (idle_run hes hi hu').1]; simp
        · have h1 := moves_le (readAll v ++ tr1) es
          subst e
          have := ih rfl (by show r.step + 1 ≤ r.total; omega) hu' hl'
          simp only at this
          omega

/-- a process() call that begins by seeing all six arm servos at their targets. -/
def Arrived (tr : List (Act F)) : Prop := ∃ v : Fin 6 → Servo F, (∀ i, (v i).atTarget = true) ∧ readAll v <+: tr

/-- **C47/3**: the move ends: as soon as `total - step + 1` calls of process() (with any others in between) have found the servos at their targets, the controller is idle. -/
theorem C47_ends {r r' : RC F} {es : List (CEv F)} (h : CHist cfg r es r') (hs : r.state = .moving) (hst : r.step ≤ r.total) (hu : Undisturbed es)
    (hl : ∀ tr, CEv.process tr ∈ es → Limits L U tr) (l : List (List (Act F))) (hsub : (l.map CEv.process).Sublist es) (harr : ∀ tr ∈ l, Arrived tr)
    (hlen : r.total - r.step + 1 ≤ l.length) : r'.isMoving = false := by
  induction h generalizing l with
  | nil r =>
    have := hsub.length_le
    simp only [List.length_map, List.length_nil] at this
    omega
  | @call r c es r' _ ih => exact absurd List.mem_cons_self (hu c)
  | @process r tr r1 es r' he hes ih =>
    have hu' : Undisturbed es := fun c hc => hu c (List.mem_cons_of_mem _ hc)
    have hl' : ∀ tr, CEv.process tr ∈ es → Limits L U tr := fun tr h => hl tr (List.mem_cons_of_mem _ h)
    have hidle : r1.state = .idle → r'.isMoving = false := fun h => by unfold isMoving; rw [(idle_run hes h hu').2]; rfl
    have hcut : ∃ l', (l'.map CEv.process).Sublist es ∧ (∀ tr ∈ l', Arrived tr) ∧ l.length ≤ l'.length + 1 ∧ (¬ Arrived tr → l' = l) := by
      cases l with
      | nil => exact ⟨[], List.nil_sublist _, by simp, by simp, fun _ => rfl⟩
      | cons a l =>
        rw [List.map_cons] at hsub
        cases hsub with
        | cons _ h => exact ⟨a :: l, h, harr, by simp, fun _ => rfl⟩
        | cons_cons _ h =>
          refine ⟨l, h, fun tr h => harr tr (List.mem_cons_of_mem _ h), by simp, fun hn => absurd (harr _ List.mem_cons_self) hn⟩
    obtain ⟨l', hs1, hs2, hs3, hs4⟩ := hcut
    cases process_exec he (hl tr List.mem_cons_self) with
    | idle hi => rw [hs] at hi; cases hi
    | prepare hi _ => rw [hs] at hi; cases hi
    | start hi _ => rw [hs] at hi; cases hi
    | moving _ hm =>
      cases hm with
      | wait v hv =>
        have hn : ¬ Arrived (readAll v) := by
          rintro ⟨w, hw, hp⟩
          obtain ⟨i, hi⟩ := hv
          have e : readAll w = readAll v := hp.eq_of_length (by simp [readAll, readT])
          have := List.map_inj_left.1 (by simpa only [readAll, readT] using e) i (List.mem_finRange i)
          have e2 : w i = v i := by injection this
          rw [← e2, hw i] at hi; cases hi
        have := hs4 hn
        subst this
        exact ih hs hst hu' hl' l' hs1 hs2 hlen
      | finish v _ e => exact hidle rfl
      | @next v tr1 _ _ hne hst' =>
        rcases start_next hst' with ⟨hi, _⟩ | e
        · exact hidle hi
        · subst e
          refine ih rfl (by show r.step + 1 ≤ r.total; omega) hu' hl' l' hs1 hs2 ?_
          show r.total - (r.step + 1) + 1 ≤ _
          omega

end Bound

/-! ### examples: a small robot (Proof/DemoX.lean) meets the hypotheses -/
section Examples
open Mrc.Demo

/-- the angles (1, 2, 0, 0, 0, 0). -/
noncomputable def exT : Fin 6 → ℝ := ![1, 2, 0, 0, 0, 0]
theorem exT_range (i : Fin 6) : -8 ≤ exT i ∧ exT i ≤ 8 := by fin_cases i <;> norm_num [exT]

/-- C43, C45, C48/1: a point-to-point move of two axes from rest, set in a transaction; all hypotheses hold and the move is commanded. -/
example : ∃ tr r', Exec (process plainX ((plainRCX.startTransaction.setTargetLogicalAngles (finS exT)).endTransaction)) tr (.ret r') ∧
    Limits (finS fun _ => -8) (finS fun _ => 8) tr ∧ Rest (fun _ => 0) (fun _ => 1) tr ∧ ¬ Still tr ∧ Commanded (finS exT) tr ∧
    CHist plainX plainRCX.startTransaction [.call (.setTargetLogicalAngles (finS exT)), .process []] (plainRCX.startTransaction.setTargetLogicalAngles (finS exT)) := by
  obtain ⟨tr, q, h, hq, hl, hr⟩ := runX ((plainRCX.startTransaction.setTargetLogicalAngles (finS exT)).endTransaction)
  rcases hq with ⟨r', rfl⟩ | ⟨f, rfl⟩
  · have hlast : ∀ i, lastSet (Call.angle i) (plainRCX.startTransaction.targetAngles i) [.setTargetLogicalAngles (finS exT)] = fin (exT i) := fun i => rfl
    have hh : CHist plainX plainRCX.startTransaction [.call (.setTargetLogicalAngles (finS exT)), .process []] (plainRCX.startTransaction.setTargetLogicalAngles (finS exT)) :=
      .call (.process (.nil _) (.nil _))
    have := C43_together (τ := exT) (p := exT) (mv := fun _ => 1) (V := 70) rfl rfl rfl rfl hh (by intro d hd; simp [callsOf] at hd; subst hd; rfl) h hl hlast rfl (by norm_num) rfl
      (rest_numeric hr) (fun _ => by norm_num) (fun a ha => ⟨_, rest_reading hr ha⟩)
    rcases this with ⟨hf, _⟩ | ⟨_, _, b, s, hb, hs, hlt⟩ | ⟨_, _, hc⟩
    · exact absurd (fitsX exT exT_range) hf
    · have e : s 0 = 0 := by
        have h1 : plainX.p2l b = finS fun _ => 0 := rest_reading hr hb
        rw [h1] at hs
        have := congrFun hs 0
        simp only [finS] at this
        injection this with this
        exact this.symm
      have := hlt 0
      rw [e] at this
      norm_num [exT] at this
    · refine ⟨tr, r', h, hl, hr, fun hst => ?_, hc, hh⟩
      unfold Commanded at hc; rw [targets_still hst] at hc; simp at hc
  · rcases C67_defined h hl with ⟨h, _⟩ | ⟨h, _⟩ <;> cases h

/-- the pose with X = 1. -/
noncomputable def exQ : Fin 6 → ℝ := ![1, 0, 0, 0, 0, 0]
theorem exQ_dist : dist3 0 exQ = 1 := by simp [dist3, exQ]

/-- C46-C48: a linear move from 0 to X = 1 has 3 segments; its plan meets the hypotheses and its first segment is really commanded. -/
example : Plan plainX (finS fun _ => -8) (finS fun _ => 8) 0 exQ 3 (fun k => finS (onLine 0 exQ k 3)) (fun k => onLine 0 exQ k 3) ∧
    ∃ tr r', CHist plainX ((plainRCX.setMovementMethod .linear).setTargetPose (finS exQ)) [.process tr] r' ∧ (moves [CEv.process tr]).length = 1 := by
  have hx : ∀ k, k ≤ 3 → ∀ i, 0 ≤ onLine 0 exQ k 3 i ∧ onLine 0 exQ k 3 i ≤ 1 := by
    intro k hk i
    have hk' : (k : ℝ) ≤ 3 := by exact_mod_cast hk
    have hk0 : (0 : ℝ) ≤ k := Nat.cast_nonneg k
    fin_cases i <;> simp [onLine, exQ]
    constructor
    · linarith
    · rw [div_le_one (by norm_num)]; exact hk'
  have hP : Plan plainX (finS fun _ => -8) (finS fun _ => 8) 0 exQ 3 (fun k => finS (onLine 0 exQ k 3)) (fun k => onLine 0 exQ k 3) := by
    refine ⟨by rw [exQ_dist]; norm_num, by norm_num, fun k _ hk => ?_, fun k _ hk => ?_, fun k _ hk => fitsX _ fun i => ?_, fun k _ _ => rfl⟩
    · have := (hx k hk 0).2
      show (if fgt (finS (onLine 0 exQ k 3) 0) (fin 5) = true then _ else _) = _
      rw [if_neg]
      simp only [finS, fgt, ops_lt, decide_eq_true_eq]; linarith
    · have : onLine 0 exQ k 3 4 = 0 := by simp [onLine, exQ]
      unfold NearSingular
      have h2 : ((2 : ℚ) : ℝ) ≠ 0 := by norm_num
      have e : FloatOps.abs (FloatOps.sub (finS (onLine 0 exQ k 3) 4) (FloatOps.div FloatOps.pi (lit 2))) = fin (Real.pi / 2) := by
        simp only [finS, this, lit, ops_lit, ops_pi, ops_div, fin_div _ _ h2]
        have : FloatOps.sub (fin 0) (fin (Real.pi / ((2 : ℚ) : ℝ))) = fin (0 - Real.pi / ((2 : ℚ) : ℝ)) := fin_sub _ _
        rw [this, ops_abs, zero_sub, abs_neg, abs_of_pos (by have := Real.pi_pos; positivity)]
        norm_num
      rw [e]
      simp only [flt, lit, ops_lit, ops_lt, decide_eq_true_eq, not_lt]
      have := Real.two_le_pi
      push_cast
      linarith
    · have := hx k hk i; constructor <;> linarith
  refine ⟨hP, ?_⟩
  obtain ⟨tr, q, h, hq, hl, hr⟩ := runX ((plainRCX.setMovementMethod .linear).setTargetPose (finS exQ))
  have hfl : ⌊2 * dist3 0 exQ⌋₊ + 1 = 3 := by rw [exQ_dist]; norm_num
  rcases hq with ⟨r', rfl⟩ | ⟨f, rfl⟩
  · refine ⟨tr, r', .process h (.nil _), ?_⟩
    have hne : anglesEqual (plainX.p2l (finS fun _ => 0)) (finS (onLine 0 exQ 3 3)) = false := by
      rw [Bool.eq_false_iff]
      intro h
      have := (anglesEqual_fin (fun _ => 0) (onLine 0 exQ 3 3)).1 h 0
      norm_num [onLine, exQ] at this
    have := C47_segments (V := 70) (q := exQ) (p := 0) (mv := fun _ => 1) (n := 3) (c := fun _ => 0) (.process h (.nil _)) rfl rfl rfl rfl rfl rfl (by norm_num) rfl hr rfl (by rw [exQ_dist]; norm_num) hfl.symm hP
      (fun _ => by norm_num) hne (fun c hc => by cases hc) hl (fun _ h => by cases h)
    refine le_antisymm ?_ this.1
    exact moves_le tr []
  · rcases C67_defined h hl with ⟨h, _⟩ | ⟨_, _, _, a, ha, hn⟩
    · cases h
    · have e : plainX.fwd (plainX.p2l a) = finS 0 := rest_reading hr ha
      have e2 : (sync plainX ((plainRCX.setMovementMethod .linear).setTargetPose (finS exQ))).targetPose = finS exQ := by
        unfold sync
        simp only [setTargetPose, setMovementMethod, plainRCX, Bool.false_eq_true, if_false, if_true]
        split <;> rfl
      rw [e, e2, linearSteps_fin 0 exQ (by rw [exQ_dist]; norm_num)] at hn
      cases hn

/-- C42, C50: an unreachable pose (X = 7) commanded after the angles (1, 2, 0, 0, 0, 0) had been set and not reached: the arm moves to these angles. -/
example : ∃ tr r', Exec (process plainX ({ plainRCX with targetAngles := finS exT }.setTargetPoseAt 0 (fin 7))) tr (.ret r') ∧ Commanded (finS exT) tr := by
  obtain ⟨tr, q, h, hq, hl, hr⟩ := runX ({ plainRCX with targetAngles := finS exT }.setTargetPoseAt 0 (fin 7))
  rcases hq with ⟨r', rfl⟩ | ⟨f, rfl⟩
  · refine ⟨tr, r', h, ?_⟩
    refine (C42_unreachable_false (τ := exT) (p := exT) (c := fun _ => 0) (V := 70) h hl rfl rfl rfl rfl rfl ?_ rfl rfl (by norm_num) (fitsX exT exT_range) rfl (rest_numeric hr) (fun _ => by norm_num) ?_).2
    · show (if fgt (fin 7) (fin 5) = true then _ else _) = _
      rw [if_pos]
      simp only [fgt, ops_lt, decide_eq_true_eq]; norm_num
    · intro a ha
      refine ⟨fun _ => 0, rest_reading hr ha, 0, ?_⟩
      norm_num [exT]
  · rcases C67_defined h hl with ⟨h, _⟩ | ⟨h, _⟩ <;> cases h

/-- C50: the same pose commanded to the robot at rest is retained. -/
example : ∃ tr r', Exec (process plainX (plainRCX.setTargetPoseAt 0 (fin 7))) tr (.ret r') ∧ r'.targetPose 0 = fin 7 := by
  obtain ⟨tr, q, h, hq, hl, hr⟩ := runX (plainRCX.setTargetPoseAt 0 (fin 7))
  rcases hq with ⟨r', rfl⟩ | ⟨f, rfl⟩
  · refine ⟨tr, r', h, ?_⟩
    have := (C50_retained_false h hl rfl rfl rfl rfl ?_ ?_).2.2
    · rw [this]; rfl
    · show (if fgt (fin 7) (fin 5) = true then _ else _) = _
      rw [if_pos]
      simp only [fgt, ops_lt, decide_eq_true_eq]; norm_num
    · intro b hb
      have e : plainX.p2l b = finS fun _ => 0 := rest_reading hr hb
      rw [e]
      exact (anglesEqual_fin (fun _ => 0) 0).2 (fun i => by norm_num)
  · rcases C67_defined h hl with ⟨h, _⟩ | ⟨h, _⟩ <;> cases h

end Examples
end Mrc.Props
