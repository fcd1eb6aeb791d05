import Verif.Proof.Safe
import Verif.Proof.ControllerSeg
import Verif.Proof.Demo
/-
C41-C44, C49, C51, C52, C66: the motion controller, for every number type, every kinematics, every limits and couplings, and every behaviour of
the servos.
-/
set_option linter.unusedSectionVars false
namespace Mrc.Props
open Mrc Mrc.Prog Mrc.Spec Mrc.RC
variable {F : Type} [FloatOps F]

/-! ### C41 -/

/-- **C41/1**: at every moment of a process() call, a target angle given to a servo goes to an arm servo and is the physical counterpart of logical
angles that violate neither the logical limits nor, converted, the physical limits the servos report. -/
theorem C41_limits {cfg : RCfg F} {L U : Six F} {r : RC F} {tr : List (Act F)} {q : Prog F (RC F)} (h : Exec (process cfg r) tr q)
    (hl : Limits L U tr) {j : Fin 8} {x : F} (hx : Act.micro j (.setTarget x) ∈ tr) :
    ∃ i t, j = armServo i ∧ x = cfg.l2p t i ∧ Fits cfg L U t := by
  let M : Mon F Unit :=
    { upd := fun _ _ => ()
      env := fun _ a => ∀ i s, a = .servo (armServo i) s → s.minA = L i ∧ s.maxA = U i
      ok := fun _ a => ∀ j x, a = .micro j (.setTarget x) → ∃ i t, j = armServo i ∧ x = cfg.l2p t i ∧ Fits cfg L U t }
  have H : SafeMon cfg L U (fun _ _ => True) M :=
    { env := fun i s h => ⟨(h i s rfl).1, (h i s rfl).2, trivial⟩
      vel := fun _ _ _ _ e => by simp at e
      start := fun _ _ _ _ _ e => by simp at e
      zero := fun _ _ _ e => by simp at e
      target := fun i t hf j x e => by simp at e; exact ⟨i, t, e.1.symm, e.2.symm, hf⟩
      raw := fun _ _ _ e => by simp at e }
  have := (wp_exec h (process_safe H r ⟨fun _ => trivial, fun _ _ _ _ _ => trivial⟩) (fun pre a post e _ i s ha => hl i s (by rw [e, ha]; simp))).1
  obtain ⟨pre, post, e⟩ := List.append_of_mem hx
  exact this pre _ post e rfl j x rfl

/-- **C41/2**: a complete process() call either touches no servo or gives each of the six arm servos exactly one target, all from one admissible set of
logical angles. -/
theorem C41_all_or_none {cfg : RCfg F} {L U : Six F} {r r' : RC F} {tr : List (Act F)} (h : Exec (process cfg r) tr (.ret r')) (hl : Limits L U tr) :
    Still tr ∨ ∃ t, Fits cfg L U t ∧ Commanded (cfg.l2p t) tr ∧ r'.state = .moving := by
  have seg : ∀ {l u : List (Act F)}, Still l → SegOutcome cfg L U u r' → Still (l ++ u) ∨ ∃ t, Fits cfg L U t ∧ Commanded (cfg.l2p t) (l ++ u) ∧ r'.state = .moving := by
    intro l u hl' hs
    rcases hs.prepend hl' with h | ⟨t, h1, h2, h3 | h3⟩
    · exact .inl h.1
    · exact .inl h3
    · exact .inr ⟨t, h1, h3, h2⟩
  cases process_exec h hl with
  | idle _ => exact .inl still_nil
  | moving _ hm =>
    cases hm with
    | wait v _ => exact .inl (still_readAll v)
    | finish v _ _ => exact .inl (still_readAll v)
    | next v _ _ hs => exact seg (still_readAll v) (start_seg hs)
  | prepare _ hp =>
    cases hp with
    | transaction _ => exact .inl still_nil
    | both => exact .inl (still_raw (by intro a ha; simp at ha; exact ⟨_, ha⟩))
    | same e v u _ _ he _ => exact .inl (still_append (still_append (still_raw he) (still_readAll v)) (still_readAll u))
    | start e v u _ _ he _ _ hs => exact seg (still_append (still_append (still_raw he) (still_readAll v)) (still_readAll u)) (start_seg hs)
  | start _ hs => exact seg (l := []) still_nil (start_seg hs)

/-! ### C67 -/

/-- **C67**: a process() call has defined behaviour, except that (1) the movement method CIRCULAR reads uninitialised angles, and (2) a linear move whose number of steps cannot be represented
is converted out of range (for numbers: see C67_linear). -/
theorem C67_defined {cfg : RCfg F} {L U : Six F} {r : RC F} {tr : List (Act F)} {f : Fault} (h : Exec (process cfg r) tr (.fault f)) (hl : Limits L U tr) :
    (r.method = .circular ∧ f = .uninit) ∨
    (r.method = .linear ∧ r.state = .prepareMove ∧ f = .badConv ∧ ∃ a, Reading tr a ∧ linearSteps (cfg.fwd (cfg.p2l a)) (sync cfg r).targetPose = none) := by
  let M : Mon F Unit :=
    { upd := fun _ _ => ()
      env := fun _ a => a ∈ tr
      flt := fun f => (r.method = .circular ∧ f = .uninit) ∨
        (r.method = .linear ∧ r.state = .prepareMove ∧ f = .badConv ∧ ∃ a, Reading tr a ∧ linearSteps (cfg.fwd (cfg.p2l a)) (sync cfg r).targetPose = none) }
  have H : SafeMon cfg L U (fun _ _ => True) M :=
    { env := fun i s h => ⟨(hl i s h).1, (hl i s h).2, trivial⟩
      vel := fun _ _ => trivial
      start := fun _ _ _ => trivial
      zero := fun _ => trivial
      target := fun _ _ _ => trivial
      raw := fun _ => trivial }
  exact (wp_exec h (process_safe H r ⟨fun h => .inl ⟨h, rfl⟩, fun h1 h2 a ha hn => .inr ⟨h1, h2, rfl, a, ha, hn⟩⟩) (fun pre a post e _ => by
    show a ∈ tr
    rw [e]; simp)).2

/-- with CIRCULAR, every call of process() that starts a segment ends in that fault. -/
theorem C67_circular {cfg : RCfg F} {r : RC F} (hm : r.method = .circular) (hs : r.state = .startMove) : ∃ tr, Exec (process cfg r) tr (.fault .uninit) := by
  refine ⟨[.out (.raw (.error "CIRCULAR interpolation not implemented, yet"))], ?_⟩
  have e : process cfg r = .out (.raw (.error "CIRCULAR interpolation not implemented, yet")) (.fault .uninit) := by
    unfold process; rw [hs]; show startMove cfg r = _
    unfold startMove
    simp only [hm, bind_def, emit, Prog.bind]
  rw [e]
  exact .cons (.out _ _) (.nil _)

/-! ### C42 -/

/-- **C42/1**: an angle target that violates a limit moves nothing, leaves the controller idle, and resets the targets to the current position (unless the
robot already is at the target within 10^-4 rad). -/
theorem C42_p2p {cfg : RCfg F} {L U : Six F} {r r' : RC F} {tr : List (Act F)} (h : Exec (process cfg r) tr (.ret r')) (hl : Limits L U tr)
    (h1 : r.state = .prepareMove) (h2 : r.inTransaction = false) (h3 : r.anglesChanged = true) (h4 : r.poseChanged = false) (h5 : r.method = .p2p)
    (hf : ¬ Fits cfg L U r.targetAngles) :
    Still tr ∧ r'.isMoving = false ∧ (GaveUp cfg tr r' ∨ ∃ b, Reading tr b ∧ anglesEqual (cfg.p2l b) r.targetAngles = true) := by
  have hsync : sync cfg r = { r with targetPose := cfg.fwd r.targetAngles } := by unfold sync; rw [if_pos h3]
  cases process_exec h hl with
  | idle hi => rw [h1] at hi; cases hi
  | moving hi _ => rw [h1] at hi; cases hi
  | start hi _ => rw [h1] at hi; cases hi
  | prepare _ hp =>
    cases hp with
    | transaction ht => rw [h2] at ht; cases ht
    | both _ hp _ => rw [h4] at hp; cases hp
    | same e v u _ _ he hq =>
      refine ⟨still_append (still_append (still_raw he) (still_readAll v)) (still_readAll u), rfl, .inr ⟨curs u, ?_, ?_⟩⟩
      · exact reading_readAll u fun a ha => List.mem_append_right _ ha
      · rw [hsync] at hq; exact hq
    | start e v u _ _ he _ hn hs =>
      have hst : Still (e ++ readAll v ++ readAll u) := still_append (still_append (still_raw he) (still_readAll v)) (still_readAll u)
      rw [hsync] at hs
      cases hs with
      | p2p _ hc =>
        rcases cmd_cases hc with ⟨_, hg⟩ | ⟨hf', _⟩
        · suffices hG : GaveUp cfg _ r' from ⟨hG.1, by unfold isMoving; rw [hG.2.1]; rfl, .inl hG⟩
          exact GaveUp.prepend hst (GaveUp.prepend (l := [_]) (still_out1 _) hg)
        · exact absurd hf' hf
      | unreachable _ _ hm => simp only [h5] at hm; cases hm
      | linear hm => simp only [h5] at hm; cases hm
      | singular hm => simp only [h5] at hm; cases hm

/-- **C42/2**: when in a linear move the next way point is unreachable, or its angles (away from the wrist singularity) violate a limit, no servo is touched; the
controller goes on waiting for the servos, or it gives up: idle, targets reset to the current position. -/
theorem C42_linear {cfg : RCfg F} {L U : Six F} {r r' : RC F} {tr : List (Act F)} (h : Exec (process cfg r) tr (.ret r')) (hl : Limits L U tr)
    (h1 : r.state = .moving) (h5 : r.method = .linear) (hn : r.step ≠ r.total)
    (hu : match cfg.inv (linePoint r.startPose r.targetPose (r.step + 1) r.total) with | none => True | some t => ¬ NearSingular t ∧ ¬ Fits cfg L U t) :
    Still tr ∧ (r' = r ∨ GaveUp cfg tr r') := by
  cases process_exec h hl with
  | idle hi => rw [h1] at hi; cases hi
  | prepare hi _ => rw [h1] at hi; cases hi
  | start hi _ => rw [h1] at hi; cases hi
  | moving _ hm =>
    cases hm with
    | wait v _ => exact ⟨still_readAll v, .inl rfl⟩
    | finish v _ he => exact absurd he hn
    | next v _ _ hs =>
      have hg : ∀ {u}, GaveUp cfg u r' → Still (readAll v ++ u) ∧ (r' = r ∨ GaveUp cfg (readAll v ++ u) r') := fun h =>
        ⟨(h.prepend (still_readAll v)).1, .inr (h.prepend (still_readAll v))⟩
      have hw : ∀ t, cfg.inv (waypoint { { r with state := RState.startMove } with step := r.step + 1 }) = some t → ¬ NearSingular t ∧ ¬ Fits cfg L U t := by
        intro t ht
        rw [waypoint_eq] at ht
        simp only [ht] at hu
        exact hu
      cases hs with
      | p2p hm => simp only [h5] at hm; cases hm
      | unreachable a b hm hi =>
        refine hg ⟨still_append (still_readAll a) (still_readAll b), rfl, curs a, curs b, ?_, ?_, rfl, rfl⟩
        · exact reading_readAll a fun x hx => List.mem_append_left _ hx
        · exact reading_readAll b fun x hx => List.mem_append_right _ hx
      | linear hm hi hs hc =>
        rcases cmd_cases hc with ⟨_, h⟩ | ⟨hf, _⟩
        · exact hg h
        · exact absurd hf (hw _ hi).2
      | singular hm hi hs hc => exact absurd hs (hw _ hi).1

/-- **C42/3**: the same for the first segment of a linear move to a pose: if, seen from wherever the robot is, the first way point is unreachable or (away from the
singularity) violates a limit, no servo is touched, and the controller is idle with its targets reset -- unless it finds that its target angles are the current ones. -/
theorem C42_linear_first {cfg : RCfg F} {L U : Six F} {r r' : RC F} {tr : List (Act F)} (h : Exec (process cfg r) tr (.ret r')) (hl : Limits L U tr)
    (h1 : r.state = .prepareMove) (h2 : r.inTransaction = false) (h3 : r.anglesChanged = false) (h4 : r.poseChanged = true) (h5 : r.method = .linear)
    (hu : ∀ a n, Reading tr a → linearSteps (cfg.fwd (cfg.p2l a)) r.targetPose = some n →
      match cfg.inv (linePoint (cfg.fwd (cfg.p2l a)) r.targetPose 1 n) with | none => True | some t => ¬ NearSingular t ∧ ¬ Fits cfg L U t) :
    Still tr ∧ r'.isMoving = false ∧ (GaveUp cfg tr r' ∨ ∃ b t, Reading tr b ∧ anglesEqual (cfg.p2l b) t = true ∧
      (cfg.inv r.targetPose = some t ∨ cfg.inv r.targetPose = none ∧ t = r.targetAngles)) := by
  have hsp : (sync cfg r).targetPose = r.targetPose := by
    unfold sync; rw [if_neg (by simp [h3]), if_pos h4]; split <;> rfl
  have hsa : (cfg.inv r.targetPose = some (sync cfg r).targetAngles ∨ cfg.inv r.targetPose = none ∧ (sync cfg r).targetAngles = r.targetAngles) := by
    unfold sync; rw [if_neg (by simp [h3]), if_pos h4]; split
    · rename_i a e; exact .inl e
    · rename_i e; exact .inr ⟨e, rfl⟩
  cases process_exec h hl with
  | idle hi => rw [h1] at hi; cases hi
  | moving hi _ => rw [h1] at hi; cases hi
  | start hi _ => rw [h1] at hi; cases hi
  | prepare _ hp =>
    cases hp with
    | transaction ht => rw [h2] at ht; cases ht
    | both _ _ ha => rw [h3] at ha; cases ha
    | same e v u _ _ he hq =>
      refine ⟨still_append (still_append (still_raw he) (still_readAll v)) (still_readAll u), rfl, .inr ⟨curs u, _, ?_, hq, hsa⟩⟩
      exact reading_readAll u fun a ha => List.mem_append_right _ ha
    | @start e v u n _ _ _ _ he _ hn hs =>
      have hst : Still (e ++ readAll v ++ readAll u) := still_append (still_append (still_raw he) (still_readAll v)) (still_readAll u)
      have hg : ∀ {w}, GaveUp cfg w r' → Still (e ++ readAll v ++ readAll u ++ w) ∧ r'.isMoving = false ∧ _ := fun {w} h =>
        ⟨(h.prepend hst).1, by unfold isMoving; rw [h.2.1]; rfl, Or.inl (b := ∃ b t, Reading (e ++ readAll v ++ readAll u ++ w) b ∧ anglesEqual (cfg.p2l b) t = true ∧
      (cfg.inv r.targetPose = some t ∨ cfg.inv r.targetPose = none ∧ t = r.targetAngles)) (h.prepend hst)⟩
      rcases hn with ⟨hm, _⟩ | ⟨_, hn⟩
      · rw [h5] at hm; cases hm
      rw [hsp] at hn
      have hw := hu (curs v) _ (reading_readAll v fun a ha => List.mem_append_left _ (List.mem_append_left _ (List.mem_append_right _ ha))) hn
      have hmm : (sync cfg r).method = .linear := (sync_same cfg r).2.1.trans h5
      have hw' : ∀ t, cfg.inv (linePoint (cfg.fwd (cfg.p2l (curs v))) r.targetPose 1 n) = some t → ¬ NearSingular t ∧ ¬ Fits cfg L U t := by
        intro t ht
        rw [ht] at hw
        exact hw
      cases hs with
      | p2p hm => simp only [hmm] at hm; cases hm
      | unreachable a b hm hi =>
        refine hg ⟨still_append (still_readAll a) (still_readAll b), rfl, curs a, curs b, ?_, ?_, rfl, rfl⟩
        · exact reading_readAll a fun x hx => List.mem_append_left _ hx
        · exact reading_readAll b fun x hx => List.mem_append_right _ hx
      | linear hm hi hs hc =>
        rw [waypoint_eq] at hi
        simp only [hsp, Nat.zero_add] at hi
        rcases cmd_cases hc with ⟨_, h⟩ | ⟨hf, _⟩
        · exact hg h
        · exact absurd hf (hw' _ hi).2
      | singular hm hi hs hc =>
        rw [waypoint_eq] at hi
        simp only [hsp, Nat.zero_add] at hi
        exact absurd hs (hw' _ hi).1

/-! ### C43 -/

/-- a call that sets a target. -/
def Call.setsTarget : Call F → Bool
  | .setTargetPoseAt .. | .setTargetPose .. | .setTargetLogicalAngle .. | .setTargetLogicalAngles .. => true
  | _ => false

/-- **C43/1**: in a transaction, after a target has been set, process() does nothing at all, whatever else is called, until endTransaction. -/
theorem C43_nothing_starts {cfg : RCfg F} {r r' : RC F} {c : Call F} {es : List (CEv F)} (hr : r.inTransaction = true) (hc : Call.setsTarget c = true)
    (h : CHist cfg r (.call c :: es) r') (hes : CEv.call .endTransaction ∉ es) :
    ∀ tr, CEv.process tr ∈ es → tr = [] := by
  have key : ∀ (r1 : RC F) (es : List (CEv F)) (r2 : RC F), CHist cfg r1 es r2 → CEv.call .endTransaction ∉ es → r1.inTransaction = true →
      (r1.state = .idle ∨ r1.state = .prepareMove) → ∀ tr, CEv.process tr ∈ es → tr = [] := by
    intro r1 es r2 h
    induction h with
    | nil r => intro _ _ _ tr ht; cases ht
    | @call r c es r' _ ih =>
      intro hn ht hs tr hm
      have hn' : CEv.call .endTransaction ∉ es := fun h => hn (List.mem_cons_of_mem _ h)
      have hm' : CEv.process tr ∈ es := by
        rcases List.mem_cons.1 hm with h | h
        · cases h
        · exact h
      refine ih hn' ?_ ?_ tr hm'
      · cases c <;> first | exact ht | rfl | exact absurd List.mem_cons_self hn
      · cases c <;> first | exact hs | exact .inl rfl | exact .inr rfl
    | @process r tr0 r1 es r' he _ ih =>
      intro hn ht hs tr hm
      have hproc : process cfg r = .ret r := by
        unfold process
        rcases hs with hs | hs
        · rw [hs]; rfl
        · rw [hs]; show prepare cfg r = _; unfold prepare; rw [if_pos ht]; rfl
      rw [hproc] at he
      have hn' : CEv.call .endTransaction ∉ es := fun h => hn (List.mem_cons_of_mem _ h)
      cases he with
      | nil =>
        rcases List.mem_cons.1 hm with h | h
        · cases h; rfl
        · exact ih hn' ht hs tr h
      | cons hs' _ => cases hs'
  cases h with
  | call h =>
    refine key _ es r' h hes ?_ ?_
    · cases c <;> first | exact hr | cases hc
    · cases c <;> first | exact .inr rfl | cases hc

/-! ### C44 -/

/-- **C44**: when both a pose coordinate and an angle have been set since the last move was prepared, the next process() call touches no servo and leaves the
controller idle. -/
theorem C44_mixed {cfg : RCfg F} {r r' : RC F} {tr : List (Act F)} (h : Exec (process cfg r) tr (.ret r'))
    (h1 : r.state = .prepareMove) (h2 : r.inTransaction = false) (h3 : r.anglesChanged = true) (h4 : r.poseChanged = true) :
    Still tr ∧ r'.isMoving = false := by
  have e : process cfg r = .out (.raw (.error "Do not change pose and angles in one transaction!")) (.ret { sync cfg r with anglesChanged := false, poseChanged := false, state := .idle }) := by
    have hs : sync cfg r = { r with targetPose := cfg.fwd r.targetAngles } := by unfold sync; rw [if_pos h3]
    unfold process; rw [h1]; show prepare cfg r = _
    unfold prepare
    simp [h2, hs, h3, h4, emit, Prog.bind]
  rw [e] at h
  cases h with
  | cons hs he =>
    cases hs
    cases he with
    | nil => exact ⟨by intro j m hm; simp at hm, rfl⟩
    | cons hs' _ => cases hs'

/-- the flags of C44 are what the setters leave: after calls that set both kinds in one transaction (and whatever else is called except stop), its hypotheses hold. -/
theorem C44_flags {r : RC F} {cs : List (Call F)} (hp : ∃ c ∈ cs, (match c with | .setTargetPoseAt .. | .setTargetPose .. => true | _ => false) = true)
    (ha : ∃ c ∈ cs, (match c with | .setTargetLogicalAngle .. | .setTargetLogicalAngles .. => true | _ => false) = true)
    (hs : ∀ c ∈ cs, c ≠ Call.stop) :
    let r' := (cs.foldl RC.call r).endTransaction
    r'.state = .prepareMove ∧ r'.inTransaction = false ∧ r'.anglesChanged = true ∧ r'.poseChanged = true := by
  have keep : ∀ (cs : List (Call F)) (r : RC F), (∀ c ∈ cs, c ≠ Call.stop) →
      (r.poseChanged = true → (cs.foldl RC.call r).poseChanged = true) ∧ (r.anglesChanged = true → (cs.foldl RC.call r).anglesChanged = true) ∧
      (r.state = .prepareMove → (cs.foldl RC.call r).state = .prepareMove) := by
    intro cs
    induction cs with
    | nil => intro r _; exact ⟨id, id, id⟩
    | cons c cs ih =>
      intro r hs
      have := ih (r.call c) (fun c hc => hs c (List.mem_cons_of_mem _ hc))
      have hc := hs c List.mem_cons_self
      refine ⟨fun h => this.1 ?_, fun h => this.2.1 ?_, fun h => this.2.2 ?_⟩
      · cases c <;> first | exact h | rfl
      · cases c <;> first | exact h | rfl
      · cases c <;> first | exact h | rfl | exact absurd rfl hc
  obtain ⟨c, hc, hpc⟩ := hp
  obtain ⟨d, hd, had⟩ := ha
  refine ⟨?_, rfl, ?_, ?_⟩
  · obtain ⟨a, b, rfl⟩ := List.append_of_mem hc
    rw [List.foldl_append, List.foldl_cons]
    refine (keep b _ (fun c h => hs c (by simp [h]))).2.2 ?_
    cases c <;> first | rfl | cases hpc
  · obtain ⟨a, b, rfl⟩ := List.append_of_mem hd
    rw [List.foldl_append, List.foldl_cons]
    refine (keep b _ (fun c h => hs c (by simp [h]))).2.1 ?_
    cases d <;> first | rfl | cases had
  · obtain ⟨a, b, rfl⟩ := List.append_of_mem hc
    rw [List.foldl_append, List.foldl_cons]
    refine (keep b _ (fun c h => hs c (by simp [h]))).1 ?_
    cases c <;> first | rfl | cases hpc

/-! ### C49 -/

/-- the pose coordinate `i` a call sets. -/
def Call.pose (i : Fin 6) : Call F → Option F
  | .setTargetPoseAt j v => if j = i then some v else none
  | .setTargetPose p => some (p i)
  | _ => none
/-- the angle `i` a call sets. -/
def Call.angle (i : Fin 6) : Call F → Option F
  | .setTargetLogicalAngle j v => if j = i then some v else none
  | .setTargetLogicalAngles a => some (a i)
  | _ => none
def Call.velocity : Call F → Option F
  | .setMaxVelocity v => some v
  | _ => none
def Call.movement : Call F → Option Method
  | .setMovementMethod m => some m
  | _ => none
/-- the last value set by a sequence of calls, or `d`. -/
def lastSet {α : Type} (f : Call F → Option α) (d : α) (cs : List (Call F)) : α := ((cs.filterMap f).getLast?).getD d

private theorem lastSet_cons {α : Type} (f : Call F → Option α) (d : α) (c : Call F) (cs : List (Call F)) :
    lastSet f d (c :: cs) = lastSet f ((f c).getD d) cs := by
  unfold lastSet
  cases hc : f c with
  | none => simp [List.filterMap_cons, hc]
  | some x =>
    simp only [List.filterMap_cons, hc, Option.getD_some]
    rw [List.getLast?_cons]
    rfl

/-- **C49**: after any sequence of calls of the setters the getters of the target pose and angles, the velocity and the movement method return the value set last,
and what was not set is unchanged. -/
theorem C49_set_get (r : RC F) (cs : List (Call F)) :
    (∀ i, (cs.foldl RC.call r).targetPose i = lastSet (Call.pose i) (r.targetPose i) cs) ∧
    (∀ i, (cs.foldl RC.call r).targetAngles i = lastSet (Call.angle i) (r.targetAngles i) cs) ∧
    (cs.foldl RC.call r).maxVelocity = lastSet Call.velocity r.maxVelocity cs ∧
    (cs.foldl RC.call r).method = lastSet Call.movement r.method cs := by
  induction cs generalizing r with
  | nil => exact ⟨fun _ => rfl, fun _ => rfl, rfl, rfl⟩
  | cons c cs ih =>
    obtain ⟨h1, h2, h3, h4⟩ := ih (r.call c)
    simp only [List.foldl_cons, lastSet_cons]
    refine ⟨fun i => (h1 i).trans ?_, fun i => (h2 i).trans ?_, h3.trans ?_, h4.trans ?_⟩
    · congr 1
      cases c <;> first | rfl | skip
      simp only [RC.call, setTargetPoseAt, upd, Call.pose]
      split
      · rename_i h; rw [if_pos h.symm]; rfl
      · rename_i h; rw [if_neg (fun e => h e.symm)]; rfl
    · congr 1
      cases c <;> first | rfl | skip
      simp only [RC.call, setTargetLogicalAngle, upd, Call.angle]
      split
      · rename_i h; rw [if_pos h.symm]; rfl
      · rename_i h; rw [if_neg (fun e => h e.symm)]; rfl
    · congr 1; cases c <;> rfl
    · congr 1; cases c <;> rfl

/-! ### C51 -/

/-- **C51/1**: setting a target makes the controller report "moving", and it keeps reporting so through any further setter calls except stop. -/
theorem C51_set_moving (r : RC F) (c : Call F) (hc : Call.setsTarget c = true) (cs : List (Call F)) (hs : ∀ c ∈ cs, c ≠ Call.stop) :
    ((c :: cs).foldl RC.call r).isMoving = true := by
  have keep : ∀ (cs : List (Call F)) (r : RC F), (∀ c ∈ cs, c ≠ Call.stop) → r.state = .prepareMove → (cs.foldl RC.call r).state = .prepareMove := by
    intro cs
    induction cs with
    | nil => intro r _ h; exact h
    | cons c cs ih =>
      intro r hs h
      refine ih (r.call c) (fun c hc => hs c (List.mem_cons_of_mem _ hc)) ?_
      have hc := hs c List.mem_cons_self
      cases c <;> first | exact h | rfl | exact absurd rfl hc
  unfold isMoving
  rw [List.foldl_cons, keep cs _ hs]
  · rfl
  · cases c <;> first | rfl | cases hc

/-- **C51/2**: a process() call that ends a move in progress (reports idle where it reported moving) has in this very call seen all six arm servos at their targets; in a call
that did not see this, the controller keeps reporting "moving" and touches nothing. -/
theorem C51_idle_means_arrived {cfg : RCfg F} {r r' : RC F} {tr : List (Act F)} (h : Exec (process cfg r) tr (.ret r')) (L U : Six F) (hl : Limits L U tr)
    (h1 : r.state = .moving) :
    (∀ i, ∃ s, .servo (armServo i) s ∈ tr ∧ s.atTarget = true) ∨ (r' = r ∧ r'.isMoving = true ∧ Still tr) := by
  have mem : ∀ (v : Fin 6 → Servo F) (u : List (Act F)) (i : Fin 6), Act.servo (armServo i) (v i) ∈ readAll v ++ u := fun v u i =>
    List.mem_append_left _ (List.mem_map.2 ⟨i, List.mem_finRange i, rfl⟩)
  cases process_exec h hl with
  | idle hi => rw [h1] at hi; cases hi
  | prepare hi _ => rw [h1] at hi; cases hi
  | start hi _ => rw [h1] at hi; cases hi
  | moving _ hm =>
    cases hm with
    | wait v _ => exact .inr ⟨rfl, by unfold isMoving; rw [h1]; rfl, still_readAll v⟩
    | finish v hv _ => exact .inl fun i => ⟨v i, by have := mem v [] i; rwa [List.append_nil] at this, hv i⟩
    | next v hv _ hs => exact .inl fun i => ⟨v i, mem v _ i, hv i⟩

/-- **C51/3**: a process() call that turns a newly set target into "idle" outside of a transaction has touched no servo (the target was refused, conflicting, or already reached);
otherwise the controller reports "moving" afterwards. -/
theorem C51_prepare {cfg : RCfg F} {r r' : RC F} {tr : List (Act F)} (h : Exec (process cfg r) tr (.ret r')) (L U : Six F) (hl : Limits L U tr)
    (hi : r'.isMoving = false) : Still tr := by
  rcases C41_all_or_none h hl with h | ⟨t, _, _, hm⟩
  · exact h
  · unfold isMoving at hi; rw [hm] at hi; cases hi

/-! ### C52 -/

/-- **C52**: what is read as logical angles is the decoupled servo angles; what is read as physical angles is the servo angles, if the coupling functions are mutually inverse. -/
theorem C52_readings {cfg : RCfg F} (hinv : ∀ a, cfg.l2p (cfg.p2l a) = a) {tr : List (Act F)} {x : Six F} :
    (Exec (getCurrentLogicalAngles cfg) tr (.ret x) → ∃ a, Reading tr a ∧ x = cfg.p2l a) ∧
    (Exec (getCurrentPhysicalAngles cfg) tr (.ret x) → Reading tr x) := by
  constructor
  · intro h
    refine exec_of_wp (E := fun _ _ => True) (Q := fun tr x => ∃ a, Reading tr a ∧ x = cfg.p2l a) h ?_ (fun _ _ _ => trivial)
    simp only [getCurrentLogicalAngles, bind_def, wp_bind]
    exact readAngles_wp fun v _ => ⟨curs v, reading_readAll v fun a ha => ha, rfl⟩
  · intro h
    refine exec_of_wp (E := fun _ _ => True) (Q := fun tr x => Reading tr x) h ?_ (fun _ _ _ => trivial)
    simp only [getCurrentPhysicalAngles, getCurrentLogicalAngles, bind_def, wp_bind]
    refine readAngles_wp fun v _ => ?_
    simp only [pure_def, wp]
    rw [hinv]
    exact reading_readAll v fun a ha => ha

/-! ### C66 -/

/-- **C66**: stop() makes the controller report idle at once and keeps all targets and settings; from then on process() does nothing, whatever settings are changed, until a
new target is set.  (The servos keep their targets: nothing is sent to them.) -/
theorem C66_stop {cfg : RCfg F} (r : RC F) :
    r.stop.isMoving = false ∧ r.stop.targetPose = r.targetPose ∧ r.stop.targetAngles = r.targetAngles ∧ r.stop.maxVelocity = r.maxVelocity ∧ r.stop.method = r.method ∧
    ∀ es r', CHist cfg r.stop es r' → (∀ c, CEv.call c ∈ es → Call.setsTarget c = false) → r'.isMoving = false ∧ ∀ tr, CEv.process tr ∈ es → tr = [] := by
  refine ⟨rfl, rfl, rfl, rfl, rfl, ?_⟩
  have key : ∀ (r1 : RC F) (es : List (CEv F)) (r2 : RC F), CHist cfg r1 es r2 → r1.state = .idle → (∀ c, CEv.call c ∈ es → Call.setsTarget c = false) →
      r2.isMoving = false ∧ ∀ tr, CEv.process tr ∈ es → tr = [] := by
    intro r1 es r2 h
    induction h with
    | nil r => intro hs _; exact ⟨by unfold isMoving; rw [hs]; rfl, fun tr ht => by cases ht⟩
    | @call r c es r' _ ih =>
      intro hs hc
      have := ih (by have := hc c List.mem_cons_self; cases c <;> first | exact hs | rfl | cases this) (fun c h => hc c (List.mem_cons_of_mem _ h))
      refine ⟨this.1, fun tr h => this.2 tr ?_⟩
      rcases List.mem_cons.1 h with h | h
      · cases h
      · exact h
    | @process r tr0 r1 es r' he _ ih =>
      intro hs hc
      have hproc : process cfg r = .ret r := by unfold process; rw [hs]; rfl
      rw [hproc] at he
      cases he with
      | nil =>
        have := ih hs (fun c h => hc c (List.mem_cons_of_mem _ h))
        refine ⟨this.1, fun tr h => ?_⟩
        rcases List.mem_cons.1 h with h | h
        · cases h; rfl
        · exact this.2 tr h
      | cons hs' _ => cases hs'
  exact fun es r' h hc => key _ es r' h rfl hc

/-! ### examples: the hypotheses are met by runs of a small robot (Proof/Demo.lean) -/
section Examples
open Mrc.Demo
attribute [local instance] toyFloat

/-- C41: a move of two axes is really started, so there are targets to talk about. -/
example : ∃ tr r', Exec (process plain (plainRC.setTargetLogicalAngles (six 1 2 0 0 0 0))) tr (.ret r') ∧ Limits (fun _ => -8) (fun _ => 8) tr ∧
    (r'.isMoving && tr.any fun | .micro j (.setTarget y) => j == armServo 1 && y == 2 | _ => false) = true :=
  run_ok _ plainWorld (fun tr r' => r'.isMoving && tr.any fun | .micro j (.setTarget y) => j == armServo 1 && y == 2 | _ => false) (by decide +kernel)

/-- C42/1: angle 9 is inside the logical limits (±10) but outside the servo's (±8). -/
example : let r := plainRC.setTargetLogicalAngles (six 9 2 0 0 0 0)
    (∃ tr r', Exec (process plain r) tr (.ret r') ∧ Limits (fun _ => -8) (fun _ => 8) tr) ∧ r.state = .prepareMove ∧ r.inTransaction = false ∧
    r.anglesChanged = true ∧ r.poseChanged = false ∧ r.method = .p2p ∧ ¬ Fits plain (fun _ => -8) (fun _ => 8) r.targetAngles := by
  refine ⟨?_, rfl, rfl, rfl, rfl, rfl, ?_⟩
  · obtain ⟨tr, r', h1, h2, _⟩ := run_ok (plainRC.setTargetLogicalAngles (six 9 2 0 0 0 0)) plainWorld (fun _ _ => true) (by decide +kernel)
    exact ⟨tr, r', h1, h2⟩
  · intro h
    have := (h.2 0).2
    exact absurd this (by decide +kernel)

/-- a linear move from X = 6 to X = 8 in four steps, of which one has been made: poses with X > 5 are unreachable. -/
def midway : RC Rat := { plainRC with method := .linear, state := .moving, step := 1, total := 4, startPose := fun _ => 6, targetPose := six 8 6 6 6 6 6, targetAngles := fun _ => 6 }

/-- C42/2. -/
example : midway.state = .moving ∧ midway.method = .linear ∧ midway.step ≠ midway.total ∧
    (match plain.inv (linePoint midway.startPose midway.targetPose (midway.step + 1) midway.total) with
      | none => True | some t => ¬ NearSingular t ∧ ¬ Fits plain (fun _ => -8) (fun _ => 8) t) ∧
    ∃ tr r', Exec (process plain midway) tr (.ret r') ∧ Limits (fun _ => -8) (fun _ => 8) tr ∧ (r'.state == .idle) = true := by
  refine ⟨rfl, rfl, by decide, ?_, run_ok midway (plainAt 6) (fun _ r' => r'.state == .idle) (by decide +kernel)⟩
  have : plain.inv (linePoint midway.startPose midway.targetPose (midway.step + 1) midway.total) = none := by decide +kernel
  rw [this]; trivial

/-- C42/3: a linear move from X = 6 to X = 8. -/
example : let r := (plainRC.setMovementMethod .linear).setTargetPose (six 8 6 6 6 6 6)
    r.state = .prepareMove ∧ r.inTransaction = false ∧ r.anglesChanged = false ∧ r.poseChanged = true ∧ r.method = .linear ∧
    ∃ tr r', Exec (process plain r) tr (.ret r') ∧ Limits (fun _ => -8) (fun _ => 8) tr ∧
    ∀ a n, Reading tr a → linearSteps (plain.fwd (plain.p2l a)) r.targetPose = some n →
      match plain.inv (linePoint (plain.fwd (plain.p2l a)) r.targetPose 1 n) with | none => True | some t => ¬ NearSingular t ∧ ¬ Fits plain (fun _ => -8) (fun _ => 8) t := by
  refine ⟨rfl, rfl, rfl, rfl, rfl, ?_⟩
  obtain ⟨tr, r', h1, h2, h3⟩ := run_ok ((plainRC.setMovementMethod .linear).setTargetPose (six 8 6 6 6 6 6)) (plainAt 6) (fun tr _ => reads 6 tr) (by decide +kernel)
  refine ⟨tr, r', h1, h2, fun a n ha hn => ?_⟩
  have ea := reads_of h3 ha
  subst ea
  have hn' : linearSteps (plain.fwd (plain.p2l fun _ => 6)) (six 8 6 6 6 6 6) = some 9 := by decide +kernel
  have : n = 9 := Option.some.inj (hn.symm.trans hn')
  subst this
  have : plain.inv (linePoint (plain.fwd (plain.p2l fun _ => 6)) (six 8 6 6 6 6 6) 1 9) = none := by decide +kernel
  show match plain.inv (linePoint (plain.fwd (plain.p2l fun _ => 6)) (six 8 6 6 6 6 6) 1 9) with | none => True | some t => _
  rw [this]; trivial

/-- C43: a history with a transaction in which process() is called twice. -/
example : CHist plain (plainRC.startTransaction) [.call (.setTargetLogicalAngle 0 1), .process [], .call (.setTargetLogicalAngle 1 2), .process []]
    ((plainRC.startTransaction.setTargetLogicalAngle 0 1).setTargetLogicalAngle 1 2) ∧ plainRC.startTransaction.inTransaction = true :=
  ⟨.call (.process (.nil _) (.call (.process (.nil _) (.nil _)))), rfl⟩

/-- C44. -/
example : let r := ((plainRC.setTargetPoseAt 0 1).setTargetLogicalAngle 2 1)
    ∃ tr r', Exec (process plain r) tr (.ret r') ∧ Limits (fun _ => -8) (fun _ => 8) tr ∧ (!tr.isEmpty) = true :=
  run_ok _ plainWorld (fun tr _ => !tr.isEmpty) (by decide +kernel)

/-- C49: the last of two settings of an axis wins. -/
example : lastSet (Call.angle 1) (0 : Rat) [.setTargetLogicalAngle 1 5, .setTargetPoseAt 1 4, .setTargetLogicalAngle 1 7, .setTargetLogicalAngle 2 8] = 7 := by decide +kernel

/-- C51/2: both outcomes occur (the move ends when the servos are at 6; it goes on when a servo is under way). -/
example : (∃ tr r', Exec (process plain { midway with step := 4 }) tr (.ret r') ∧ Limits (fun _ => -8) (fun _ => 8) tr ∧ (!r'.isMoving) = true) ∧
    (∃ tr r', Exec (process plain midway) tr (.ret r') ∧ Limits (fun _ => -8) (fun _ => 8) tr ∧ r'.isMoving = true) :=
  ⟨run_ok _ (plainAt 6) (fun _ r' => !r'.isMoving) (by decide +kernel),
   run_ok _ { plainAt 6 with servos := fun _ => { plainServo with target := 6 } } (fun _ r' => r'.isMoving) (by decide +kernel)⟩

/-- C66: stop in the middle of a linear move. -/
example : CHist plain midway.stop [.process [], .call (.setMaxVelocity 3), .process []] (midway.stop.setMaxVelocity 3) :=
  .process (.nil _) (.call (.process (.nil _) (.nil _)))

end Examples
end Mrc.Props
