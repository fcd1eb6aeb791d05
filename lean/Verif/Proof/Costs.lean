import Verif.Model.Run
import Verif.Proof.Wp
import Verif.Props.Host
/-
The number of accesses of a program (C130). `Costs p Q n`: with a budget of `n` accesses `p` never runs out of it, and what is left fulfils `Q` at its end.
-/
set_option linter.unusedSectionVars false
set_option linter.dupNamespace false
namespace Mrc.Costs
open Mrc Mrc.Prog

variable {F : Type} {α β : Type}

def Costs : Prog F α → (ℕ → α → Prop) → ℕ → Prop
  | .ret a, Q, n => Q n a
  | .fault _, _, _ => True
  | .servo _ k, Q, n => 0 < n ∧ ∀ v, Costs (k v) Q (n - 1)
  | .micro _ _ k, Q, n => 0 < n ∧ Costs k Q (n - 1)
  | .now k, Q, n => 0 < n ∧ ∀ v, Costs (k v) Q (n - 1)
  | .pin _ k, Q, n => 0 < n ∧ ∀ v, Costs (k v) Q (n - 1)
  | .rx k, Q, n => 0 < n ∧ ∀ v, Costs (k v) Q (n - 1)
  | .eeRead k, Q, n => 0 < n ∧ ∀ v, Costs (k v) Q (n - 1)
  | .eeWrite _ _ k, Q, n => 0 < n ∧ Costs k Q (n - 1)
  | .out _ k, Q, n => 0 < n ∧ Costs k Q (n - 1)

theorem costs_bind {p : Prog F α} {f : α → Prog F β} {Q : ℕ → β → Prop} {n : ℕ} : Costs (p.bind f) Q n ↔ Costs p (fun m a => Costs (f a) Q m) n := by
  induction p generalizing n with
  | ret a => exact Iff.rfl
  | fault e => exact Iff.rfl
  | servo i k ih => simp only [Prog.bind, Costs, ih]
  | micro i m k ih => simp only [Prog.bind, Costs, ih]
  | now k ih => simp only [Prog.bind, Costs, ih]
  | pin p k ih => simp only [Prog.bind, Costs, ih]
  | rx k ih => simp only [Prog.bind, Costs, ih]
  | eeRead k ih => simp only [Prog.bind, Costs, ih]
  | eeWrite a b k ih => simp only [Prog.bind, Costs, ih]
  | out o k ih => simp only [Prog.bind, Costs, ih]

theorem costs_mono {p : Prog F α} {Q R : ℕ → α → Prop} (h : ∀ n a, Q n a → R n a) {n : ℕ} (hp : Costs p Q n) : Costs p R n := by
  induction p generalizing n with
  | ret a => exact h _ _ hp
  | fault e => trivial
  | servo i k ih => exact ⟨hp.1, fun v => ih v (hp.2 v)⟩
  | micro i m k ih => exact ⟨hp.1, ih hp.2⟩
  | now k ih => exact ⟨hp.1, fun v => ih v (hp.2 v)⟩
  | pin p k ih => exact ⟨hp.1, fun v => ih v (hp.2 v)⟩
  | rx k ih => exact ⟨hp.1, fun v => ih v (hp.2 v)⟩
  | eeRead k ih => exact ⟨hp.1, fun v => ih v (hp.2 v)⟩
  | eeWrite a b k ih => exact ⟨hp.1, ih hp.2⟩
  | out o k ih => exact ⟨hp.1, ih hp.2⟩

theorem costs_step {p q : Prog F α} {a : Act F} {Q : ℕ → α → Prop} {n : ℕ} (h : Prog.Step p a q) (hp : Costs p Q n) : 0 < n ∧ Costs q Q (n - 1) := by
  cases h <;> first | exact hp | exact ⟨hp.1, hp.2 _⟩

variable [FloatOps F]

theorem readAngles_costs {Q : ℕ → Six F → Prop} {n : ℕ} (hn : 6 ≤ n) (h : ∀ m a, n ≤ m + 6 → Q m a) : Costs (RC.readAngles : Prog F (Six F)) Q n := by
  simp only [RC.readAngles, readServo, Bind.bind, Pure.pure, Prog.bind, Costs]
  refine ⟨by omega, fun _ => ⟨by omega, fun _ => ⟨by omega, fun _ => ⟨by omega, fun _ => ⟨by omega, fun _ => ⟨by omega, fun _ => h _ _ (by omega)⟩⟩⟩⟩⟩⟩

theorem logical_costs (cfg : RCfg F) {Q : ℕ → Six F → Prop} {n : ℕ} (hn : 6 ≤ n) (h : ∀ m a, n ≤ m + 6 → Q m a) : Costs (RC.getCurrentLogicalAngles cfg) Q n := by
  show Costs (Prog.bind _ _) _ _
  rw [costs_bind]
  exact readAngles_costs hn fun m a hm => h m _ hm

theorem pose_costs (cfg : RCfg F) {Q : ℕ → Six F → Prop} {n : ℕ} (hn : 6 ≤ n) (h : ∀ m a, n ≤ m + 6 → Q m a) : Costs (RC.getCurrentPose cfg) Q n := by
  show Costs (Prog.bind _ _) _ _
  rw [costs_bind]
  exact readAngles_costs hn fun m a hm => h m _ hm

theorem reject_costs (cfg : RCfg F) (r : RC F) {Q : ℕ → RC F → Prop} {n : ℕ} (hn : 12 ≤ n) (h : ∀ m a, n ≤ m + 12 → Q m a) : Costs (RC.reject cfg r) Q n := by
  show Costs (Prog.bind _ _) _ _
  rw [costs_bind]
  refine pose_costs cfg (by omega) fun m a hm => ?_
  show Costs (Prog.bind _ _) _ _
  rw [costs_bind]
  exact logical_costs cfg (by omega) fun m' b hm' => h m' _ (by omega)

theorem new_costs (cfg : RCfg F) {Q : ℕ → RC F → Prop} {n : ℕ} (hn : 12 ≤ n) (h : ∀ m a, n ≤ m + 12 → Q m a) : Costs (RC.new cfg) Q n := by
  show Costs (Prog.bind _ _) _ _
  rw [costs_bind]
  refine pose_costs cfg (by omega) fun m a hm => ?_
  show Costs (Prog.bind _ _) _ _
  rw [costs_bind]
  exact logical_costs cfg (by omega) fun m' b hm' => h m' _ (by omega)

theorem physical_costs (t : Six F) (is : List (Fin 6)) {Q : ℕ → Bool → Prop} {n : ℕ} (hn : is.length ≤ n) (h : ∀ m a, n ≤ m + is.length → Q m a) : Costs (RC.violatesPhysical t is) Q n := by
  induction is generalizing n with
  | nil => exact h n _ le_self_add
  | cons i is ih =>
    rw [List.length_cons] at hn h
    refine ⟨by omega, fun s => ?_⟩
    simp only [Prog.bind]
    split
    · exact h _ _ (by omega)
    · exact ih (by omega) fun m a hm => h m a (by omega)

theorem minTime_costs (t : Six F) (is : List (Fin 6)) (acc : F) {Q : ℕ → F → Prop} {n : ℕ} (hn : is.length ≤ n) (h : ∀ m a, n ≤ m + is.length → Q m a) : Costs (RC.minTime t is acc) Q n := by
  induction is generalizing n acc with
  | nil => exact h n _ le_self_add
  | cons i is ih =>
    rw [List.length_cons] at hn h
    exact ⟨by omega, fun s => ih _ (by omega) fun m a hm => h m a (by omega)⟩

theorem apply_costs (t : Six F) (time : F) (is : List (Fin 6)) {Q : ℕ → Unit → Prop} {n : ℕ} (hn : 6 * is.length ≤ n) (h : ∀ m a, n ≤ m + 6 * is.length → Q m a) : Costs (RC.apply t time is) Q n := by
  induction is generalizing n with
  | nil => exact h n _ le_self_add
  | cons i is ih =>
    rw [List.length_cons] at hn h
    exact ⟨by omega, fun s => ⟨by omega, by omega, fun s => ⟨by omega, by omega, by omega, ih (by omega) fun m a hm => h m a (by omega)⟩⟩⟩

theorem atTarget_costs (is : List (Fin 6)) (acc : Bool) {Q : ℕ → Bool → Prop} {n : ℕ} (hn : is.length ≤ n) (h : ∀ m a, n ≤ m + is.length → Q m a) : Costs (RC.allAtTarget is acc : Prog F Bool) Q n := by
  induction is generalizing n acc with
  | nil => exact h n _ le_self_add
  | cons i is ih =>
    rw [List.length_cons] at hn h
    exact ⟨by omega, fun s => ih _ (by omega) fun m a hm => h m a (by omega)⟩

theorem command_costs (cfg : RCfg F) (r : RC F) (t : Six F) (x : F) {Q : ℕ → RC F → Prop} {n : ℕ} (hn : 48 ≤ n) (h : ∀ m a, n ≤ m + 48 → Q m a) : Costs (RC.command cfg r t x) Q n := by
  unfold RC.command
  split
  · exact reject_costs cfg r (by omega) fun m a hm => h m a (by omega)
  show Costs (Prog.bind _ _) _ _
  rw [costs_bind]
  refine physical_costs _ _ (by simp; omega) fun m a hm => ?_
  rw [List.length_finRange] at hm
  split
  · exact reject_costs cfg r (by omega) fun m a hm => h m a (by omega)
  show Costs (Prog.bind _ _) _ _
  rw [costs_bind]
  refine minTime_costs _ _ _ (by simp; omega) fun m a hm => ?_
  rw [List.length_finRange] at hm
  split
  · exact h m _ (by omega)
  show Costs (Prog.bind _ _) _ _
  rw [costs_bind]
  refine apply_costs _ _ _ (by simp; omega) fun m a hm => ?_
  rw [List.length_finRange] at hm
  exact h m _ (by omega)

theorem startMove_costs (cfg : RCfg F) (r : RC F) {Q : ℕ → RC F → Prop} {n : ℕ} (hn : 50 ≤ n) (h : ∀ m a, n ≤ m + 50 → Q m a) : Costs (RC.startMove cfg r) Q n := by
  unfold RC.startMove
  simp only
  split
  · refine ⟨by omega, ?_⟩
    exact command_costs cfg _ _ _ (by omega) fun m a hm => h m a (by omega)
  · split
    · exact reject_costs cfg _ (by omega) fun m a hm => h m a (by omega)
    · split
      · refine ⟨by omega, fun s => ⟨by omega, fun s => ?_⟩⟩
        exact command_costs cfg _ _ _ (by omega) fun m a hm => h m a (by omega)
      · exact command_costs cfg _ _ _ (by omega) fun m a hm => h m a (by omega)
  · exact ⟨by omega, trivial⟩

theorem prepare_costs (cfg : RCfg F) (r : RC F) {Q : ℕ → RC F → Prop} {n : ℕ} (hn : 63 ≤ n) (h : ∀ m a, n ≤ m + 63 → Q m a) : Costs (RC.prepare cfg r) Q n := by
  have main : ∀ (r1 : RC F) {n' : ℕ}, n ≤ n' + 1 → Costs (if (r1.poseChanged && r1.anglesChanged) = true then (do
      Prog.emit (.raw (.error "Do not change pose and angles in one transaction!"))
      return { r1 with anglesChanged := false, poseChanged := false, state := .idle } : Prog F (RC F))
    else (do
      let r := { r1 with anglesChanged := false, poseChanged := false }
      let sp ← RC.getCurrentPose cfg
      let sa ← RC.getCurrentLogicalAngles cfg
      let r := { r with startPose := sp, startAngles := sa }
      if RC.anglesEqual r.startAngles r.targetAngles then return { r with state := .idle }
      else
        match r.method with
        | .p2p => RC.startMove cfg { r with step := 0, total := 1, state := .startMove }
        | .linear =>
          match RC.linearSteps r.startPose r.targetPose with
          | none => .fault .badConv
          | some n => RC.startMove cfg { r with step := 0, total := n, state := .startMove }
        | .circular => RC.startMove cfg { r with step := 0, state := .startMove })) Q n' := by
    intro r1 n' hn'
    split
    · exact ⟨by omega, h _ _ (by omega)⟩
    · show Costs (Prog.bind _ _) _ _
      rw [costs_bind]
      refine pose_costs cfg (by omega) fun m a hm => ?_
      show Costs (Prog.bind _ _) _ _
      rw [costs_bind]
      refine logical_costs cfg (by omega) fun m a hm => ?_
      dsimp only
      split
      · exact h _ _ (by omega)
      · split
        · exact startMove_costs cfg _ (by omega) fun m a hm => h m a (by omega)
        · split
          · trivial
          · exact startMove_costs cfg _ (by omega) fun m a hm => h m a (by omega)
        · exact startMove_costs cfg _ (by omega) fun m a hm => h m a (by omega)
  unfold RC.prepare
  split
  · exact h n _ (by omega)
  · simp only
    split
    · show Costs (Prog.bind _ _) _ _
      rw [costs_bind]
      exact ⟨by omega, main _ (by omega)⟩
    · exact main _ (by omega)

theorem process_costs (cfg : RCfg F) (r : RC F) {Q : ℕ → RC F → Prop} {n : ℕ} (hn : 63 ≤ n) (h : ∀ m a, n ≤ m + 63 → Q m a) : Costs (RC.process cfg r) Q n := by
  unfold RC.process
  split
  · exact h n _ (by omega)
  · show Costs (Prog.bind _ _) _ _
    rw [costs_bind]
    refine atTarget_costs _ _ (by simp; omega) fun m a hm => ?_
    rw [List.length_finRange] at hm
    split
    · split
      · exact h m _ (by omega)
      · exact startMove_costs cfg _ (by omega) fun m a hm => h m a (by omega)
    · exact h m _ (by omega)
  · exact prepare_costs cfg r hn h
  · exact startMove_costs cfg r (by omega) fun m a hm => h m a (by omega)

/-! ### instructions -/

set_option maxHeartbeats 2000000 in
theorem exec_costs (cfg : Cfg F) (s : Core F) (l : Loc F) (tok : List Byte) {Q : ℕ → Core F × Loc F → Prop} {n : ℕ} (hn : 6 ≤ n) (hs : s.conds.length ≤ MAX_PINS)
    (h : ∀ m a, n ≤ m + 6 → a.1.conds.length ≤ MAX_PINS → Q m a) : Costs (Mril.exec cfg s l tok) Q n := by
  unfold Mril.exec
  simp only
  repeat' split
  all_goals first
    | trivial
    | exact h _ _ (by omega) hs
    | exact ⟨by omega, by omega, h _ _ (by omega) hs⟩
    | exact ⟨by omega, fun _ => h _ _ (by omega) hs⟩
    | exact ⟨by omega, h _ _ (by omega) hs⟩
    | exact ⟨by omega, fun _ => ⟨by omega, by omega, by omega, h _ _ (by omega) hs⟩⟩
    | skip
  all_goals (show Costs (Prog.bind _ _) _ _; rw [costs_bind])
  all_goals first
    | refine pose_costs _ (by omega) fun m a hm => h _ _ (by omega) ?_; exact hs
    | refine logical_costs _ (by omega) fun m a hm => h _ _ (by omega) ?_; exact hs
    | skip
  all_goals first | unfold IOL.addCondition | unfold IOL.setOutput
  all_goals split
  all_goals first | trivial | skip
  all_goals refine ⟨by omega, ?_⟩
  all_goals split
  all_goals first
    | trivial
    | exact ⟨by omega, h _ _ (by omega) hs⟩
    | (rename_i hlt
       refine h _ _ (by omega) ?_
       simp only [List.length_append, List.length_singleton]
       omega)
    | skip
  all_goals try split
  all_goals first
    | exact ⟨by omega, h _ _ (by omega) hs⟩
    | exact h _ _ (by omega) hs

theorem loop_costs (cfg : Cfg F) (m : List Byte) (s : Core F) (l : Loc F) (tok : List Byte) {Q : ℕ → Core F × Loc F → Prop} {n : ℕ} (hn : 6 * m.length ≤ n) (hs : s.conds.length ≤ MAX_PINS)
    (h : ∀ k a, n ≤ k + 6 * m.length → a.1.conds.length ≤ MAX_PINS → Q k a) : Costs (Mril.loop cfg m s l tok) Q n := by
  induction m generalizing s l tok n with
  | nil => exact h n _ le_self_add hs
  | cons c cs ih =>
    rw [List.length_cons] at hn h
    unfold Mril.loop
    split
    · exact ⟨by omega, h _ _ (by omega) hs⟩
    split
    · split
      · trivial
      simp only
      split
      · split
        · trivial
        · rw [costs_bind]
          exact exec_costs cfg s l _ (by omega) hs fun k a hk ha => ih _ _ _ (by omega) ha fun k' b hk' hb => h k' b (by omega) hb
      · exact ih _ _ _ (by omega) hs fun k' b hk' hb => h k' b (by omega) hb
    · exact ih _ _ _ (by omega) hs fun k' b hk' hb => h k' b (by omega) hb

theorem parse_costs (cfg : Cfg F) (m : List Byte) (s : Core F) {Q : ℕ → Core F → Prop} {n : ℕ} (hn : 6 * m.length + 1 ≤ n) (hs : s.conds.length ≤ MAX_PINS)
    (h : ∀ k a, n ≤ k + (6 * m.length + 1) → a.conds.length ≤ MAX_PINS → Q k a) : Costs (Mril.parse cfg s m) Q n := by
  unfold Mril.parse
  split
  · exact h n _ (by omega) hs
  rw [costs_bind]
  refine loop_costs cfg m _ _ _ (by omega) hs fun k a hk ha => ?_
  obtain ⟨s', l'⟩ := a
  show Costs (Mril.finish _ _) _ _
  unfold Mril.finish
  split
  · exact ⟨by omega, h _ _ (by omega) ha⟩
  · exact h _ _ (by omega) ha
  · exact h _ _ (by omega) ha

omit [FloatOps F] in
theorem check_costs (c : Conds) {Q : ℕ → Bool → Prop} {n : ℕ} (hn : c.length ≤ n) (h : ∀ k a, n ≤ k + c.length → Q k a) : Costs (IOL.check c : Prog F Bool) Q n := by
  induction c generalizing n with
  | nil => exact h n _ le_self_add
  | cons x cs ih =>
    obtain ⟨p, s⟩ := x
    rw [List.length_cons] at hn h
    unfold IOL.check
    split
    · refine ⟨by omega, fun b => ?_⟩
      dsimp only
      split
      · exact ih (by omega) fun k a hk => h k a (by omega)
      · exact h _ _ (by omega)
    split
    · refine ⟨by omega, fun b => ?_⟩
      dsimp only
      split
      · exact h _ _ (by omega)
      · exact ih (by omega) fun k a hk => h k a (by omega)
    · exact ih (by omega) fun k a hk => h k a (by omega)

theorem mril_costs (s : Core F) {Q : ℕ → Core F → Prop} {n : ℕ} (hn : 12 ≤ n) (hs : s.conds.length ≤ MAX_PINS)
    (h : ∀ k a, n ≤ k + 12 → a.conds.length ≤ MAX_PINS → Q k a) : Costs (Mril.process s) Q n := by
  have h10 : MAX_PINS = 10 := rfl
  unfold Mril.process IOL.isDone
  rw [costs_bind, costs_bind]
  refine check_costs _ (by omega) fun k b hk => ?_
  have hr : (if b = true then ((true, []) : Bool × Conds) else (false, s.conds)).2.length ≤ MAX_PINS := by
    split
    · simp
    · exact hs
  simp only [Costs]
  generalize (if b = true then ((true, []) : Bool × Conds) else (false, s.conds)) = r at hr
  split
  · refine ⟨by omega, fun t => ?_⟩
    dsimp only
    split
    · split
      · exact ⟨by omega, h _ _ (by omega) hr⟩
      · exact h _ _ (by omega) hr
    · exact h _ _ (by omega) hr
  · exact h _ _ (by omega) hr

/-! ### the serial line -/

def CondsOk (s : FW F) : Prop := s.core.conds.length ≤ MAX_PINS

theorem handOver_costs (cfg : Cfg F) (src : Src) (s : FW F) (m : List Byte) {Q : ℕ → FW F → Prop} {n : ℕ} (hn : 6 * m.length + 2 ≤ n) (hs : CondsOk s)
    (h : ∀ k a, n ≤ k + (6 * m.length + 2) → CondsOk a → a.framer = s.framer → Q k a) : Costs (Mrcp.handOver cfg src s m) Q n := by
  refine ⟨by omega, ?_⟩
  rw [costs_bind]
  exact parse_costs cfg m _ (by omega) hs fun k a hk ha => h k _ (by omega) ha rfl

omit [FloatOps F] in
theorem eeWrites_costs (ws : List (Nat × Byte)) {Q : ℕ → Unit → Prop} {n : ℕ} (hn : ws.length ≤ n) (h : ∀ k a, n ≤ k + ws.length → Q k a) : Costs (eeWrites ws : Prog F Unit) Q n := by
  induction ws generalizing n with
  | nil => exact h n _ le_self_add
  | cons w ws ih =>
    rw [List.length_cons] at hn h
    exact ⟨by omega, ih (by omega) fun k a hk => h k a (by omega)⟩

theorem append_length (m : EMem) (msg : List Byte) : (EE.appendWrites m msg).length ≤ msg.length + 2 := by
  unfold EE.appendWrites
  simp only
  split <;> simp

theorem command_line_costs (cfg : Cfg F) (s : FW F) (p : List Byte) {Q : ℕ → FW F → Prop} {n : ℕ} (hn : 6 * p.length + 2 ≤ n) (hs : CondsOk s)
    (h : ∀ k a, n ≤ k + (6 * p.length + 2) → CondsOk a → a.framer = s.framer → Q k a) : Costs (Mrcp.parseCommand cfg s p) Q n := by
  cases p with
  | nil => exact h n _ (by omega) hs rfl
  | cons c rest =>
    rw [List.length_cons] at hn h
    simp only [Mrcp.parseCommand]
    split
    · exact ⟨by omega, h _ _ (by omega) hs rfl⟩
    split
    · exact handOver_costs cfg _ s rest (by omega) hs fun k a hk => h k a (by omega)
    split
    · split
      · exact h n _ (by omega) hs rfl
      · exact h n _ (by omega) hs rfl
    split
    · split
      · exact ⟨by omega, h _ _ (by omega) hs rfl⟩
      · rename_i hne
        have hpos := List.length_pos_iff.2 hne
        refine ⟨by omega, fun m => ?_⟩
        have := append_length m rest
        dsimp only
        split
        · refine ⟨by omega, ?_⟩
          rw [costs_bind]
          exact eeWrites_costs _ (by omega) fun k a hk => h k _ (by omega) hs rfl
        · rw [costs_bind]
          exact eeWrites_costs _ (by omega) fun k a hk => h k _ (by omega) hs rfl
    · exact h n _ (by omega) hs rfl

/-- accesses a frame under construction may cause. -/
def due (f : Framer) : ℕ := if f.started then 6 * min f.buf.length 78 else 0

theorem due_le (f : Framer) : due f ≤ 468 := by
  unfold due
  split <;> omega

theorem char_costs (cfg : Cfg F) (s : FW F) (c : Byte) {Q : ℕ → FW F → Prop} {n : ℕ} (hn : due s.framer + 2 ≤ n) (hs : CondsOk s)
    (h : ∀ k a, n + due a.framer ≤ k + due s.framer + 6 → CondsOk a → Q k a) : Costs (Mrcp.parseChar cfg s c) Q n := by
  unfold Mrcp.parseChar Framer.step
  simp only
  generalize hg : (if (!s.framer.started || toUpper c == 58) = true then ({ s.framer with started := true, buf := [] } : Framer) else s.framer) = g
  have hd : due g ≤ due s.framer ∧ g.started = true := by
    subst hg
    split
    · exact ⟨by simp [due], rfl⟩
    · rename_i hne
      exact ⟨le_rfl, by simpa using (by simpa using hne : _ ∧ _).1⟩
  split
  · -- end of the line
    by_cases hl : g.buf.length + 1 ≥ INPUT_BUFFER_SIZE
    · simp only [if_pos hl, List.singleton_append, Mrcp.events]; trivial
    · have hb : g.buf.length ≤ 78 := by unfold INPUT_BUFFER_SIZE at hl; omega
      have hdg : due g = 6 * g.buf.length := by simp [due, hd.2, hb]
      simp only [if_neg hl, List.nil_append]
      split
      · exact h n _ (by simp only [due]; simp; omega) hs
      · simp only [Mrcp.events]
        rw [costs_bind]
        refine command_line_costs cfg _ _ (by omega) (show CondsOk { s with framer := _ } from hs) fun k a hk ha ef => ?_
        have e0 : due a.framer = 0 := by rw [ef]; rfl
        exact h k a (by omega) ha
  · split
    · exact h n _ (by simp only [due] at hd ⊢; omega) hs
    split
    · exact h n _ (by show n + due g ≤ _; omega) hs
    split
    · by_cases hl : g.buf.length ≥ INPUT_BUFFER_SIZE
      · simp only [if_pos hl, Mrcp.events]; trivial
      · simp only [if_neg hl, Mrcp.events]
        refine h n _ ?_ hs
        simp only [due, hd.2, if_true, List.length_append, List.length_singleton] at hd ⊢
        omega
    · exact h n _ (by show n + due g ≤ _; omega) hs

theorem serial_costs (cfg : Cfg F) (i : ℕ) (s : FW F) {Q : ℕ → FW F → Prop} {n : ℕ} (hn : due s.framer + 7 * i ≤ n) (hs : CondsOk s)
    (h : ∀ k a, n ≤ k + due s.framer + 7 * i → CondsOk a → Q k a) : Costs (serialProcess cfg i s) Q n := by
  induction i generalizing s n with
  | zero => exact h n s (by omega) hs
  | succ i ih =>
    refine ⟨by omega, fun b => ?_⟩
    cases b with
    | none => exact h _ _ (by omega) hs
    | some c =>
      simp only
      rw [costs_bind]
      exact char_costs cfg s c (by omega) hs fun k a hk ha => ih a (by omega) ha fun k' a' hk' => h k' a' (by omega)

theorem dispatch_costs (cfg : Cfg F) (s : FW F) {Q : ℕ → FW F → Prop} {n : ℕ} (hn : 483 ≤ n) (hs : CondsOk s) (h : ∀ k a, n ≤ k + 483 → CondsOk a → Q k a) : Costs (Mrcp.process cfg s) Q n := by
  unfold Mrcp.process INPUT_BUFFER_SIZE
  split
  · exact h n _ (by omega) hs
  split
  · split
    · split
      · refine ⟨by omega, ?_⟩
        simp only
        split
        · trivial
        · rename_i hl
          exact handOver_costs cfg _ _ _ (by omega) hs fun k a hk ha _ => h k a (by omega) ha
      · exact h n _ (by omega) hs
    · refine ⟨by omega, fun m => ?_⟩
      simp only
      split
      · trivial
      split
      · exact handOver_costs cfg _ _ _ (by omega) hs fun k a hk ha _ => h k a (by omega) ha
      · exact h _ _ (by omega) hs
    · exact h n _ (by omega) hs
  · exact h n _ (by omega) hs

theorem rc_costs (cfg : Cfg F) (s : FW F) {Q : ℕ → FW F → Prop} {n : ℕ} (hn : 63 ≤ n) (hs : CondsOk s) (h : ∀ k a, n ≤ k + 63 → CondsOk a → Q k a) : Costs (rcProcess cfg s) Q n := by
  unfold rcProcess
  rw [costs_bind]
  exact process_costs _ _ hn fun m a hm => h m _ hm hs

theorem loop_pass_costs (cfg : Cfg F) (s : FW F) (hs : CondsOk s) : Costs (loopBody cfg s) (fun _ a => CondsOk a) 1299 := by
  have := due_le
  show Costs (Prog.bind _ _) _ _
  rw [costs_bind]
  refine rc_costs cfg s (by omega) hs fun k s hk hs => ?_
  show Costs (Prog.bind _ _) _ _
  rw [costs_bind]
  refine rc_costs cfg s (by omega) hs fun k s hk hs => ?_
  show Costs (Prog.bind _ _) _ _
  rw [costs_bind]
  have hd := due_le s.framer
  refine serial_costs cfg SERIAL_BYTES s (by unfold SERIAL_BYTES; omega) hs fun k s hk hs => ?_
  unfold SERIAL_BYTES at hk
  show Costs (Prog.bind _ _) _ _
  rw [costs_bind]
  refine mril_costs s.core (by omega) hs fun k c hk hc => ?_
  exact dispatch_costs cfg _ (by omega) hc fun _ _ _ h => h

theorem setup_costs (cfg : Cfg F) (junk : Nat → Byte) : Costs (setup cfg junk) (fun _ a => CondsOk a) 13 := by
  show Costs (Prog.bind _ _) _ _
  rw [costs_bind]
  refine new_costs _ (by omega) fun m a hm => ⟨by omega, fun _ => ?_⟩
  exact Nat.zero_le _

end Mrc.Costs
