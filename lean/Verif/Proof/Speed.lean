import Verif.Proof.ToldInstr
import Verif.Proof.Told
import Verif.Spec.Speed
/-
With which speed a point to point move is commanded (C121).
-/
set_option linter.unusedSimpArgs false
namespace Mrc
namespace Told
open Mrc.Prog Mrc.Spec
variable {F : Type} [FloatOps F]

/-- the speed after a command. -/
theorem exec_vel (cfg : Cfg F) (s : Core F) (l : Loc F) (c : Cmd) :
    (Mril.exec cfg s l c.text).only (fun _ => True) (fun r => r.1.rc.maxVelocity = if c.letter = 86 ∧ c.arg ≠ [] then atof c.arg else s.rc.maxVelocity) := by
  obtain ⟨letter, arg⟩ := c
  by_cases h : letter = 86
  · subst h
    cases arg with
    | nil => simp [Mril.exec, Cmd.text, only]
    | cons a arg => simp [Mril.exec, Cmd.text, only, doMicro, bind_def, Prog.bind, pure_def, RC.setMaxVelocity]
  · rw [if_neg (fun x => h x.1)]
    have key : ∀ tok : List Byte, (Mril.exec cfg s l tok).only (fun _ => True) (fun r => tok.headD 0 = 86 ∨ r.1.rc.maxVelocity = s.rc.maxVelocity) := by
      intro tok
      exec_leaves
      all_goals simp only [Prog.bind, only, true_and, forall_const]
      all_goals first
        | exact .inr rfl
        | exact .inr trivial
        | exact fun _ => .inr trivial
        | exact fun _ _ _ _ _ _ => .inr trivial
        | exact fun _ => .inr rfl
        | exact fun _ _ _ _ _ _ => .inr rfl
        | exact .inl ‹_›
    exact only_mono (fun _ h => h) (fun r hr => hr.resolve_left h) (key _)

theorem execAll_vel (cfg : Cfg F) (cs : List Cmd) (s : Core F) (l : Loc F) :
    (execAll cfg cs s l).only (fun _ => True) (fun r =>
      ((∀ c ∈ cs, c.letter = 86 → c.arg = []) → r.1.rc.maxVelocity = s.rc.maxVelocity) ∧ ∀ d, LastSpeed cs d → r.1.rc.maxVelocity = atof d.text) := by
  induction cs generalizing s l with
  | nil => exact ⟨fun _ => rfl, fun d ⟨_, a, b, e, _⟩ => by simp at e⟩
  | cons c cs ih =>
    simp only [execAll]
    rw [only_bind]
    refine only_mono (fun _ h => h) (fun r hr => ?_) (exec_vel cfg s l c)
    refine only_mono (fun _ h => h) (fun r' hr' => ?_) (ih r.1 r.2)
    refine ⟨fun hn => ?_, fun d ⟨hd, a, b, e, hb⟩ => ?_⟩
    · rw [hr'.1 (fun x hx => hn x (by simp [hx])), hr, if_neg]
      rintro ⟨h1, h2⟩; exact h2 (hn c (by simp) h1)
    · cases a with
      | nil =>
        rw [List.nil_append] at e
        obtain ⟨rfl, rfl⟩ := List.cons.inj e
        rw [hr'.1 hb, hr, if_pos ⟨rfl, dec_ne_nil hd⟩]
      | cons x a =>
        rw [List.cons_append] at e
        obtain ⟨rfl, rfl⟩ := List.cons.inj e
        exact hr'.2 d ⟨hd, a, b, rfl, hb⟩

theorem parse_vel (cfg : Cfg F) (cs : List Cmd) (h : ∀ c ∈ cs, c.Ok) (c : Core F) {d : Dec} (hd : LastSpeed cs d) :
    (Mril.parse cfg c (text cs)).only (fun _ => True) (fun c' => c'.rc.maxVelocity = atof d.text) := by
  have hne : cs ≠ [] := by obtain ⟨_, a, b, e, _⟩ := hd; rw [e]; simp
  rw [parse_text cfg cs h hne, only_bind]
  refine only_mono (fun _ h => h) (fun r hr => ?_) (execAll_vel cfg cs { c with rc := c.rc.startTransaction } {})
  have hv := hr.2 d hd
  unfold Mril.finish
  simp only [send, bind_def, Prog.bind]
  split
  · exact ⟨trivial, hv⟩
  · exact hv
  · exact hv

/-- the time the controller plans for a move from the logical angles `S` to `t` at the speed `V`. -/
def planned (V : F) (S t : Six F) : F :=
  FloatOps.mul (FloatOps.div ((List.finRange 6).foldl (fun m i => let delta := FloatOps.abs (FloatOps.sub (S i) (t i)); if fgt delta m then delta else m) (lit 0)) V) radToDeg

/-- the commands of a point to point move to `t` at the speed `V`, with all that was read before. -/
def Sped (cfg : RCfg F) (V : F) (t : Six F) (mid : List (Act F)) : Prop :=
  ∃ (pre post : List (Act F)) (u m x y : Fin 6 → Servo F), ArmStill pre ∧ ArmStill post ∧ (∀ i, .servo (armServo i) (u i) ∈ pre) ∧ (∀ i, .servo (armServo i) (m i) ∈ pre) ∧
    RC.anglesEqual (cfg.p2l (curs u)) t = false ∧
    mid = pre ++ applyT (cfg.l2p t) (slowest (cfg.l2p t) m (List.finRange 6) (planned V (cfg.p2l (curs u)) t)) x y (List.finRange 6) ++ post

theorem Sped.append {cfg : RCfg F} {V : F} {t : Six F} {mid tr : List (Act F)} (h : Sped cfg V t mid) (ht : ArmStill tr) : Sped cfg V t (mid ++ tr) := by
  obtain ⟨pre, post, u, m, x, y, h1, h2, h3, h4, h5, rfl⟩ := h
  exact ⟨pre, post ++ tr, u, m, x, y, h1, armStill_append.2 ⟨h2, ht⟩, h3, h4, h5, by simp⟩

theorem sync_vel (cfg : RCfg F) (r : RC F) : (RC.sync cfg r).maxVelocity = r.maxVelocity := by
  unfold RC.sync
  split
  · rfl
  · split
    · cases cfg.inv r.targetPose <;> rfl
    · rfl

/-- the phases. -/
inductive Run (cfg : RCfg F) (V : F) (T : Six F → Prop) (mid : List (Act F)) (r : RC F) : Prop
  | told (t : Six F) : T t → r.state = .prepareMove → r.method = .p2p → r.maxVelocity = V → Goal cfg r t → ArmStill mid → Run cfg V T mid r
  | over (t : Six F) : T t → (r.state = .moving ∧ r.step = r.total ∨ r.state = .idle) → ArmStill mid ∨ Sped cfg V t mid → Run cfg V T mid r

theorem Run.append {cfg : RCfg F} {V : F} {T : Six F → Prop} {mid tr : List (Act F)} {r : RC F} (h : Run cfg V T mid r) (ht : ArmStill tr) : Run cfg V T (mid ++ tr) r := by
  cases h with
  | told t h1 h2 h3 h4 h5 h6 => exact .told t h1 h2 h3 h4 h5 (armStill_append.2 ⟨h6, ht⟩)
  | over t h1 h2 h3 => exact .over t h1 h2 (h3.imp (fun h => armStill_append.2 ⟨h, ht⟩) (·.append ht))

theorem Run.step {cfg : RCfg F} {L U : Six F} {V : F} {T : Six F → Prop} {mid tr : List (Act F)} {r r' : RC F} (hf : Fl r) (h : Run cfg V T mid r)
    (hp : RC.Pro cfg L U r tr r') : Run cfg V T (mid ++ tr) r' := by
  cases hp with
  | idle => exact h.append armStill_nil
  | start hs => exact absurd hs hf.notStart
  | moving hs hm =>
    cases h with
    | told _ _ h2 => rw [hs] at h2; cases h2
    | over t h1 h2 h3 =>
      have h2 : r.step = r.total := by rcases h2 with h2 | h2 <;> [exact h2.2; (rw [hs] at h2; cases h2)]
      have key : ∀ v : Fin 6 → Servo F, ArmStill (mid ++ readAll v) ∨ Sped cfg V t (mid ++ readAll v) := fun v =>
        have ht := armStill_still (RC.still_readAll v)
        h3.imp (fun h => armStill_append.2 ⟨h, ht⟩) (·.append ht)
      cases hm with
      | wait v _ => exact .over t h1 (.inl ⟨hs, h2⟩) (key v)
      | finish v hv _ => exact .over t h1 (.inr rfl) (key v)
      | next v _ hne => exact absurd h2 hne
  | prepare hs hp =>
    cases h with
    | over _ _ h2 => rcases h2 with h2 | h2 <;> [(rw [hs] at h2; cases h2.1); (rw [hs] at h2; cases h2)]
    | told t h1 h2 h3 hV h4 h5 =>
      obtain ⟨e1, e2⟩ := goal_sync h4
      cases hp with
      | transaction ht => rw [hf.closed] at ht; cases ht
      | both _ ha hb => exact absurd ⟨ha, hb⟩ e2
      | same e v u _ _ he hq =>
        have hst : ArmStill (e ++ readAll v ++ readAll u) :=
          armStill_still (RC.still_append (RC.still_append (RC.still_raw he) (RC.still_readAll v)) (RC.still_readAll u))
        exact .over t h1 (.inr rfl) (.inl (armStill_append.2 ⟨h5, hst⟩))
      | @start e v u n tr' _ _ _ he hq hn hst =>
        have hpre : ArmStill (mid ++ (e ++ readAll v ++ readAll u)) :=
          armStill_append.2 ⟨h5, armStill_still (RC.still_append (RC.still_append (RC.still_raw he) (RC.still_readAll v)) (RC.still_readAll u))⟩
        rw [← List.append_assoc]
        have hmeth : (RC.sync cfg r).method = .p2p := (RC.sync_same cfg r).2.1.trans h3
        have hvel : (RC.sync cfg r).maxVelocity = V := (sync_vel cfg r).trans hV
        have hn1 : n = 1 := by
          rcases hn with ⟨_, rfl⟩ | ⟨hl, _⟩
          · rfl
          · rw [h3] at hl; cases hl
        subst hn1
        rw [e1] at hq
        refine key hpre ?_ hq (r1 := { RC.sync cfg r with anglesChanged := false, poseChanged := false, startPose := cfg.fwd (cfg.p2l (curs v)), startAngles := cfg.p2l (curs u), step := 0, total := 1, state := .startMove })
          rfl e1 hvel hmeth rfl h1 hst
        intro i; simp only [List.mem_append]; exact .inr (.inr (mem_readAll u i))
where
  key {cfg : RCfg F} {L U : Six F} {V : F} {T : Six F → Prop} {pre : List (Act F)} {u : Fin 6 → Servo F} {t : Six F} (hpre : ArmStill pre) (hu : ∀ i, .servo (armServo i) (u i) ∈ pre)
      (hq : RC.anglesEqual (cfg.p2l (curs u)) t = false) {r1 r' : RC F} (g1 : r1.startAngles = cfg.p2l (curs u)) (g2 : r1.targetAngles = t) (g3 : r1.maxVelocity = V) (hmeth : r1.method = .p2p)
      (hst : r1.step + 1 = r1.total) (h1 : T t) {tr : List (Act F)} (h : RC.Start cfg L U r1 tr r') : Run cfg V T (pre ++ tr) r' := by
    cases h with
    | unreachable _ _ hm => rw [hmeth] at hm; cases hm
    | linear hm => rw [hmeth] at hm; cases hm
    | singular hm => rw [hmeth] at hm; cases hm
    | @p2p tr2 _ hm hc =>
      have hpl : FloatOps.mul (FloatOps.div r1.maxAngleChange r1.maxVelocity) radToDeg = planned V (cfg.p2l (curs u)) t := by
        rw [g3, RC.maxAngleChange, g1, g2]; rfl
      rw [hpl, g2] at hc
      rw [hpl]
      have hout : ∀ o : Out F, ArmStill [Act.out o] := fun o => armStill_still (RC.still_out1 o)
      cases hc with
      | refused l v' u' hnf hl =>
        refine .over t h1 (.inr rfl) (.inl (armStill_append.2 ⟨hpre, ?_⟩))
        exact armStill_append (a := [_]).2 ⟨hout _, armStill_still (RC.still_append (RC.still_append (RC.still_reads hl) (RC.still_readAll v')) (RC.still_readAll u'))⟩
      | zero v' m' _ _ =>
        refine .over t h1 (.inl ⟨rfl, hst⟩) (.inl (armStill_append.2 ⟨hpre, ?_⟩))
        exact armStill_append (a := [_]).2 ⟨hout _, armStill_still (RC.still_append (RC.still_readAll v') (RC.still_readAll m'))⟩
      | moved v' m' x y _ _ =>
        refine .over t h1 (.inl ⟨rfl, hst⟩) (.inr ⟨pre ++ .out (.raw (.moveInTime (planned V (cfg.p2l (curs u)) t))) :: readAll v' ++ readAll m', [], u, m', x, y, ?_, armStill_nil, ?_, ?_, hq, ?_⟩)
        · refine armStill_append.2 ⟨armStill_append.2 ⟨hpre, ?_⟩, armStill_still (RC.still_readAll m')⟩
          exact armStill_append (a := [_]).2 ⟨hout _, armStill_still (RC.still_readAll v')⟩
        · intro i; simp only [List.mem_append]; exact .inl (.inl (hu i))
        · intro i; simp only [List.mem_append]; exact .inr (mem_readAll m' i)
        · simp

theorem Run.stop {cfg : RCfg F} {V : F} {T : Six F → Prop} {mid : List (Act F)} {r : RC F} (h : Run cfg V T mid r) (hs : r.state = .idle) :
    ∃ t, T t ∧ (ArmStill mid ∨ Sped cfg V t mid) := by
  cases h with
  | told _ _ h2 => rw [hs] at h2; cases h2
  | over t h1 _ h3 => exact ⟨t, h1, h3⟩

theorem run_phases {cfg : Cfg F} {L U : Six F} {m : List Byte} {V : F} {X : Prop} {T : Six F → Prop}
    (hb : ∀ {c c' tr}, Fl c.rc → c.rc.state = .idle → Exec (Mril.parse cfg c m) tr (.ret c') →
      c'.rc.state = .prepareMove ∧ c'.rc.method = .p2p ∧ c'.rc.maxVelocity = V ∧ (X ∨ ∃ t, T t ∧ Goal cfg.toRCfg c'.rc t)) :
    Phases cfg L U m (fun mid => X ∨ ∃ t, T t ∧ (ArmStill mid ∨ Sped cfg.toRCfg V t mid)) (fun mid r => X ∨ Run cfg.toRCfg V T mid r) where
  step hf h hp := h.imp id fun h => h.step hf hp
  stop h hs := h.imp id fun h => h.stop hs
  skip h ht := h.imp id fun h => h.append (armStill_quiet ht)
  begins hf hs he := by
    obtain ⟨h1, h2, h3, h4⟩ := hb hf hs he
    refine h4.imp id fun ⟨t, ht, hg⟩ => .told t ht h1 h2 h3 hg (armStill_quiet fun a ha => (mril_not ((only_exec he (parse_only _ _ _)).1 a ha)).2.2)

end Told
end Mrc
