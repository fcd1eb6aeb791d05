import Verif.Proof.Told
/- What the instructions of C84-C86 tell the controller. -/
set_option linter.unusedSectionVars false
set_option linter.unusedSimpArgs false
namespace Mrc.Told
open Mrc Mrc.Prog Mrc.Spec Mrc.Props
open scoped Mrc.Num
variable {F : Type} [FloatOps F]

/-! ### the last command that names an axis -/

theorem last_snoc {N : Cmd → Fin 6 → Dec → Prop} {cs : List Cmd} {c : Cmd} {i : Fin 6} {d : Dec} :
    Last N (cs ++ [c]) i d ↔ N c i d ∨ ((∀ d', ¬ N c i d') ∧ Last N cs i d) := by
  constructor
  · rintro ⟨a, x, b, e, h1, h2⟩
    rcases List.eq_nil_or_concat b with rfl | ⟨b', y, rfl⟩
    · have := List.append_inj' e rfl
      simp only [List.cons.injEq, and_true] at this
      obtain ⟨_, rfl⟩ := this
      exact .inl h1
    · have e' : cs ++ [c] = (a ++ x :: b') ++ [y] := by rw [e]; simp
      obtain ⟨rfl, e2⟩ := List.append_inj' e' rfl
      simp only [List.cons.injEq, and_true] at e2
      subst e2
      exact .inr ⟨h2 c (by simp), a, x, b', rfl, h1, fun c' hc => h2 c' (by simp [hc])⟩
  · rintro (h | ⟨h, a, x, b, rfl, h1, h2⟩)
    · exact ⟨cs, c, [], by simp, h, by simp⟩
    · refine ⟨a, x, b ++ [c], by simp, h1, fun c' hc => ?_⟩
      rcases List.mem_append.1 hc with hc | hc
      · exact h2 c' hc
      · rw [List.mem_singleton.1 hc]; exact h

theorem not_last {N : Cmd → Fin 6 → Dec → Prop} {cs : List Cmd} {i : Fin 6} (h : ¬ ∃ d, Last N cs i d) : ∀ c ∈ cs, ∀ d, ¬ N c i d := by
  induction cs using List.reverseRecOn with
  | nil => simp
  | append_singleton cs c ih =>
    have hc : ∀ d, ¬ N c i d := fun d hd => h ⟨d, last_snoc.2 (.inl hd)⟩
    have := ih fun ⟨d, hd⟩ => h ⟨d, last_snoc.2 (.inr ⟨hc, hd⟩)⟩
    intro x hx
    rcases List.mem_append.1 hx with hx | hx
    · exact this x hx
    · rw [List.mem_singleton.1 hx]; exact hc

theorem digitChar_inj {a b : Fin 10} (h : digitChar a = digitChar b) : a = b := by
  revert h; revert a b; decide
theorem poseLetter_inj {a b : Fin 6} (h : poseLetter a = poseLetter b) : a = b := by
  revert h; revert a b; decide
theorem poseIdx_letter (i : Fin 6) : poseIdx (poseLetter i) = some i := by
  revert i; decide
theorem poseIdx_some {c : Byte} {i : Fin 6} (h : poseIdx c = some i) : c = poseLetter i := by
  simp only [poseIdx] at h
  repeat' split at h
  all_goals first
    | (cases h; done)
    | (injection h with h; subst h; simp_all [poseLetter])

theorem not_angle {c : Cmd} (h : c.letter ≠ 82) (i : Fin 6) (d : Dec) : ¬ NamesAngle c i d := by
  rintro ⟨_, rfl⟩; exact h rfl
theorem not_pose {c : Cmd} (h : poseIdx c.letter = none) (i : Fin 6) (d : Dec) : ¬ NamesPose c i d := by
  rintro ⟨_, rfl⟩; rw [poseIdx_letter] at h; cases h

theorem dec_ne_nil {d : Dec} (h : d.Ok) : d.text ≠ [] := by
  intro e
  simp only [Dec.text, List.append_eq_nil_iff] at e
  rcases h with h | ⟨f, h1, h2⟩
  · exact h (List.map_eq_nil_iff.1 e.1.2)
  · rw [h1] at e; simp at e

/-! ### one command -/

/-- the rest of the controller. -/
def Same (r r' : RC F) : Prop := r'.targetAngles = r.targetAngles ∧ r'.targetPose = r.targetPose ∧ r'.anglesChanged = r.anglesChanged ∧ r'.poseChanged = r.poseChanged ∧ r'.state = r.state

theorem exec_rc_other (cfg : Cfg F) (s : Core F) (l : Loc F) (tok : List Byte) (h1 : tok.headD 0 ≠ 77) (h2 : tok.headD 0 ≠ 86) (h3 : tok.headD 0 ≠ 82)
    (h5 : poseIdx (tok.headD 0) = none) : (Mril.exec cfg s l tok).only (fun _ => True) (fun r => r.1.rc = s.rc) := by
  have h5' : ∀ i, poseIdx (tok.headD 0) ≠ some i := fun i => by rw [h5]; simp
  exec_leaves
  all_goals first
    | contradiction
    | exact absurd ‹poseIdx (tok.headD 0) = some _› (h5' _)
    | exact rfl
    | exact fun _ => ⟨trivial, rfl⟩
    | exact ⟨trivial, rfl⟩
    | exact ⟨trivial, trivial, rfl⟩
    | trivial

theorem exec_rc_V (cfg : Cfg F) (s : Core F) (l : Loc F) (arg : List Byte) :
    (Mril.exec cfg s l (86 :: arg)).only (fun _ => True) (fun r => Same s.rc r.1.rc ∧ r.1.rc.method = s.rc.method) := by
  cases arg with
  | nil =>
    have e : Mril.exec cfg s l [86] = .ret (s, { l with ctype := .read, resp := l.resp ++ [.velocity s.rc.maxVelocity] }) := by simp [Mril.exec]
    rw [e]; exact ⟨⟨rfl, rfl, rfl, rfl, rfl⟩, rfl⟩
  | cons b bs =>
    have e : Mril.exec cfg s l (86 :: b :: bs) = .micro 6 (.setVel (atof (b :: bs))) (.micro 7 (.setVel (atof (b :: bs)))
        (.ret ({ s with rc := s.rc.setMaxVelocity (atof (b :: bs)) }, { l with ctype := .write }))) := by
      simp [Mril.exec, doMicro, Prog.bind]
    rw [e]; exact ⟨trivial, trivial, ⟨rfl, rfl, rfl, rfl, rfl⟩, rfl⟩

theorem exec_rc_M (cfg : Cfg F) (s : Core F) (l : Loc F) (arg : List Byte) :
    (Mril.exec cfg s l (77 :: arg)).only (fun _ => True) (fun r => Same s.rc r.1.rc ∧ (arg = [] → r.1.rc.method = s.rc.method) ∧
      (arg = [48] → r.1.rc.method = .p2p) ∧ (arg = [49] → r.1.rc.method = .linear)) := by
  cases arg with
  | nil =>
    have e : Mril.exec cfg s l [77] = .ret (s, { l with ctype := .read, resp := l.resp ++ [.method s.rc.method.code] }) := by simp [Mril.exec]
    rw [e]; exact ⟨⟨rfl, rfl, rfl, rfl, rfl⟩, fun _ => rfl, fun h => (by cases h), fun h => (by cases h)⟩
  | cons b bs =>
    have e : Mril.exec cfg s l (77 :: b :: bs) = if u32OfInt (atol (b :: bs)) = 0 then .ret ({ s with rc := s.rc.setMovementMethod .p2p }, { l with ctype := .write })
        else if u32OfInt (atol (b :: bs)) = 1 then .ret ({ s with rc := s.rc.setMovementMethod .linear }, { l with ctype := .write }) else .ret (s, { l with ctype := .write }) := by
      simp [Mril.exec]
    rw [e]
    have h0 : u32OfInt (atol [48]) = 0 := by decide
    have h1 : u32OfInt (atol [49]) = 1 := by decide
    split
    · rename_i hz
      refine ⟨⟨rfl, rfl, rfl, rfl, rfl⟩, fun h => (by cases h), fun _ => rfl, fun h => ?_⟩
      rw [h, h1] at hz; cases hz
    · rename_i hz
      split
      · exact ⟨⟨rfl, rfl, rfl, rfl, rfl⟩, fun h => (by cases h), fun h => absurd (by rw [h]; exact h0) hz, fun _ => rfl⟩
      · rename_i hz1
        exact ⟨⟨rfl, rfl, rfl, rfl, rfl⟩, fun h => (by cases h), fun h => absurd (by rw [h]; exact h0) hz, fun h => absurd (by rw [h]; exact h1) hz1⟩

theorem getPose_only (cfg : RCfg F) : (RC.getCurrentPose cfg).only (fun _ => True) (fun _ => True) := by
  unfold RC.getCurrentPose
  rw [bind_def, only_bind]
  exact only_mono (fun _ _ => trivial) (fun _ _ => trivial) RC.readAngles_only

theorem getLogical_only (cfg : RCfg F) : (RC.getCurrentLogicalAngles cfg).only (fun _ => True) (fun _ => True) := by
  unfold RC.getCurrentLogicalAngles
  rw [bind_def, only_bind]
  exact only_mono (fun _ _ => trivial) (fun _ _ => trivial) RC.readAngles_only

theorem exec_rc_pose (cfg : Cfg F) (s : Core F) (l : Loc F) (i : Fin 6) (arg : List Byte) (ha : NumArg (fun _ => True) arg) :
    (Mril.exec cfg s l (poseLetter i :: arg)).only (fun _ => True) (fun r => (arg = [] → r.1.rc = s.rc) ∧
      ∀ d : Dec, d.Ok → arg = d.text → r.1.rc = s.rc.setTargetPoseAt i (coordinate i d)) := by
  have hi := poseIdx_letter i
  have h77 : poseLetter i ≠ 77 := by revert i; decide
  have h86 : poseLetter i ≠ 86 := by revert i; decide
  have h78 : poseLetter i ≠ 78 := by revert i; decide
  cases arg with
  | nil =>
    have e : Mril.exec cfg s l [poseLetter i] = (RC.getCurrentPose cfg.toRCfg).bind fun p =>
        .ret (s, { l with ctype := .read, resp := l.resp ++ [.pose (poseLetter i) (if i.val < 3 then p i else p i * radToDeg)] }) := by
      simp [Mril.exec, h77, h86, h78, hi]
    rw [e, only_bind]
    refine only_mono (fun _ _ => trivial) (fun p _ => ⟨fun _ => rfl, fun d hd e => absurd e.symm (dec_ne_nil hd)⟩) (getPose_only cfg.toRCfg)
  | cons b bs =>
    have e : Mril.exec cfg s l (poseLetter i :: b :: bs) =
        .ret ({ s with rc := (s.rc.setTargetPoseAt i (if i.val < 3 then atof (b :: bs) else atof (b :: bs) * degToRad)) }, { l with ctype := .write }) := by
      simp [Mril.exec, h77, h86, h78, hi]
    rw [e]
    refine ⟨fun h => (by cases h), fun d _ hd => ?_⟩
    rw [hd]; rfl

theorem exec_rc_R (cfg : Cfg F) (s : Core F) (l : Loc F) (o : Fin 10) (rest : List Byte) :
    (Mril.exec cfg s l (82 :: digitChar o :: rest)).only (fun _ => True) (fun r => (rest = [] ∨ 6 ≤ o.val → r.1.rc = s.rc) ∧
      ∀ i : Fin 6, o.val = i.val → rest ≠ [] → r.1.rc = s.rc.setTargetLogicalAngle i (atof rest * degToRad)) := by
  have hopt : optionAt (82 :: digitChar o :: rest) 1 = some o.val := optionAt_digit _ 1 o.val o.isLt rfl
  have hp : poseIdx 82 = none := by decide
  by_cases h6 : 6 ≤ o.val
  · have hno : ∀ i : Fin 6, o.val = i.val → rest ≠ [] → False := fun i h => by omega
    cases hax : axisServo o.val with
    | none =>
      cases rest with
      | nil =>
        have e : Mril.exec cfg s l [82, digitChar o] = .fault .oobRead := by
          simp [Mril.exec, hopt, hp, h6, hax]
        rw [e]; trivial
      | cons b bs =>
        have e : Mril.exec cfg s l (82 :: digitChar o :: b :: bs) = .fault .oobRead := by
          simp [Mril.exec, hopt, hp, h6, hax]
        rw [e]; trivial
    | some a =>
      cases rest with
      | nil =>
        have e : Mril.exec cfg s l [82, digitChar o] = .servo a fun v => .ret (s, { l with ctype := .read, resp := l.resp ++ [.angle o.val (v.cur * radToDeg)] }) := by
          simp [Mril.exec, hopt, hp, h6, hax, readServo, Prog.bind]
        rw [e]; exact fun v => ⟨trivial, fun _ => rfl, fun i h h' => (hno i h h').elim⟩
      | cons b bs =>
        have e : Mril.exec cfg s l (82 :: digitChar o :: b :: bs) = .servo a fun v => .micro a (.setStart v.cur) (.micro a .zeroElapsed
            (.micro a (.setTarget (atof (b :: bs) / lit 180 * FloatOps.pi)) (.ret (s, { l with ctype := .write })))) := by
          simp [Mril.exec, hopt, hp, h6, hax, readServo, doMicro, Mril.setAxis, Prog.bind]
        rw [e]; exact fun v => ⟨trivial, trivial, trivial, trivial, fun _ => rfl, fun i h h' => (hno i h h').elim⟩
  · obtain ⟨i, har⟩ : ∃ a, armAxis o.val = some a := by
      rw [armAxis, dif_pos (by omega)]; exact ⟨_, rfl⟩
    cases rest with
    | nil =>
      have e : Mril.exec cfg s l [82, digitChar o] = (RC.getCurrentLogicalAngles cfg.toRCfg).bind fun a =>
          .ret (s, { l with ctype := .read, resp := l.resp ++ [.angle o.val (a i * radToDeg)] }) := by
        simp [Mril.exec, hopt, hp, h6, har]
      rw [e, only_bind]
      refine only_mono (fun _ _ => trivial) (fun p _ => ⟨fun _ => rfl, fun _ _ h => absurd rfl h⟩) (getLogical_only cfg.toRCfg)
    | cons b bs =>
      have e : Mril.exec cfg s l (82 :: digitChar o :: b :: bs) =
          .ret ({ s with rc := s.rc.setTargetLogicalAngle i (atof (b :: bs) * degToRad) }, { l with ctype := .write }) := by
        simp [Mril.exec, hopt, hp, h6, har]
      rw [e]
      refine ⟨fun h => ?_, fun j hj _ => ?_⟩
      · rcases h with h | h
        · cases h
        · exact absurd h h6
      · rw [armAxis, dif_pos (by omega)] at har
        have : i = j := by injection har with har; subst har; exact Fin.ext hj
        subst this; rfl

/-! ### all commands -/

/-- the effect of one command on the controller. -/
structure Eff (c : Cmd) (r r' : RC F) : Prop where
  ang : ∀ i d, NamesAngle c i d → r' = r.setTargetLogicalAngle i (angle d)
  pos : ∀ i d, NamesPose c i d → r' = r.setTargetPoseAt i (coordinate i d)
  same : (∀ i d, ¬ NamesAngle c i d) → (∀ i d, ¬ NamesPose c i d) → Same r r'
  meth : c.letter ≠ 77 ∨ c.arg = [] → r'.method = r.method
  m0 : c = ⟨77, [48]⟩ → r'.method = .p2p
  m1 : c = ⟨77, [49]⟩ → r'.method = .linear

theorem same_refl (r : RC F) : Same r r := ⟨rfl, rfl, rfl, rfl, rfl⟩

/-- one command at the start of an instruction that is plain. -/
structure Plain1 (c : Cmd) : Prop where
  ok : c.Ok
  axis : c.letter = 82 → ∃ (o : Fin 10) (rest : List Byte), c.arg = digitChar o :: rest ∧ NumArg (fun _ => True) rest
  pose : ∀ i, c.letter = poseLetter i → NumArg (fun _ => True) c.arg

theorem exec_eff (cfg : Cfg F) (s : Core F) (l : Loc F) (c : Cmd) (h : Plain1 c) :
    (Mril.exec cfg s l c.text).only (fun _ => True) (fun r => Eff c s.rc r.1.rc) := by
  obtain ⟨letter, arg⟩ := c
  by_cases h77 : letter = 77
  · subst h77
    refine only_mono (fun _ h => h) (fun r ⟨h1, h2, h3, h4⟩ => ?_) (exec_rc_M cfg s l arg)
    refine ⟨fun i d hn => absurd hn (not_angle (by dsimp only; decide) i d), fun i d hn => absurd hn (not_pose (show poseIdx _ = none by dsimp only; decide) i d), fun _ _ => h1, fun h => ?_, fun h => ?_, fun h => ?_⟩
    · exact h2 (h.resolve_left (by simp))
    · exact h3 (by injection h)
    · exact h4 (by injection h)
  have hm0 : ∀ (b : Byte), (⟨letter, arg⟩ : Cmd) = ⟨77, [b]⟩ → False := by
    intro b e; injection e with e; exact h77 e
  by_cases h86 : letter = 86
  · subst h86
    refine only_mono (fun _ h => h) (fun r ⟨h1, h2⟩ => ?_) (exec_rc_V cfg s l arg)
    exact ⟨fun i d hn => absurd hn (not_angle (by dsimp only; decide) i d), fun i d hn => absurd hn (not_pose (show poseIdx _ = none by dsimp only; decide) i d), fun _ _ => h1, fun _ => h2,
      fun h => (hm0 _ h).elim, fun h => (hm0 _ h).elim⟩
  by_cases h82 : letter = 82
  · subst h82
    obtain ⟨o, rest, e, hn⟩ := h.axis rfl
    simp only at e
    subst e
    refine only_mono (fun _ h => h) (fun r ⟨h1, h2⟩ => ?_) (exec_rc_R cfg s l o rest)
    refine ⟨fun i d hn => ?_, fun i d hn => absurd hn (not_pose (show poseIdx _ = none by dsimp only; decide) i d), fun hna _ => ?_, fun _ => ?_, fun h => (hm0 _ h).elim, fun h => (hm0 _ h).elim⟩
    · obtain ⟨hd, e⟩ := hn
      simp only [Cmd.mk.injEq, List.cons.injEq, true_and] at e
      obtain ⟨e1, rfl⟩ := e
      have := digitChar_inj e1
      subst this
      exact h2 i rfl (dec_ne_nil hd)
    · rw [h1]
      · exact same_refl _
      · rcases hn with hn | ⟨d, hd, rfl, _⟩
        · exact .inl hn
        · by_contra hc
          exact hna ⟨o.val, by omega⟩ d ⟨hd, rfl⟩
    · by_cases hr : rest = [] ∨ 6 ≤ o.val
      · rw [h1 hr]
      · rw [h2 ⟨o.val, by omega⟩ rfl (fun e => hr (.inl e))]; rfl
  cases hp : poseIdx letter with
  | none =>
    refine only_mono (fun _ h => h) (fun r h1 => ?_) (exec_rc_other cfg s l (letter :: arg) h77 h86 h82 hp)
    rw [h1]
    exact ⟨fun i d hn => absurd hn (not_angle h82 i d), fun i d hn => absurd hn (not_pose hp i d), fun _ _ => same_refl _, fun _ => rfl,
      fun h => (hm0 _ h).elim, fun h => (hm0 _ h).elim⟩
  | some i =>
    have := poseIdx_some hp
    subst this
    have hn := h.pose i rfl
    refine only_mono (fun _ h => h) (fun r ⟨h1, h2⟩ => ?_) (exec_rc_pose cfg s l i arg hn)
    refine ⟨fun i d hn => absurd hn (not_angle h82 i d), fun j d hn => ?_, fun _ hna => ?_, fun _ => ?_, fun h => (hm0 _ h).elim, fun h => (hm0 _ h).elim⟩
    · obtain ⟨hd, e⟩ := hn
      simp only [Cmd.mk.injEq] at e
      obtain ⟨e1, rfl⟩ := e
      have := poseLetter_inj e1
      subst this
      exact h2 d hd rfl
    · simp only at hn
      rcases hn with hn | ⟨d, hd, rfl, _⟩
      · rw [h1 hn]; exact same_refl _
      · exact absurd ⟨hd, rfl⟩ (hna i d)
    · simp only at hn
      rcases hn with hn | ⟨d, hd, rfl, _⟩
      · rw [h1 hn]
      · rw [h2 d hd rfl]; rfl

/-- what the controller knows after the commands `cs`; `r0` before. -/
structure Tell (cs : List Cmd) (r0 r : RC F) : Prop where
  ang : ∀ i d, Last NamesAngle cs i d → r.targetAngles i = angle d
  angKeep : ∀ i, (∀ c ∈ cs, ∀ d, ¬ NamesAngle c i d) → r.targetAngles i = r0.targetAngles i
  pos : ∀ i d, Last NamesPose cs i d → r.targetPose i = coordinate i d
  posKeep : ∀ i, (∀ c ∈ cs, ∀ d, ¬ NamesPose c i d) → r.targetPose i = r0.targetPose i
  angC : r.anglesChanged = true ↔ ∃ c ∈ cs, ∃ i d, NamesAngle c i d
  posC : r.poseChanged = true ↔ ∃ c ∈ cs, ∃ i d, NamesPose c i d
  st : (∃ c ∈ cs, (∃ i d, NamesAngle c i d) ∨ ∃ i d, NamesPose c i d) → r.state = .prepareMove
  m0 : Chooses 48 cs → r.method = .p2p
  m1 : Chooses 49 cs → r.method = .linear

theorem last_nil {N : Cmd → Fin 6 → Dec → Prop} {i : Fin 6} {d : Dec} : ¬ Last N [] i d := by
  rintro ⟨a, x, b, e, _⟩
  have := congrArg List.length e
  simp at this

theorem choose_snoc {b : Byte} {cs : List Cmd} {c : Cmd} {r r' : RC F} {M : Method} (h : Chooses b (cs ++ [c])) (ih : Chooses b cs → r.method = M)
    (hm : c.letter ≠ 77 ∨ c.arg = [] → r'.method = r.method) (hb : c = ⟨77, [b]⟩ → r'.method = M) : r'.method = M := by
  by_cases hc : c = ⟨77, [b]⟩
  · exact hb hc
  · have h1 : c.letter ≠ 77 ∨ c.arg = [] := by
      by_cases hl : c.letter = 77
      · rcases h.2 c (by simp) hl with h' | h'
        · exact .inr h'
        · exfalso; apply hc; cases c; simp_all
      · exact .inl hl
    rw [hm h1]
    refine ih ⟨?_, fun x hx => h.2 x (by simp [hx])⟩
    obtain ⟨x, hx, e⟩ := h.1
    rcases List.mem_append.1 hx with hx | hx
    · exact ⟨x, hx, e⟩
    · rw [List.mem_singleton.1 hx] at e; exact absurd e hc

theorem Tell.snoc {cs : List Cmd} {c : Cmd} {r0 r r' : RC F} (h : Tell cs r0 r) (e : Eff c r r') : Tell (cs ++ [c]) r0 r' := by
  have hm0 : Chooses 48 (cs ++ [c]) → r'.method = .p2p := fun hc => choose_snoc hc h.m0 e.meth e.m0
  have hm1 : Chooses 49 (cs ++ [c]) → r'.method = .linear := fun hc => choose_snoc hc h.m1 e.meth e.m1
  by_cases ha : ∃ i d, NamesAngle c i d
  · obtain ⟨i, d, hn⟩ := ha
    have hc := hn
    have hl : c.letter = 82 := by rw [hn.2]
    have hp : ∀ j d', ¬ NamesPose c j d' := not_pose (by rw [hl]; decide)
    have hu : ∀ j d', NamesAngle c j d' → j = i := by
      intro j d' hn'
      have := hn'.2.symm.trans hn.2
      simp only [Cmd.mk.injEq, List.cons.injEq, true_and] at this
      have := digitChar_inj this.1
      simp only [Fin.mk.injEq] at this
      exact Fin.ext this
    have he := e.ang i d hn
    refine ⟨fun j d' hL => ?_, fun j hk => ?_, fun j d' hL => ?_, fun j hk => ?_, ?_, ?_, fun _ => by rw [he]; rfl, hm0, hm1⟩
    · rcases last_snoc.1 hL with hL | ⟨hno, hL⟩
      · have := hu _ _ hL
        subst this
        rw [e.ang j d' hL]; simp [RC.setTargetLogicalAngle, RC.upd]
      · have : j ≠ i := by rintro rfl; exact hno d hn
        rw [he]; simp only [RC.setTargetLogicalAngle, RC.upd, if_neg this]; exact h.ang j d' hL
    · have : j ≠ i := by rintro rfl; exact hk c (by simp) d hn
      rw [he]; simp only [RC.setTargetLogicalAngle, RC.upd, if_neg this]; exact h.angKeep j fun x hx => hk x (by simp [hx])
    · rcases last_snoc.1 hL with hL | ⟨hno, hL⟩
      · exact absurd hL (hp _ _)
      · rw [he]; exact h.pos j d' hL
    · rw [he]; exact h.posKeep j fun x hx => hk x (by simp [hx])
    · rw [he]; simp only [RC.setTargetLogicalAngle, true_iff]; exact ⟨c, by simp, i, d, hn⟩
    · rw [he]; show r.poseChanged = true ↔ _
      rw [h.posC]
      constructor
      · rintro ⟨x, hx, y⟩; exact ⟨x, by simp [hx], y⟩
      · rintro ⟨x, hx, y⟩
        rcases List.mem_append.1 hx with hx | hx
        · exact ⟨x, hx, y⟩
        · rw [List.mem_singleton.1 hx] at y; obtain ⟨j, d', y⟩ := y; exact absurd y (hp _ _)
  by_cases hb : ∃ i d, NamesPose c i d
  · obtain ⟨i, d, hn⟩ := hb
    have hl : c.letter = poseLetter i := by rw [hn.2]
    have hp : ∀ j d', ¬ NamesAngle c j d' := fun j d' hx => ha ⟨j, d', hx⟩
    have hu : ∀ j d', NamesPose c j d' → j = i := by
      intro j d' hn'
      have := hn'.2.symm.trans hn.2
      simp only [Cmd.mk.injEq] at this
      exact poseLetter_inj this.1
    have he := e.pos i d hn
    refine ⟨fun j d' hL => ?_, fun j hk => ?_, fun j d' hL => ?_, fun j hk => ?_, ?_, ?_, fun _ => by rw [he]; rfl, hm0, hm1⟩
    · rcases last_snoc.1 hL with hL | ⟨hno, hL⟩
      · exact absurd hL (hp _ _)
      · rw [he]; exact h.ang j d' hL
    · rw [he]; exact h.angKeep j fun x hx => hk x (by simp [hx])
    · rcases last_snoc.1 hL with hL | ⟨hno, hL⟩
      · have := hu _ _ hL
        subst this
        rw [e.pos j d' hL]; simp [RC.setTargetPoseAt, RC.upd]
      · have : j ≠ i := by rintro rfl; exact hno d hn
        rw [he]; simp only [RC.setTargetPoseAt, RC.upd, if_neg this]; exact h.pos j d' hL
    · have : j ≠ i := by rintro rfl; exact hk c (by simp) d hn
      rw [he]; simp only [RC.setTargetPoseAt, RC.upd, if_neg this]; exact h.posKeep j fun x hx => hk x (by simp [hx])
    · rw [he]; show r.anglesChanged = true ↔ _
      rw [h.angC]
      constructor
      · rintro ⟨x, hx, y⟩; exact ⟨x, by simp [hx], y⟩
      · rintro ⟨x, hx, y⟩
        rcases List.mem_append.1 hx with hx | hx
        · exact ⟨x, hx, y⟩
        · rw [List.mem_singleton.1 hx] at y; obtain ⟨j, d', y⟩ := y; exact absurd y (hp _ _)
    · rw [he]; simp only [RC.setTargetPoseAt, true_iff]; exact ⟨c, by simp, i, d, hn⟩
  · obtain ⟨s1, s2, s3, s4, s5⟩ := e.same (fun i d hx => ha ⟨i, d, hx⟩) (fun i d hx => hb ⟨i, d, hx⟩)
    have hsplit : ∀ {P : Cmd → Prop}, ¬ P c → ((∃ x ∈ cs ++ [c], P x) ↔ ∃ x ∈ cs, P x) := by
      intro P hP
      constructor
      · rintro ⟨x, hx, y⟩
        rcases List.mem_append.1 hx with hx | hx
        · exact ⟨x, hx, y⟩
        · rw [List.mem_singleton.1 hx] at y; exact absurd y hP
      · rintro ⟨x, hx, y⟩; exact ⟨x, by simp [hx], y⟩
    refine ⟨fun j d' hL => ?_, fun j hk => ?_, fun j d' hL => ?_, fun j hk => ?_, ?_, ?_, fun hx => ?_, hm0, hm1⟩
    · rw [s1]; exact h.ang j d' ((last_snoc.1 hL).resolve_left fun hx => ha ⟨_, _, hx⟩).2
    · rw [s1]; exact h.angKeep j fun x hx => hk x (by simp [hx])
    · rw [s2]; exact h.pos j d' ((last_snoc.1 hL).resolve_left fun hx => hb ⟨_, _, hx⟩).2
    · rw [s2]; exact h.posKeep j fun x hx => hk x (by simp [hx])
    · rw [s3, h.angC]; exact (hsplit ha).symm
    · rw [s4, h.posC]; exact (hsplit hb).symm
    · rw [s5]; exact h.st ((hsplit (P := fun x => (∃ i d, NamesAngle x i d) ∨ ∃ i d, NamesPose x i d) (by rintro (hx | hx); exacts [ha hx, hb hx])).1 hx)

theorem execAll_tell (cfg : Cfg F) (cs : List Cmd) (h : ∀ c ∈ cs, Plain1 c) (done : List Cmd) (r0 : RC F) (s : Core F) (l : Loc F) (ht : Tell done r0 s.rc) :
    (execAll cfg cs s l).only (fun _ => True) (fun r => Tell (done ++ cs) r0 r.1.rc) := by
  induction cs generalizing done s l with
  | nil => rw [List.append_nil]; exact ht
  | cons c cs ih =>
    simp only [execAll]
    rw [only_bind]
    refine only_mono (fun _ h => h) (fun r hr => ?_) (exec_eff cfg s l c (h c (by simp)))
    have := ih (fun x hx => h x (by simp [hx])) (done ++ [c]) r.1 r.2 (ht.snoc hr)
    simpa using this

theorem plain1 {cs : List Cmd} (h : Plain cs) : ∀ c ∈ cs, Plain1 c := fun c hc => ⟨h.ok c hc, h.axis c hc, h.pose c hc⟩

/-- what the controller knows after the instruction. -/
theorem parse_tell (cfg : Cfg F) (cs : List Cmd) (h : Plain cs) (hne : cs ≠ []) (c : Core F) (hc : c.rc.anglesChanged = false ∧ c.rc.poseChanged = false) :
    (Mril.parse cfg c (text cs)).only (fun _ => True) (fun c' => Tell cs c.rc c'.rc) := by
  rw [parse_text cfg cs h.ok hne, only_bind]
  have ht : Tell [] c.rc c.rc.startTransaction :=
    ⟨fun _ _ h => absurd h last_nil, fun _ _ => rfl, fun _ _ h => absurd h last_nil, fun _ _ => rfl, by simp [RC.startTransaction, hc.1],
      by simp [RC.startTransaction, hc.2], by simp, fun h => (by obtain ⟨_, h, _⟩ := h.1; cases h), fun h => (by obtain ⟨_, h, _⟩ := h.1; cases h)⟩
  refine only_mono (fun _ h => h) (fun r hr => ?_) (execAll_tell cfg cs (plain1 h) [] c.rc { c with rc := c.rc.startTransaction } {} ht)
  rw [List.nil_append] at hr
  have hr' : Tell cs c.rc r.1.rc.endTransaction := ⟨hr.ang, hr.angKeep, hr.pos, hr.posKeep, hr.angC, hr.posC, hr.st, hr.m0, hr.m1⟩
  unfold Mril.finish
  simp only [send, bind_def, Prog.bind]
  split
  · exact ⟨trivial, hr'⟩
  · exact hr'
  · exact hr'

end Mrc.Told
