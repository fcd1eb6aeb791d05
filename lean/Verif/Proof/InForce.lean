import Verif.Spec.InForce
import Verif.Proof.Speed
import Verif.Proof.Pace
/-
The movement method and the speed in force (C123).
-/
set_option linter.unusedSimpArgs false
set_option linter.unusedSectionVars false
namespace Mrc.Told
open Mrc.Prog Mrc.Spec Mrc.Props
variable {F : Type} [FloatOps F]

/-- the speed of the controller when `v` has been told. -/
def speedOf : Option (List Byte) → F
  | none => lit 10
  | some a => atof a

set_option maxHeartbeats 1000000 in
theorem exec_meth_other (cfg : Cfg F) (s : Core F) (l : Loc F) (tok : List Byte) :
    (Mril.exec cfg s l tok).only (fun _ => True) (fun r => tok.headD 0 = 77 ∨ r.1.rc.method = s.rc.method) := by
  exec_leaves
  all_goals simp only [Prog.bind, only, true_and, forall_const]
  all_goals first
    | exact .inr rfl
    | exact .inr trivial
    | exact fun _ => .inr trivial
    | exact fun _ _ _ _ _ _ => .inr trivial
    | exact fun _ => .inr rfl
    | exact fun _ _ _ _ _ _ => .inr rfl
    | exact .inl ‹_›

/-- the method after a command. -/
theorem exec_meth (cfg : Cfg F) (s : Core F) (l : Loc F) (c : Cmd) (hM : c.letter = 77 → c.arg = [] ∨ c.arg = [48] ∨ c.arg = [49]) :
    (Mril.exec cfg s l c.text).only (fun _ => True) (fun r => r.1.rc.method.code = chosenBy s.rc.method.code c) := by
  obtain ⟨letter, arg⟩ := c
  by_cases h : letter = 77
  · subst h
    rcases hM rfl with h | h | h <;> (dsimp only at h; subst h)
    · simp [Mril.exec, Cmd.text, only, chosenBy]
    · have : u32OfInt (atol [48]) = 0 := by decide
      simp [Mril.exec, Cmd.text, only, chosenBy, this, RC.setMovementMethod, Method.code]
    · have : u32OfInt (atol [49]) = 1 := by decide
      simp [Mril.exec, Cmd.text, only, chosenBy, this, RC.setMovementMethod, Method.code]
  · have hk : chosenBy s.rc.method.code ⟨letter, arg⟩ = s.rc.method.code := by simp [chosenBy, h]
    rw [hk]
    exact only_mono (fun _ h => h) (fun r hr => congrArg _ (hr.resolve_left h)) (exec_meth_other cfg s l _)

theorem only_and {α : Type} {p : Prog F α} {K : Act F → Prop} {R R' : α → Prop} (h : p.only K R) (h' : p.only K R') : p.only K (fun a => R a ∧ R' a) := by
  induction p with
  | ret a => exact ⟨h, h'⟩
  | fault f => trivial
  | servo i k ih => exact fun v => ⟨(h v).1, ih v (h v).2 (h' v).2⟩
  | micro i m k ih => exact ⟨h.1, ih h.2 h'.2⟩
  | now k ih => exact fun v => ⟨(h v).1, ih v (h v).2 (h' v).2⟩
  | pin p k ih => exact fun v => ⟨(h v).1, ih v (h v).2 (h' v).2⟩
  | rx k ih => exact fun v => ⟨(h v).1, ih v (h v).2 (h' v).2⟩
  | eeRead k ih => exact fun v => ⟨(h v).1, ih v (h v).2 (h' v).2⟩
  | eeWrite a b k ih => exact ⟨h.1, ih h.2 h'.2⟩
  | out o k ih => exact ⟨h.1, ih h.2 h'.2⟩

/-- the controller has what is in force. -/
def Has (k : ℕ) (v : Option (List Byte)) (r : RC F) : Prop := r.method.code = k ∧ r.maxVelocity = speedOf v

theorem exec_has (cfg : Cfg F) (s : Core F) (l : Loc F) (c : Cmd) (hM : c.letter = 77 → c.arg = [] ∨ c.arg = [48] ∨ c.arg = [49]) {k : ℕ} {v : Option (List Byte)} (h : Has k v s.rc) :
    (Mril.exec cfg s l c.text).only (fun _ => True) (fun r => Has (chosenBy k c) (spokenBy v c) r.1.rc) := by
  refine only_mono (fun _ h => h) (fun r hr => ?_) (only_and (exec_meth cfg s l c hM) (exec_vel cfg s l c))
  obtain ⟨h1, h2⟩ := hr
  refine ⟨by rw [h1, h.1], ?_⟩
  rw [h2]
  unfold spokenBy
  split
  · rfl
  · exact h.2

theorem execAll_has (cfg : Cfg F) (cs : List Cmd) (hM : ClearM cs) (s : Core F) (l : Loc F) {k : ℕ} {v : Option (List Byte)} (h : Has k v s.rc) :
    (execAll cfg cs s l).only (fun _ => True) (fun r => Has (cs.foldl chosenBy k) (cs.foldl spokenBy v) r.1.rc) := by
  induction cs generalizing s l k v with
  | nil => exact h
  | cons c cs ih =>
    simp only [execAll]
    rw [only_bind]
    exact only_mono (fun _ h => h) (fun r hr => ih (fun x hx => hM x (by simp [hx])) r.1 r.2 hr) (exec_has cfg s l c (hM c (by simp)) h)

theorem parse_has (cfg : Cfg F) (cs : List Cmd) (h : ∀ c ∈ cs, c.Ok) (hne : cs ≠ []) (hM : ClearM cs) (c : Core F) {k : ℕ} {v : Option (List Byte)} (hk : Has k v c.rc) :
    (Mril.parse cfg c (text cs)).only (fun _ => True) (fun c' => Has (cs.foldl chosenBy k) (cs.foldl spokenBy v) c'.rc) := by
  rw [parse_text cfg cs h hne, only_bind]
  refine only_mono (fun _ h => h) (fun r hr => ?_) (execAll_has cfg cs hM { c with rc := c.rc.startTransaction } {} hk)
  unfold Mril.finish
  simp only [send, bind_def, Prog.bind]
  split
  · exact ⟨trivial, hr⟩
  · exact hr
  · exact hr


/-! ### histories -/

/-- what is in force after one more thing happened. -/
def gupd (G : ℕ → Option (List Byte) → Prop) : Act F → ℕ → Option (List Byte) → Prop
  | .out (.ghost _ x) => fun k' v' => ∃ cs k v, x = text cs ∧ (∀ c ∈ cs, c.Ok) ∧ cs ≠ [] ∧ ClearM cs ∧ G k v ∧ k' = cs.foldl chosenBy k ∧ v' = cs.foldl spokenBy v
  | _ => G

theorem gupd_other {G : ℕ → Option (List Byte) → Prop} {a : Act F} (h : ¬ isGhost a) : gupd G a = G := by
  unfold gupd
  split
  · exact absurd trivial h
  · rfl

theorem inForce_state {tr : List (Act F)} {k : ℕ} {v : Option (List Byte)} (h : InForce tr k v) : tr.foldl gupd (fun k v => k = 1 ∧ v = none) k v := by
  induction h with
  | boot => exact ⟨rfl, rfl⟩
  | @act _ _ _ a _ ha ih =>
    have hg : ¬ isGhost a := fun hg => by
      match a, hg with
      | .out (.ghost src m), _ => exact ha ⟨src, m, rfl⟩
    rw [List.foldl_append, List.foldl_cons, List.foldl_nil, gupd_other hg]
    exact ih
  | instr _ h1 h2 h3 ih =>
    rw [List.foldl_append, List.foldl_cons, List.foldl_nil]
    exact ⟨_, _, _, rfl, h1, h2, h3, ih, rfl, rfl⟩

abbrev St (F : Type) := (Prop × Option (List (Act F))) × (ℕ → Option (List Byte) → Prop)

open Classical in
/-- as `upd`, but only if `k` and `v` are in force when `m` is begun. -/
noncomputable def updF (m : List Byte) (k : ℕ) (v : Option (List Byte)) (g : St F) (a : Act F) : St F :=
  (((upd m g.1 a).1, if DirectsI a ∧ ¬ g.2 k v then none else (upd m g.1 a).2), gupd g.2 a)

noncomputable def monF (L U : Six F) (m : List Byte) (k : ℕ) (v : Option (List Byte)) (Φ : List (Act F) → Prop) : Mon F (St F) where
  upd := updF m k v
  env _ a := ∀ i s, a = .servo (armServo i) s → s.minA = L i ∧ s.maxA = U i
  ok g a := reports a → ∀ mid, g.1.2 = some mid → Φ mid

theorem updF_other {m : List Byte} {k : ℕ} {v : Option (List Byte)} {g : St F} {a : Act F} (h : ¬ isGhost a) : updF m k v g a = (upd m g.1 a, g.2) := by
  unfold updF
  rw [if_neg (fun h' => directs_ghost h h'.1), gupd_other h]

theorem foldl_updF {m : List Byte} {k : ℕ} {v : Option (List Byte)} {tr : List (Act F)} (h : ∀ a ∈ tr, ¬ isGhost a) (g : St F) : tr.foldl (updF m k v) g = (tr.foldl (upd m) g.1, g.2) := by
  induction tr generalizing g with
  | nil => rfl
  | cons a tr ih => rw [List.foldl_cons, updF_other (h a (by simp)), ih (fun b hb => h b (by simp [hb]))]; rfl

/-- `Phases`, when `k` and `v` are in force at the beginning. -/
structure PhasesF (cfg : Cfg F) (L U : Six F) (m : List Byte) (k : ℕ) (v : Option (List Byte)) (Φ : List (Act F) → Prop) (Ph : List (Act F) → RC F → Prop) : Prop where
  step : ∀ {mid r tr r'}, Fl r → Ph mid r → RC.Pro cfg.toRCfg L U r tr r' → Ph (mid ++ tr) r'
  stop : ∀ {mid r}, Ph mid r → r.state = .idle → Φ mid
  skip : ∀ {mid r tr}, Ph mid r → (∀ a ∈ tr, quiet a) → Ph (mid ++ tr) r
  begins : ∀ {c c' tr}, Fl c.rc → c.rc.state = .idle → Has k v c.rc → Exec (Mril.parse cfg c m) tr (.ret c') → Ph tr c'.rc

def IF (Ph : List (Act F) → RC F → Prop) (g : St F) (c : Core F) : Prop :=
  ((Fl c.rc ∧ ∀ mid, g.1.2 = some mid → Ph mid c.rc) ∧ (g.1.1 → c.rc.state = .idle)) ∧ ∀ k v, g.2 k v → Has k v c.rc

theorem coreF {cfg : Cfg F} {L U : Six F} {m : List Byte} {k : ℕ} {v : Option (List Byte)} {Φ : List (Act F) → Prop} {Ph : List (Act F) → RC F → Prop} (H : PhasesF cfg L U m k v Φ Ph) :
    CoreInv cfg (monF L U m k v Φ) (IF Ph) (fun g c => IF Ph g c ∧ (c.done = true → c.rc.state = .idle)) where
  flt _ := trivial
  weak _ _ h := h.1
  disp g c a h ha := by
    obtain ⟨h1, h2, h3⟩ := disp_not ha
    refine ⟨fun hr => absurd hr h2, ?_⟩
    show IF Ph (updF m k v g a) c
    rw [updF_other h1]
    refine ⟨⟨⟨h.1.1.1, fun mid e => ?_⟩, fun e => h.1.2 ?_⟩, h.2⟩
    · dsimp only at e
      rw [upd_other m g.1 (directs_ghost h1)] at e
      obtain ⟨mid', e', rfl⟩ := Option.map_eq_some_iff.1 e
      exact H.skip (h.1.1.2 _ e') (by simpa using h3)
    · dsimp only at e
      rwa [upd_calm m g.1 h1 (isN1_reports h2)] at e
  dispJ g c a h ha := by
    obtain ⟨h1, h2, h3⟩ := disp_not ha
    refine ⟨fun hr => absurd hr h2, ?_, h.2⟩
    have h := h.1
    show IF Ph (updF m k v g a) c
    rw [updF_other h1]
    refine ⟨⟨⟨h.1.1.1, fun mid e => ?_⟩, fun e => h.1.2 ?_⟩, h.2⟩
    · dsimp only at e
      rw [upd_other m g.1 (directs_ghost h1)] at e
      obtain ⟨mid', e', rfl⟩ := Option.map_eq_some_iff.1 e
      exact H.skip (h.1.1.2 _ e') (by simpa using h3)
    · dsimp only at e
      rwa [upd_calm m g.1 h1 (isN1_reports h2)] at e
  rc g c h := by
    refine wp_exec_intro (E := fun a => ∀ i s, a = .servo (armServo i) s → s.minA = L i ∧ s.maxA = U i) (fun _ => trivial) (fun _ _ h => h) ?_ ?_
    · intro tr a q he _ hr
      exact absurd hr (rc_not ((only_exec he (RC.process_only _ _)).1 a (by simp))).2
    · intro tr r he hE
      have hl : Limits L U tr := fun i s hs => hE _ hs rfl i s rfl
      have hp := RC.process_exec he hl
      have hk := only_exec he (RC.process_only _ _)
      have hg : ∀ a ∈ tr, ¬ isGhost a := fun a ha => (rc_not (hk.1 a ha)).1
      have hn : ∀ a ∈ tr, ¬ isN1 a := fun a ha => isN1_reports (rc_not (hk.1 a ha)).2
      show IF Ph (tr.foldl (updF m k v) g) _
      rw [foldl_updF hg]
      refine ⟨⟨⟨pro_fl hp h.1.1.1, fun mid e => ?_⟩, fun e => ?_⟩, fun k' v' hG => ?_⟩
      · dsimp only at e
        rw [foldl_upd m (fun a ha => directs_ghost (hg a ha))] at e
        obtain ⟨mid', e', rfl⟩ := Option.map_eq_some_iff.1 e
        exact H.step h.1.1.1 (h.1.1.2 _ e') hp
      · dsimp only at e
        rw [foldl_calm m hg hn] at e
        exact pro_idle hp (h.1.2 e)
      · obtain ⟨x1, x2⟩ := h.2 k' v' hG
        refine ⟨?_, ?_⟩
        · show r.method.code = k'; rw [hk.2.2.1]; exact x1
        · show r.maxVelocity = _; rw [hk.2.2.2]; exact x2
  parse g c x src h := by
    have hfl : IF Ph g c := by
      split at h
      · exact h
      · exact h.1.1
    refine ⟨fun hr mid e => ?_, ?_⟩
    · cases src with
      | immediate => exact hr.elim
      | queue => exact H.stop (hfl.1.1.2 mid e) (h.1.2 h.2)
      | eeprom => exact H.stop (hfl.1.1.2 mid e) (h.1.2 h.2)
    · refine wp_exec_intro (E := fun _ => True) (fun _ => trivial) (fun _ _ _ => trivial) ?_ ?_
      · intro tr a q he _ hr
        exact absurd hr (mril_not ((only_exec he (parse_only cfg c x)).1 a (by simp))).2.1
      · intro tr c' he _
        have hg : ∀ a ∈ tr, ¬ isGhost a := fun a ha => (mril_not ((only_exec he (parse_only cfg c x)).1 a ha)).1
        have hn : ∀ a ∈ tr, ¬ isN1 a := fun a ha => isN1_reports (mril_not ((only_exec he (parse_only cfg c x)).1 a ha)).2.1
        show IF Ph (tr.foldl (updF m k v) (updF m k v g (.out (.ghost src x)))) c'
        rw [foldl_updF hg]
        refine ⟨⟨⟨(only_exec he (parse_fl cfg c x hfl.1.1.1)).2, fun mid e => ?_⟩, fun e => ?_⟩, fun k' v' hG => ?_⟩
        · dsimp only at e
          rw [foldl_upd m (fun a ha => directs_ghost (hg a ha))] at e
          obtain ⟨mid', e', rfl⟩ := Option.map_eq_some_iff.1 e
          have hst : src ≠ .immediate → c.rc.state = .idle := by
            intro hs; rw [if_neg hs] at h; exact h.1.2 h.2
          simp only [updF] at e'
          split at e'
          · cases e'
          · rename_i hdG
            simp only [upd] at e'
            split at e'
            · rename_i hx
              obtain ⟨mid0, e0, rfl⟩ := Option.map_eq_some_iff.1 e'
              rw [(only_exec he (Asd.parse_aside cfg c hx hfl.1.1.1.closed)).2]
              refine H.skip (H.skip (hfl.1.1.2 _ e0) (by simp [quiet])) fun a ha => (mril_not ((only_exec he (parse_only cfg c x)).1 a ha)).2.2
            · rename_i hna
              split at e'
              · rename_i hx; obtain ⟨hb, rfl⟩ := hx; cases e'
                have hG : g.2 k v := by
                  by_contra hG
                  exact hdG ⟨⟨src, x, rfl, hna⟩, hG⟩
                exact H.begins hfl.1.1.1 (hb.elim hst hfl.1.2) (hfl.2 _ _ hG) he
              · cases e'
        · dsimp only at e
          rw [foldl_calm m hg hn] at e
          simp only [updF, upd] at e
          rw [(only_exec he (Asd.parse_state cfg c e.2)).2]
          exact hfl.1.2 e.1
        · obtain ⟨cs, k0, v0, rfl, h1, h2, h3, h4, rfl, rfl⟩ := hG
          exact (only_exec he (parse_has cfg cs h1 h2 h3 c (hfl.2 _ _ h4))).2
  check g c h := by
    refine wp_exec_intro (E := fun _ => True) (fun _ => trivial) (fun _ _ _ => trivial) ?_ ?_
    · intro tr a q he _ hr mid e
      have hk := (only_exec he (mrilProcess_only c)).1
      have hg : ∀ a ∈ tr, ¬ isGhost a := fun a ha => (check_not (hk a (by simp [ha]))).1
      have hq : ∀ a ∈ tr, quiet a := fun a ha => (check_not (hk a (by simp [ha]))).2
      change (List.foldl (updF m k v) g tr).1.2 = _ at e
      rw [foldl_updF hg] at e
      dsimp only at e
      rw [foldl_upd m (fun a ha => directs_ghost (hg a ha))] at e
      obtain ⟨mid', e', rfl⟩ := Option.map_eq_some_iff.1 e
      refine H.stop (H.skip (h.1.1.2 _ e') hq) ?_
      have hka := hk a (by simp)
      match a, hka, hr with
      | .out (.msg (.n1 n)), _, _ =>
        obtain ⟨c', rfl⟩ := check_n1 he n (by simp)
        have hmem : (Act.out (.msg (.n1 n)) : Act F) ∈ tr ++ [.out (.msg (.n1 n))] := by simp
        rcases process_spec _ _ _ he with ⟨_, _, _, _, e, _⟩ | ⟨_, e, _⟩ | ⟨hm, _⟩
        · rw [e] at hmem; simp [metRead, unmetRead] at hmem
        · rw [e] at hmem; simp [metRead] at hmem
        · simpa [RC.isMoving] using hm
    · intro tr c' he _
      have hk := (only_exec he (mrilProcess_only c))
      have hg : ∀ a ∈ tr, ¬ isGhost a := fun a ha => (check_not (hk.1 a ha)).1
      have hq : ∀ a ∈ tr, quiet a := fun a ha => (check_not (hk.1 a ha)).2
      have hrc : c'.rc = c.rc := hk.2.1
      have hcase : c.rc.state = .idle ∨ (∀ a ∈ tr, ¬ isN1 a) ∧ c'.done = false := by
        rcases process_spec _ _ _ he with ⟨_, _, _, _, e1, e2⟩ | ⟨_, e1, e2⟩ | ⟨hm, _⟩
        · refine .inr ⟨fun a ha hn => ?_, by rw [e2]⟩
          match a, hn with
          | .out (.msg (.n1 n)), _ => rw [e1] at ha; simp [metRead, unmetRead] at ha
        · refine .inr ⟨fun a ha hn => ?_, by rw [e2]⟩
          match a, hn with
          | .out (.msg (.n1 n)), _ => rw [e1] at ha; simp [metRead] at ha
        · exact .inl (by simpa [RC.isMoving] using hm)
      refine ⟨?_, fun hd => ?_⟩
      · show IF Ph (tr.foldl (updF m k v) g) c'
        rw [foldl_updF hg]
        refine ⟨⟨⟨by rw [hrc]; exact h.1.1.1, fun mid e => ?_⟩, fun e => ?_⟩, fun k' v' hG => by rw [hrc]; exact h.2 k' v' hG⟩
        · dsimp only at e
          rw [foldl_upd m (fun a ha => directs_ghost (hg a ha))] at e
          obtain ⟨mid', e', rfl⟩ := Option.map_eq_some_iff.1 e
          rw [hrc]
          exact H.skip (h.1.1.2 _ e') hq
        · rw [hrc]
          rcases hcase with hc | ⟨hc, _⟩
          · exact hc
          · dsimp only at e
            rw [foldl_calm m hg hc] at e
            exact h.1.2 e
      · rw [hrc]
        rcases hcase with hc | ⟨_, hc⟩
        · exact hc
        · rw [hc] at hd; cases hd

theorem foldl_updF_snd {m : List Byte} {k : ℕ} {v : Option (List Byte)} (tr : List (Act F)) (g : St F) : (tr.foldl (updF m k v) g).2 = tr.foldl gupd g.2 := by
  induction tr generalizing g with
  | nil => rfl
  | cons a tr ih => rw [List.foldl_cons, List.foldl_cons, ih]; rfl

theorem foldl_updF_calm {m : List Byte} {k : ℕ} {v : Option (List Byte)} (tr : List (Act F)) (g : St F) (g' : Prop × Option (List (Act F))) (h : g.1.1 = g'.1) :
    (tr.foldl (updF m k v) g).1.1 = (tr.foldl (upd m) g').1 := by
  induction tr generalizing g g' with
  | nil => exact h
  | cons a tr ih =>
    rw [List.foldl_cons, List.foldl_cons]
    refine ih _ _ ?_
    show (upd m g.1 a).1 = _
    unfold upd
    split
    · simp [h]
    · rfl
    · exact h

/-- `sound`, when `k` and `v` are in force at the beginning. -/
theorem soundF {cfg : Cfg F} {L U : Six F} {m : List Byte} {k : ℕ} {v : Option (List Byte)} {Φ : List (Act F) → Prop} {Ph : List (Act F) → RC F → Prop} (H : PhasesF cfg L U m k v Φ Ph)
    {junk : Nat → Byte} {tr : List (Act F)} {p : Prog F (FW F)} (h : Trace cfg junk tr p) (hl : Limits L U tr)
    {pre mid post : List (Act F)} {src : Src} {a : Act F} (hf : InForce pre k v) (hs : src ≠ .immediate ∨ Calm pre) (ha : reports a) (hi : a.isInput = false)
    (hna : ¬ Aside m) (hg : ∀ x ∈ mid, ¬ DirectsI x) (e : tr = pre ++ .out (.ghost src m) :: mid ++ a :: post) : Φ mid := by
  have := ((coreF H).sound (junk := junk) ((True, none), fun k v => k = 1 ∧ v = none) (fun v u mem _ _ => ⟨⟨⟨⟨fun _ => ⟨rfl, rfl⟩, rfl, by simp [CoreInv.boot]⟩, fun _ h => by cases h⟩, fun _ => rfl⟩,
      by rintro k v ⟨rfl, rfl⟩; exact ⟨rfl, rfl⟩⟩)
    (fun _ _ => by show updF _ _ _ _ _ = _; rw [updF_other (by simp [isGhost])]; rfl) (fun _ => by show updF _ _ _ _ _ = _; rw [updF_other (by simp [isGhost])]; rfl) h ?_).1 _ a post e hi ha mid ?_
  · exact this
  · intro pre a post e _ i s hs
    exact hl i s (by rw [e, hs]; simp)
  · have hG := inForce_state hf
    have hcalm : src = .immediate → (pre.foldl (updF m k v) ((True, none), fun k v => k = 1 ∧ v = none)).1.1 := fun hsrc => by
      rw [foldl_updF_calm pre _ (True, none) rfl]
      exact calm_flag m (hs.resolve_left (fun h => h hsrc)) none
    have hG' : (pre.foldl (updF m k v) ((True, none), fun k v => k = 1 ∧ v = none)).2 k v := by rw [foldl_updF_snd]; exact hG
    simp only [monF, List.foldl_append, List.foldl_cons]
    generalize pre.foldl (updF m k v) ((True, none), fun k v => k = 1 ∧ v = none) = g at hcalm hG'
    have step : (updF m k v g (.out (.ghost src m))).1.2 = some [] := by
      simp only [updF, upd]
      rw [if_neg (fun h => h.2 hG'), if_neg hna, if_pos]
      refine ⟨?_, rfl⟩
      cases src with
      | immediate => exact .inr (hcalm rfl)
      | queue => exact .inl (by simp)
      | eeprom => exact .inl (by simp)
    generalize updF m k v g (.out (.ghost src m)) = g' at step
    have key : ∀ (x : List (Act F)) (g : St F), (∀ y ∈ x, ¬ DirectsI y) → (x.foldl (updF m k v) g).1.2 = g.1.2.map (· ++ x) := by
      intro x
      induction x with
      | nil => intro g _; simp
      | cons y x ih =>
        intro g hy
        rw [List.foldl_cons, ih _ (fun z hz => hy z (by simp [hz]))]
        simp only [updF]
        rw [if_neg (fun h => hy y (by simp) h.1), upd_other m g.1 (hy y (by simp))]
        cases g.1.2 <;> simp
    rw [key mid g' hg, step]
    simp

end Mrc.Told
