import Verif.Proof.CoreWp
import Verif.Proof.Only
import Verif.Proof.Demo
import Verif.Spec.Reading
/-
C98: answers are true.
-/
set_option linter.unusedSectionVars false
namespace Mrc.Props
open Mrc Mrc.Prog Mrc.Spec
variable {F : Type} [FloatOps F]

/-! ### the monitor: everything that happened, except the readings before anything else -/

/-- readings made by setup. -/
def setupRead : Act F → Bool
  | .servo _ _ => true
  | .eeRead _ => true
  | _ => false

/-- an answer is justified by what happened before. -/
def Justified (cfg : RCfg F) (g : List (Act F)) (ps : List (Part F)) : Prop :=
  ∃ a0 src m mid, g = a0 ++ .out (.ghost src m) :: mid ∧ (∀ a ∈ mid, ¬ BeginsI a) ∧ ∀ p ∈ ps, Honest cfg (a0 ++ [.out (.ghost src m)]) mid p

def ansUpd (g : List (Act F)) (a : Act F) : List (Act F) := if g.isEmpty && setupRead a then g else g ++ [a]

def ansMon (cfg : RCfg F) : Mon F (List (Act F)) where
  upd := ansUpd
  ok g a := ∀ num ps, a = .out (.msg (.reply num ps)) → Justified cfg g ps

/-- the speed the controller has. -/
def Speed (g : List (Act F)) (c : Core F) : Prop := c.rc.maxVelocity = (lastSpeed none g).getD (lit 10)

theorem lastSpeed_snoc (o : Option F) (g : List (Act F)) (a : Act F) : lastSpeed o (g ++ [a]) = lastSpeed (lastSpeed o g) [a] := by
  simp [lastSpeed, List.foldl_append]

theorem lastSpeed_other {o : Option F} {a : Act F} (h : ∀ v, a ≠ .micro 6 (.setVel v)) : lastSpeed o [a] = o := by
  match a, h with
  | .micro 6 (.setVel v), h => exact absurd rfl (h v)
  | .micro 0 _, _ | .micro 1 _, _ | .micro 2 _, _ | .micro 3 _, _ | .micro 4 _, _ | .micro 5 _, _ | .micro 7 _, _ => rfl
  | .micro 6 (.setStart _), _ | .micro 6 .zeroElapsed, _ | .micro 6 (.setTarget _), _ => rfl
  | .servo _ _, _ | .now _, _ | .pin _ _, _ | .rx _, _ | .eeRead _, _ | .eeWrite _ _, _ | .out _, _ => rfl

theorem lastSpeed_upd {o : Option F} {a : Act F} (g : List (Act F)) (h : ∀ v, a ≠ .micro 6 (.setVel v)) : lastSpeed o (ansUpd g a) = lastSpeed o g := by
  unfold ansUpd
  split
  · rfl
  · rw [lastSpeed_snoc, lastSpeed_other h]

/-- a piece of the firmware that keeps `P`. -/
theorem ans_keep {α σ : Type} {M : Mon F σ} {K : Act F → Prop} {R : α → Prop} {p : Prog F α} (h : p.only K R) (P : σ → Prop) (s : σ) (hs : P s)
    (hK : ∀ s a, P s → K a → M.ok s a ∧ P (M.upd s a)) (hf : ∀ f, M.flt f) : p.wp M (fun s' a => P s' ∧ R a) s := by
  induction p generalizing s with
  | ret a => exact ⟨hs, h⟩
  | fault f => exact hf f
  | servo i k ih => intro v _; exact ih v (h v).2 _ (hK _ _ hs (h v).1).2
  | micro i m k ih => exact ⟨(hK _ _ hs h.1).1, ih h.2 _ (hK _ _ hs h.1).2⟩
  | now k ih => intro v _; exact ih v (h v).2 _ (hK _ _ hs (h v).1).2
  | pin p k ih => intro v _; exact ih v (h v).2 _ (hK _ _ hs (h v).1).2
  | rx k ih => intro v _; exact ih v (h v).2 _ (hK _ _ hs (h v).1).2
  | eeRead k ih => intro v _; exact ih v (h v).2 _ (hK _ _ hs (h v).1).2
  | eeWrite a b k ih => exact ⟨(hK _ _ hs h.1).1, ih h.2 _ (hK _ _ hs h.1).2⟩
  | out o k ih => exact ⟨(hK _ _ hs h.1).1, ih h.2 _ (hK _ _ hs h.1).2⟩

/-! ### commands -/

/-- within an instruction: speed, and what has been answered so far is true. -/
def Within (cfg : RCfg F) (g : List (Act F)) (c : Core F) (l : Loc F) : Prop := Speed g c ∧ Justified cfg g l.resp

theorem Justified.ne {cfg : RCfg F} {g : List (Act F)} {ps : List (Part F)} (h : Justified cfg g ps) : g.isEmpty = false := by
  obtain ⟨a0, src, m, mid, rfl, _⟩ := h; simp

theorem Justified.upd {cfg : RCfg F} {g : List (Act F)} {ps : List (Part F)} (h : Justified cfg g ps) (a : Act F) : ansUpd g a = g ++ [a] := by
  simp [ansUpd, h.ne]

theorem honest_more {cfg : RCfg F} {b mid : List (Act F)} {p : Part F} (h : Honest cfg b mid p) (x : List (Act F)) : Honest cfg b (mid ++ x) p := by
  cases p with
  | method c => exact h
  | velocity v => obtain ⟨s, t, rfl, e⟩ := h; exact ⟨s, t ++ x, by simp, e⟩
  | pose sym v => obtain ⟨i, s, t, u, rfl, e⟩ := h; exact ⟨i, s, t, u ++ x, by simp, e⟩
  | angle o v =>
    rcases h with ⟨i, s, t, u, rfl, e⟩ | ⟨i, s, h1, e⟩
    · exact .inl ⟨i, s, t, u ++ x, by simp, e⟩
    · exact .inr ⟨i, s, by simp [h1], e⟩

theorem Justified.more {cfg : RCfg F} {g : List (Act F)} {ps : List (Part F)} (h : Justified cfg g ps) (x : List (Act F)) (hx : ∀ a ∈ x, ¬ BeginsI a) :
    Justified cfg (g ++ x) ps := by
  obtain ⟨a0, src, m, mid, rfl, h1, h2⟩ := h
  refine ⟨a0, src, m, mid ++ x, by simp, ?_, fun p hp => honest_more (h2 p hp) x⟩
  intro a ha
  rcases List.mem_append.1 ha with ha | ha
  · exact h1 a ha
  · exact hx a ha

theorem Justified.add {cfg : RCfg F} {g : List (Act F)} {ps : List (Part F)} (h : Justified cfg g ps) {p : Part F}
    (hp : ∀ a0 src m mid, g = a0 ++ .out (.ghost src m) :: mid → (∀ p ∈ ps, Honest cfg (a0 ++ [.out (.ghost src m)]) mid p) → Honest cfg (a0 ++ [.out (.ghost src m)]) mid p) :
    Justified cfg g (ps ++ [p]) := by
  obtain ⟨a0, src, m, mid, e, h1, h2⟩ := h
  refine ⟨a0, src, m, mid, e, h1, fun q hq => ?_⟩
  rcases List.mem_append.1 hq with hq | hq
  · exact h2 q hq
  · simp at hq; subst hq; exact hp a0 src m mid e h2

/-- adding an answer computed from readings made just now. -/
theorem Justified.addRead {cfg : RCfg F} {g : List (Act F)} {ps : List (Part F)} (h : Justified cfg g ps) (x : List (Act F)) (hx : ∀ a ∈ x, ¬ BeginsI a) {p : Part F}
    (hp : ∀ b mid, Honest cfg b (mid ++ x) p) : Justified cfg (g ++ x) (ps ++ [p]) := by
  obtain ⟨a0, src, m, mid, rfl, h1, h2⟩ := h
  refine ⟨a0, src, m, mid ++ x, by simp, ?_, fun q hq => ?_⟩
  · intro a ha
    rcases List.mem_append.1 ha with ha | ha
    · exact h1 a ha
    · exact hx a ha
  · rcases List.mem_append.1 hq with hq | hq
    · exact honest_more (h2 q hq) x
    · simp at hq; subst hq; exact hp _ mid

theorem Justified.cur {cfg : RCfg F} {g : List (Act F)} {ps : List (Part F)} (h : Justified cfg g ps) :
    Justified cfg g (ps ++ [.velocity ((lastSpeed none g).getD (lit 10))]) :=
  h.add fun a0 src m mid e _ => ⟨mid, [], by simp, by rw [e]; simp⟩

theorem letter_of_poseIdx {c : Byte} {i : Fin 6} (h : poseIdx c = some i) : c = poseLetter i := by
  simp only [poseIdx] at h
  split at h; · subst_vars; simp at h; subst h; rfl
  split at h; · subst_vars; simp at h; subst h; rfl
  split at h; · subst_vars; simp at h; subst h; rfl
  split at h; · subst_vars; simp at h; subst h; rfl
  split at h; · subst_vars; simp at h; subst h; rfl
  split at h; · subst_vars; simp at h; subst h; rfl
  cases h


theorem Within.act {cfg : RCfg F} {g : List (Act F)} {c : Core F} {l : Loc F} (h : Within cfg g c l) {a : Act F} (ha : ¬ BeginsI a) (hv : ∀ v, a ≠ .micro 6 (.setVel v)) :
    Within cfg (ansUpd g a) c l := by
  refine ⟨?_, ?_⟩
  · rw [Speed, lastSpeed_upd _ hv]; exact h.1
  · rw [h.2.upd]; exact h.2.more [a] (by simpa using ha)


theorem readAngles_wp {cfg : RCfg F} (g : List (Act F)) (h : g.isEmpty = false) :
    (RC.readAngles : Prog F (Six F)).wp (ansMon cfg) (fun g' a => ∃ s : Fin 6 → Servo F, g' = g ++ readArm s ∧ a = fun j => (s j).cur) g := by
  have e : ∀ (x : List (Act F)) (a : Act F), ansUpd (g ++ x) a = g ++ (x ++ [a]) := by intro x a; cases g with | nil => simp at h | cons y g => simp [ansUpd]
  have e0 : ∀ a : Act F, ansUpd g a = g ++ [a] := by intro a; simp [ansUpd, h]
  simp only [RC.readAngles, readServo, bind_def, pure_def, Prog.bind, wp, ansMon, e, e0]
  intro v0 _ v1 _ v2 _ v3 _ v4 _ v5 _
  refine ⟨six v0 v1 v2 v3 v4 v5, ?_, ?_⟩
  · simp only [List.append_assoc]; rfl
  · funext j; match j with | 0 | 1 | 2 | 3 | 4 | 5 => rfl

theorem readArm_noBegin (s : Fin 6 → Servo F) : ∀ a ∈ readArm s, ¬ BeginsI a := by
  rintro a ha ⟨src, m, rfl⟩
  simp [readArm] at ha

theorem Speed.readArm {g : List (Act F)} {c : Core F} (h : Speed g c) (s : Fin 6 → Servo F) : Speed (g ++ readArm s) c := by
  have : lastSpeed none (g ++ Spec.readArm s) = lastSpeed none g := by
    rw [lastSpeed, List.foldl_append]
    simp [Spec.readArm, List.finRange_succ, lastSpeed]
  rw [Speed, this]; exact h

theorem exec_within (cfg : Cfg F) (s : Core F) (l : Loc F) (tok : List Byte) (g : List (Act F)) (h : Within cfg.toRCfg g s l) :
    (Mril.exec cfg s l tok).wp (ansMon cfg.toRCfg) (fun g r => Within cfg.toRCfg g r.1 r.2) g := by
  unfold Mril.exec
  dsimp only
  generalize (if tok.headD 0 = 78 then CmdType.none else if tok.length = 1 then CmdType.read else CmdType.write) = ct
  have hnr : ∀ {g : List (Act F)} {a : Act F}, (∀ num ps, a ≠ .out (.msg (.reply num ps))) → (ansMon cfg.toRCfg).ok g a := fun h num ps e => absurd e (h num ps)
  split
  · split
    · exact ⟨h.1, h.2.add fun _ _ _ _ _ _ => trivial⟩
    · split
      · exact ⟨h.1, h.2⟩
      · split
        · exact ⟨h.1, h.2⟩
        · exact ⟨h.1, h.2⟩
  split
  · split
    · refine ⟨h.1, ?_⟩
      have := h.2.cur
      rwa [← h.1] at this
    · have h1 := h.2.more [.micro 6 (.setVel (atof (tok.drop 1))), .micro 7 (.setVel (atof (tok.drop 1)))] (by rintro a ha ⟨_, _, rfl⟩; simp at ha)
      have e : ansUpd (ansUpd g (.micro 6 (.setVel (atof (tok.drop 1))))) (.micro 7 (.setVel (atof (tok.drop 1)))) =
          g ++ [.micro 6 (.setVel (atof (tok.drop 1))), .micro 7 (.setVel (atof (tok.drop 1)))] := by
        rw [h.2.upd]; simp [ansUpd]
      refine ⟨hnr (by simp), hnr (by simp), ?_, ?_⟩
      · show _ = (lastSpeed none (ansUpd (ansUpd g _) _)).getD _
        rw [e]
        simp [lastSpeed, RC.setMaxVelocity]
      · show Justified _ (ansUpd (ansUpd g _) _) _
        rw [e]; exact h1
  split
  · rename_i i hi
    split
    · simp only [bind_def, RC.getCurrentPose, RC.getCurrentLogicalAngles, wp_bind]
      refine wp_mono ?_ (readAngles_wp (cfg := cfg.toRCfg) g h.2.ne)
      rintro g' a ⟨sv, rfl, rfl⟩
      refine ⟨h.1.readArm sv, ?_⟩
      refine h.2.addRead _ (readArm_noBegin sv) fun b mid => ⟨i, sv, mid, [], by simp, letter_of_poseIdx hi, rfl⟩
    · exact ⟨h.1, h.2⟩
  split
  · split
    · trivial
    · rename_i o _
      split
      · split
        · split
          · trivial
          · rename_i a ha
            intro sv _
            have hs : Speed (ansUpd g (.servo a sv)) s := by rw [Speed, lastSpeed_upd _ (by simp)]; exact h.1
            refine ⟨hs, ?_⟩
            show Justified _ (ansUpd g _) _
            rw [h.2.upd]
            refine h.2.addRead _ (by rintro a ha ⟨_, _, rfl⟩; simp at ha) fun b mid => .inr ?_
            unfold axisServo at ha
            split at ha
            · simp at ha; subst ha; exact ⟨0, sv, by simp, by simpa, rfl⟩
            · split at ha
              · simp at ha; subst ha; exact ⟨1, sv, by simp, by simpa, rfl⟩
              · cases ha
        · split
          · trivial
          · rename_i i hi
            simp only [bind_def, RC.getCurrentLogicalAngles, wp_bind]
            refine wp_mono ?_ (readAngles_wp (cfg := cfg.toRCfg) g h.2.ne)
            rintro g' a ⟨sv, rfl, rfl⟩
            refine ⟨h.1.readArm sv, ?_⟩
            refine h.2.addRead _ (readArm_noBegin sv) fun b mid => .inl ⟨i, sv, mid, [], by simp, ?_, rfl⟩
            unfold armAxis at hi
            split at hi
            · simp at hi; subst hi; rfl
            · cases hi
      · split
        · split
          · trivial
          · rename_i a ha
            intro sv _
            have step : ∀ {g c} {l : Loc F} (act : Act F), Within cfg.toRCfg g c l → ¬ BeginsI act → (∀ v, act ≠ .micro 6 (.setVel v)) →
                Within cfg.toRCfg (ansUpd g act) c l := fun _ h h1 h2 => h.act h1 h2
            refine ⟨hnr (by simp), hnr (by simp), hnr (by simp), ?_⟩
            have h0 : Within cfg.toRCfg g s { l with ctype := ct } := ⟨h.1, h.2⟩
            exact step _ (step _ (step _ (step _ h0 (by rintro ⟨_, _, h⟩; cases h) (by simp)) (by rintro ⟨_, _, h⟩; cases h) (by simp))
              (by rintro ⟨_, _, h⟩; cases h) (by simp)) (by rintro ⟨_, _, h⟩; cases h) (by simp)
        · split
          · trivial
          · exact ⟨h.1, h.2⟩
  have h0 : Within cfg.toRCfg g s { l with ctype := ct } := ⟨h.1, h.2⟩
  split
  · split
    · simp only [bind_def, IOL.addCondition]
      split
      · trivial
      · show (ansMon cfg.toRCfg).ok _ _ ∧ _
        refine ⟨hnr (by simp), ?_⟩
        split
        · trivial
        · exact h0.act (by rintro ⟨_, _, h⟩; cases h) (by simp)
    · trivial
  split
  · split
    · simp only [bind_def, IOL.setOutput]
      split
      · trivial
      · refine ⟨hnr (by simp), ?_⟩
        have h1 := fun p => h0.act (a := .out (.pinMode p .output)) (by rintro ⟨_, _, h⟩; cases h) (by simp)
        split
        · exact ⟨hnr (by simp), (h1 _).act (by rintro ⟨_, _, h⟩; cases h) (by simp)⟩
        · split
          · exact ⟨hnr (by simp), (h1 _).act (by rintro ⟨_, _, h⟩; cases h) (by simp)⟩
          · exact h1 _
    · trivial
  split
  · intro t _
    exact ⟨(h0.act (a := .now t) (by rintro ⟨_, _, h⟩; cases h) (by simp)).1, (h0.act (a := .now t) (by rintro ⟨_, _, h⟩; cases h) (by simp)).2⟩
  split
  · refine ⟨hnr (by simp), ?_⟩
    exact ⟨(h0.act (a := .out (.msg (.n0 _))) (by rintro ⟨_, _, h⟩; cases h) (by simp)).1, (h0.act (a := .out (.msg (.n0 _))) (by rintro ⟨_, _, h⟩; cases h) (by simp)).2⟩
  · exact h0

theorem answers_inv (cfg : Cfg F) : CoreInv cfg (ansMon cfg.toRCfg) Speed Speed where
  flt _ := trivial
  weak _ _ h := h
  disp g c a h ha := by
    refine ⟨by rintro num ps rfl; exact ha.elim, ?_⟩
    show _ = (lastSpeed none (ansUpd g a)).getD _
    rw [lastSpeed_upd _ (by rintro v rfl; exact ha)]; exact h
  dispJ g c a h ha := by
    refine ⟨by rintro num ps rfl; exact ha.elim, ?_⟩
    show _ = (lastSpeed none (ansUpd g a)).getD _
    rw [lastSpeed_upd _ (by rintro v rfl; exact ha)]; exact h
  rc g c h := by
    refine wp_mono ?_ (ans_keep (RC.process_only cfg.toRCfg c.rc) (fun g => Speed g c) g h ?_ (fun _ => trivial))
    · rintro g' r ⟨h1, h2⟩
      exact h2.2.2.trans h1
    · intro g a h ha
      refine ⟨by rintro num ps rfl; exact ha.elim, ?_⟩
      show _ = (lastSpeed none (ansUpd g a)).getD _
      rw [lastSpeed_upd _ (by rintro v rfl; exact absurd ha (by simp [rcAct]))]; exact h
  parse g c m src h := by
    have h : Speed g c := by split at h; · exact h
                             · exact h.1
    refine ⟨by rintro num ps ⟨⟩, ?_⟩
    have hu : ansUpd g (.out (.ghost src m)) = g ++ [.out (.ghost src m)] := by simp [ansUpd, setupRead]
    show Prog.wp _ _ _ (ansUpd g (.out (.ghost src m)))
    have hS : Speed (ansUpd g (.out (.ghost src m))) c := by rw [Speed, lastSpeed_upd _ (by simp)]; exact h
    refine parse_wp (ansMon cfg.toRCfg) cfg (Within cfg.toRCfg) Speed trivial (fun g s l tok h => exec_within cfg s l tok g h) ?_ m _ c (fun _ => hS) (fun _ => ⟨hS, ?_⟩) ?_
    · intro g s l h
      exact ⟨by rintro num ps ⟨⟩, h.act (by rintro ⟨_, _, h⟩; cases h) (by simp)⟩
    · rw [hu]; exact ⟨g, src, m, [], rfl, by simp, by simp⟩
    · intro g s l hi
      unfold Mril.finish
      simp only [send, bind_def, Prog.bind]
      split
      · refine ⟨?_, ?_⟩
        · intro num ps e; simp at e; rw [← e.2]; exact hi.2
        · show Speed (ansUpd g _) _
          rw [Speed, lastSpeed_upd _ (by simp)]; exact hi.1
      · exact hi.1
      · exact hi.1
  check g c h := by
    refine wp_mono ?_ (ans_keep (mrilProcess_only c) (fun g => Speed g c) g h ?_ (fun _ => trivial))
    · rintro g' r ⟨h1, h2⟩
      rw [Speed, h2.1]; exact h1
    · intro g a h ha
      refine ⟨by rintro num ps rfl; exact ha.elim, ?_⟩
      show _ = (lastSpeed none (ansUpd g a)).getD _
      rw [lastSpeed_upd _ (by rintro v rfl; exact absurd ha (by simp [checkAct]))]; exact h

/-- the state of the monitor is the history without the readings at its beginning. -/
theorem ans_state (tr : List (Act F)) : ∃ d, (∀ a ∈ d, setupRead a = true) ∧ tr = d ++ tr.foldl ansUpd [] := by
  have key : ∀ (t g d : List (Act F)), (∀ a ∈ d, setupRead a = true) → ∃ d', (∀ a ∈ d', setupRead a = true) ∧ d ++ g ++ t = d' ++ t.foldl ansUpd g := by
    intro t
    induction t with
    | nil => intro g d h; exact ⟨d, h, by simp⟩
    | cons a t ih =>
      intro g d h
      rw [List.foldl_cons]
      rw [show ansUpd g a = if g.isEmpty && setupRead a then g else g ++ [a] from rfl]
      split
      · rename_i hg
        simp only [Bool.and_eq_true, List.isEmpty_iff] at hg
        obtain ⟨rfl, ha⟩ := hg
        obtain ⟨d', h1, h2⟩ := ih [] (d ++ [a]) (by intro x hx; rcases List.mem_append.1 hx with hx | hx; · exact h x hx
                                                    · simp at hx; subst hx; exact ha)
        exact ⟨d', h1, by simpa using h2⟩
      · obtain ⟨d', h1, h2⟩ := ih (g ++ [a]) d h
        exact ⟨d', h1, by simpa using h2⟩
  obtain ⟨d, h1, h2⟩ := key tr [] [] (by simp)
  exact ⟨d, h1, by simpa using h2⟩

theorem lastSpeed_reads {d : List (Act F)} (h : ∀ a ∈ d, setupRead a = true) (x : List (Act F)) : lastSpeed none (d ++ x) = lastSpeed none x := by
  induction d with
  | nil => rfl
  | cons a d ih =>
    have : lastSpeed (none : Option F) [a] = none := lastSpeed_other (by rintro v rfl; simpa [setupRead] using h _ List.mem_cons_self)
    rw [← ih fun b hb => h b (by simp [hb])]
    show lastSpeed (lastSpeed none [a]) (d ++ x) = _
    rw [this]

/-- **C98**: in every history, what an answer says is true: it is sent by the instruction that was started last, every angle and pose coordinate in it is computed from servo positions read since
that start (all six of them, one after the other), and every speed in it is the one that was last set at some moment since. -/
theorem C98_true {cfg : Cfg F} {junk : Nat → Byte} {tr : List (Act F)} {p : Prog F (FW F)} (h : Trace cfg junk tr p)
    {pre post : List (Act F)} {num : Option Int} {ps : List (Part F)} (e : tr = pre ++ .out (.msg (.reply num ps)) :: post) :
    ∃ a0 src m mid, pre = a0 ++ .out (.ghost src m) :: mid ∧ (∀ a ∈ mid, ¬ BeginsI a) ∧ ∀ q ∈ ps, Honest cfg.toRCfg (a0 ++ [.out (.ghost src m)]) mid q := by
  have h1 := ((answers_inv cfg).sound [] junk (fun _ _ _ _ _ => rfl) (fun _ _ => rfl) (fun _ => rfl) h (fun _ _ _ _ _ => trivial)).1 pre _ post e rfl num ps rfl
  obtain ⟨d, hd, e2⟩ := ans_state pre
  obtain ⟨a0, src, m, mid, e3, h4, h5⟩ := h1
  refine ⟨d ++ a0, src, m, mid, ?_, h4, fun q hq => ?_⟩
  · rw [e2]; show d ++ pre.foldl ansUpd [] = _
    have : pre.foldl ansUpd [] = a0 ++ .out (.ghost src m) :: mid := e3
    rw [this]; simp
  · have := h5 q hq
    cases q with
    | method c => trivial
    | velocity v =>
      obtain ⟨a, b, e4, e5⟩ := this
      refine ⟨a, b, e4, ?_⟩
      rw [e5, show d ++ a0 ++ [Act.out (Out.ghost src m)] ++ a = d ++ (a0 ++ [Act.out (Out.ghost src m)] ++ a) by simp, lastSpeed_reads hd]
    | pose _ _ => exact this
    | angle _ _ => exact this

end Mrc.Props
