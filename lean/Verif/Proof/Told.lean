import Verif.Spec.Told
import Verif.Proof.CoreWp
import Verif.Proof.ControllerSeg
import Verif.Proof.Run
import Verif.Props.Arrival
/- From the start of an instruction to its end: what happened to the arm in between (C84-C86). -/
set_option linter.unusedSectionVars false
set_option linter.unusedSimpArgs false
namespace Mrc
open Mrc.Prog Mrc.Spec Mrc.Props
variable {F : Type} [FloatOps F] {α σ : Type}

/-- weakest preconditions from executions. -/
theorem wp_exec_intro {M : Mon F σ} {p : Prog F α} {Q : σ → α → Prop} {E : Act F → Prop} (hf : ∀ f, M.flt f) (he : ∀ g a, M.env g a → E a) {g : σ}
    (hok : ∀ tr a q, Exec p (tr ++ [a]) q → a.isInput = false → M.ok (tr.foldl M.upd g) a)
    (h : ∀ tr b, Exec p tr (.ret b) → (∀ x ∈ tr, x.isInput = true → E x) → Q (tr.foldl M.upd g) b) : p.wp M Q g := by
  induction p generalizing g with
  | ret a => exact h [] a (.nil _) (by simp)
  | fault f => exact hf f
  | servo i k ih =>
    exact fun v hv => ih v (fun tr a q e hi => hok (_ :: tr) a q (.cons (.servo _ _ _) e) hi)
      fun tr b e hE => h (_ :: tr) b (.cons (.servo _ _ _) e) fun x hx hi => by
        rcases List.mem_cons.1 hx with rfl | hx
        · exact he _ _ hv
        · exact hE x hx hi
  | now k ih =>
    exact fun v hv => ih v (fun tr a q e hi => hok (_ :: tr) a q (.cons (.now _ _) e) hi)
      fun tr b e hE => h (_ :: tr) b (.cons (.now _ _) e) fun x hx hi => by
        rcases List.mem_cons.1 hx with rfl | hx
        · exact he _ _ hv
        · exact hE x hx hi
  | pin p k ih =>
    exact fun v hv => ih v (fun tr a q e hi => hok (_ :: tr) a q (.cons (.pin _ _ _) e) hi)
      fun tr b e hE => h (_ :: tr) b (.cons (.pin _ _ _) e) fun x hx hi => by
        rcases List.mem_cons.1 hx with rfl | hx
        · exact he _ _ hv
        · exact hE x hx hi
  | rx k ih =>
    exact fun v hv => ih v (fun tr a q e hi => hok (_ :: tr) a q (.cons (.rx _ _) e) hi)
      fun tr b e hE => h (_ :: tr) b (.cons (.rx _ _) e) fun x hx hi => by
        rcases List.mem_cons.1 hx with rfl | hx
        · exact he _ _ hv
        · exact hE x hx hi
  | eeRead k ih =>
    exact fun v hv => ih v (fun tr a q e hi => hok (_ :: tr) a q (.cons (.eeRead _ _) e) hi)
      fun tr b e hE => h (_ :: tr) b (.cons (.eeRead _ _) e) fun x hx hi => by
        rcases List.mem_cons.1 hx with rfl | hx
        · exact he _ _ hv
        · exact hE x hx hi
  | micro i m k ih =>
    exact ⟨hok [] _ _ (.cons (.micro _ _ _) (.nil _)) rfl, ih (fun tr a q e hi => hok (_ :: tr) a q (.cons (.micro _ _ _) e) hi)
      fun tr b e hE => h (_ :: tr) b (.cons (.micro _ _ _) e) fun x hx hi => by
        rcases List.mem_cons.1 hx with rfl | hx
        · cases hi
        · exact hE x hx hi⟩
  | eeWrite x y k ih =>
    exact ⟨hok [] _ _ (.cons (.eeWrite _ _ _) (.nil _)) rfl, ih (fun tr a q e hi => hok (_ :: tr) a q (.cons (.eeWrite _ _ _) e) hi)
      fun tr b e hE => h (_ :: tr) b (.cons (.eeWrite _ _ _) e) fun x hx hi => by
        rcases List.mem_cons.1 hx with rfl | hx
        · cases hi
        · exact hE x hx hi⟩
  | out o k ih =>
    exact ⟨hok [] _ _ (.cons (.out _ _) (.nil _)) rfl, ih (fun tr a q e hi => hok (_ :: tr) a q (.cons (.out _ _) e) hi)
      fun tr b e hE => h (_ :: tr) b (.cons (.out _ _) e) fun x hx hi => by
        rcases List.mem_cons.1 hx with rfl | hx
        · cases hi
        · exact hE x hx hi⟩

namespace Told

/-- an instruction begins. -/
def isGhost : Act F → Prop
  | .out (.ghost _ _) => True
  | _ => False

/-- an instruction is reported as finished. -/
def isN1 : Act F → Prop
  | .out (.msg (.n1 _)) => True
  | _ => False

open Classical in
/-- what happened since the instruction `m` was begun from queue or storage, or begun while no move was under way, and nothing since that concerns the arm; and whether
a move may be under way. -/
noncomputable def upd (m : List Byte) (g : Prop × Option (List (Act F))) : Act F → Prop × Option (List (Act F))
  | .out (.ghost src x) => (g.1 ∧ NoPlace x, if Aside x then g.2.map (· ++ [.out (.ghost src x)]) else if (src ≠ .immediate ∨ g.1) ∧ x = m then some [] else none)
  | .out (.msg (.n1 n)) => (True, g.2.map (· ++ [.out (.msg (.n1 n))]))
  | a => (g.1, g.2.map (· ++ [a]))

theorem directs_ghost {a : Act F} (h : ¬ isGhost a) : ¬ DirectsI a := by rintro ⟨s, m, rfl, _⟩; exact h trivial
theorem places_ghost {a : Act F} (h : ¬ isGhost a) : ¬ PlacesI a := by rintro ⟨s, m, rfl, _⟩; exact h trivial

theorem upd_other (m : List Byte) (g : Prop × Option (List (Act F))) {a : Act F} (h : ¬ DirectsI a) : (upd m g a).2 = g.2.map (· ++ [a]) := by
  unfold upd
  split
  · rename_i src x
    exact if_pos (by by_contra hx; exact h ⟨src, x, rfl, hx⟩)
  · rfl
  · rfl

theorem upd_calm (m : List Byte) (g : Prop × Option (List (Act F))) {a : Act F} (h : ¬ isGhost a) (h' : ¬ isN1 a) : (upd m g a).1 = g.1 := by
  unfold upd
  split
  · exact absurd trivial h
  · exact absurd trivial h'
  · rfl

/-- once calm, calm until an instruction names a place. -/
theorem upd_true (m : List Byte) (g : Prop × Option (List (Act F))) {a : Act F} (h : ¬ PlacesI a) (hg : g.1) : (upd m g a).1 := by
  unfold upd
  split
  · rename_i src x
    exact ⟨hg, by by_contra hx; exact h ⟨src, x, rfl, hx⟩⟩
  · trivial
  · exact hg

theorem foldl_upd (m : List Byte) {tr : List (Act F)} (h : ∀ a ∈ tr, ¬ DirectsI a) (g : Prop × Option (List (Act F))) : (tr.foldl (upd m) g).2 = g.2.map (· ++ tr) := by
  induction tr generalizing g with
  | nil => simp
  | cons a tr ih =>
    rw [List.foldl_cons, ih (fun b hb => h b (by simp [hb])), upd_other m g (h a (by simp))]
    cases g.2 <;> simp

theorem foldl_calm (m : List Byte) {tr : List (Act F)} (h : ∀ a ∈ tr, ¬ isGhost a) (h' : ∀ a ∈ tr, ¬ isN1 a) (g : Prop × Option (List (Act F))) : (tr.foldl (upd m) g).1 = g.1 := by
  induction tr generalizing g with
  | nil => rfl
  | cons a tr ih =>
    rw [List.foldl_cons, ih (fun b hb => h b (by simp [hb])) (fun b hb => h' b (by simp [hb])), upd_calm m g (h a (by simp)) (h' a (by simp))]

theorem foldl_true (m : List Byte) {tr : List (Act F)} (h : ∀ a ∈ tr, ¬ PlacesI a) {g : Prop × Option (List (Act F))} (hg : g.1) : (tr.foldl (upd m) g).1 := by
  induction tr generalizing g with
  | nil => exact hg
  | cons a tr ih => exact ih (fun b hb => h b (by simp [hb])) (upd_true m g (h a (by simp)) hg)

theorem isN1_reports {a : Act F} (h : ¬ reports a) : ¬ isN1 a := by
  intro hn
  match a, hn with
  | .out (.msg (.n1 _)), _ => exact h trivial

/-- the monitor: at every report, `Φ` holds of what happened since. -/
noncomputable def mon (L U : Six F) (m : List Byte) (Φ : List (Act F) → Prop) : Mon F (Prop × Option (List (Act F))) where
  upd := upd m
  env _ a := ∀ i s, a = .servo (armServo i) s → s.minA = L i ∧ s.maxA = U i
  ok g a := reports a → ∀ mid, g.2 = some mid → Φ mid

/-- between the steps: nothing changed unless a move is to be prepared; no transaction open. -/
structure Fl (r : RC F) : Prop where
  same : r.state ≠ .prepareMove → r.anglesChanged = false ∧ r.poseChanged = false
  closed : r.inTransaction = false
  notStart : r.state ≠ .startMove

/-- the part of it that holds during the execution of an instruction. -/
def Fl' (r : RC F) : Prop := (r.state ≠ .prepareMove → r.anglesChanged = false ∧ r.poseChanged = false) ∧ r.state ≠ .startMove

theorem cmd_fl {cfg : RCfg F} {L U : Six F} {r r' : RC F} {t : Six F} {mt : F} {tr : List (Act F)} (h : RC.Cmd cfg L U r t mt tr r')
    (h1 : r.anglesChanged = false ∧ r.poseChanged = false) (h2 : r.inTransaction = false) : Fl r' := by
  cases h with
  | refused | zero | moved => exact ⟨fun _ => h1, h2, by simp⟩

theorem start_fl {cfg : RCfg F} {L U : Six F} {r r' : RC F} {tr : List (Act F)} (h : RC.Start cfg L U r tr r')
    (h1 : r.anglesChanged = false ∧ r.poseChanged = false) (h2 : r.inTransaction = false) : Fl r' := by
  cases h with
  | p2p _ hc => exact cmd_fl hc h1 h2
  | unreachable => exact ⟨fun _ => h1, h2, by simp⟩
  | linear _ _ _ hc => exact cmd_fl hc h1 h2
  | singular _ _ _ hc => exact cmd_fl hc h1 h2

theorem pro_fl {cfg : RCfg F} {L U : Six F} {r r' : RC F} {tr : List (Act F)} (h : RC.Pro cfg L U r tr r') (hf : Fl r) : Fl r' := by
  have hsync : (RC.sync cfg r).inTransaction = false := (RC.sync_same cfg r).1.trans hf.closed
  cases h with
  | idle => exact hf
  | start hs => exact absurd hs hf.notStart
  | moving hs hm =>
    have h1 := hf.same (by rw [hs]; decide)
    cases hm with
    | wait => exact hf
    | finish => exact ⟨fun _ => h1, hf.closed, by simp⟩
    | next v _ _ hst => exact start_fl hst h1 hf.closed
  | prepare hs hp =>
    cases hp with
    | transaction ht => rw [hf.closed] at ht; cases ht
    | both => exact ⟨fun _ => ⟨rfl, rfl⟩, hsync, by simp⟩
    | same => exact ⟨fun _ => ⟨rfl, rfl⟩, hsync, by simp⟩
    | start e v u _ _ _ _ _ hst => exact start_fl hst ⟨rfl, rfl⟩ hsync

theorem exec_fl (cfg : Cfg F) (c : Core F) (l : Loc F) (tok : List Byte) (hI : Fl' c.rc) :
    (Mril.exec cfg c l tok).only (fun _ => True) (fun r => Fl' r.1.rc) := by
  have h1 : ∀ (i : Fin 6) (v : F), Fl' (c.rc.setTargetPoseAt i v) := fun _ _ => ⟨fun h => absurd rfl h, by simp [RC.setTargetPoseAt]⟩
  have h2 : ∀ (i : Fin 6) (v : F), Fl' (c.rc.setTargetLogicalAngle i v) := fun _ _ => ⟨fun h => absurd rfl h, by simp [RC.setTargetLogicalAngle]⟩
  exec_leaves
  all_goals simp only [Prog.bind, only, true_and, forall_const]
  all_goals first
    | exact hI
    | exact fun _ => hI
    | exact fun _ _ _ _ _ _ => hI
    | exact h1 _ _
    | exact h2 _ _

theorem loop_fl (cfg : Cfg F) (cs : List Byte) (s : Core F) (l : Loc F) (tok : List Byte) (h : Fl' s.rc) :
    (Mril.loop cfg cs s l tok).only (fun _ => True) (fun r => Fl' r.1.rc) := by
  induction cs generalizing s l tok with
  | nil => exact h
  | cons c cs ih =>
    simp only [Mril.loop]
    split
    · exact ⟨trivial, h⟩
    · split
      · split
        · trivial
        · split
          · split
            · trivial
            · rw [only_bind]
              exact only_mono (fun _ h => h) (fun r hr => ih r.1 r.2 [] hr) (exec_fl cfg s l _ h)
          · exact ih _ _ _ h
      · exact ih _ _ _ h

theorem parse_fl (cfg : Cfg F) (c : Core F) (m : List Byte) (h : Fl c.rc) : (Mril.parse cfg c m).only (fun _ => True) (fun c => Fl c.rc) := by
  unfold Mril.parse
  split
  · exact h
  · rw [only_bind]
    refine only_mono (fun _ h => h) (fun r hr => ?_) (loop_fl cfg m _ _ _ ⟨h.same, h.notStart⟩)
    unfold Mril.finish
    simp only [send, bind_def, Prog.bind]
    split
    · exact ⟨trivial, hr.1, rfl, hr.2⟩
    · exact ⟨hr.1, rfl, hr.2⟩
    · exact ⟨hr.1, rfl, hr.2⟩

/-- not touching the arm. -/
def quiet : Act F → Prop
  | .micro i _ => 6 ≤ i.val
  | _ => True

/-- what has to be shown of the phases `Ph` of the execution of `m`. -/
structure Phases (cfg : Cfg F) (L U : Six F) (m : List Byte) (Φ : List (Act F) → Prop) (Ph : List (Act F) → RC F → Prop) : Prop where
  step : ∀ {mid r tr r'}, Fl r → Ph mid r → RC.Pro cfg.toRCfg L U r tr r' → Ph (mid ++ tr) r'
  stop : ∀ {mid r}, Ph mid r → r.state = .idle → Φ mid
  skip : ∀ {mid r tr}, Ph mid r → (∀ a ∈ tr, quiet a) → Ph (mid ++ tr) r
  begins : ∀ {c c' tr}, Fl c.rc → c.rc.state = .idle → Exec (Mril.parse cfg c m) tr (.ret c') → Ph tr c'.rc

theorem rc_not {a : Act F} (h : rcAct a) : ¬ isGhost a ∧ ¬ reports a := by
  match a, h with
  | .servo _ _, _ | .micro _ _, _ | .out (.raw _), _ => exact ⟨id, id⟩
theorem mril_not {a : Act F} (h : mrilAct a) : ¬ isGhost a ∧ ¬ reports a ∧ quiet a := by
  match a, h with
  | .servo _ _, _ | .now _, _ | .out (.msg (.n0 _)), _ | .out (.msg (.reply _ _)), _ | .out (.raw .comment), _ | .out (.pinMode _ _), _ | .out (.digitalWrite _ _), _ =>
    exact ⟨id, id, trivial⟩
  | .micro i _, h => exact ⟨id, id, h⟩
theorem check_not {a : Act F} (h : checkAct a) : ¬ isGhost a ∧ quiet a := by
  match a, h with
  | .pin _ _, _ | .now _, _ | .out (.msg (.n1 _)), _ => exact ⟨id, trivial⟩
theorem disp_not {a : Act F} (h : dispAct a) : ¬ isGhost a ∧ ¬ reports a ∧ quiet a := by
  match a, h with
  | .rx _, _ | .eeRead _, _ | .eeWrite _ _, _ | .out (.msg (.free _)), _ | .out (.raw (.error _)), _ => exact ⟨id, id, trivial⟩

/-- nothing happens in the idle state. -/
theorem pro_idle {cfg : RCfg F} {L U : Six F} {r r' : RC F} {tr : List (Act F)} (h : RC.Pro cfg L U r tr r') (hs : r.state = .idle) : r'.state = .idle := by
  cases h with
  | idle => exact hs
  | start h => rw [hs] at h; cases h
  | moving h => rw [hs] at h; cases h
  | prepare h => rw [hs] at h; cases h

theorem core {cfg : Cfg F} {L U : Six F} {m : List Byte} {Φ : List (Act F) → Prop} {Ph : List (Act F) → RC F → Prop} (H : Phases cfg L U m Φ Ph) :
    CoreInv cfg (mon L U m Φ) (fun g c => (Fl c.rc ∧ ∀ mid, g.2 = some mid → Ph mid c.rc) ∧ (g.1 → c.rc.state = .idle))
      (fun g c => ((Fl c.rc ∧ ∀ mid, g.2 = some mid → Ph mid c.rc) ∧ (g.1 → c.rc.state = .idle)) ∧ (c.done = true → c.rc.state = .idle)) where
  flt _ := trivial
  weak _ _ h := h.1
  disp g c a h ha := by
    obtain ⟨h1, h2, h3⟩ := disp_not ha
    refine ⟨fun hr => absurd hr h2, ⟨h.1.1, fun mid e => ?_⟩, fun e => h.2 ?_⟩
    · simp only [mon] at e
      rw [upd_other m g (directs_ghost h1)] at e
      obtain ⟨mid', e', rfl⟩ := Option.map_eq_some_iff.1 e
      exact H.skip (h.1.2 _ e') (by simpa using h3)
    · simp only [mon] at e
      rwa [upd_calm m g h1 (isN1_reports h2)] at e
  dispJ g c a h ha := by
    obtain ⟨h1, h2, h3⟩ := disp_not ha
    refine ⟨fun hr => absurd hr h2, ⟨⟨h.1.1.1, fun mid e => ?_⟩, fun e => h.1.2 ?_⟩, h.2⟩
    · simp only [mon] at e
      rw [upd_other m g (directs_ghost h1)] at e
      obtain ⟨mid', e', rfl⟩ := Option.map_eq_some_iff.1 e
      exact H.skip (h.1.1.2 _ e') (by simpa using h3)
    · simp only [mon] at e
      rwa [upd_calm m g h1 (isN1_reports h2)] at e
  rc g c h := by
    refine wp_exec_intro (E := fun a => ∀ i s, a = .servo (armServo i) s → s.minA = L i ∧ s.maxA = U i) (fun _ => trivial) (fun _ _ h => h) ?_ ?_
    · intro tr a q he _ hr
      exact absurd hr (rc_not ((only_exec he (RC.process_only _ _)).1 a (by simp))).2
    · intro tr r he hE
      have hl : Limits L U tr := fun i s hs => hE _ hs rfl i s rfl
      have hp := RC.process_exec he hl
      have hg : ∀ a ∈ tr, ¬ isGhost a := fun a ha => (rc_not ((only_exec he (RC.process_only _ _)).1 a ha)).1
      have hn : ∀ a ∈ tr, ¬ isN1 a := fun a ha => isN1_reports (rc_not ((only_exec he (RC.process_only _ _)).1 a ha)).2
      refine ⟨⟨pro_fl hp h.1.1, fun mid e => ?_⟩, fun e => ?_⟩
      · simp only [mon] at e
        rw [foldl_upd m (fun a ha => directs_ghost (hg a ha))] at e
        obtain ⟨mid', e', rfl⟩ := Option.map_eq_some_iff.1 e
        exact H.step h.1.1 (h.1.2 _ e') hp
      · simp only [mon] at e
        rw [foldl_calm m hg hn] at e
        exact pro_idle hp (h.2 e)
  parse g c x src h := by
    have hfl : (Fl c.rc ∧ ∀ mid, g.2 = some mid → Ph mid c.rc) ∧ (g.1 → c.rc.state = .idle) := by
      split at h
      · exact h
      · exact h.1.1
    refine ⟨fun hr mid e => ?_, ?_⟩
    · cases src with
      | immediate => exact hr.elim
      | queue => exact H.stop (h.1.1.1.2 mid e) (h.1.2 h.2)
      | eeprom => exact H.stop (h.1.1.1.2 mid e) (h.1.2 h.2)
    · refine wp_exec_intro (E := fun _ => True) (fun _ => trivial) (fun _ _ _ => trivial) ?_ ?_
      · intro tr a q he _ hr
        exact absurd hr (mril_not ((only_exec he (parse_only cfg c x)).1 a (by simp))).2.1
      · intro tr c' he _
        have hg : ∀ a ∈ tr, ¬ isGhost a := fun a ha => (mril_not ((only_exec he (parse_only cfg c x)).1 a ha)).1
        have hn : ∀ a ∈ tr, ¬ isN1 a := fun a ha => isN1_reports (mril_not ((only_exec he (parse_only cfg c x)).1 a ha)).2.1
        refine ⟨⟨(only_exec he (parse_fl cfg c x hfl.1.1)).2, fun mid e => ?_⟩, fun e => ?_⟩
        · simp only [mon] at e
          rw [foldl_upd m (fun a ha => directs_ghost (hg a ha))] at e
          obtain ⟨mid', e', rfl⟩ := Option.map_eq_some_iff.1 e
          have hst : src ≠ .immediate → c.rc.state = .idle := by
            intro hs; rw [if_neg hs] at h; exact h.1.2 h.2
          simp only [upd] at e'
          split at e'
          · rename_i hx
            obtain ⟨mid0, e0, rfl⟩ := Option.map_eq_some_iff.1 e'
            rw [(only_exec he (Asd.parse_aside cfg c hx hfl.1.1.closed)).2]
            refine H.skip (H.skip (hfl.1.2 _ e0) (by simp [quiet])) fun a ha => (mril_not ((only_exec he (parse_only cfg c x)).1 a ha)).2.2
          · split at e'
            · rename_i hx; obtain ⟨hb, rfl⟩ := hx; cases e'
              exact H.begins hfl.1.1 (hb.elim hst hfl.2) he
            · cases e'
        · simp only [mon] at e
          rw [foldl_calm m hg hn] at e
          simp only [upd] at e
          rw [(only_exec he (Asd.parse_state cfg c e.2)).2]
          exact hfl.2 e.1
  check g c h := by
    refine wp_exec_intro (E := fun _ => True) (fun _ => trivial) (fun _ _ _ => trivial) ?_ ?_
    · intro tr a q he _ hr mid e
      have hk := (only_exec he (mrilProcess_only c)).1
      have hg : ∀ a ∈ tr, ¬ isGhost a := fun a ha => (check_not (hk a (by simp [ha]))).1
      have hq : ∀ a ∈ tr, quiet a := fun a ha => (check_not (hk a (by simp [ha]))).2
      simp only [mon] at e
      rw [foldl_upd m (fun a ha => directs_ghost (hg a ha))] at e
      obtain ⟨mid', e', rfl⟩ := Option.map_eq_some_iff.1 e
      refine H.stop (H.skip (h.1.2 _ e') hq) ?_
      have hka := hk a (by simp)
      match a, hka, hr with
      | .out (.msg (.n1 n)), _, _ =>
        obtain ⟨c', rfl⟩ := check_n1 he n (by simp)
        have hmem : (Act.out (.msg (.n1 n)) : Act F) ∈ tr ++ [.out (.msg (.n1 n))] := by simp
        rcases process_spec _ _ _ he with ⟨_, _, _, _, e, _⟩ | ⟨_, e, _⟩ | ⟨hm, _⟩
        · rw [e] at hmem; simp [metRead, unmetRead] at hmem
        · rw [e] at hmem; simp [metRead] at hmem
        · simpa [RC.isMoving] using hm
    · intro tr c' he _
      have hk := (only_exec he (mrilProcess_only c))
      have hg : ∀ a ∈ tr, ¬ isGhost a := fun a ha => (check_not (hk.1 a ha)).1
      have hq : ∀ a ∈ tr, quiet a := fun a ha => (check_not (hk.1 a ha)).2
      have hrc : c'.rc = c.rc := hk.2.1
      have hcase : c.rc.state = .idle ∨ (∀ a ∈ tr, ¬ isN1 a) ∧ c'.done = false := by
        rcases process_spec _ _ _ he with ⟨_, _, _, _, e1, e2⟩ | ⟨_, e1, e2⟩ | ⟨hm, _⟩
        · refine .inr ⟨fun a ha hn => ?_, by rw [e2]⟩
          match a, hn with
          | .out (.msg (.n1 n)), _ => rw [e1] at ha; simp [metRead, unmetRead] at ha
        · refine .inr ⟨fun a ha hn => ?_, by rw [e2]⟩
          match a, hn with
          | .out (.msg (.n1 n)), _ => rw [e1] at ha; simp [metRead] at ha
        · exact .inl (by simpa [RC.isMoving] using hm)
      refine ⟨⟨⟨by rw [hrc]; exact h.1.1, fun mid e => ?_⟩, fun e => ?_⟩, fun hd => ?_⟩
      · simp only [mon] at e
        rw [foldl_upd m (fun a ha => directs_ghost (hg a ha))] at e
        obtain ⟨mid', e', rfl⟩ := Option.map_eq_some_iff.1 e
        rw [hrc]
        exact H.skip (h.1.2 _ e') hq
      · rw [hrc]
        rcases hcase with hc | ⟨hc, _⟩
        · exact hc
        · simp only [mon] at e
          rw [foldl_calm m hg hc] at e
          exact h.2 e
      · rw [hrc]
        rcases hcase with hc | ⟨_, hc⟩
        · exact hc
        · rw [hc] at hd; cases hd

/-- the flag says that no move is under way. -/
theorem calm_flag (m : List Byte) {pre : List (Act F)} (h : Calm pre) (g : Option (List (Act F))) : (pre.foldl (upd m) (True, g)).1 := by
  rcases h with h | ⟨p, n, q, rfl, h⟩
  · exact foldl_true m h trivial
  · rw [List.foldl_append, List.foldl_cons]
    exact foldl_true m h trivial

/-- every history: when an instruction has been begun from queue or storage, or at once while no move was under way, and nothing has been begun since that concerns the arm,
then at every report `Φ` holds of what happened since. -/
theorem sound {cfg : Cfg F} {L U : Six F} {m : List Byte} {Φ : List (Act F) → Prop} {Ph : List (Act F) → RC F → Prop} (H : Phases cfg L U m Φ Ph)
    {junk : Nat → Byte} {tr : List (Act F)} {p : Prog F (FW F)} (h : Trace cfg junk tr p) (hl : Limits L U tr)
    {pre mid post : List (Act F)} {src : Src} {a : Act F} (hs : src ≠ .immediate ∨ Calm pre) (ha : reports a) (hi : a.isInput = false)
    (hna : ¬ Aside m) (hg : ∀ x ∈ mid, ¬ DirectsI x) (e : tr = pre ++ .out (.ghost src m) :: mid ++ a :: post) : Φ mid := by
  have := ((core H).sound (junk := junk) (True, none) (fun v u mem _ _ => ⟨⟨⟨fun _ => ⟨rfl, rfl⟩, rfl, by simp [CoreInv.boot]⟩, fun _ h => by cases h⟩, fun _ => rfl⟩)
    (fun _ _ => rfl) (fun _ => rfl) h ?_).1 _ a post e hi ha mid ?_
  · exact this
  · intro pre a post e _ i s hs
    exact hl i s (by rw [e, hs]; simp)
  · simp only [mon, List.foldl_append, List.foldl_cons]
    rw [foldl_upd m hg]
    cases src with
    | immediate =>
      have := calm_flag m (hs.resolve_left (fun h => h rfl)) none
      simp [upd, this, hna]
    | queue => simp [upd, hna]
    | eeprom => simp [upd, hna]

/-! ### segments without stores into arm servos -/

theorem armStill_append {a b : List (Act F)} : ArmStill (a ++ b) ↔ ArmStill a ∧ ArmStill b := by
  constructor
  · exact fun h => ⟨fun i m hm => h i m (by simp [hm]), fun i m hm => h i m (by simp [hm])⟩
  · rintro ⟨h1, h2⟩ i m hm
    rcases List.mem_append.1 hm with hm | hm
    · exact h1 i m hm
    · exact h2 i m hm

theorem armStill_nil : ArmStill ([] : List (Act F)) := fun _ _ h => by cases h

theorem armStill_quiet {tr : List (Act F)} (h : ∀ a ∈ tr, quiet a) : ArmStill tr := by
  intro i m hm
  have := h _ hm
  simp only [quiet, armServo] at this
  omega

theorem armStill_still {tr : List (Act F)} (h : Still tr) : ArmStill tr := fun i m hm => h _ _ hm

theorem armTargets_append (a b : List (Act F)) : armTargets (a ++ b) = armTargets a ++ armTargets b := by
  simp [armTargets, RC.targets_append]

theorem armTargets_armStill {tr : List (Act F)} (h : ArmStill tr) : armTargets tr = [] := by
  rw [armTargets, List.filter_eq_nil_iff]
  rintro ⟨j, x⟩ hx
  rw [targets, List.mem_filterMap] at hx
  obtain ⟨a, ha, e⟩ := hx
  match a, e with
  | .micro j' (.setTarget y), e =>
    cases e
    simp only [decide_eq_true_eq]
    intro hj
    exact h ⟨j.val, hj⟩ _ ha

theorem armTargets_commanded {p : Six F} {tr : List (Act F)} (h : Commanded p tr) : armTargets tr = six6 p := by
  rw [armTargets, h, six6, List.filter_eq_self]
  intro x hx
  obtain ⟨i, _, rfl⟩ := List.mem_map.1 hx
  simp [armServo]

theorem arrived_append_still {mid tr : List (Act F)} (h : Arrived mid) (ht : ArmStill tr) : Arrived (mid ++ tr) := by
  intro i p1 m p2 e
  rcases List.append_eq_append_iff.1 e with ⟨x, rfl, e2⟩ | ⟨x, rfl, e2⟩
  · exact absurd (by rw [e2]; simp) (ht i m)
  · cases x with
    | nil => exact absurd (by rw [List.nil_append] at e2; rw [← e2]; simp) (ht i m)
    | cons y x =>
      simp only [List.cons_append, List.cons.injEq] at e2
      obtain ⟨rfl, rfl⟩ := e2
      obtain ⟨s, hs, h2⟩ := h i p1 m x rfl
      exact ⟨s, by simp [hs], h2⟩

theorem arrived_armStill {tr : List (Act F)} (h : ArmStill tr) : Arrived tr := by
  intro i p1 m p2 e
  exact absurd (by rw [e]; simp) (h i m)

theorem mem_readAll (v : Fin 6 → Servo F) (i : Fin 6) : .servo (armServo i) (v i) ∈ readAll v := List.mem_map.2 ⟨i, List.mem_finRange i, rfl⟩

theorem arrived_read {mid : List (Act F)} {v : Fin 6 → Servo F} (hv : ∀ i, (v i).atTarget = true) : Arrived (mid ++ readAll v) := by
  intro i p1 m p2 e
  have hs : ArmStill (readAll v) := armStill_still (RC.still_readAll v)
  rcases List.append_eq_append_iff.1 e with ⟨x, rfl, e2⟩ | ⟨x, rfl, e2⟩
  · exact absurd (by rw [e2]; simp) (hs i m)
  · cases x with
    | nil => exact absurd (by rw [List.nil_append] at e2; rw [← e2]; simp) (hs i m)
    | cons y x =>
      simp only [List.cons_append, List.cons.injEq] at e2
      obtain ⟨rfl, rfl⟩ := e2
      exact ⟨v i, List.mem_append_right _ (mem_readAll v i), hv i⟩

theorem _root_.Mrc.Spec.Moved.append {cfg : RCfg F} {L U t : Six F} {mid tr : List (Act F)} (h : Moved cfg L U t mid) (ht : ArmStill tr) : Moved cfg L U t (mid ++ tr) := by
  cases h with
  | went h1 h2 h3 => exact .went h1 (by rw [armTargets_append, h2, armTargets_armStill ht, List.append_nil]) (arrived_append_still h3 ht)
  | there b h1 h2 h3 => exact .there b (fun i => by obtain ⟨s, hs, e⟩ := h1 i; exact ⟨s, by simp [hs], e⟩) h2 (armStill_append.2 ⟨h3, ht⟩)
  | noTime v mt h1 h2 h3 h4 => exact .noTime v mt h1 (fun i => by simp [h2 i]) h3 (armStill_append.2 ⟨h4, ht⟩)
  | refused h1 h2 => exact .refused h1 (armStill_append.2 ⟨h2, ht⟩)

/-- what a segment does to the arm. -/
theorem cmd_arm {cfg : RCfg F} {L U : Six F} {r r' : RC F} {t : Six F} {mt : F} {tr : List (Act F)} (h : RC.Cmd cfg L U r t mt tr r') :
    (¬ Fits cfg L U t ∧ ArmStill tr ∧ r'.state = .idle) ∨
    (Fits cfg L U t ∧ r' = { r with state := .moving } ∧
      (armTargets tr = six6 (cfg.l2p t) ∨ ArmStill tr ∧ ∃ (v : Fin 6 → Servo F) (mt : F), (∀ i, .servo (armServo i) (v i) ∈ tr) ∧ feq (timeFor (cfg.l2p t) v mt) (lit 0) = true)) := by
  rcases RC.cmd_cases h with ⟨h1, h2⟩ | ⟨h1, h2, h3⟩
  · exact .inl ⟨h1, armStill_still h2.1, h2.2.1⟩
  · refine .inr ⟨h1, ?_, ?_⟩
    · cases h with
      | refused _ _ _ hf => exact absurd h1 hf
      | zero => rfl
      | moved => rfl
    · cases h with
      | refused _ _ _ hf => exact absurd h1 hf
      | zero v m hf hz =>
        exact .inr ⟨armStill_still (RC.still_append (RC.still_readAll v) (RC.still_readAll m)), m, mt, fun i => List.mem_append_right _ (mem_readAll m i), hz⟩
      | moved v m x y hf hz =>
        left
        apply armTargets_commanded
        unfold Commanded
        rw [RC.targets_append, RC.targets_append, RC.targets_still (RC.still_readAll v), RC.targets_still (RC.still_readAll m), RC.targets_apply]; rfl

/-! ### a point to point move -/

/-- the phases of a point to point move to angles with the property `T`. -/
inductive P2P (cfg : RCfg F) (L U : Six F) (T : Six F → Prop) (mid : List (Act F)) (r : RC F) : Prop
  | told (t : Six F) : T t → r.state = .prepareMove → r.method = .p2p → Goal cfg r t → ArmStill mid → P2P cfg L U T mid r
  | sent (t : Six F) : T t → r.state = .moving → r.step = r.total → Fits cfg L U t → armTargets mid = six6 (cfg.l2p t) → P2P cfg L U T mid r
  | zero (t : Six F) (v : Fin 6 → Servo F) (mt : F) : T t → r.state = .moving → r.step = r.total → Fits cfg L U t → (∀ i, .servo (armServo i) (v i) ∈ mid) →
      feq (timeFor (cfg.l2p t) v mt) (lit 0) = true → ArmStill mid → P2P cfg L U T mid r
  | done (t : Six F) : T t → r.state = .idle → Moved cfg L U t mid → P2P cfg L U T mid r

theorem goal_sync {cfg : RCfg F} {r : RC F} {t : Six F} (h : Goal cfg r t) : (RC.sync cfg r).targetAngles = t ∧ ¬ (r.poseChanged = true ∧ r.anglesChanged = true) := by
  rcases h with ⟨h1, h2, h3⟩ | ⟨h1, h2, h3⟩
  · exact ⟨by simp [RC.sync, h1, h3], by simp [h2]⟩
  · exact ⟨by simp [RC.sync, h1, h2, h3], by simp [h1]⟩

theorem P2P.append {cfg : RCfg F} {L U : Six F} {T : Six F → Prop} {mid tr : List (Act F)} {r : RC F} (h : P2P cfg L U T mid r) (ht : ArmStill tr) : P2P cfg L U T (mid ++ tr) r := by
  cases h with
  | told t h1 h2 h3 h4 h5 => exact .told t h1 h2 h3 h4 (armStill_append.2 ⟨h5, ht⟩)
  | sent t h1 h2 h3 h4 h5 => exact .sent t h1 h2 h3 h4 (by rw [armTargets_append, h5, armTargets_armStill ht, List.append_nil])
  | zero t v mt h1 h2 h3 h4 h5 h6 h7 => exact .zero t v mt h1 h2 h3 h4 (fun i => by simp [h5 i]) h6 (armStill_append.2 ⟨h7, ht⟩)
  | done t h1 h2 h3 => exact .done t h1 h2 (h3.append ht)

theorem P2P.step {cfg : RCfg F} {L U : Six F} {T : Six F → Prop} {mid tr : List (Act F)} {r r' : RC F} (hf : Fl r) (h : P2P cfg L U T mid r)
    (hp : RC.Pro cfg L U r tr r') : P2P cfg L U T (mid ++ tr) r' := by
  cases hp with
  | idle => exact h.append armStill_nil
  | start hs => exact absurd hs hf.notStart
  | moving hs hm =>
    cases h with
    | told _ _ h2 => rw [hs] at h2; cases h2
    | done _ _ h2 => rw [hs] at h2; cases h2
    | sent t h1 h2 h3 h4 h5 =>
      cases hm with
      | wait v _ => exact (P2P.sent t h1 h2 h3 h4 h5).append (armStill_still (RC.still_readAll v))
      | finish v hv _ =>
        refine .done t h1 rfl (.went h4 ?_ (arrived_read hv))
        rw [armTargets_append, h5, armTargets_armStill (armStill_still (RC.still_readAll v)), List.append_nil]
      | next v _ hne => exact absurd h3 hne
    | zero t v mt h1 h2 h3 h4 h5 h6 h7 =>
      cases hm with
      | wait v' _ => exact (P2P.zero t v mt h1 h2 h3 h4 h5 h6 h7).append (armStill_still (RC.still_readAll v'))
      | finish v' hv _ =>
        exact .done t h1 rfl (.noTime v mt h4 (fun i => by simp [h5 i]) h6 (armStill_append.2 ⟨h7, armStill_still (RC.still_readAll v')⟩))
      | next v _ hne => exact absurd h3 hne
  | prepare hs hp =>
    cases h with
    | sent _ _ h2 => rw [hs] at h2; cases h2
    | zero _ _ _ _ h2 => rw [hs] at h2; cases h2
    | done _ _ h2 => rw [hs] at h2; cases h2
    | told t h1 h2 h3 h4 h5 =>
      obtain ⟨e1, e2⟩ := goal_sync h4
      cases hp with
      | transaction ht => rw [hf.closed] at ht; cases ht
      | both _ ha hb => exact absurd ⟨ha, hb⟩ e2
      | same e v u _ _ he hq =>
        rw [e1] at hq
        have hst : ArmStill (e ++ readAll v ++ readAll u) :=
          armStill_still (RC.still_append (RC.still_append (RC.still_raw he) (RC.still_readAll v)) (RC.still_readAll u))
        refine .done t h1 rfl (.there (curs u) ?_ hq (armStill_append.2 ⟨h5, hst⟩))
        exact RC.reading_readAll u fun a ha => by simp [ha]
      | @start e v u n tr' _ _ _ he hq hn hst =>
        have hpre : ArmStill (mid ++ (e ++ readAll v ++ readAll u)) :=
          armStill_append.2 ⟨h5, armStill_still (RC.still_append (RC.still_append (RC.still_raw he) (RC.still_readAll v)) (RC.still_readAll u))⟩
        rw [← List.append_assoc]
        have hmeth : (RC.sync cfg r).method = .p2p := (RC.sync_same cfg r).2.1.trans h3
        have hn1 : n = 1 := by
          rcases hn with ⟨_, rfl⟩ | ⟨hl, _⟩
          · rfl
          · rw [h3] at hl; cases hl
        subst hn1
        cases hst with
        | unreachable _ _ hm => rw [show _ = _ from hmeth] at hm; cases hm
        | linear hm => rw [show _ = _ from hmeth] at hm; cases hm
        | singular hm => rw [show _ = _ from hmeth] at hm; cases hm
        | @p2p tr2 _ hm hc =>
          rw [show _ = t from e1] at hc
          have hout : ∀ o : Out F, ArmStill [Act.out o] := fun o => armStill_still (RC.still_out1 o)
          rcases cmd_arm hc with ⟨c1, c2, c3⟩ | ⟨c1, rfl, c3⟩
          · refine .done t h1 c3 (.refused c1 (armStill_append.2 ⟨hpre, ?_⟩))
            exact armStill_append (a := [_]).2 ⟨hout _, c2⟩
          · rcases c3 with c3 | ⟨c3, v', mt, c4, c5⟩
            · refine .sent t h1 rfl rfl c1 ?_
              rw [armTargets_append, armTargets_armStill hpre, List.nil_append, ← List.singleton_append, armTargets_append, armTargets_armStill (hout _), c3, List.nil_append]
            · refine .zero t v' mt h1 rfl rfl c1 (fun i => by simp [c4 i]) c5 (armStill_append.2 ⟨hpre, ?_⟩)
              exact armStill_append (a := [_]).2 ⟨hout _, c3⟩

theorem P2P.stop {cfg : RCfg F} {L U : Six F} {T : Six F → Prop} {mid : List (Act F)} {r : RC F} (h : P2P cfg L U T mid r) (hs : r.state = .idle) :
    ∃ t, T t ∧ Moved cfg L U t mid := by
  cases h with
  | told _ _ h2 => rw [hs] at h2; cases h2
  | sent _ _ h2 => rw [hs] at h2; cases h2
  | zero _ _ _ _ h2 => rw [hs] at h2; cases h2
  | done t h1 _ h3 => exact ⟨t, h1, h3⟩

/-- phases from the first one. -/
theorem p2p_phases {cfg : Cfg F} {L U : Six F} {m : List Byte} {X : Prop} {T : Six F → Prop}
    (hb : ∀ {c c' tr}, Fl c.rc → c.rc.state = .idle → Exec (Mril.parse cfg c m) tr (.ret c') →
      c'.rc.state = .prepareMove ∧ c'.rc.method = .p2p ∧ (X ∨ ∃ t, T t ∧ Goal cfg.toRCfg c'.rc t)) :
    Phases cfg L U m (fun mid => X ∨ ∃ t, T t ∧ Moved cfg.toRCfg L U t mid) (fun mid r => X ∨ P2P cfg.toRCfg L U T mid r) where
  step hf h hp := h.imp id fun h => h.step hf hp
  stop h hs := h.imp id fun h => h.stop hs
  skip h ht := h.imp id fun h => h.append (armStill_quiet ht)
  begins hf hs he := by
    obtain ⟨h1, h2, h3⟩ := hb hf hs he
    refine h3.imp id fun ⟨t, ht, hg⟩ => .told t ht h1 h2 hg (armStill_quiet fun a ha => (mril_not ((only_exec he (parse_only _ _ _)).1 a ha)).2.2)

end Told
end Mrc
