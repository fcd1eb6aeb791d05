import Verif.Spec.Talk
import Verif.Props.Pins
import Verif.Props.Oblige
/-
C131: the conversation as an invariant.
-/
set_option linter.unusedSectionVars false
set_option linter.unusedSimpArgs false
namespace Mrc.Speech
open Mrc Mrc.Prog Mrc.Spec Mrc.Rest Mrc.Props
variable {F : Type} [FloatOps F]

/-- said so far, begun so far, an immediate instruction was begun. -/
abbrev St := List Word × List (List Byte) × Bool

def upd (g : St) (a : Act F) : St :=
  match a with
  | .out (.ghost src m) => (g.1, g.2.1 ++ [m], g.2.2 || src == .immediate)
  | a => (g.1 ++ (wordOf a).toList, g.2)

/-- `todo` remains to be said. -/
def Left (todo : List Word) (g : St) : Prop :=
  g.2.2 = false → ∀ ps : List (List Cmd), (∀ cs ∈ ps, Simple cs) → g.2.1 = ps.map text → g.1 ++ todo = talk 1 ps

def Meth (g : St) (k : Nat) : Prop := g.2.2 = false → ∀ ps : List (List Cmd), (∀ cs ∈ ps, Simple cs) → g.2.1 = ps.map text → k = ps.flatten.foldl chosenBy 1

def mon : Mon F St where
  upd := upd
  ok g a := (BeginsI a → (∀ m, a ≠ .out (.ghost .immediate m)) → Left [] g) ∧ ∀ w, wordOf a = some w → g.2.2 = false → ∀ ps : List (List Cmd), (∀ cs ∈ ps, Simple cs) → g.2.1 = ps.map text → g.1 ++ [w] <+: talk 1 ps

/-- the N1 still to come. -/
def pend (n : Int) : List Word := if 0 < n then [.finished n] else []

def I (g : St) (c : Core F) : Prop := Left (pend c.commandNumber) g ∧ Meth g c.rc.method.code

def J (g : St) (c : Core F) : Prop := I g c ∧ (c.done = true → c.commandNumber ≤ 0)

instance (d : Cmd) : Decidable (Question d) := by unfold Question; infer_instance

theorem begin_word {a : Act F} (h : BeginsI a) : wordOf a = none := by obtain ⟨_, _, rfl⟩ := h; rfl

theorem upd_other {g : St} {a : Act F} (h : ¬ BeginsI a) (h' : wordOf a = none) : upd g a = g := by
  unfold upd
  split
  · exact absurd ⟨_, _, rfl⟩ h
  · rw [h']; simp

theorem upd_word {g : St} {a : Act F} {w : Word} (h' : wordOf a = some w) : upd g a = (g.1 ++ [w], g.2) := by
  unfold upd
  split
  · cases h'
  · rw [h']; rfl

theorem Left.say {w : Word} {todo : List Word} {g : St} {a : Act F} (h : Left (w :: todo) g) (ha : wordOf a = some w) : mon.ok g a ∧ Left todo (upd g a) := by
  refine ⟨⟨fun hb _ => absurd (begin_word hb) (by rw [ha]; simp), fun w' hw h1 ps h2 h3 => ?_⟩, ?_⟩
  · rw [ha] at hw; cases hw
    exact ⟨todo, by rw [← h h1 ps h2 h3]; simp⟩
  · rw [upd_word ha]
    intro h1 ps h2 h3
    rw [← h h1 ps h2 h3]; simp

/-- commands other than N say nothing; what they leave is a question or an order. -/
theorem exec_quiet (cfg : Cfg F) (s : Core F) (l : Loc F) (tok : List Byte) (h : tok.headD 0 ≠ 78) :
    (Mril.exec cfg s l tok).only (fun a => ∀ n, a ≠ .out (.msg (.n0 n))) (fun r => r.2.ctype ≠ .none ∧ r.1.commandNumber = s.commandNumber) := by
  exec_leaves
  all_goals first
    | contradiction
    | trivial
    | (simp [only, Prog.bind]; done)
    | (simp_all [only, Prog.bind]; done)

theorem exec_n (cfg : Cfg F) (s : Core F) (l : Loc F) (c : Cmd) (h : c.letter = 78) :
    Mril.exec cfg s l c.text = .out (.msg (.n0 (atol c.arg))) (.ret (s, { l with ctype := .none, tmpNumber := atol c.arg })) := by
  obtain ⟨letter, arg⟩ := c
  simp only at h
  subst h
  simp [Mril.exec, Cmd.text, poseIdx, send, bind_def, pure_def, Prog.bind]

theorem quiet_keep {α : Type} {p : Prog F α} {R : α → Prop} (h : p.only (fun a => ¬ BeginsI a ∧ wordOf a = none) R) (g : St) : p.wp mon (fun g' r => g' = g ∧ R r) g :=
  ans_keep h (fun g' => g' = g) g rfl
    (fun s a e ha => ⟨⟨fun hb => absurd hb ha.1, fun o ho => by rw [ha.2] at ho; cases ho⟩, by rw [← e]; exact upd_other ha.1 ha.2⟩) (fun _ => trivial)

theorem exec_talk (cfg : Cfg F) (c : Cmd) (hs : Simple1 c) (s : Core F) (l : Loc F) (g : St) (todo : List Word) (h : Left (begins [c] ++ todo) g) :
    (Mril.exec cfg s l c.text).wp mon (fun g' r => (g'.2 = g.2 ∧ Left todo g') ∧ Did c s l r ∧ r.1.commandNumber = s.commandNumber ∧ (r.2.ctype = .none ↔ c.letter = 78)) g := by
  have hd := exec_did cfg s l c hs
  by_cases hc : c.letter = 78
  · rw [exec_n cfg s l c hc] at hd ⊢
    have hb : begins [c] = [.begun (atol c.arg)] := by simp [begins, hc]
    rw [hb] at h
    obtain ⟨h1, h2⟩ := Left.say (F := F) (a := .out (.msg (.n0 (atol c.arg)))) h rfl
    exact ⟨h1, ⟨rfl, h2⟩, hd.2, rfl, by simp [hc]⟩
  · have hb : begins [c] = [] := by simp [begins, hc]
    rw [hb] at h
    have hq := exec_quiet cfg s l c.text (by simpa [Cmd.text] using hc)
    refine wp_mono ?_ (quiet_keep (only_mono ?_ (fun _ h => h) (only_and2 hd hq)) g)
    · rintro g' r ⟨rfl, k1, k2, k3⟩
      exact ⟨⟨rfl, h⟩, k1, k3, by simp [k2, hc]⟩
    · rintro a ⟨⟨h1, h2⟩, h3⟩
      refine ⟨mrilAct_noBegin h1, ?_⟩
      unfold wordOf
      split
      · exact absurd rfl (h3 _)
      · exact h1.elim
      · exact absurd rfl (h2 _ _)
      · rfl

theorem execAll_talk (cfg : Cfg F) : ∀ (cs : List Cmd) (_ : ∀ c ∈ cs, Simple1 c) (s : Core F) (l : Loc F) (g : St) (todo : List Word) (_ : Left (begins cs ++ todo) g),
    (execAll cfg cs s l).wp mon (fun g' r => (g'.2 = g.2 ∧ Left todo g') ∧ r.2.resp.map Part.tag = l.resp.map Part.tag ++ Spec.asked s.rc.method.code cs ∧ r.1.rc.method.code = cs.foldl chosenBy s.rc.method.code ∧
      r.2.tmpNumber = cs.foldl (fun n c => if c.letter = 78 then atol c.arg else n) l.tmpNumber ∧ r.1.commandNumber = s.commandNumber ∧ (cs = [] → r.2.ctype = l.ctype) ∧
      (∀ c, cs.getLast? = some c → (r.2.ctype = .read ↔ Question c) ∧ (r.2.ctype = .none ↔ c.letter = 78))) g
  | [], _, s, l, g, todo, h => by
    simp only [execAll]
    exact ⟨⟨rfl, h⟩, by simp [Spec.asked], rfl, rfl, rfl, fun _ => rfl, fun c hc => by simp at hc⟩
  | c :: cs, hs, s, l, g, todo, h => by
    simp only [execAll]
    rw [wp_bind]
    have hb : begins (c :: cs) = begins [c] ++ begins cs := by
      rw [begins, begins, begins, ← List.filterMap_append]; rfl
    rw [hb, List.append_assoc] at h
    refine wp_mono ?_ (exec_talk cfg c (hs c (by simp)) s l g _ h)
    rintro g1 r1 ⟨⟨e1, h1⟩, ⟨d1, d2, d3, d4⟩, hn, hk⟩
    refine wp_mono ?_ (execAll_talk cfg cs (fun x hx => hs x (by simp [hx])) r1.1 r1.2 g1 todo h1)
    rintro g' r ⟨⟨k1, k2⟩, k3, k4, k5, k6, k7, k8⟩
    refine ⟨⟨k1.trans e1, k2⟩, ?_, ?_, ?_, k6.trans hn, fun e => by simp at e, ?_⟩
    · rw [k3, d1, Spec.asked, d2, List.append_assoc]
    · rw [k4, d2]; rfl
    · rw [k5, d3]; rfl
    · intro c' hc'
      cases cs with
      | nil =>
        simp at hc'; subst hc'
        rw [k7 rfl]; exact ⟨d4, hk⟩
      | cons d cs => exact k8 c' (by simpa using hc')

theorem talk_append (k : Nat) (ps : List (List Cmd)) (cs : List Cmd) :
    talk k (ps ++ [cs]) = talk k ps ++ (begins cs ++ ending (ps.flatten.foldl chosenBy k) cs) := by
  induction ps generalizing k with
  | nil => simp [talk]
  | cons x ps ih => simp [talk, ih, List.foldl_append]

theorem map_text_inj {ps ps' : List (List Cmd)} (h : ∀ cs ∈ ps, Simple cs) (h' : ∀ cs ∈ ps', Simple cs) (e : ps.map text = ps'.map text) : ps = ps' := by
  induction ps generalizing ps' with
  | nil => cases ps' with
    | nil => rfl
    | cons => simp at e
  | cons x ps ih => cases ps' with
    | nil => simp at e
    | cons y ps' =>
      simp at e
      rw [text_inj (h x (by simp)).ok (h' y (by simp)).ok e.1, ih (fun c hc => h c (by simp [hc])) (fun c hc => h' c (by simp [hc])) e.2]

theorem check_pins (c : Conds) : (IOL.check c : Prog F Bool).only (fun a => ¬ BeginsI a ∧ wordOf a = none) (fun _ => True) := by
  induction c with
  | nil => trivial
  | cons x c ih =>
    have hp : ∀ p b, ¬ BeginsI (.pin p b : Act F) ∧ wordOf (.pin p b : Act F) = none := fun p b => ⟨(by rintro ⟨_, _, h⟩; cases h), rfl⟩
    simp only [IOL.check]
    split
    · intro b; refine ⟨hp _ _, ?_⟩; cases b <;> first | exact ih | trivial
    · split
      · intro b; refine ⟨hp _ _, ?_⟩; cases b <;> first | exact ih | trivial
      · exact ih

theorem isDone_pins (c : Conds) : (IOL.isDone c : Prog F (Bool × Conds)).only (fun a => ¬ BeginsI a ∧ wordOf a = none) (fun _ => True) := by
  unfold IOL.isDone
  rw [only_bind]
  exact only_mono (fun _ h => h) (fun _ _ => trivial) (check_pins c)

theorem talk_inv (cfg : Cfg F) : CoreInv cfg mon (I (F := F)) J where
  flt _ := trivial
  weak _ _ h := h.1
  disp g c a h ha := by
    have hb : ¬ BeginsI a := by rintro ⟨_, _, rfl⟩; exact ha
    have hw : wordOf a = none := by unfold wordOf; split <;> first | exact ha.elim | rfl
    exact ⟨⟨fun hb' => absurd hb' hb, fun o ho => by rw [hw] at ho; cases ho⟩, by show I (upd g a) c; rw [upd_other hb hw]; exact h⟩
  dispJ g c a h ha := by
    have hb : ¬ BeginsI a := by rintro ⟨_, _, rfl⟩; exact ha
    have hw : wordOf a = none := by unfold wordOf; split <;> first | exact ha.elim | rfl
    exact ⟨⟨fun hb' => absurd hb' hb, fun o ho => by rw [hw] at ho; cases ho⟩, by show J (upd g a) c; rw [upd_other hb hw]; exact h⟩
  rc g c h := by
    refine wp_mono ?_ (quiet_keep (only_mono (fun a ha => ?_) (fun _ h => h) (RC.process_only cfg.toRCfg c.rc)) g)
    · rintro g' r ⟨rfl, hr⟩
      refine ⟨h.1, ?_⟩
      show Meth _ r.method.code
      rw [hr.2.1]; exact h.2
    · refine ⟨by rintro ⟨_, _, rfl⟩; exact ha, ?_⟩
      unfold wordOf; split <;> first | exact ha.elim | rfl
  check g c h := by
    unfold Mril.process
    rw [wp_bind]
    refine wp_mono ?_ (quiet_keep (isDone_pins c.conds) g)
    · rintro g' r ⟨rfl, -⟩
      dsimp only
      split
      · intro t _
        have hnow : upd g' (.now t : Act F) = g' := upd_other (by rintro ⟨_, _, h⟩; cases h) rfl
        change Prog.wp mon _ J (upd g' (.now t : Act F))
        rw [hnow]
        dsimp only
        split
        · split
          · rename_i hp
            have hl := h.1
            rw [pend, if_pos hp] at hl
            obtain ⟨h1, h2⟩ := Left.say (F := F) (a := .out (.msg (.n1 c.commandNumber))) hl rfl
            refine ⟨h1, ⟨?_, ?_⟩, fun _ => by show (-1 : Int) ≤ 0; decide⟩
            · show Left (pend (-1)) _
              rw [pend, if_neg (by decide)]; exact h2
            · rw [show mon.upd g' _ = upd g' (.out (.msg (.n1 c.commandNumber)) : Act F) from rfl, upd_word rfl]; exact h.2
          · exact ⟨h, fun _ => by show c.commandNumber ≤ 0; omega⟩
        · exact ⟨h, fun e => by cases e⟩
      · exact ⟨h, fun e => by cases e⟩
  parse g c m src h := by
    have hb : BeginsI (.out (.ghost src m) : Act F) := ⟨_, _, rfl⟩
    have hI : I g c := by split at h; · exact h
                          · exact h.1.1
    have hp : src ≠ .immediate → pend c.commandNumber = [] := fun hs => by
      rw [if_neg hs] at h
      rw [pend, if_neg (by have := h.1.2 h.2; omega)]
    refine ⟨⟨fun _ hn => ?_, fun w hw => by cases hw⟩, ?_⟩
    · have := hI.1
      rwa [hp (fun e => hn m (by rw [e]))] at this
    show Prog.wp _ _ _ (upd g (.out (.ghost src m) : Act F))
    -- a history that is not spoken of
    have vac : ∀ g0 : St, (∀ ps : List (List Cmd), (∀ cs ∈ ps, Simple cs) → g0.2.1 = ps.map text → g0.2.2 = true) → (Mril.parse cfg c m).wp mon I g0 := by
      intro g0 h0
      refine wp_mono ?_ (ans_keep (parse_only cfg c m) (fun g' => g'.2 = g0.2) _ rfl ?_ (fun _ => trivial))
      · rintro g' c' ⟨hg, -⟩
        refine ⟨fun h1 ps h2 h3 => ?_, fun h1 ps h2 h3 => ?_⟩ <;>
        · rw [hg] at h1 h3; rw [h0 ps h2 h3] at h1; cases h1
      · intro g' a hg ha
        refine ⟨⟨fun hb => absurd hb (mrilAct_noBegin ha), fun w _ h1 ps h2 h3 => ?_⟩, ?_⟩
        · rw [hg] at h1 h3; rw [h0 ps h2 h3] at h1; cases h1
        show (upd g' a).2 = _
        unfold upd
        split
        · exact absurd ⟨_, _, rfl⟩ (mrilAct_noBegin ha)
        · exact hg
    by_cases hsp : src ≠ .immediate ∧ g.2.2 = false ∧ ∃ ps : List (List Cmd), ∃ cs, (∀ x ∈ ps, Simple x) ∧ Simple cs ∧ g.2.1 = ps.map text ∧ m = text cs
    · obtain ⟨hs, hg, ps, cs, h1, h2, h3, rfl⟩ := hsp
      have e0 : upd g (.out (.ghost src (text cs)) : Act F) = (g.1, g.2.1 ++ [text cs], false) := by
        unfold upd; simp [hg, hs]
      rw [e0]
      have hsaid : g.1 = talk 1 ps := by have := hI.1 hg ps h1 h3; rwa [hp hs, List.append_nil] at this
      have hmeth : c.rc.method.code = ps.flatten.foldl chosenBy 1 := hI.2 hg ps h1 h3
      have hun : ∀ ps' : List (List Cmd), (∀ x ∈ ps', Simple x) → g.2.1 ++ [text cs] = ps'.map text → ps' = ps ++ [cs] := fun ps' k1 k2 =>
        map_text_inj k1 (by intro x hx; simp at hx; rcases hx with hx | rfl; exacts [h1 x hx, h2]) (by rw [← k2, h3]; simp)
      have hstart : Left (begins cs ++ ending c.rc.method.code cs) (g.1, g.2.1 ++ [text cs], false) := fun _ ps' k1 k2 => by
        rw [hun ps' k1 k2, talk_append, hmeth, hsaid]
      by_cases hne : cs = []
      · subst hne
        refine ⟨?_, fun _ ps' k1 k2 => ?_⟩
        · show Left (pend c.commandNumber) _
          rw [hp hs]; exact hstart
        · rw [hun ps' k1 k2]; simpa using hmeth
      · rw [parse_text cfg cs h2.ok hne, wp_bind]
        refine wp_mono ?_ (execAll_talk cfg cs (simple_each h2) { c with rc := c.rc.startTransaction } {} _ _ hstart)
        rintro g' ⟨s, l⟩ ⟨⟨k1, k2⟩, k3, k4, k5, k6, -, k8⟩
        have k3 : l.resp.map Part.tag = Spec.asked c.rc.method.code cs := by simpa [RC.startTransaction] using k3
        have k4 : s.rc.method.code = cs.foldl chosenBy c.rc.method.code := by simpa [RC.startTransaction] using k4
        have k5 : l.tmpNumber = numberOf cs := k5
        have k6 : s.commandNumber = c.commandNumber := k6
        obtain ⟨d, hd⟩ : ∃ d, cs.getLast? = some d := by
          cases e : cs.getLast? with
          | none => exact absurd (List.getLast?_eq_none_iff.1 e) hne
          | some d => exact ⟨d, rfl⟩
        obtain ⟨q1, q2⟩ := k8 d hd
        have hM : ∀ g'' : St, g''.2 = g'.2 → Meth g'' s.rc.method.code := fun g'' eg hh ps' z1 z2 => by
          rw [eg, k1] at z2
          rw [hun ps' z1 z2, k4, hmeth]; simp
        unfold Mril.finish
        simp only [send, bind_def, Prog.bind]
        have hend : ending c.rc.method.code cs = if Question d then [Word.answer (if 0 < numberOf cs then some (numberOf cs) else none) (Spec.asked c.rc.method.code cs)]
            else if d.letter ≠ 78 ∧ 0 < numberOf cs then [Word.finished (numberOf cs)] else [] := by
          unfold ending; rw [hd]; rfl
        rw [hend] at k2
        split
        · rename_i hread
          rw [if_pos (q1.1 hread)] at k2
          obtain ⟨z1, z2⟩ := Left.say (F := F) (a := .out (.msg (.reply (if l.tmpNumber > 0 then some l.tmpNumber else none) l.resp))) k2 (by
            show some _ = some _; rw [k3, k5])
          refine ⟨z1, ?_, ?_⟩
          · show Left (pend s.commandNumber) _
            rw [k6, hp hs]; exact z2
          · refine hM _ ?_
            show (upd g' _).2 = _
            rw [upd_word rfl]
        · rename_i hwr
          have hnr : ¬ Question d := fun hq => by rw [q1.2 hq] at hwr; cases hwr
          have hnn : d.letter ≠ 78 := fun hq => by rw [q2.2 hq] at hwr; cases hwr
          rw [if_neg hnr] at k2
          refine ⟨?_, hM _ rfl⟩
          show Left (pend l.tmpNumber) _
          rw [k5, pend]
          simpa [hnn] using k2
        · rename_i hno
          have hnr : ¬ Question d := fun hq => by rw [q1.2 hq] at hno; cases hno
          rw [if_neg hnr, if_neg (fun hh => hh.1 (q2.1 hno))] at k2
          refine ⟨?_, hM _ rfl⟩
          show Left (pend s.commandNumber) _
          rw [k6, hp hs]; exact k2
    · refine vac _ fun ps h1 h2 => ?_
      by_contra hf
      have hf : (upd g (.out (.ghost src m) : Act F)).2.2 = false := by simpa using hf
      have e : (upd g (.out (.ghost src m) : Act F)) = (g.1, g.2.1 ++ [m], g.2.2 || src == .immediate) := rfl
      rw [e] at hf h2
      simp at hf
      rcases List.eq_nil_or_concat ps with rfl | ⟨ps', cs, rfl⟩
      · simp at h2
      · rw [List.concat_eq_append] at *
        rw [List.map_append] at h2
        obtain ⟨e1, e2⟩ := List.append_inj' h2 rfl
        simp at e2
        exact hsp ⟨hf.2, hf.1, ps', cs, fun x hx => h1 x (by simp [hx]), h1 cs (by simp), e1, e2⟩

end Mrc.Speech
