import Verif.Spec.Dialogue
import Verif.Proof.Talk
/-
C133: the conversation follows the rules.
-/
set_option linter.unusedSectionVars false
set_option linter.unusedSimpArgs false
namespace Mrc.Dlg
open Mrc Mrc.Prog Mrc.Spec Mrc.Rest Mrc.Props Mrc.Speech
variable {F : Type} [FloatOps F]

abbrev St := List Heard

def heardOf (a : Act F) : Option Heard := match a with
  | .out (.ghost src m) => some (.begun (src == .immediate) m)
  | a => (wordOf a).map .said

theorem heard_snoc (tr : List (Act F)) (a : Act F) : heard (tr ++ [a]) = heard tr ++ (heardOf a).toList := by
  rw [heard, List.filterMap_append]
  congr 1

def nupd (g : St) (a : Act F) : St := g ++ (heardOf a).toList

/-- the same number is due. -/
def Same (a b : Int) : Prop := 0 < a ∨ 0 < b → a = b

/-- what was heard follows the rules; `todo` remains to be said. -/
def Rem (todo : List Word) (n : Int) (k : Nat) (g : St) : Prop :=
  ∀ ts : List Turn, (∀ t ∈ ts, t.Plain) → ts.map Turn.heard = g → ∃ d, dialogue ts = some d ∧ d.left = todo ∧ Same d.due n ∧ d.method = k

def nmon : Mon F St where
  upd := nupd
  ok g a := ∀ x, heardOf a = some x → ∀ ts : List Turn, (∀ t ∈ ts, t.Plain) → ts.map Turn.heard = g ++ [x] → ∃ d, dialogue ts = some d

def NI (g : St) (c : Core F) : Prop := Rem [] c.commandNumber c.rc.method.code g

def NJ (g : St) (c : Core F) : Prop := NI g c ∧ (c.done = true → c.commandNumber ≤ 0)

theorem nupd_none {g : St} {a : Act F} (h : heardOf a = none) : nupd g a = g := by simp [nupd, h]
theorem nupd_some {g : St} {a : Act F} {x : Heard} (h : heardOf a = some x) : nupd g a = g ++ [x] := by simp [nupd, h]

theorem quietOf {a : Act F} (h : ¬ BeginsI a ∧ wordOf a = none) : heardOf a = none := by
  unfold heardOf
  split
  · exact absurd ⟨_, _, rfl⟩ h.1
  · rw [h.2]; rfl

theorem ok_none {g : St} {a : Act F} (h : heardOf a = none) : nmon.ok g a := fun x hx => by rw [h] at hx; cases hx

theorem turns_snoc {ts : List Turn} {g : St} {x : Heard} (h : ts.map Turn.heard = g ++ [x]) : ∃ ts' t, ts = ts' ++ [t] ∧ ts'.map Turn.heard = g ∧ t.heard = x := by
  rcases List.eq_nil_or_concat ts with rfl | ⟨ts', t, rfl⟩
  · simp at h
  · rw [List.concat_eq_append] at *
    rw [List.map_append] at h
    obtain ⟨e1, e2⟩ := List.append_inj' h rfl
    simp at e2
    exact ⟨ts', t, rfl, e1, e2⟩

theorem dialogue_snoc (ts : List Turn) (t : Turn) : dialogue (ts ++ [t]) = (dialogue ts).bind (·.step t) := by
  rw [dialogue, List.foldlM_append, dialogue]
  cases ts.foldlM Dialogue.step {} <;> simp

theorem Rem.say {w : Word} {todo : List Word} {n : Int} {k : Nat} {g : St} {a : Act F} (h : Rem (w :: todo) n k g) (ha : heardOf a = some (.said w)) : nmon.ok g a ∧ Rem todo n k (nupd g a) := by
  have key : ∀ ts : List Turn, (∀ t ∈ ts, t.Plain) → ts.map Turn.heard = g ++ [.said w] → ∃ d, dialogue ts = some d ∧ d.left = todo ∧ Same d.due n ∧ d.method = k := by
    intro ts h1 h2
    obtain ⟨ts', t, rfl, e1, e2⟩ := turns_snoc h2
    obtain ⟨d, d1, d2, d3, d4⟩ := h ts' (fun x hx => h1 x (by simp [hx])) e1
    cases t with
    | begun now cs => cases e2
    | said w' =>
      have : w' = w := by simpa [Turn.heard] using e2
      subst this
      refine ⟨{ d with left := todo }, ?_, rfl, d3, d4⟩
      rw [dialogue_snoc, d1]
      simp [Dialogue.step, d2]
  refine ⟨fun x hx ts h1 h2 => ?_, ?_⟩
  · rw [ha] at hx; cases hx
    obtain ⟨d, hd, -⟩ := key ts h1 h2
    exact ⟨d, hd⟩
  · rw [nupd_some ha]; exact key

/-- what is due is said. -/
theorem Rem.due {n : Int} {k : Nat} {g : St} {a : Act F} (h : Rem [] n k g) (hn : 0 < n) (ha : heardOf a = some (.said (.finished n))) : nmon.ok g a ∧ Rem [] (-1) k (nupd g a) := by
  have key : ∀ ts : List Turn, (∀ t ∈ ts, t.Plain) → ts.map Turn.heard = g ++ [.said (.finished n)] → ∃ d, dialogue ts = some d ∧ d.left = [] ∧ Same d.due (-1) ∧ d.method = k := by
    intro ts h1 h2
    obtain ⟨ts', t, rfl, e1, e2⟩ := turns_snoc h2
    obtain ⟨d, d1, d2, d3, d4⟩ := h ts' (fun x hx => h1 x (by simp [hx])) e1
    cases t with
    | begun now cs => cases e2
    | said w' =>
      have : w' = .finished n := by simpa [Turn.heard] using e2
      subst this
      have e : d.due = n := d3 (.inr hn)
      refine ⟨{ d with due := -1 }, ?_, d2, fun _ => rfl, d4⟩
      rw [dialogue_snoc, d1]
      simp [Dialogue.step, d2, e, hn]
  refine ⟨fun x hx ts h1 h2 => ?_, ?_⟩
  · rw [ha] at hx; cases hx
    obtain ⟨d, hd, -⟩ := key ts h1 h2
    exact ⟨d, hd⟩
  · rw [nupd_some ha]; exact key

theorem nquiet_keep {α : Type} {p : Prog F α} {R : α → Prop} (h : p.only (fun a => ¬ BeginsI a ∧ wordOf a = none) R) (g : St) : p.wp nmon (fun g' r => g' = g ∧ R r) g :=
  ans_keep h (fun g' => g' = g) g rfl (fun s a e ha => ⟨ok_none (quietOf ha), by rw [← e]; exact nupd_none (quietOf ha)⟩) (fun _ => trivial)

theorem exec_rem (cfg : Cfg F) (c : Cmd) (hs : Simple1 c) (s : Core F) (l : Loc F) (g : St) (todo : List Word) (n : Int) (k : Nat) (h : Rem (begins [c] ++ todo) n k g) :
    (Mril.exec cfg s l c.text).wp nmon (fun g' r => Rem todo n k g' ∧ Did c s l r ∧ r.1.commandNumber = s.commandNumber ∧ (r.2.ctype = .none ↔ c.letter = 78)) g := by
  have hd := exec_did cfg s l c hs
  by_cases hc : c.letter = 78
  · rw [exec_n cfg s l c hc] at hd ⊢
    have hb : begins [c] = [.begun (atol c.arg)] := by simp [begins, hc]
    rw [hb] at h
    obtain ⟨h1, h2⟩ := Rem.say (F := F) (a := .out (.msg (.n0 (atol c.arg)))) h rfl
    exact ⟨h1, h2, hd.2, rfl, by simp [hc]⟩
  · have hb : begins [c] = [] := by simp [begins, hc]
    rw [hb] at h
    have hq := exec_quiet cfg s l c.text (by simpa [Cmd.text] using hc)
    refine wp_mono ?_ (nquiet_keep (only_mono ?_ (fun _ h => h) (only_and2 hd hq)) g)
    · rintro g' r ⟨rfl, k1, k2, k3⟩
      exact ⟨h, k1, k3, by simp [k2, hc]⟩
    · rintro a ⟨⟨h1, h2⟩, h3⟩
      refine ⟨mrilAct_noBegin h1, ?_⟩
      unfold wordOf
      split
      · exact absurd rfl (h3 _)
      · exact h1.elim
      · exact absurd rfl (h2 _ _)
      · rfl

theorem execAll_rem (cfg : Cfg F) : ∀ (cs : List Cmd) (_ : ∀ c ∈ cs, Simple1 c) (s : Core F) (l : Loc F) (g : St) (todo : List Word) (n : Int) (k : Nat) (_ : Rem (begins cs ++ todo) n k g),
    (execAll cfg cs s l).wp nmon (fun g' r => Rem todo n k g' ∧ r.2.resp.map Part.tag = l.resp.map Part.tag ++ Spec.asked s.rc.method.code cs ∧ r.1.rc.method.code = cs.foldl chosenBy s.rc.method.code ∧
      r.2.tmpNumber = cs.foldl (fun n c => if c.letter = 78 then atol c.arg else n) l.tmpNumber ∧ r.1.commandNumber = s.commandNumber ∧ (cs = [] → r.2.ctype = l.ctype) ∧
      (∀ c, cs.getLast? = some c → (r.2.ctype = .read ↔ Question c) ∧ (r.2.ctype = .none ↔ c.letter = 78))) g
  | [], _, s, l, g, todo, n, k, h => by
    simp only [execAll]
    exact ⟨h, by simp [Spec.asked], rfl, rfl, rfl, fun _ => rfl, fun c hc => by simp at hc⟩
  | c :: cs, hs, s, l, g, todo, n, k, h => by
    simp only [execAll]
    rw [wp_bind]
    have hb : begins (c :: cs) = begins [c] ++ begins cs := by
      rw [begins, begins, begins, ← List.filterMap_append]; rfl
    rw [hb, List.append_assoc] at h
    refine wp_mono ?_ (exec_rem cfg c (hs c (by simp)) s l g _ n k h)
    rintro g1 r1 ⟨h1, ⟨d1, d2, d3, d4⟩, hn, hk⟩
    refine wp_mono ?_ (execAll_rem cfg cs (fun x hx => hs x (by simp [hx])) r1.1 r1.2 g1 todo n k h1)
    rintro g' r ⟨k2, k3, k4, k5, k6, k7, k8⟩
    refine ⟨k2, ?_, ?_, ?_, k6.trans hn, fun e => by simp at e, ?_⟩
    · rw [k3, d1, Spec.asked, d2, List.append_assoc]
    · rw [k4, d2]; rfl
    · rw [k5, d3]; rfl
    · intro c' hc'
      cases cs with
      | nil =>
        simp at hc'; subst hc'
        rw [k7 rfl]; exact ⟨d4, hk⟩
      | cons d cs => exact k8 c' (by simpa using hc')

theorem dialogue_inv (cfg : Cfg F) : CoreInv cfg nmon (NI (F := F)) NJ where
  flt _ := trivial
  weak _ _ h := h.1
  disp g c a h ha := by
    have hb : ¬ BeginsI a := by rintro ⟨_, _, rfl⟩; exact ha
    have hw : wordOf a = none := by unfold wordOf; split <;> first | exact ha.elim | rfl
    exact ⟨ok_none (quietOf ⟨hb, hw⟩), by show NI (nupd g a) c; rw [nupd_none (quietOf ⟨hb, hw⟩)]; exact h⟩
  dispJ g c a h ha := by
    have hb : ¬ BeginsI a := by rintro ⟨_, _, rfl⟩; exact ha
    have hw : wordOf a = none := by unfold wordOf; split <;> first | exact ha.elim | rfl
    exact ⟨ok_none (quietOf ⟨hb, hw⟩), by show NJ (nupd g a) c; rw [nupd_none (quietOf ⟨hb, hw⟩)]; exact h⟩
  rc g c h := by
    refine wp_mono ?_ (nquiet_keep (only_mono (fun a ha => ?_) (fun _ h => h) (RC.process_only cfg.toRCfg c.rc)) g)
    · rintro g' r ⟨rfl, hr⟩
      show Rem [] c.commandNumber r.method.code _
      rw [hr.2.1]; exact h
    · refine ⟨by rintro ⟨_, _, rfl⟩; exact ha, ?_⟩
      unfold wordOf; split <;> first | exact ha.elim | rfl
  check g c h := by
    unfold Mril.process
    rw [wp_bind]
    refine wp_mono ?_ (nquiet_keep (isDone_pins c.conds) g)
    · rintro g' r ⟨rfl, -⟩
      dsimp only
      split
      · intro t _
        have hnow : nupd g' (.now t : Act F) = g' := nupd_none rfl
        change Prog.wp nmon _ NJ (nupd g' (.now t : Act F))
        rw [hnow]
        dsimp only
        split
        · split
          · rename_i hp
            obtain ⟨h1, h2⟩ := Rem.due (F := F) (a := .out (.msg (.n1 c.commandNumber))) h hp rfl
            exact ⟨h1, h2, fun _ => by show (-1 : Int) ≤ 0; decide⟩
          · exact ⟨h, fun _ => by show c.commandNumber ≤ 0; omega⟩
        · exact ⟨h, fun e => by cases e⟩
      · exact ⟨h, fun e => by cases e⟩
  parse g c m src h := by
    have hI : NI g c := by
      split at h
      · exact h
      · exact h.1.1
    have hp : src ≠ .immediate → c.commandNumber ≤ 0 := fun hs => by
      rw [if_neg hs] at h
      exact h.1.2 h.2
    have ha : heardOf (.out (.ghost src m) : Act F) = some (.begun (src == .immediate) m) := rfl
    -- what holds when the instruction begins
    have key : ∀ cs, Simple cs → m = text cs → Rem (begins cs ++ if poses cs then [.answer (if 0 < numberOf cs then some (numberOf cs) else none) (Spec.asked c.rc.method.code cs)] else [])
        (if demands cs then numberOf cs else c.commandNumber) (cs.foldl chosenBy c.rc.method.code) (g ++ [.begun (src == .immediate) m]) := by
      intro cs hcs em ts h1 h2
      obtain ⟨ts', t, rfl, e1, e2⟩ := turns_snoc h2
      obtain ⟨d, d1, d2, d3, d4⟩ := hI ts' (fun x hx => h1 x (by simp [hx])) e1
      cases t with
      | said w => cases e2
      | begun now cs' =>
        have hs' : Simple cs' := h1 (.begun now cs') (by simp)
        simp only [Turn.heard, Heard.begun.injEq] at e2
        have : cs' = cs := text_inj hs'.ok hcs.ok (by rw [e2.2, em])
        subst this
        have hnow : now = true ∨ d.due ≤ 0 := by
          by_cases hs : src = .immediate
          · left; rw [e2.1, hs]; rfl
          · right
            have := hp hs
            by_contra hd
            have := d3 (.inl (by omega))
            omega
        refine ⟨_, by rw [dialogue_snoc, d1]; simp only [Option.bind_some, Dialogue.step]; rw [if_pos ⟨d2, hnow⟩], ?_, ?_, ?_⟩
        · dsimp only; rw [d4]
        · dsimp only; split
          · exact fun _ => rfl
          · exact d3
        · dsimp only; rw [d4]
    refine ⟨fun x hx ts h1 h2 => ?_, ?_⟩
    · rw [ha] at hx; cases hx
      obtain ⟨ts', t, rfl, e1, e2⟩ := turns_snoc h2
      cases t with
      | said w => cases e2
      | begun now cs' =>
        have hs' : Simple cs' := h1 (.begun now cs') (by simp)
        simp only [Turn.heard, Heard.begun.injEq] at e2
        obtain ⟨d, hd, -⟩ := key cs' hs' e2.2.symm _ h1 h2
        exact ⟨d, hd⟩
    show Prog.wp _ _ _ (nupd g (.out (.ghost src m) : Act F))
    rw [nupd_some ha]
    by_cases hsp : ∃ cs, Simple cs ∧ m = text cs
    · obtain ⟨cs, h2, rfl⟩ := hsp
      have hstart := key cs h2 rfl
      by_cases hne : cs = []
      · subst hne
        have hp0 : Mril.parse cfg c (text []) = .ret c := by rfl
        rw [hp0]
        exact hstart
      · rw [parse_text cfg cs h2.ok hne, wp_bind]
        refine wp_mono ?_ (execAll_rem cfg cs (simple_each h2) { c with rc := c.rc.startTransaction } {} _ _ _ _ hstart)
        rintro g' ⟨s, l⟩ ⟨k2, k3, k4, k5, k6, -, k8⟩
        have k3 : l.resp.map Part.tag = Spec.asked c.rc.method.code cs := by simpa [RC.startTransaction] using k3
        have k4 : s.rc.method.code = cs.foldl chosenBy c.rc.method.code := by simpa [RC.startTransaction] using k4
        have k5 : l.tmpNumber = numberOf cs := k5
        have k6 : s.commandNumber = c.commandNumber := k6
        obtain ⟨d, hd⟩ : ∃ d, cs.getLast? = some d := by
          cases e : cs.getLast? with
          | none => exact absurd (List.getLast?_eq_none_iff.1 e) hne
          | some d => exact ⟨d, rfl⟩
        obtain ⟨q1, q2⟩ := k8 d hd
        have hposes : poses cs = true ↔ Question d := by rw [poses, hd]; simp [Question]
        have hdem : demands cs = true ↔ ¬ Question d ∧ d.letter ≠ 78 := by
          rw [demands, hd]
          simp only [Bool.and_eq_true, Bool.not_eq_true', decide_eq_true_eq, ← hposes, Bool.not_eq_true]
        unfold Mril.finish
        simp only [send, bind_def, Prog.bind]
        split
        · rename_i hread
          have hq : Question d := q1.1 hread
          rw [if_pos (hposes.2 hq), if_neg (fun e => (hdem.1 e).1 hq)] at k2
          obtain ⟨z1, z2⟩ := Rem.say (F := F) (a := .out (.msg (.reply (if l.tmpNumber > 0 then some l.tmpNumber else none) l.resp))) k2 (by
            show some _ = some _; rw [k3, k5])
          refine ⟨z1, ?_⟩
          show Rem [] s.commandNumber s.rc.method.code _
          rw [k6, k4]; exact z2
        · rename_i hwr
          have hnr : ¬ Question d := fun hq => by rw [q1.2 hq] at hwr; cases hwr
          have hnn : d.letter ≠ 78 := fun hq => by rw [q2.2 hq] at hwr; cases hwr
          rw [if_neg (fun e => hnr (hposes.1 e)), if_pos (hdem.2 ⟨hnr, hnn⟩)] at k2
          show Rem [] l.tmpNumber s.rc.method.code _
          rw [k5, k4]; exact k2
        · rename_i hno
          have hnr : ¬ Question d := fun hq => by rw [q1.2 hq] at hno; cases hno
          rw [if_neg (fun e => hnr (hposes.1 e)), if_neg (fun e => (hdem.1 e).2 (q2.1 hno))] at k2
          show Rem [] s.commandNumber s.rc.method.code _
          rw [k6, k4]; exact k2
    · -- a text that is not spoken of
      have bad : ∀ g', (∃ y, g' = g ++ [.begun (src == .immediate) m] ++ y) → ∀ ts : List Turn, (∀ t ∈ ts, t.Plain) → ts.map Turn.heard ≠ g' := by
        rintro g' ⟨y, rfl⟩ ts h1 h2
        obtain ⟨a1, a2, rfl, e1, -⟩ := List.map_eq_append_iff.1 h2
        obtain ⟨b1, b2, rfl, -, e2⟩ := List.map_eq_append_iff.1 e1
        match b2, e2 with
        | [.begun nw cs], e2 =>
          simp only [List.map_cons, List.map_nil, Turn.heard, List.cons.injEq, Heard.begun.injEq] at e2
          exact hsp ⟨cs, h1 (.begun nw cs) (by simp), e2.1.2.symm⟩
        | [.said w], e2 => simp [Turn.heard] at e2
      refine wp_mono ?_ (ans_keep (parse_only cfg c m) (fun g' => ∃ y, g' = g ++ [.begun (src == .immediate) m] ++ y) _ ⟨[], by simp⟩ ?_ (fun _ => trivial))
      · rintro g' c' ⟨hg, -⟩ ts h1 h2
        exact absurd h2 (bad g' hg ts h1)
      · rintro g' a ⟨y, rfl⟩ ha
        refine ⟨fun x _ ts h1 h2 => absurd h2 (bad _ ⟨y ++ [x], by simp⟩ ts h1), ⟨y ++ (heardOf a).toList, ?_⟩⟩
        show nupd _ a = _
        simp [nupd]

end Mrc.Dlg
