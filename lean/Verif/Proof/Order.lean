import Verif.Proof.Aside
import Verif.Proof.Told
import Verif.Props.Notices
/- Reports of completion when questions may be asked at any time (C111, C112, C118). -/
set_option linter.unusedSectionVars false
set_option linter.unusedSimpArgs false
namespace Mrc.Order
open Mrc Mrc.Spec Mrc.Prog Mrc.Props

variable {F : Type} [FloatOps F]

/-- after an instruction no transaction is open. -/
theorem parse_closed (cfg : Cfg F) (c : Core F) (m : List Byte) (h : c.rc.inTransaction = false) : (Mril.parse cfg c m).only mrilAct (fun c' => c'.rc.inTransaction = false) := by
  unfold Mril.parse
  split
  · exact h
  · rw [only_bind]
    refine only_mono (fun _ h => h) (fun r hr => ?_) (loop_only cfg m _ _ _)
    unfold Mril.finish
    simp only [send, bind_def, Prog.bind]
    split
    · exact ⟨trivial, rfl⟩
    · rfl
    · rfl

/-- a numbered instruction is not a question. -/
theorem numbered_orders {m : List Byte} {n : Int} (h : Numbered m n) : ¬ Asks m := by
  rintro ⟨cs, ok, ha, e⟩
  obtain ⟨a, b, d, w, hm, hok, _, hw, _⟩ := h
  have : cs = a ++ ⟨78, d⟩ :: (b ++ [w]) := text_inj ok hok (e.symm.trans hm)
  have hwa := ha w (by rw [this]; simp)
  obtain ⟨h1, h2, h3⟩ := hw
  rcases hwa with ⟨_, h⟩ | h | h
  · exact h2 h
  · exact h3 h
  · exact h1 h

open Classical in
/-- reports since instruction `m` was started, questions asked at once left aside (none: another one was started last). -/
noncomputable def upd (m : List Byte) (g : Option (List Int)) : Act F → Option (List Int)
  | .out (.msg (.n1 k)) => g.map fun ns => ns ++ [k]
  | .out (.ghost src m') => if src = .immediate ∧ Asks m' then g else if m' = m then some [] else none
  | _ => g

noncomputable def mon (m : List Byte) (n : Int) : Mon F (Option (List Int)) where
  upd := upd m
  ok g a := ∀ ns, g = some ns → (Starts a → ns = [n]) ∧ ∀ k, a = .out (.msg (.n1 k)) → ns = [] ∧ k = n

def I (n : Int) (g : Option (List Int)) (c : Core F) : Prop :=
  c.rc.inTransaction = false ∧ ∀ ns, g = some ns → (ns = [] ∧ c.commandNumber = n) ∨ (ns = [n] ∧ c.commandNumber ≤ 0)

def J (n : Int) (g : Option (List Int)) (c : Core F) : Prop := I n g c ∧ (c.done = true → ∀ ns, g = some ns → ns = [n])

theorem upd_other (m : List Byte) (g : Option (List Int)) {a : Act F} (h : ¬ Told.isGhost a) (h' : ¬ Told.isN1 a) : upd m g a = g := by
  match a, h, h' with
  | .servo _ _, _, _ | .micro _ _, _, _ | .now _, _, _ | .pin _ _, _, _ | .rx _, _, _ | .eeRead _, _, _ | .eeWrite _ _, _, _ => rfl
  | .out (.msg (.n1 _)), _, h' => exact absurd trivial h'
  | .out (.msg (.n0 _)), _, _ | .out (.msg (.free _)), _, _ | .out (.msg (.reply _ _)), _, _ => rfl
  | .out (.raw _), _, _ | .out (.pinMode _ _), _, _ | .out (.digitalWrite _ _), _, _ => rfl
  | .out (.ghost _ _), h, _ => exact absurd trivial h

theorem foldl_other (m : List Byte) {tr : List (Act F)} (h : ∀ a ∈ tr, ¬ Told.isGhost a) (h' : ∀ a ∈ tr, ¬ Told.isN1 a) (g : Option (List Int)) : tr.foldl (upd m) g = g := by
  induction tr generalizing g with
  | nil => rfl
  | cons a tr ih => rw [List.foldl_cons, upd_other m g (h a (by simp)) (h' a (by simp)), ih (fun b hb => h b (by simp [hb])) (fun b hb => h' b (by simp [hb]))]

theorem ok_other {m : List Byte} {n : Int} {g : Option (List Int)} {a : Act F} (h : ¬ Told.isGhost a) (h' : ¬ Told.isN1 a) : (mon (F := F) m n).ok g a := by
  refine fun ns _ => ⟨?_, ?_⟩
  · rintro ⟨_, _, _, rfl⟩; exact absurd trivial h
  · rintro k rfl; exact absurd trivial h'

theorem inv (cfg : Cfg F) (m : List Byte) (n : Int) (hm : Numbered m n) : CoreInv cfg (mon (F := F) m n) (I n) (J n) where
  flt _ := trivial
  weak _ _ h := h.1
  disp g c a h ha := by
    obtain ⟨h1, h2, _⟩ := Told.disp_not ha
    have := Told.isN1_reports h2
    exact ⟨ok_other h1 this, by show I n (upd m g a) c; rw [upd_other m g h1 this]; exact h⟩
  dispJ g c a h ha := by
    obtain ⟨h1, h2, _⟩ := Told.disp_not ha
    have := Told.isN1_reports h2
    exact ⟨ok_other h1 this, by show J n (upd m g a) c; rw [upd_other m g h1 this]; exact h⟩
  rc g c h := by
    refine wp_mono (fun g' r hr => ?_) (wp_of_only (RC.process_only cfg.toRCfg c.rc) g (fun a ha => ?_) (fun _ => trivial))
    · rw [hr.1]; exact ⟨hr.2.1.trans h.1, h.2⟩
    · obtain ⟨h1, h2⟩ := Told.rc_not ha
      exact ⟨upd_other m g h1 (Told.isN1_reports h2), ok_other h1 (Told.isN1_reports h2)⟩
  parse g c x src h := by
    have hi : I n g c := by split at h; exacts [h, h.1.1]
    have hq : ∀ a : Act F, mrilAct a → ¬ Told.isGhost a ∧ ¬ Told.isN1 a := fun a ha => ⟨(Told.mril_not ha).1, Told.isN1_reports (Told.mril_not ha).2.1⟩
    refine ⟨fun ns e => ⟨?_, by simp⟩, ?_⟩
    · rintro ⟨src', m', h1, h2⟩
      injection h2 with h2; injection h2 with h2 _
      subst h2
      rw [if_neg h1] at h
      exact h.1.2 h.2 ns e
    · refine wp_exec_intro (E := fun _ => True) (fun _ => trivial) (fun _ _ _ => trivial) ?_ ?_
      · intro tr a q he _
        have := hq a ((only_exec he (parse_only cfg c x)).1 a (by simp))
        exact ok_other this.1 this.2
      · intro tr c' he _
        have hk := (only_exec he (parse_only cfg c x)).1
        show I n (tr.foldl (upd m) _) c'
        rw [foldl_other m (fun a ha => (hq a (hk a ha)).1) (fun a ha => (hq a (hk a ha)).2)]
        show I n (upd (F := F) m g (.out (.ghost src x))) c'
        unfold upd
        by_cases ho : src = .immediate ∧ Asks x
        · have e : c' = c := (only_exec he (Asd.parse_asks cfg c ho.2 hi.1)).2
          rw [e]; simp only [if_pos ho]; exact hi
        · simp only [if_neg ho]
          refine ⟨(only_exec he (parse_closed cfg c x hi.1)).2, ?_⟩
          intro ns e
          split at e
          · rename_i hx; subst hx
            injection e with e
            exact .inl ⟨e.symm, numbered_parse cfg hm he⟩
          · cases e
  check g c h := by
    have hn : 0 < n := by obtain ⟨_, _, _, _, _, _, _, _, _, hn⟩ := hm; exact hn
    refine mrilProcess_wp c g (fun _ _ => rfl) (fun _ => rfl) (fun _ => ⟨h, by simp⟩) (fun h0 _ => ⟨h, fun _ ns e => ?_⟩) (fun h0 _ => ⟨?_, ?_⟩)
    · rcases h.2 ns e with ⟨_, h1⟩ | ⟨h1, _⟩
      · omega
      · exact h1
    · refine fun ns e => ⟨fun hs => ?_, fun k ek => ?_⟩
      · obtain ⟨_, _, _, hs⟩ := hs; cases hs
      · injection ek with ek; injection ek with ek; injection ek with ek
        rcases h.2 ns e with ⟨h1, h2⟩ | ⟨_, h2⟩
        · exact ⟨h1, by rw [← ek, h2]⟩
        · omega
    · have key : ∀ ns, upd (F := F) m g (.out (.msg (.n1 c.commandNumber))) = some ns → ns = [n] := by
        intro ns e
        cases g with
        | none => simp [upd] at e
        | some ns0 =>
          simp [upd] at e
          rcases h.2 ns0 rfl with ⟨h1, h2⟩ | ⟨_, h2⟩
          · rw [← e, h1, h2]; rfl
          · omega
      exact ⟨⟨h.1, fun ns e => .inr ⟨key ns e, by simp⟩⟩, fun _ ns e => key ns e⟩

/-- the reports in a piece of history. -/
def reps (tr : List (Act F)) : List Int := tr.filterMap fun | .out (.msg (.n1 k)) => some k | _ => none

theorem foldl_after {m : List Byte} {n : Int} (hm : Numbered m n) {pre mid : List (Act F)} {src : Src} (hmid : ∀ x ∈ mid, ¬ OrdersI x) :
    (pre ++ .out (.ghost src m) :: mid).foldl (upd (F := F) m) none = some (reps mid) := by
  rw [List.foldl_append, List.foldl_cons]
  have : ∀ g, upd (F := F) m g (.out (.ghost src m)) = some [] := by
    intro g; simp [upd, numbered_orders hm]
  rw [this]
  have gen : ∀ (l : List (Act F)) (ns : List Int), (∀ x ∈ l, ¬ OrdersI x) → l.foldl (upd (F := F) m) (some ns) = some (ns ++ reps l) := by
    intro l
    induction l with
    | nil => intro ns _; simp [reps]
    | cons x l ih =>
      intro ns hl
      have hx := hl x (by simp)
      have hl' : ∀ y ∈ l, ¬ OrdersI y := fun y hy => hl y (by simp [hy])
      rw [List.foldl_cons]
      by_cases h1 : Told.isN1 x
      · match x, h1 with
        | .out (.msg (.n1 k)), _ =>
          show l.foldl _ (some (ns ++ [k])) = some (ns ++ (k :: reps l))
          rw [ih _ hl']; simp
      have hr : reps (x :: l) = reps l := by
        match x, h1 with
        | .servo _ _, _ | .micro _ _, _ | .now _, _ | .pin _ _, _ | .rx _, _ | .eeRead _, _ | .eeWrite _ _, _ => rfl
        | .out (.msg (.n1 _)), h' => exact absurd trivial h'
        | .out (.msg (.n0 _)), _ | .out (.msg (.free _)), _ | .out (.msg (.reply _ _)), _ => rfl
        | .out (.raw _), _ | .out (.pinMode _ _), _ | .out (.digitalWrite _ _), _ | .out (.ghost _ _), _ => rfl
      rw [hr]
      by_cases h2 : Told.isGhost x
      · match x, h2, hx with
        | .out (.ghost s y), _, hx =>
          have ho : s = .immediate ∧ Asks y := by
            by_contra hc; exact hx ⟨s, y, rfl, hc⟩
          have : upd (F := F) m (some ns) (.out (.ghost s y)) = some ns := by simp [upd, ho]
          rw [this]; exact ih _ hl'
      · rw [upd_other m _ h2 h1]; exact ih _ hl'
  rw [gen mid [] hmid]; simp

section
variable {cfg : Cfg F} {junk : Nat → Byte} {m : List Byte} {n : Int}

/-- between two passes: the instruction is pending or its completion has been reported. -/
theorem between {pre mid : List (Act F)} {s : FW F} {src : Src} (h : Trace cfg junk (pre ++ .out (.ghost src m) :: mid) (.ret s)) (hmid : ∀ x ∈ mid, ¬ OrdersI x) (hm : Numbered m n) :
    s.core.commandNumber = n ∨ reps mid = [n] := by
  have h1 := ((inv cfg m n hm).sound none junk (fun v u m _ _ => ⟨rfl, fun ns e => by simp at e⟩) (fun _ _ => rfl) (fun _ => rfl) h (fun _ _ _ _ _ => trivial)).2
  rcases (h1 : I n _ s.core).2 _ (foldl_after hm hmid) with h | h
  · exact .inl h.2
  · exact .inr h.1

/-- when the next instruction is taken from queue or storage the completion has been reported. -/
theorem complete {tr : List (Act F)} {p : Prog F (FW F)} (h : Trace cfg junk tr p) {pre mid post : List (Act F)} {src : Src} {a : Act F}
    (ht : tr = pre ++ .out (.ghost src m) :: (mid ++ a :: post)) (ha : Starts a) (hmid : ∀ x ∈ mid, ¬ OrdersI x) (hm : Numbered m n) : reps mid = [n] := by
  have h1 := ((inv cfg m n hm).sound none junk (fun v u m _ _ => ⟨rfl, fun ns e => by simp at e⟩) (fun _ _ => rfl) (fun _ => rfl) h (fun _ _ _ _ _ => trivial)).1
  have hin : a.isInput = false := by obtain ⟨_, _, _, rfl⟩ := ha; rfl
  exact (h1 (pre ++ .out (.ghost src m) :: mid) a post (by rw [ht]; simp) hin _ (foldl_after hm hmid)).1 ha

/-- the first report after it is its own. -/
theorem own {tr : List (Act F)} {p : Prog F (FW F)} (h : Trace cfg junk tr p) {pre mid post : List (Act F)} {src : Src} {k : Int}
    (ht : tr = pre ++ .out (.ghost src m) :: (mid ++ .out (.msg (.n1 k)) :: post)) (hmid : ∀ x ∈ mid, ¬ OrdersI x) (hm : Numbered m n) : k = n ∧ reps mid = [] := by
  have h1 := ((inv cfg m n hm).sound none junk (fun v u m _ _ => ⟨rfl, fun ns e => by simp at e⟩) (fun _ _ => rfl) (fun _ => rfl) h (fun _ _ _ _ _ => trivial)).1
  have := (h1 (pre ++ .out (.ghost src m) :: mid) _ post (by rw [ht]; simp) rfl _ (foldl_after hm hmid)).2 k rfl
  exact ⟨this.2, this.1⟩
end

end Mrc.Order
