import Verif.Proof.Notice
import Verif.Proof.Demo
import Verif.Props.System
import Verif.Model.Wire
import Verif.Spec.Wire
/-
Property theorems C24, C25, C63 (completion notices, wire format).
-/
set_option linter.unusedSectionVars false
namespace Mrc.Props
open Mrc Mrc.Prog Mrc.Spec
variable {F : Type} [FloatOps F] {σ : Type}

/-- the message announces that instruction `n` was accepted: N0<n>. -/
def offers (n : Int) : Msg F → Bool
  | .n0 k => k == n
  | _ => false

/-- the message announces that instruction `n` is finished: N1<n>, alone or in front of the answers of a read instruction. -/
def finishes (n : Int) : Msg F → Bool
  | .n1 k => k == n
  | .reply (some k) _ => k == n
  | _ => false

/-- 1 if `k` is the number looked at. -/
private def one (n k : Int) : Nat := (k == n).toNat

/-- counts both. -/
private def countMon (n : Int) : Mon F (Nat × Nat) where
  upd g a := match a with
    | .out (.msg m) => (g.1 + (offers n m).toNat, g.2 + (finishes n m).toNat)
    | _ => g
  ok g a := ∀ m, a = .out (.msg m) → finishes n m = true → g.2 < g.1

private theorem countMon_foldl (n : Int) (tr : List (Act F)) (g : Nat × Nat) :
    tr.foldl (countMon n).upd g = (g.1 + (msgs tr).countP (offers n), g.2 + (msgs tr).countP (finishes n)) := by
  induction tr generalizing g with
  | nil => rfl
  | cons a tr ih =>
    rw [List.foldl_cons, ih]
    cases a with
    | out o =>
      cases o with
      | msg m =>
        simp only [countMon, msgs, List.filterMap_cons, List.countP_cons]
        cases offers n m <;> cases finishes n m <;> simp <;> omega
      | _ => rfl
    | _ => rfl

private def CInv (n : Int) (g : Nat × Nat) (c : Core F) : Prop := g.2 + one n c.commandNumber ≤ g.1

private theorem one_le (n k : Int) : one n k ≤ 1 := by unfold one; cases (k == n) <;> simp
private theorem one_neg (n : Int) (h : 0 < n) : one n (-1) = 0 := by unfold one; rw [beq_false_of_ne (by omega)]; rfl

private theorem count_inv (cfg : Cfg F) (n : Int) (hn : 0 < n) : CoreInv cfg (countMon n) (CInv n) (CInv n) where
  flt _ := trivial
  weak _ _ h := h
  disp g c a h ha := by
    match a, ha with
    | .rx _, _ | .eeRead _, _ | .eeWrite _ _, _ | .out (.msg (.free _)), _ | .out (.raw (.error _)), _ =>
      exact ⟨by simp [countMon, finishes], h⟩
  dispJ g c a h ha := by
    match a, ha with
    | .rx _, _ | .eeRead _, _ | .eeWrite _ _, _ | .out (.msg (.free _)), _ | .out (.raw (.error _)), _ =>
      exact ⟨by simp [countMon, finishes], h⟩
  rc g c h := by
    refine wp_mono (fun g' r hr => ?_) (wp_of_only (RC.process_only cfg.toRCfg c.rc) g ?_ (fun _ => trivial))
    · rw [hr.1]; exact h
    · intro a ha
      match a, ha with
      | .servo _ _, _ | .micro _ _, _ | .out (.raw _), _ => exact ⟨rfl, by simp [countMon]⟩
  parse g c m src h := by
    have h : CInv n g c := by
      split at h
      · exact h
      · exact h.1
    refine ⟨by simp [countMon], ?_⟩
    refine parse_wp (countMon n) cfg (fun g s l => g.2 + one n s.commandNumber + one n l.tmpNumber ≤ g.1)
      _ trivial ?_ (fun _ _ _ h => ⟨by simp [countMon], h⟩) m _ c (fun _ => h) ?_ ?_
    · intro g s l tok hi
      by_cases ht : tok.headD 0 = 78
      · rw [exec_N cfg s l tok ht]
        refine ⟨by simp [countMon, finishes], ?_⟩
        have := one_le n l.tmpNumber
        simp only [wp, countMon, offers, finishes, one, Bool.toNat_false] at *
        omega
      · refine wp_mono (fun g' r hr => ?_) (wp_of_only (exec_other cfg s l tok ht) g ?_ (fun _ => trivial))
        · rw [hr.1, hr.2.1, hr.2.2.1]; exact hi
        · intro a ha
          match a, ha with
          | .servo _ _, _ | .micro _ _, _ | .now _, _ | .out (.pinMode _ _), _ | .out (.digitalWrite _ _), _ => exact ⟨rfl, by simp [countMon]⟩
    · intro _
      have := one_neg n hn
      have h' : g.2 + one n c.commandNumber ≤ g.1 := h
      simp only [countMon, RC.startTransaction, this]
      omega
    · intro g s l hi
      unfold Mril.finish
      simp only [send, bind_def, Prog.bind]
      split
      · by_cases ht : l.tmpNumber > 0
        · simp only [if_pos ht, pure_def]
          refine ⟨?_, ?_⟩
          · intro m hm hf
            simp at hm; subst hm
            have : one n l.tmpNumber = 1 := by unfold one; simp only [finishes] at hf; rw [hf]; rfl
            omega
          · simp only [wp, countMon, offers, finishes, Bool.toNat_false, CInv]
            simp only [one] at *
            omega
        · simp only [if_neg ht, pure_def]
          refine ⟨by simp [countMon, finishes], ?_⟩
          simp only [wp, countMon, offers, finishes, Bool.toNat_false, CInv]
          omega
      · simp only [wp, CInv]; omega
      · simp only [wp, CInv]; omega
  check g c h := by
    have h : g.2 + one n c.commandNumber ≤ g.1 := h
    refine mrilProcess_wp c g (fun _ _ => rfl) (fun _ => rfl) (fun _ => h) (fun _ _ => h) (fun h0 _ => ⟨?_, ?_⟩)
    · intro m hm hf
      simp at hm; subst hm
      have : one n c.commandNumber = 1 := by unfold one; simp only [finishes] at hf; rw [hf]; rfl
      omega
    · have := one_neg n hn
      simp only [countMon, offers, finishes, Bool.toNat_false, CInv, this]
      simp only [one] at *
      omega

/-- **C24** (never spurious, never duplicated): in every history, hence at every moment, the number of times instruction number `n`
has been reported as finished is at most the number of times it was announced as accepted. -/
theorem C24_balance {cfg : Cfg F} {junk : Nat → Byte} {tr : List (Act F)} {p : Prog F (FW F)} (h : Trace cfg junk tr p)
    (n : Int) (hn : 0 < n) : (msgs tr).countP (finishes n) ≤ (msgs tr).countP (offers n) := by
  have h1 := ((count_inv cfg n hn).sound (0, 0) junk
    (fun v u m _ _ => by simp only [CInv, CoreInv.boot, one]; rw [beq_false_of_ne (by omega)]; exact Nat.le_refl _)
    (fun _ _ => rfl) (fun _ => rfl) h (fun _ _ _ _ _ => trivial)).1
  have := foldl_inv (countMon (F := F) n).upd (fun g => g.2 ≤ g.1)
    (fun g a => a.isInput = false → (countMon n).ok g a) tr (0, 0) (Nat.le_refl _) ?_ h1
  · rw [countMon_foldl] at this; simpa using this
  · intro g a hg ha
    cases a with
    | out o =>
      cases o with
      | msg m =>
        have := ha rfl m rfl
        simp only [countMon]
        cases hf : finishes n m with
        | false => simp; omega
        | true => have := this hf; simp; omega
      | _ => exact hg
    | _ => exact hg

/-- **C24** (only when idle): a notice N1<n> sent in a loop pass carries a positive number, and in the completion check that sent it there was
no movement, all pending input conditions were seen satisfied and the time of a wait had passed. -/
theorem C24_idle (cfg : Cfg F) (s : FW F) (tr pre post : List (Act F)) (q : Prog F (FW F)) (h : Exec (loopBody cfg s) tr q) (n : Int)
    (ht : tr = pre ++ .out (.msg (.n1 n)) :: post) :
    0 < n ∧ ∃ (s2 : FW F) (t1 t2 : List (Act F)) (t : Nat), pre = t1 ++ t2 ∧ Does (firstPhases cfg s) t1 s2 ∧
      s2.core.commandNumber = n ∧ s2.core.rc.isMoving = false ∧ (∀ x ∈ effective s2.core.conds, metRead x ∈ t2) ∧
      .now t ∈ t2 ∧ s2.core.waitUntil < t := by
  have hin : Act.out (.msg (.n1 n)) ∈ tr := by rw [ht]; simp
  have nf : ∀ t1 p', Exec (firstPhases cfg s) t1 p' → Act.out (.msg (.n1 n)) ∉ t1 := fun t1 p' h1 hm =>
    passAct_not_n1 ((only_exec h1 (firstPhases_only cfg s)).1 _ hm)
  have main : ∀ s2 t1 t2 t3 c, tr = t1 ++ (t2 ++ t3) → Exec (firstPhases cfg s) t1 (.ret s2) → Exec (Mril.process s2.core) t2 (.ret c) →
      Act.out (.msg (.n1 n)) ∉ t3 → 0 < n ∧ ∃ (s2 : FW F) (t1 t2 : List (Act F)) (t : Nat), pre = t1 ++ t2 ∧ Does (firstPhases cfg s) t1 s2 ∧
      s2.core.commandNumber = n ∧ s2.core.rc.isMoving = false ∧ (∀ x ∈ effective s2.core.conds, metRead x ∈ t2) ∧
      .now t ∈ t2 ∧ s2.core.waitUntil < t := by
    intro s2 t1 t2 t3 c e h1 h2 h3
    have hin2 : Act.out (.msg (.n1 n)) ∈ t2 := by
      rw [e] at hin
      rcases List.mem_append.1 hin with hm | hm
      · exact absurd hm (nf _ _ h1)
      · rcases List.mem_append.1 hm with hm | hm
        · exact hm
        · exact absurd hm h3
    rcases process_spec _ _ _ h2 with ⟨c1, x, c2, _, rfl, rfl⟩ | ⟨_, rfl, rfl⟩ | ⟨hmv, t, ⟨_, rfl, rfl⟩ | ⟨hw, _, rfl, rfl⟩ | ⟨hw, hpos, rfl, rfl⟩⟩
    · simp [metRead, unmetRead] at hin2
    · simp [metRead] at hin2
    · simp [metRead] at hin2
    · simp [metRead] at hin2
    · simp [metRead] at hin2
      subst hin2
      refine ⟨hpos, s2, t1, (effective s2.core.conds).map metRead ++ [.now t], t, ?_, h1, rfl, hmv, ?_, by simp, hw⟩
      · have e' : pre ++ .out (.msg (.n1 s2.core.commandNumber)) :: post =
            (t1 ++ ((effective s2.core.conds).map metRead ++ [.now t])) ++ .out (.msg (.n1 s2.core.commandNumber)) :: t3 := by
          rw [← ht, e]; simp
        have nl : Act.out (.msg (.n1 s2.core.commandNumber)) ∉ t1 ++ ((effective s2.core.conds).map metRead ++ [.now t]) := by
          intro hm
          rcases List.mem_append.1 hm with hm | hm
          · exact nf _ _ h1 hm
          · simp [metRead] at hm
        rcases List.append_eq_append_iff.1 e' with ⟨l, hl, h3e⟩ | ⟨l, hl, h3e⟩
        · cases l with
          | nil => rw [List.append_nil] at hl; exact hl.symm
          | cons x l =>
            simp at h3e
            obtain ⟨rfl, _⟩ := h3e
            exact absurd (by rw [hl]; simp) nl
        · cases l with
          | nil => rw [List.append_nil] at hl; exact hl
          | cons x l =>
            exfalso
            simp at h3e
            obtain ⟨rfl, h4⟩ := h3e
            exact h3 (by rw [h4]; simp)
      · intro x hx; simp only [List.mem_append, List.mem_map]; exact .inl ⟨x, hx, rfl⟩
  rcases pass_cases h with ⟨p', h1⟩ | ⟨s2, t1, t2, p', e, h1, h2⟩ | ⟨s2, t1, t2, c, t3, e, h1, h2, h3⟩
  · exact absurd hin (nf _ _ h1)
  · have hin2 : Act.out (.msg (.n1 n)) ∈ t2 := by
      rw [e] at hin
      rcases List.mem_append.1 hin with hm | hm
      · exact absurd hm (nf _ _ h1)
      · exact hm
    obtain ⟨c, rfl⟩ := check_n1 h2 n hin2
    exact main s2 t1 t2 [] c (by simpa using e) h1 h2 (by simp)
  · exact main s2 t1 t2 t3 c e h1 h2 (process_not_n1 h3 n)


/-! ### C25 -/

/-- the last command of an instruction decides whether it is a write. -/
def WriteCmd (c : Cmd) : Prop := c.letter ≠ 78 ∧ c.arg ≠ [] ∧ ¬ (c.letter = 82 ∧ c.arg.length = 1)

/-- an instruction carrying exactly one number command N<n> with n > 0, whose last command is a write command. -/
def Numbered (m : List Byte) (n : Int) : Prop :=
  ∃ (a b : List Cmd) (d : List Byte) (w : Cmd), m = text (a ++ ⟨78, d⟩ :: (b ++ [w])) ∧ (∀ c ∈ a ++ ⟨78, d⟩ :: (b ++ [w]), c.Ok) ∧
    (∀ c ∈ a ++ b, c.letter ≠ 78) ∧ WriteCmd w ∧ atol d = n ∧ 0 < n

/-- a message about an instruction number, or an answer. -/
def notice : Msg F → Bool
  | .free _ => false
  | _ => true

/-- handing over an instruction. -/
def Handed (a : Act F) : Prop := ∃ src m, a = .out (.ghost src m)

/-- notices since instruction `m` was started (none: the last one handed over was another one). -/
private def noteMon (m : List Byte) (n : Int) : Mon F (Option (List (Msg F))) where
  upd g a := match a with
    | .out (.msg x) => g.map fun ns => if notice x then ns ++ [x] else ns
    | .out (.ghost _ m') => if m' = m then some [] else none
    | _ => g
  ok g a := ∀ ns, g = some ns → (Starts a → ns = [.n0 n, .n1 n]) ∧ ∀ k, a = .out (.msg (.n1 k)) → ns = [.n0 n] ∧ k = n

private def NInv (n : Int) (g : Option (List (Msg F))) (c : Core F) : Prop :=
  ∀ ns, g = some ns → (ns = [.n0 n] ∧ c.commandNumber = n) ∨ (ns = [.n0 n, .n1 n] ∧ c.commandNumber ≤ 0)

private def NInvJ (n : Int) (g : Option (List (Msg F))) (c : Core F) : Prop :=
  NInv n g c ∧ (c.done = true → ∀ ns, g = some ns → ns = [.n0 n, .n1 n])

private theorem not_starts {a : Act F} (h : ∀ src m, a ≠ .out (.ghost src m)) (h' : ∀ k, a ≠ .out (.msg (.n1 k))) {ns : List (Msg F)} {n : Int} :
    (Starts a → ns = [.n0 n, .n1 n]) ∧ ∀ k, a = .out (.msg (.n1 k)) → ns = [.n0 n] ∧ k = n := by
  refine ⟨?_, fun k e => absurd e (h' k)⟩
  rintro ⟨src, m, _, e⟩; exact absurd e (h src m)

private theorem note_parse_none (cfg : Cfg F) (c : Core F) (m m' : List Byte) (n : Int) :
    (Mril.parse cfg c m').wp (noteMon m n) (NInv n) none := by
  refine wp_mono (fun g c' h => ?_) (wp_of_only (parse_only cfg c m') none ?_ (fun _ => trivial))
  · rw [h.1]; intro ns e; simp at e
  · intro a ha
    match a, ha with
    | .servo _ _, _ | .micro _ _, _ | .now _, _ | .out (.msg (.n0 _)), _ | .out (.msg (.reply _ _)), _ | .out (.raw .comment), _
    | .out (.pinMode _ _), _ | .out (.digitalWrite _ _), _ => exact ⟨rfl, by intro ns e; simp at e⟩

private theorem exec_quiet (cfg : Cfg F) (s : Core F) (l : Loc F) (c : Cmd) (hc : c.letter ≠ 78) (m : List Byte) (n : Int) (g : Option (List (Msg F))) :
    (Mril.exec cfg s l c.text).wp (noteMon m n) (fun g' r => g' = g ∧ r.2.tmpNumber = l.tmpNumber ∧ r.2.ctype = kindOf c.text) g := by
  refine wp_mono (fun g' r h => ⟨h.1, h.2.1, h.2.2.2⟩) (wp_of_only (exec_other cfg s l c.text hc) g ?_ (fun _ => trivial))
  intro a ha
  match a, ha with
  | .servo _ _, _ | .micro _ _, _ | .now _, _ | .out (.pinMode _ _), _ | .out (.digitalWrite _ _), _ =>
    exact ⟨rfl, fun ns _ => not_starts (by simp) (by simp)⟩

private theorem note_quiet (cfg : Cfg F) (cs : List Cmd) (hc : ∀ c ∈ cs, c.letter ≠ 78) (m : List Byte) (n : Int) (g : Option (List (Msg F)))
    (s : Core F) (l : Loc F) :
    (execAll cfg cs s l).wp (noteMon m n) (fun g' r => g' = g ∧ r.2.tmpNumber = l.tmpNumber) g := by
  refine wp_mono (fun g' r h => ⟨h.1, h.2.1⟩) (execAll_wp (noteMon m n) cfg
    (fun rest g' s' l' => g' = g ∧ l'.tmpNumber = l.tmpNumber ∧ ∀ c ∈ rest, c.letter ≠ 78) ?_ cs g s l ⟨rfl, rfl, hc⟩)
  rintro c rest g' s' l' ⟨rfl, h1, h2⟩
  exact wp_mono (fun g'' r h => ⟨h.1, h.2.1.trans h1, fun c hc => h2 c (by simp [hc])⟩) (exec_quiet cfg s' l' c (h2 c (by simp)) m n g')

private theorem execAll_append (cfg : Cfg F) (a b : List Cmd) (s : Core F) (l : Loc F) :
    execAll cfg (a ++ b) s l = (execAll cfg a s l).bind fun r => execAll cfg b r.1 r.2 := by
  induction a generalizing s l with
  | nil => rfl
  | cons c a ih => simp only [List.cons_append, execAll, bind_assoc, ih]

private theorem note_parse (cfg : Cfg F) (c : Core F) (m : List Byte) (n : Int) (h : Numbered m n) :
    (Mril.parse cfg c m).wp (noteMon m n) (NInv n) (some []) := by
  obtain ⟨a, b, d, w, hm, hok, hno, hw, hd, hn⟩ := h
  have e := parse_text cfg (a ++ ⟨78, d⟩ :: (b ++ [w])) hok (by simp) c
  rw [← hm] at e
  rw [e, wp_bind, execAll_append, wp_bind]
  refine wp_mono (fun g r hr => ?_) (note_quiet cfg a (fun c hc => hno c (by simp [hc])) m n _ _ _)
  obtain ⟨rfl, _⟩ := hr
  rw [execAll, wp_bind, exec_N cfg _ _ _ (by rfl)]
  refine ⟨fun ns _ => not_starts (by simp) (by simp), ?_⟩
  have hd' : atol (Cmd.text ⟨78, d⟩ |>.drop 1) = n := by simpa [Cmd.text] using hd
  rw [hd']
  show Prog.wp (noteMon m n) (execAll cfg (b ++ [w]) _ _) _ (some [Msg.n0 n])
  rw [execAll_append, wp_bind]
  refine wp_mono (fun g r hr => ?_) (note_quiet cfg b (fun c hc => hno c (by simp [hc])) m n _ _ _)
  obtain ⟨rfl, ht⟩ := hr
  rw [execAll, wp_bind]
  refine wp_mono (fun g r2 hr => ?_) (exec_quiet cfg r.1 r.2 w hw.1 m n _)
  obtain ⟨rfl, ht2, hk⟩ := hr
  have hwk : kindOf w.text = .write := by
    obtain ⟨h1, h2, h3⟩ := hw
    have hl : w.text.length ≠ 1 := by simp [Cmd.text, h2]
    have h4 : (w.letter == 82 && w.text.length == 2) = false := by
      simp only [Cmd.text, List.length_cons]
      cases hh : (w.letter == 82) with
      | false => rfl
      | true =>
        simp only [Bool.true_and, beq_eq_false_iff_ne]
        intro h5; exact h3 ⟨by simpa using hh, by omega⟩
    simp only [kindOf]
    have e1 : w.text.headD 0 = w.letter := rfl
    rw [e1, if_neg h1, h4]
    simp [hl]
  show Prog.wp _ (Mril.finish _ _) _ _
  unfold Mril.finish
  rw [hk, hwk]
  intro ns e
  simp at e; subst e
  left
  refine ⟨rfl, ?_⟩
  rw [ht2, ht]

/-- such an instruction, executed, leaves its number as the pending one. -/
theorem numbered_parse (cfg : Cfg F) {c c' : Core F} {m : List Byte} {n : Int} (h : Numbered m n) {tr : List (Act F)} (he : Exec (Mril.parse cfg c m) tr (.ret c')) : c'.commandNumber = n := by
  have h1 := (wp_exec he (note_parse cfg c m n h) (fun _ _ _ _ _ => trivial)).2
  have ho := (only_exec he (parse_only cfg c m)).1
  have key : ∀ (l : List (Act F)) (ns : List (Msg F)), (∀ a ∈ l, mrilAct a) → (∀ k, .n1 k ∉ ns) → ∃ ns', l.foldl (noteMon (F := F) m n).upd (some ns) = some ns' ∧ ∀ k, .n1 k ∉ ns' := by
    intro l
    induction l with
    | nil => exact fun ns _ h => ⟨ns, rfl, h⟩
    | cons a l ih =>
      intro ns ha hn
      have ha' := ha a (by simp)
      have hl := fun b hb => ha b (List.mem_cons_of_mem _ hb)
      match a, ha' with
      | .servo _ _, _ | .micro _ _, _ | .now _, _ | .out (.raw .comment), _ | .out (.pinMode _ _), _ | .out (.digitalWrite _ _), _ => exact ih ns hl hn
      | .out (.msg (.n0 x)), _ => exact ih (ns ++ [.n0 x]) hl (by simpa using hn)
      | .out (.msg (.reply x y)), _ => exact ih (ns ++ [.reply x y]) hl (by simpa using hn)
  obtain ⟨ns, e, hn⟩ := key tr [] ho (by simp)
  rcases h1 ns e with ⟨_, h2⟩ | ⟨h2, _⟩
  · exact h2
  · exact absurd (by rw [h2]; simp) (hn n)

private theorem note_inv (cfg : Cfg F) (m : List Byte) (n : Int) (h : Numbered m n) :
    CoreInv cfg (noteMon m n) (NInv n) (NInvJ n) where
  flt _ := trivial
  weak _ _ h := h.1
  disp g c a h ha := by
    match a, ha with
    | .rx _, _ | .eeRead _, _ | .eeWrite _ _, _ | .out (.raw (.error _)), _ =>
      exact ⟨fun ns _ => not_starts (by simp) (by simp), h⟩
    | .out (.msg (.free _)), _ =>
      refine ⟨fun ns _ => not_starts (by simp) (by simp), ?_⟩
      cases g <;> exact h
  dispJ g c a h ha := by
    match a, ha with
    | .rx _, _ | .eeRead _, _ | .eeWrite _ _, _ | .out (.raw (.error _)), _ =>
      exact ⟨fun ns _ => not_starts (by simp) (by simp), h⟩
    | .out (.msg (.free _)), _ =>
      refine ⟨fun ns _ => not_starts (by simp) (by simp), ?_⟩
      cases g <;> exact h
  rc g c h := by
    refine wp_mono (fun g' r hr => ?_) (wp_of_only (RC.process_only cfg.toRCfg c.rc) g ?_ (fun _ => trivial))
    · rw [hr.1]; exact h
    · intro a ha
      match a, ha with
      | .servo _ _, _ | .micro _ _, _ | .out (.raw _), _ => exact ⟨rfl, fun ns _ => not_starts (by simp) (by simp)⟩
  parse g c m' src hc := by
    cases src with
    | immediate =>
      refine ⟨fun ns e => ⟨?_, by simp⟩, ?_⟩
      · rintro ⟨src, m2, h1, h2⟩
        simp at h2; exact absurd h2.1.symm h1
      by_cases e : m' = m
      · subst e
        have : (noteMon (F := F) m' n).upd g (.out (.ghost .immediate m')) = some [] := by simp [noteMon]
        rw [this]; exact note_parse cfg c m' n h
      · have : (noteMon (F := F) m n).upd g (.out (.ghost .immediate m')) = none := by simp [noteMon, e]
        rw [this]; exact note_parse_none cfg c m m' n
    | queue =>
      refine ⟨fun ns e => ⟨fun _ => hc.1.2 hc.2 ns e, by simp⟩, ?_⟩
      by_cases e : m' = m
      · subst e
        have : (noteMon (F := F) m' n).upd g (.out (.ghost .queue m')) = some [] := by simp [noteMon]
        rw [this]; exact note_parse cfg c m' n h
      · have : (noteMon (F := F) m n).upd g (.out (.ghost .queue m')) = none := by simp [noteMon, e]
        rw [this]; exact note_parse_none cfg c m m' n
    | eeprom =>
      refine ⟨fun ns e => ⟨fun _ => hc.1.2 hc.2 ns e, by simp⟩, ?_⟩
      by_cases e : m' = m
      · subst e
        have : (noteMon (F := F) m' n).upd g (.out (.ghost .eeprom m')) = some [] := by simp [noteMon]
        rw [this]; exact note_parse cfg c m' n h
      · have : (noteMon (F := F) m n).upd g (.out (.ghost .eeprom m')) = none := by simp [noteMon, e]
        rw [this]; exact note_parse_none cfg c m m' n
  check g c hi := by
    have hn : 0 < n := by obtain ⟨_, _, _, _, _, _, _, _, _, hn⟩ := h; exact hn
    refine mrilProcess_wp c g (fun _ _ => rfl) (fun _ => rfl) (fun _ => ⟨hi, by simp⟩) (fun h0 _ => ⟨hi, fun _ ns e => ?_⟩) (fun h0 _ => ⟨?_, ?_⟩)
    · rcases hi ns e with ⟨_, h1⟩ | ⟨h1, _⟩
      · omega
      · exact h1
    · refine fun ns e => ⟨fun hs => ?_, fun k ek => ?_⟩
      · obtain ⟨_, _, _, hs⟩ := hs; cases hs
      · injection ek with ek; injection ek with ek; injection ek with ek
        rcases hi ns e with ⟨h1, h2⟩ | ⟨_, h2⟩
        · exact ⟨h1, by rw [← ek, h2]⟩
        · omega
    · have key : ∀ ns, (noteMon (F := F) m n).upd g (.out (.msg (.n1 c.commandNumber))) = some ns → ns = [.n0 n, .n1 n] := by
        intro ns e
        cases g with
        | none => simp [noteMon] at e
        | some ns0 =>
          simp [noteMon, notice] at e
          rcases hi ns0 rfl with ⟨h1, h2⟩ | ⟨_, h2⟩
          · rw [← e, h1, h2]; rfl
          · omega
      exact ⟨fun ns e => .inr ⟨key ns e, by simp⟩, fun _ ns e => key ns e⟩

/-- between two passes, after such an instruction was started and before another one is handed over: its acceptance has been announced, and either it is
still pending or its completion has been reported. -/
theorem note_between {cfg : Cfg F} {junk : Nat → Byte} {pre mid : List (Act F)} {s : FW F} {src : Src} {m : List Byte} {n : Int}
    (h : Trace cfg junk (pre ++ .out (.ghost src m) :: mid) (.ret s)) (hmid : ∀ x ∈ mid, ¬ Handed x) (hm : Numbered m n) :
    ((msgs mid).filter notice = [.n0 n] ∧ s.core.commandNumber = n) ∨ (msgs mid).filter notice = [.n0 n, .n1 n] := by
  have h1 := ((note_inv cfg m n hm).sound none junk (fun v u m _ _ ns e => by simp at e) (fun _ _ => rfl) (fun _ => rfl) h (fun _ _ _ _ _ => trivial)).2
  have e : (pre ++ .out (.ghost src m) :: mid).foldl (noteMon (F := F) m n).upd none = some ((msgs mid).filter notice) := by
    rw [List.foldl_append, List.foldl_cons]
    have : ∀ g, (noteMon (F := F) m n).upd g (.out (.ghost src m)) = some [] := by
      intro g; cases src <;> simp [noteMon]
    rw [this]
    have : ∀ (l : List (Act F)) ns, (∀ x ∈ l, ¬ Handed x) → l.foldl (noteMon (F := F) m n).upd (some ns) = some (ns ++ (msgs l).filter notice) := by
      intro l
      induction l with
      | nil => intro ns _; simp [msgs]
      | cons x l ih =>
        intro ns hl
        have hl' := fun y hy => hl y (List.mem_cons_of_mem _ hy)
        have hx := hl x List.mem_cons_self
        rw [List.foldl_cons]
        cases x with
        | out o =>
          cases o with
          | msg z =>
            show l.foldl _ (some (if notice z then ns ++ [z] else ns)) = _
            rw [ih _ hl']
            simp only [msgs, List.filterMap_cons, List.filter_cons]
            split <;> simp
          | ghost a b => exact absurd ⟨a, b, rfl⟩ hx
          | _ => exact ih _ hl'
        | _ => exact ih _ hl'
    rw [this mid [] hmid, List.nil_append]
  rcases (h1 : NInv n _ s.core) _ e with h | h
  · exact .inl h
  · exact .inr h.1

/-- the monitor after an instruction and what followed it. -/
private theorem note_foldl {m : List Byte} {n : Int} {pre mid : List (Act F)} {src : Src} (hmid : ∀ x ∈ mid, ¬ Handed x) :
    (pre ++ .out (.ghost src m) :: mid).foldl (noteMon (F := F) m n).upd none = some ((msgs mid).filter notice) := by
  rw [List.foldl_append, List.foldl_cons]
  have : ∀ g, (noteMon (F := F) m n).upd g (.out (.ghost src m)) = some [] := by
    intro g; cases src <;> simp [noteMon]
  rw [this]
  have gen : ∀ (l : List (Act F)) (ns : List (Msg F)), (∀ x ∈ l, ¬ Handed x) →
      l.foldl (noteMon (F := F) m n).upd (some ns) = some (ns ++ (msgs l).filter notice) := by
    intro l
    induction l with
    | nil => intro ns _; simp [msgs]
    | cons x l ih =>
      intro ns hl
      have hx := hl x (by simp)
      have hl' : ∀ y ∈ l, ¬ Handed y := fun y hy => hl y (by simp [hy])
      rw [List.foldl_cons]
      cases x with
      | out o =>
        cases o with
        | msg y =>
          simp only [noteMon, Option.map_some, msgs, List.filterMap_cons, List.filter_cons]
          have := ih (if notice y then ns ++ [y] else ns) hl'
          simp only [noteMon] at this
          rw [this]
          split <;> simp [msgs]
        | ghost src m' => exact absurd ⟨src, m', rfl⟩ hx
        | _ => exact ih ns hl'
      | _ => exact ih ns hl'
  rw [gen mid [] hmid]; simp

/-- **C25**, for the instructions of class `Numbered` (the full claim — every numbered write instruction — is false, see below):
if such an instruction is started (from queue or storage, or at once) and the next instruction handed over is taken from the queue or the storage, then
between the two exactly the notices N0<n> and N1<n> are sent, in this order. -/
theorem C25_complete_partial {cfg : Cfg F} {junk : Nat → Byte} {tr : List (Act F)} {p : Prog F (FW F)} (h : Trace cfg junk tr p)
    (pre mid post : List (Act F)) (src : Src) (m : List Byte) (n : Int) (a : Act F)
    (ht : tr = pre ++ .out (.ghost src m) :: (mid ++ a :: post)) (ha : Starts a) (hmid : ∀ x ∈ mid, ¬ Handed x) (hm : Numbered m n) :
    (msgs mid).filter notice = [.n0 n, .n1 n] := by
  have h1 := ((note_inv cfg m n hm).sound none junk (fun v u m _ _ ns e => by simp at e) (fun _ _ => rfl) (fun _ => rfl) h (fun _ _ _ _ _ => trivial)).1
  have hin : a.isInput = false := by obtain ⟨_, _, _, rfl⟩ := ha; rfl
  exact (h1 (pre ++ .out (.ghost src m) :: mid) a post (by rw [ht]; simp) hin _ (note_foldl hmid)).1 ha

/-- the first notice of completion after such an instruction is its own, and the only one before the next instruction is handed over. -/
theorem note_own {cfg : Cfg F} {junk : Nat → Byte} {tr : List (Act F)} {p : Prog F (FW F)} (h : Trace cfg junk tr p)
    {pre mid post : List (Act F)} {src : Src} {m : List Byte} {n k : Int}
    (ht : tr = pre ++ .out (.ghost src m) :: (mid ++ .out (.msg (.n1 k)) :: post)) (hmid : ∀ x ∈ mid, ¬ Handed x) (hm : Numbered m n) :
    k = n ∧ (msgs mid).filter notice = [.n0 n] := by
  have h1 := ((note_inv cfg m n hm).sound none junk (fun v u m _ _ ns e => by simp at e) (fun _ _ => rfl) (fun _ => rfl) h (fun _ _ _ _ _ => trivial)).1
  have := (h1 (pre ++ .out (.ghost src m) :: mid) _ post (by rw [ht]; simp) rfl _ (note_foldl hmid)).2 k rfl
  exact ⟨this.2, this.1⟩

section
open Mrc.Demo

/-- the full claim of C25 is false: the numbered write instruction V20N5 (its number at the end) is taken from the queue and acknowledged
with N05, and the next instruction is started, but N15 is never sent. -/
theorem C25_complete_false :
    (Dev.after (kit ":QV20N5\x0d:QV30\x0d" 3).1).started = [str "V20N5", str "V30"] ∧
    (msgs (kit ":QV20N5\x0d:QV30\x0d" 3).1).countP (offers 5) = 1 ∧ (msgs (kit ":QV20N5\x0d:QV30\x0d" 3).1).countP (finishes 5) = 0 := by
  decide +kernel

-- with the number in front it is answered (C24, C25)
example : Numbered (str "N5V20") 5 :=
  ⟨[], [], str "5", ⟨86, str "20"⟩, by decide, by
    intro c hc
    simp at hc
    rcases hc with rfl | rfl
    · exact ⟨by decide, by decide, by decide⟩
    · exact ⟨by decide, by decide, by decide⟩, by simp, ⟨by decide, by decide, by decide⟩, by decide, by decide⟩
example : (Dev.after (kit ":QN5V20\x0d:QV30\x0d" 3).1).started = [str "N5V20", str "V30"] ∧
    (msgs (kit ":QN5V20\x0d:QV30\x0d" 3).1).countP (offers 5) = 1 ∧ (msgs (kit ":QN5V20\x0d:QV30\x0d" 3).1).countP (finishes 5) = 1 := by
  decide +kernel
end


/-! ### C63 -/

/-- a text without frame characters. -/
def Clean (t : List Byte) : Prop := ∀ b ∈ t, b ≠ 58 ∧ b ≠ 13 ∧ b ≠ 10

theorem decode_text (t rest done : List Byte) (ht : Clean t) (hd : Clean done) :
    hostDecode (some done) (t ++ 13 :: 10 :: rest) = (hostDecode none rest).map ((done ++ t) :: ·) := by
  have hlast : ∀ l : List Byte, Clean l → l.getLast? ≠ some 13 := by
    intro l hl e
    exact (hl 13 (List.mem_of_getLast? e)).2.1 rfl
  induction t generalizing done with
  | nil =>
    have h := hlast done hd
    simp only [List.nil_append, hostDecode, hostStep]
    simp [h]
    rfl
  | cons b t ih =>
    obtain ⟨h1, h2, h3⟩ := ht b (by simp)
    have h := hlast done hd
    simp only [List.cons_append, hostDecode, hostStep, h1, h3, h, if_false, Option.map_map]
    have := ih (done ++ [b]) (fun x hx => ht x (by simp [hx])) (by
      intro x hx
      rcases List.mem_append.1 hx with hx | hx
      · exact hd x hx
      · simp at hx; subst hx; exact ht x (by simp))
    rw [this]
    simp
    rfl

theorem decode_all (ts : List (List Byte)) (h : ∀ t ∈ ts, Clean t) :
    hostDecode none (ts.flatMap fun t => 58 :: (t ++ [13, 10])) = some ts := by
  induction ts with
  | nil => rfl
  | cons t ts ih =>
    have e : (t :: ts).flatMap (fun t => (58 : Byte) :: (t ++ [13, 10])) = 58 :: (t ++ 13 :: 10 :: ts.flatMap fun t => 58 :: (t ++ [13, 10])) := by simp
    rw [e]
    have := decode_text t (ts.flatMap fun t => 58 :: (t ++ [13, 10])) [] (h t (by simp)) (by intro b hb; simp at hb)
    simp only [hostDecode, hostStep, if_true, this, ih (fun t ht => h t (by simp [ht]))]
    simp

theorem clean_nat (n : Nat) : Clean (natStr n) := by
  have hd : ∀ (k n : Nat) (acc : List Char), (∀ c ∈ acc, c.isDigit = true) → ∀ c ∈ Nat.toDigitsCore 10 k n acc, c.isDigit = true := by
    intro k
    induction k with
    | zero => intro n acc h; exact h
    | succ k ih =>
      intro n acc h
      have hdg : ∀ m : Fin 10, (Nat.digitChar m.val).isDigit = true := by decide
      have hx : ∀ c ∈ Nat.digitChar (n % 10) :: acc, c.isDigit = true := by
        intro c hc
        rcases List.mem_cons.1 hc with rfl | hc
        · exact hdg ⟨n % 10, Nat.mod_lt _ (by decide)⟩
        · exact h c hc
      rw [Nat.toDigitsCore]
      split
      · exact hx
      · exact ih _ _ hx
  intro b hb
  simp only [natStr, List.mem_map] at hb
  obtain ⟨c, hc, rfl⟩ := hb
  have := hd _ _ [] (by simp) c hc
  have hv : 48 ≤ c.val.toNat ∧ c.val.toNat ≤ 57 := by
    simp only [Char.isDigit, Bool.and_eq_true, decide_eq_true_eq, UInt32.le_iff_toNat_le] at this
    exact this
  have hu : c.toUInt8.toNat = c.val.toNat := by
    show (c.val.toUInt8).toNat = _
    rw [UInt32.toNat_toUInt8]; omega
  refine ⟨?_, ?_, ?_⟩ <;> (intro e; have h9 := congrArg UInt8.toNat e; rw [hu] at h9; simp only [UInt8.reduceToNat] at h9; omega)

theorem clean_append {a b : List Byte} (ha : Clean a) (hb : Clean b) : Clean (a ++ b) := by
  intro x hx
  rcases List.mem_append.1 hx with hx | hx
  · exact ha x hx
  · exact hb x hx

theorem clean_cons {a : Byte} {b : List Byte} (ha : a ≠ 58 ∧ a ≠ 13 ∧ a ≠ 10) (hb : Clean b) : Clean (a :: b) := by
  intro x hx
  rcases List.mem_cons.1 hx with rfl | hx
  · exact ha
  · exact hb x hx

theorem clean_int (i : Int) : Clean (intStr i) := by
  unfold intStr
  split
  · exact clean_cons (by decide) (clean_nat _)
  · exact clean_nat _

/-- the answers of reads start with a letter the parser knows. -/
def GoodPart : Part F → Prop
  | .pose sym _ => (poseIdx sym).isSome
  | .angle o _ => o < 8
  | _ => True

theorem clean_part (fl : F → List Byte) (hfl : ∀ x, Clean (fl x)) (p : Part F) (hp : GoodPart p) : Clean (p.text fl) := by
  cases p with
  | method c => exact clean_cons (by decide) (clean_nat c)
  | velocity v => exact clean_cons (by decide) (hfl v)
  | pose sym v =>
    refine clean_cons ?_ (hfl v)
    refine ⟨?_, ?_, ?_⟩ <;> (rintro rfl; simp [GoodPart, poseIdx] at hp)
  | angle o v => exact clean_cons (by decide) (clean_append (clean_nat o) (hfl v))

def GoodMsg : Msg F → Prop
  | .reply _ ps => ∀ p ∈ ps, GoodPart p
  | _ => True

theorem clean_msg (fl : F → List Byte) (hfl : ∀ x, Clean (fl x)) (m : Msg F) (hm : GoodMsg m) : Clean (m.text fl) := by
  have hp : ∀ ps : List (Part F), (∀ p ∈ ps, GoodPart p) → Clean (ps.flatMap (Part.text fl)) := by
    intro ps h b hb
    obtain ⟨p, h1, h2⟩ := List.mem_flatMap.1 hb
    exact clean_part fl hfl p (h p h1) b h2
  cases m with
  | free n => exact clean_cons (by decide) (clean_int n)
  | n0 n => exact clean_cons (by decide) (clean_cons (by decide) (clean_int n))
  | n1 n => exact clean_cons (by decide) (clean_cons (by decide) (clean_int n))
  | reply num ps =>
    cases num with
    | none => exact hp ps hm
    | some n => exact clean_cons (by decide) (clean_cons (by decide) (clean_append (clean_int n) (clean_cons (by decide) (hp ps hm))))

def goodMon : Mon F Unit where
  upd g _ := g
  ok _ a := ∀ m, a = .out (.msg m) → GoodMsg m

set_option maxHeartbeats 2000000 in
theorem exec_good (cfg : Cfg F) (s : Core F) (l : Loc F) (tok : List Byte) :
    (Mril.exec cfg s l tok).only (fun a => ∀ m, a = .out (.msg m) → GoodMsg m)
      (fun r => r.2.resp = l.resp ∨ ∃ p, r.2.resp = l.resp ++ [p] ∧ GoodPart p) := by
  exec_leaves
  all_goals simp_all [Prog.bind, only, GoodPart, GoodMsg]
  all_goals intros
  all_goals first
    | omega
    | (rename_i he _; unfold axisServo at he; split at he; · omega
       split at he; · omega
       cases he)

theorem good_inv (cfg : Cfg F) : CoreInv cfg goodMon (fun _ _ => True) (fun _ _ => True) where
  flt _ := trivial
  weak _ _ _ := trivial
  disp g c a _ ha := by
    match a, ha with
    | .rx _, _ | .eeRead _, _ | .eeWrite _ _, _ | .out (.raw (.error _)), _ => exact ⟨by simp [goodMon], trivial⟩
    | .out (.msg (.free _)), _ => exact ⟨by intro m e; simp at e; subst e; trivial, trivial⟩
  dispJ g c a _ ha := by
    match a, ha with
    | .rx _, _ | .eeRead _, _ | .eeWrite _ _, _ | .out (.raw (.error _)), _ => exact ⟨by simp [goodMon], trivial⟩
    | .out (.msg (.free _)), _ => exact ⟨by intro m e; simp at e; subst e; trivial, trivial⟩
  rc g c h := by
    refine wp_mono (fun g' r hr => trivial) (wp_of_only (RC.process_only cfg.toRCfg c.rc) g ?_ (fun _ => trivial))
    intro a ha
    match a, ha with
    | .servo _ _, _ | .micro _ _, _ | .out (.raw _), _ => exact ⟨rfl, by simp [goodMon]⟩
  parse g c m src h := by
    refine ⟨by simp [goodMon], ?_⟩
    refine parse_wp goodMon cfg (fun _ _ l => ∀ p ∈ l.resp, GoodPart p) _ trivial ?_ (fun _ _ _ h => ⟨by simp [goodMon], h⟩) m _ c (fun _ => trivial)
      (fun _ => by simp) ?_
    · intro g s l tok hi
      refine wp_mono (fun g' r hr => ?_) (wp_of_only (exec_good cfg s l tok) g (fun a ha => ⟨rfl, ha⟩) (fun _ => trivial))
      rcases hr.2 with e | ⟨p, e, hp⟩
      · rw [e]; exact hi
      · rw [e]
        intro q hq
        rcases List.mem_append.1 hq with hq | hq
        · exact hi q hq
        · simp at hq; subst hq; exact hp
    · intro g s l hi
      unfold Mril.finish
      simp only [send, bind_def, Prog.bind]
      split
      · refine ⟨?_, trivial⟩
        intro m e; simp at e; subst e; exact hi
      · trivial
      · trivial
  check g c h := mrilProcess_wp c g (fun _ _ => rfl) (fun _ => rfl) (fun _ => trivial) (fun _ _ => trivial)
    (fun _ _ => ⟨by intro m e; simp at e; subst e; trivial, trivial⟩)

/-- the messages of every history are good. -/
theorem msgs_good {cfg : Cfg F} {junk : Nat → Byte} {tr : List (Act F)} {p : Prog F (FW F)} (h : Trace cfg junk tr p) (m : Msg F) (hm : m ∈ msgs tr) : GoodMsg m := by
  have h1 := ((good_inv cfg).sound () junk (fun _ _ _ _ _ => trivial) (fun _ _ => rfl) (fun _ => rfl) h (fun _ _ _ _ _ => trivial)).1
  simp only [msgs, List.mem_filterMap] at hm
  obtain ⟨a, ha, hm⟩ := hm
  obtain ⟨pre, post, e⟩ := List.append_of_mem ha
  match a, hm with
  | .out (.msg m'), hm =>
    simp at hm; subst hm
    exact h1 pre _ post e rfl _ rfl

/-- **C63** (messages only; the full claim is false, see below): in every history, the messages sent are decoded by the host, without any
error, to exactly their texts in order.  (`fl`: the unmodelled conversion of a float to text, assumed to yield no ':' CR LF.) -/
theorem C63_frames_partial {cfg : Cfg F} {junk : Nat → Byte} {tr : List (Act F)} {p : Prog F (FW F)} (h : Trace cfg junk tr p)
    (fl : F → List Byte) (hfl : ∀ x, Clean (fl x)) :
    hostDecode none ((msgs tr).flatMap (Msg.wire fl)) = some ((msgs tr).map (Msg.text fl)) := by
  have e : (msgs tr).flatMap (Msg.wire fl) = ((msgs tr).map (Msg.text fl)).flatMap fun t => 58 :: (t ++ [13, 10]) := by
    rw [List.flatMap_map]; rfl
  rw [e]
  apply decode_all
  intro t ht
  obtain ⟨m, hm, rfl⟩ := List.mem_map.1 ht
  exact clean_msg fl hfl m (msgs_good h m hm)

section
open Mrc.Demo
/-- the full claim of C63 is false: when a point-to-point move starts, its duration is printed outside of any frame, and the host's
decoder rejects the stream (whatever the text of a float looks like, as long as it does not start with ':'). -/
theorem C63_frames_false :
    hostDecode none ((outs (kit ":EM0R110\x0d" 2).1).flatMap (Out.wire fun _ => str "1.00")) = none ∧
    ((outs (kit ":EM0R110\x0d" 2).1).any fun | .raw (.moveInTime _) => true | _ => false) = true := by
  decide +kernel

-- a history with three kinds of messages
example : (msgs (kit ":EN7V\x0d:QN5V20\x0d" 2).1).map (Msg.text fun _ => str "1.00") =
    [str "N07", str "N17 V1.00", str "B294", str "N05", str "N15"] := by
  decide +kernel
end

end Mrc.Props
