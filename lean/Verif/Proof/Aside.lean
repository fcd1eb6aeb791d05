import Verif.Spec.Aside
import Verif.Spec.Liveness
import Verif.Spec.Told
import Verif.Proof.Only
import Mathlib.Tactic.ByContra
/-
What instructions leave alone: the place of the arm (NoPlace), the controller (Aside), everything (Asks).
-/
set_option linter.unusedSectionVars false
set_option linter.unusedSimpArgs false
namespace Mrc.Props
open Mrc Mrc.Spec

/-! ### texts of commands -/

theorem letter_notArg {b : Byte} (h : 65 ≤ b.toNat ∧ b.toNat ≤ 90) : argChar b = false := by
  simp only [argChar, Bool.or_eq_false_iff, Bool.and_eq_false_iff, decide_eq_false_iff_not, beq_eq_false_iff_ne]
  refine ⟨⟨by omega, ?_⟩, ?_⟩ <;> rintro rfl <;> exact absurd h (by decide)

/-- the commands of an instruction are determined by its text. -/
theorem text_inj {a b : List Cmd} (ha : ∀ c ∈ a, c.Ok) (hb : ∀ c ∈ b, c.Ok) (h : text a = text b) : a = b := by
  induction a generalizing b with
  | nil =>
    cases b with
    | nil => rfl
    | cons c b => simp [text, Cmd.text] at h
  | cons c a ih =>
    cases b with
    | nil => simp [text, Cmd.text] at h
    | cons d b =>
      have hs : ∀ (c : Cmd) (a : List Cmd), text (c :: a) = c.letter :: (c.arg ++ text a) := by intro c a; simp [text, Cmd.text]
      rw [hs, hs] at h
      injection h with h1 h2
      have htw : ∀ (c : Cmd) (a : List Cmd), c.Ok → (∀ x ∈ a, x.Ok) → (c.arg ++ text a).takeWhile argChar = c.arg ∧ (c.arg ++ text a).dropWhile argChar = text a := by
        intro c a hc ha
        have hk : ∀ (l r : List Byte), (∀ x ∈ l, argChar x = true) → (r = [] ∨ ∃ y ys, r = y :: ys ∧ argChar y = false) → (l ++ r).takeWhile argChar = l ∧ (l ++ r).dropWhile argChar = r := by
          intro l r hl hr
          induction l with
          | nil =>
            rcases hr with rfl | ⟨y, ys, rfl, hy⟩
            · simp
            · simp [hy]
          | cons x l ih2 =>
            have := ih2 fun z hz => hl z (by simp [hz])
            simp [hl x (by simp), this]
        refine hk _ _ hc.arg ?_
        cases a with
        | nil => exact .inl rfl
        | cons x a => exact .inr ⟨x.letter, x.arg ++ text a, hs x a, letter_notArg (ha x (by simp)).letter⟩
      obtain ⟨t1, t2⟩ := htw c a (ha c (by simp)) fun x hx => ha x (by simp [hx])
      obtain ⟨t3, t4⟩ := htw d b (hb d (by simp)) fun x hx => hb x (by simp [hx])
      rw [h2] at t1 t2
      have e1 : c.arg = d.arg := t1.symm.trans t3
      have e2 : text a = text b := t2.symm.trans t4
      have e3 : c = d := by cases c; cases d; simp only [Cmd.mk.injEq]; exact ⟨h1, e1⟩
      rw [e3, ih (fun x hx => ha x (by simp [hx])) (fun x hx => hb x (by simp [hx])) e2]

end Mrc.Props

namespace Mrc.Asd
open Mrc Mrc.Prog Mrc.Spec
variable {F : Type} [FloatOps F]

theorem poseIdx_mem {c : Byte} {i : Fin 6} (h : poseIdx c = some i) : c ∈ str "XYZABC" := by
  have : ∀ c : Byte, c ∉ str "XYZABC" → poseIdx c = none := by
    intro c hc
    have e : str "XYZABC" = [88, 89, 90, 65, 66, 67] := by decide
    rw [e] at hc
    simp only [List.mem_cons, List.not_mem_nil, or_false, not_or] at hc
    simp [poseIdx, hc]
  by_contra hn
  rw [this c hn] at h; cases h

theorem NoPlace.of_aside {m : List Byte} (h : Aside m) : NoPlace m := by
  obtain ⟨cs, h1, h2, h3⟩ := h
  exact ⟨cs, h1, fun c hc => (h2 c hc).1, h3⟩

theorem not_pose {b : Byte} (h : b = 82 ∨ b = 78) : b ∉ str "XYZABC" := by rcases h with rfl | rfl <;> decide

theorem leaves_of_asks {c : Cmd} (h : OnlyAsks c) : LeavesArm c := by
  rcases h with ⟨hm, h⟩ | ⟨h, h'⟩ | h
  · refine ⟨⟨fun _ => h, fun h82 => ?_⟩, fun _ => h⟩
    rw [h82] at hm
    exact absurd hm (by decide)
  · refine ⟨⟨fun hm => absurd hm (not_pose (.inl h)), fun _ => .inl h'⟩, fun hm => ?_⟩
    rw [h] at hm; exact absurd hm (by decide)
  · refine ⟨⟨fun hm => absurd hm (not_pose (.inr h)), fun hm => ?_⟩, fun hm => ?_⟩ <;> rw [h] at hm <;> exact absurd hm (by decide)

theorem aside_of_asks {m : List Byte} (h : Asks m) : Aside m := by
  obtain ⟨cs, h1, h2, h3⟩ := h
  exact ⟨cs, h1, fun c hc => leaves_of_asks (h2 c hc), h3⟩

/-- commands that are neither R nor pose letters. -/
theorem exec_other (cfg : Cfg F) (s : Core F) (l : Loc F) (tok : List Byte) (h1 : poseIdx (tok.headD 0) = none) (h2 : tok.headD 0 ≠ 82) :
    (Mril.exec cfg s l tok).only mrilAct (fun r => r.1.rc = { s.rc with method := r.1.rc.method, maxVelocity := r.1.rc.maxVelocity }) := by
  exec_leaves
  all_goals first
    | contradiction
    | rfl
    | trivial
    | exact ⟨trivial, rfl⟩
    | exact ⟨le_refl 6, (by show 6 ≤ 7; omega), rfl⟩
    | (simp only [only, mrilAct, Prog.bind]; refine ⟨?_, ?_, ?_⟩ <;> first | decide | rfl)
    | exact fun _ => ⟨trivial, rfl⟩
    | exact ⟨trivial, fun _ => rfl⟩
    | exact fun _ => rfl
    | (rename_i h _ _ _ _ _; rw [h1] at h; cases h)
    | (rename_i h _ _ _ _; rw [h1] at h; cases h)
    | (rename_i h _ _ _; rw [h1] at h; cases h)
    | (rename_i h _ _; rw [h1] at h; cases h)
    | (rename_i h _; rw [h1] at h; cases h)
    | (rename_i h; rw [h1] at h; cases h)
    | skip

/-- the same for commands that are neither M nor V (nor R nor pose letters). -/
theorem exec_other' (cfg : Cfg F) (s : Core F) (l : Loc F) (tok : List Byte) (h1 : poseIdx (tok.headD 0) = none) (h2 : tok.headD 0 ≠ 82) (h3 : tok.headD 0 ≠ 77) (h4 : tok.headD 0 ≠ 86) :
    (Mril.exec cfg s l tok).only mrilAct (fun r => r.1.rc = s.rc) := by
  exec_leaves
  all_goals first
    | contradiction
    | rfl
    | trivial
    | exact ⟨trivial, rfl⟩
    | exact fun _ => ⟨trivial, rfl⟩
    | exact ⟨trivial, fun _ => rfl⟩
    | exact fun _ => rfl
    | (rename_i h _ _ _ _ _; rw [h1] at h; cases h)
    | (rename_i h _ _ _ _; rw [h1] at h; cases h)
    | (rename_i h _ _ _; rw [h1] at h; cases h)
    | (rename_i h _ _; rw [h1] at h; cases h)
    | (rename_i h _; rw [h1] at h; cases h)
    | (rename_i h; rw [h1] at h; cases h)
    | skip

/-- a pose letter without argument changes nothing. -/
theorem exec_pose (cfg : Cfg F) (s : Core F) (l : Loc F) {letter : Byte} {i : Fin 6} (hp : poseIdx letter = some i) : (Mril.exec cfg s l [letter]).only mrilAct (fun r => r.1 = s) := by
  have hm := poseIdx_mem hp
  have e : str "XYZABC" = [88, 89, 90, 65, 66, 67] := by decide
  rw [e] at hm
  simp only [List.mem_cons, List.not_mem_nil, or_false] at hm
  rcases hm with rfl | rfl | rfl | rfl | rfl | rfl <;>
    simp [Mril.exec, poseIdx, str, RC.getCurrentPose, RC.getCurrentLogicalAngles, RC.readAngles, readServo, Prog.bind, only, mrilAct]

/-- R with one character changes nothing. -/
theorem exec_R (cfg : Cfg F) (s : Core F) (l : Loc F) (b : Byte) : (Mril.exec cfg s l [82, b]).only mrilAct (fun r => r.1 = s) := by
  have hp : poseIdx 82 = none := by decide
  simp only [Mril.exec, List.headD_cons]
  simp [RC.getCurrentLogicalAngles, RC.readAngles, readServo, Prog.bind]
  repeat' split
  all_goals first
    | (rename_i h _; rw [hp] at h; cases h)
    | (rename_i h; rw [hp] at h; cases h)
    | simp [only, mrilAct]

/-- R for an additional axis leaves the controller alone. -/
theorem exec_R' (cfg : Cfg F) (s : Core F) (l : Loc F) {k : Fin 10} (hk : 6 ≤ k.val) (rest : List Byte) : (Mril.exec cfg s l (82 :: digitChar k :: rest)).only mrilAct (fun r => r.1 = s) := by
  have hp : poseIdx 82 = none := by decide
  have hopt : optionAt (82 :: digitChar k :: rest) 1 = some k.val := optionAt_digit _ 1 k.val k.isLt rfl
  simp only [Mril.exec, List.headD_cons]
  simp [hopt, hk, RC.getCurrentLogicalAngles, RC.readAngles, readServo, Prog.bind]
  repeat' split
  all_goals first
    | (rename_i h _; rw [hp] at h; cases h)
    | (rename_i h; rw [hp] at h; cases h)
    | (rename_i ha; have := axisServo_ge ha; simp [only, Mril.setAxis, readServo, doMicro, Prog.bind, mrilAct, this]; done)
    | (simp [only, mrilAct]; done)
    | skip

theorem exec_noPlace (cfg : Cfg F) (s : Core F) (l : Loc F) (c : Cmd) (hn : NamesNoPlace c) :
    (Mril.exec cfg s l c.text).only mrilAct (fun r => r.1.rc = { s.rc with method := r.1.rc.method, maxVelocity := r.1.rc.maxVelocity }) := by
  obtain ⟨letter, arg⟩ := c
  obtain ⟨h1, h2⟩ := hn
  simp only at h1 h2
  cases hp : poseIdx letter with
  | some i =>
    obtain rfl : arg = [] := h1 (poseIdx_mem hp)
    exact only_mono (fun _ h => h) (fun r hr => by rw [hr]) (exec_pose cfg s l hp)
  | none =>
    by_cases h82 : letter = 82
    · subst h82
      rcases h2 rfl with h | ⟨k, rest, hk, rfl⟩
      · obtain ⟨b, rfl⟩ := List.length_eq_one_iff.1 h
        exact only_mono (fun _ h => h) (fun r hr => by rw [hr]) (exec_R cfg s l b)
      · exact only_mono (fun _ h => h) (fun r hr => by rw [hr]) (exec_R' cfg s l hk rest)
    · exact exec_other cfg s l _ hp h82

theorem exec_aside (cfg : Cfg F) (s : Core F) (l : Loc F) (c : Cmd) (hn : LeavesArm c) : (Mril.exec cfg s l c.text).only mrilAct (fun r => r.1.rc = s.rc) := by
  obtain ⟨letter, arg⟩ := c
  obtain ⟨⟨h1, h2⟩, h3⟩ := hn
  simp only at h1 h2 h3
  cases hp : poseIdx letter with
  | some i =>
    obtain rfl : arg = [] := h1 (poseIdx_mem hp)
    exact only_mono (fun _ h => h) (fun r hr => by rw [hr]) (exec_pose cfg s l hp)
  | none =>
    by_cases h82 : letter = 82
    · subst h82
      rcases h2 rfl with h | ⟨k, rest, hk, rfl⟩
      · obtain ⟨b, rfl⟩ := List.length_eq_one_iff.1 h
        exact only_mono (fun _ h => h) (fun r hr => by rw [hr]) (exec_R cfg s l b)
      · exact only_mono (fun _ h => h) (fun r hr => by rw [hr]) (exec_R' cfg s l hk rest)
    · by_cases h77 : letter = 77
      · subst h77
        obtain rfl := h3 (.inl rfl)
        rfl
      · by_cases h86 : letter = 86
        · subst h86
          obtain rfl := h3 (.inr rfl)
          rfl
        · exact exec_other' cfg s l _ hp h82 h77 h86

theorem exec_asks (cfg : Cfg F) (s : Core F) (l : Loc F) (c : Cmd) (hn : OnlyAsks c) : (Mril.exec cfg s l c.text).only mrilAct (fun r => r.1 = s ∧ r.2.ctype ≠ .write) := by
  obtain ⟨letter, arg⟩ := c
  rcases hn with ⟨hm, h⟩ | ⟨h, h'⟩ | h
  · simp only at hm h
    subst h
    have e : str "XYZABCVM" = [88, 89, 90, 65, 66, 67, 86, 77] := by decide
    rw [e] at hm
    simp only [List.mem_cons, List.not_mem_nil, or_false] at hm
    rcases hm with rfl | rfl | rfl | rfl | rfl | rfl | rfl | rfl <;>
      simp [Cmd.text, Mril.exec, poseIdx, str, RC.getCurrentPose, RC.getCurrentLogicalAngles, RC.readAngles, readServo, Prog.bind, only, mrilAct]
  · simp only at h h'
    subst h
    obtain ⟨b, rfl⟩ := List.length_eq_one_iff.1 h'
    have hp : poseIdx 82 = none := by decide
    simp only [Cmd.text, Mril.exec, List.headD_cons]
    simp [RC.getCurrentLogicalAngles, RC.readAngles, readServo, Prog.bind]
    repeat' split
    all_goals first
      | (rename_i h _; rw [hp] at h; cases h)
      | (rename_i h; rw [hp] at h; cases h)
      | simp [only, mrilAct]
  · simp only at h
    subst h
    simp [Cmd.text, Mril.exec, poseIdx, send, Prog.bind, only, mrilAct]

theorem execAll_noPlace (cfg : Cfg F) (cs : List Cmd) (hn : ∀ c ∈ cs, NamesNoPlace c) (s : Core F) (l : Loc F) :
    (execAll cfg cs s l).only mrilAct (fun r => r.1.rc = { s.rc with method := r.1.rc.method, maxVelocity := r.1.rc.maxVelocity }) := by
  induction cs generalizing s l with
  | nil => rfl
  | cons c cs ih =>
    simp only [execAll, only_bind]
    exact only_mono (fun _ h => h) (fun r hr => only_mono (fun _ h => h) (fun r' hr' => by rw [hr', hr]) (ih (fun c hc => hn c (by simp [hc])) r.1 r.2)) (exec_noPlace cfg s l c (hn c (by simp)))

theorem execAll_aside (cfg : Cfg F) (cs : List Cmd) (hn : ∀ c ∈ cs, LeavesArm c) (s : Core F) (l : Loc F) : (execAll cfg cs s l).only mrilAct (fun r => r.1.rc = s.rc) := by
  induction cs generalizing s l with
  | nil => rfl
  | cons c cs ih =>
    simp only [execAll, only_bind]
    exact only_mono (fun _ h => h) (fun r hr => only_mono (fun _ h => h) (fun r' hr' => by rw [hr', hr]) (ih (fun c hc => hn c (by simp [hc])) r.1 r.2)) (exec_aside cfg s l c (hn c (by simp)))

theorem execAll_asks (cfg : Cfg F) (cs : List Cmd) (hn : ∀ c ∈ cs, OnlyAsks c) (s : Core F) (l : Loc F) (hl : l.ctype ≠ .write) :
    (execAll cfg cs s l).only mrilAct (fun r => r.1 = s ∧ r.2.ctype ≠ .write) := by
  induction cs generalizing s l with
  | nil => exact ⟨rfl, hl⟩
  | cons c cs ih =>
    simp only [execAll, only_bind]
    refine only_mono (fun _ h => h) (fun r hr => ?_) (exec_asks cfg s l c (hn c (by simp)))
    have := ih (fun c hc => hn c (by simp [hc])) r.1 r.2 hr.2
    rw [hr.1] at this ⊢
    exact this

/-- **an instruction that names no place changes at most method and speed of the controller.** -/
theorem parse_noPlace (cfg : Cfg F) (c : Core F) {m : List Byte} (hm : NoPlace m) (hc : c.rc.inTransaction = false) :
    (Mril.parse cfg c m).only mrilAct (fun c' => c'.rc = { c.rc with method := c'.rc.method, maxVelocity := c'.rc.maxVelocity }) := by
  obtain ⟨cs, ok, hn, rfl⟩ := hm
  by_cases hne : cs = []
  · subst hne; rfl
  · rw [parse_text cfg cs ok hne, only_bind]
    refine only_mono (fun _ h => h) (fun r hr => ?_) (execAll_noPlace cfg cs hn _ _)
    have : r.1.rc.endTransaction = { c.rc with method := r.1.rc.endTransaction.method, maxVelocity := r.1.rc.endTransaction.maxVelocity } := by
      show ({ r.1.rc with inTransaction := false } : RC F) = _
      rw [hr]
      simp [RC.startTransaction, RC.endTransaction, hc]
    unfold Mril.finish
    simp only [send, bind_def, Prog.bind]
    split
    · exact ⟨trivial, this⟩
    · exact this
    · exact this

/-- the state of the controller, even during a transaction. -/
theorem parse_state (cfg : Cfg F) (c : Core F) {m : List Byte} (hm : NoPlace m) : (Mril.parse cfg c m).only mrilAct (fun c' => c'.rc.state = c.rc.state) := by
  obtain ⟨cs, ok, hn, rfl⟩ := hm
  by_cases hne : cs = []
  · subst hne; rfl
  · rw [parse_text cfg cs ok hne, only_bind]
    refine only_mono (fun _ h => h) (fun r hr => ?_) (execAll_noPlace cfg cs hn _ _)
    have : r.1.rc.endTransaction.state = c.rc.state := by
      show r.1.rc.state = _
      rw [hr]; rfl
    unfold Mril.finish
    simp only [send, bind_def, Prog.bind]
    split
    · exact ⟨trivial, this⟩
    · exact this
    · exact this

/-- **an aside leaves the controller alone.** -/
theorem parse_aside (cfg : Cfg F) (c : Core F) {m : List Byte} (hm : Aside m) (hc : c.rc.inTransaction = false) : (Mril.parse cfg c m).only mrilAct (fun c' => c'.rc = c.rc) := by
  obtain ⟨cs, ok, hn, rfl⟩ := hm
  by_cases hne : cs = []
  · subst hne; rfl
  · rw [parse_text cfg cs ok hne, only_bind]
    refine only_mono (fun _ h => h) (fun r hr => ?_) (execAll_aside cfg cs hn _ _)
    have : r.1.rc.endTransaction = c.rc := by
      rw [hr]
      cases h : c.rc
      rw [h] at hc
      simp only at hc
      subst hc
      rfl
    unfold Mril.finish
    simp only [send, bind_def, Prog.bind]
    split
    · exact ⟨trivial, this⟩
    · exact this
    · exact this

/-- **a question changes nothing at all.** -/
theorem parse_asks (cfg : Cfg F) (c : Core F) {m : List Byte} (hm : Asks m) (hc : c.rc.inTransaction = false) : (Mril.parse cfg c m).only mrilAct (fun c' => c' = c) := by
  obtain ⟨cs, ok, hn, rfl⟩ := hm
  by_cases hne : cs = []
  · subst hne; rfl
  · rw [parse_text cfg cs ok hne, only_bind]
    refine only_mono (fun _ h => h) (fun r hr => ?_) (execAll_asks cfg cs hn _ _ (by simp))
    have : { r.1 with rc := r.1.rc.endTransaction } = c := by
      rw [hr.1]
      obtain ⟨rc, _, _, _, _⟩ := c
      cases rc
      simp only at hc
      subst hc
      rfl
    unfold Mril.finish
    simp only [send, bind_def, Prog.bind]
    split
    · exact ⟨trivial, this⟩
    · rename_i h; exact absurd h hr.2
    · exact this

end Mrc.Asd

namespace Mrc
open Mrc.Spec
variable {F : Type} {ev : ℕ → Ev F}

theorem orders_of_directs {n : ℕ} (h : Directs ev n) : Orders ev n := by
  obtain ⟨s, m, e, hm⟩ := h
  exact ⟨s, m, e, fun ha => hm (Asd.aside_of_asks ha.2)⟩

theorem begins_of_orders {n : ℕ} (h : Orders ev n) : Begins ev n := by
  obtain ⟨s, m, e, -⟩ := h
  exact ⟨s, m, e⟩

/-- nothing begins except for questions, hence nothing that concerns the arm. -/
theorem undirected {a b : ℕ} (h : ∀ i, a < i → i < b → ¬ Orders ev i) : ∀ i, a < i → i < b → ¬ Directs ev i := fun i h1 h2 hd => h i h1 h2 (orders_of_directs hd)

theorem undirected_places {a b : ℕ} (h : ∀ i, a < i → i < b → ¬ Directs ev i) : ∀ i, a < i → i < b → ¬ Places ev i :=
  fun i h1 h2 ⟨s, m, e, hm⟩ => h i h1 h2 ⟨s, m, e, fun ha => hm (Asd.NoPlace.of_aside ha)⟩

theorem not_directsI {a : Act F} (h : ¬ OrdersI a) : ¬ DirectsI a := fun ⟨s, m, e, hm⟩ => h ⟨s, m, e, fun ha => hm (Asd.aside_of_asks ha.2)⟩

end Mrc
