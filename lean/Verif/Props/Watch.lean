import Verif.Spec.Watch
import Verif.Props.Dialogue
import Verif.Props.TalkKit
import Verif.Props.PromptDemo
/-
C134: a host that works off a program and watches it. What follows from the rules of C133.
-/
set_option maxRecDepth 100000
set_option linter.unusedSectionVars false
namespace Mrc.Props
open Mrc Mrc.Prog Mrc.Spec Mrc.Rest

def later (ts : List Turn) : List (List Cmd) := ts.filterMap fun | .begun false cs => some cs | _ => none
def atOnce (ts : List Turn) : List (List Cmd) := ts.filterMap fun | .begun true cs => some cs | _ => none
def saids (ts : List Turn) : List Word := ts.filterMap fun | .said w => some w | _ => none

theorem later_heard (ts : List Turn) : begunLater (ts.map Turn.heard) = (later ts).map text := by
  induction ts with
  | nil => rfl
  | cons t ts ih =>
    rw [begunLater, later] at *
    match t with
    | .begun true cs | .said w => simpa [Turn.heard] using ih
    | .begun false cs => simpa [Turn.heard] using ih

theorem atOnce_heard (ts : List Turn) : begunNow (ts.map Turn.heard) = (atOnce ts).map text := by
  induction ts with
  | nil => rfl
  | cons t ts ih =>
    rw [begunNow, atOnce] at *
    match t with
    | .begun false cs | .said w => simpa [Turn.heard] using ih
    | .begun true cs => simpa [Turn.heard] using ih

theorem saids_heard (ts : List Turn) : saidBy (ts.map Turn.heard) = saids ts := by
  induction ts with
  | nil => rfl
  | cons t ts ih =>
    rw [saidBy, saids] at *
    match t with
    | .begun _ cs | .said w => simpa [Turn.heard] using ih

/-- the step of the last turn. -/
theorem dialogue_last {ts : List Turn} {t : Turn} {d : Dialogue} (h : dialogue (ts ++ [t]) = some d) : ∃ d0, dialogue ts = some d0 ∧ d0.step t = some d := by
  rw [Dlg.dialogue_snoc] at h
  cases hd : dialogue ts with
  | none => rw [hd] at h; cases h
  | some d0 => rw [hd] at h; exact ⟨d0, rfl, h⟩

theorem step_begun {d0 d : Dialogue} {nw : Bool} {cs : List Cmd} (h : d0.step (.begun nw cs) = some d) : d0.left = [] ∧ (nw = true ∨ d0.due ≤ 0) ∧
    d.left = begins cs ++ (if poses cs then [.answer (numberOf? cs) (Spec.asked d0.method cs)] else []) ∧ d.due = if demands cs then numberOf cs else d0.due := by
  simp only [Dialogue.step] at h
  split at h
  · rename_i e; cases h; exact ⟨e.1, e.2, rfl, rfl⟩
  · cases h

theorem step_said {d0 d : Dialogue} {w : Word} (h : d0.step (.said w) = some d) : (∃ rest, d0.left = w :: rest ∧ d.left = rest ∧ d.due = d0.due) ∨
    (d0.left = [] ∧ w = .finished d0.due ∧ 0 < d0.due ∧ d.left = [] ∧ d.due = -1) := by
  simp only [Dialogue.step] at h
  split at h
  · rename_i x rest e
    split at h
    · rename_i e2; cases h; subst e2; exact .inl ⟨rest, e, rfl, rfl⟩
    · cases h
  · rename_i e
    split at h
    · rename_i e2; cases h; exact .inr ⟨e, e2.1, e2.2, e, rfl⟩
    · cases h

/-- if nothing but questions is given at once, every number is reported as often as orders with it were begun, except for the one due. -/
theorem reports_exact {ts : List Turn} {d : Dialogue} (h : dialogue ts = some d) (hq : ∀ cs ∈ atOnce ts, demands cs = false) (n : Int) (hn : 0 < n) :
    (saids ts).count (.finished n) + (if d.due = n then 1 else 0) = (later ts).countP (fun cs => demands cs && numberOf cs == n) := by
  induction ts using List.reverseRecOn generalizing d with
  | nil =>
    cases h
    rw [if_neg (show (0 : Int) ≠ n by omega)]; rfl
  | append_singleton ts t ih =>
    obtain ⟨d0, h0, h1⟩ := dialogue_last h
    have i := ih h0 fun cs hcs => hq cs (by rw [atOnce, List.filterMap_append] at *; exact List.mem_append_left _ hcs)
    have hk := left_kind h0
    rw [saids, later, List.filterMap_append, List.filterMap_append, List.count_append, List.countP_append]
    rw [saids, later] at i
    match t with
    | .begun true cs =>
      obtain ⟨-, -, -, e⟩ := step_begun h1
      rw [hq cs (by simp [atOnce])] at e
      simp only [Bool.false_eq_true, if_false] at e
      rw [e]
      simpa using i
    | .begun false cs =>
      obtain ⟨-, e0, -, e⟩ := step_begun h1
      have e0 : d0.due ≤ 0 := by simpa using e0
      rw [if_neg (show d0.due ≠ n by omega)] at i
      rw [e, ← i]
      rcases Bool.eq_false_or_eq_true (demands cs) with hd | hd
      · simp [hd]
      · simp [hd, List.countP_cons]; omega
    | .said w =>
      rcases step_said h1 with ⟨rest, e1, e2, e3⟩ | ⟨e1, rfl, e2, e3, e4⟩
      · have : w ≠ .finished n := hk w (by rw [e1]; exact List.mem_cons_self) n
        rw [e3, ← i]
        simp [this]
      · rw [e4, if_neg (show (-1 : Int) ≠ n by omega), ← i]
        by_cases e : d0.due = n
        · simp [e]
        · simp [e]

/-- questions are answered with their number, each once. -/
theorem answers_exact {ts : List Turn} {d : Dialogue} (h : dialogue ts = some d) (num : Option Int) :
    (saids ts).countP (answersTo num) + d.left.countP (answersTo num) = (later ts ++ atOnce ts).countP (fun cs => poses cs && numberOf? cs == num) := by
  induction ts using List.reverseRecOn generalizing d with
  | nil => cases h; rfl
  | append_singleton ts t ih =>
    obtain ⟨d0, h0, h1⟩ := dialogue_last h
    have i := ih h0
    rw [List.countP_append] at i ⊢
    rw [saids, later, atOnce, List.filterMap_append, List.filterMap_append, List.filterMap_append, List.countP_append, List.countP_append, List.countP_append]
    rw [saids, later, atOnce] at i
    match t with
    | .begun nw cs =>
      obtain ⟨e0, -, e, -⟩ := step_begun h1
      rw [e0] at i
      have hb : (begins cs).countP (answersTo num) = 0 := by
        rw [List.countP_eq_zero]
        intro w hw
        obtain ⟨m, rfl⟩ := begins_kind cs w hw
        simp [answersTo]
      have hl : d.left.countP (answersTo num) = if poses cs && numberOf? cs == num then 1 else 0 := by
        rw [e, List.countP_append, hb]
        rcases Bool.eq_false_or_eq_true (poses cs) with hp | hp
        · simp [hp, answersTo]
        · simp [hp]
      rw [hl]
      cases nw
      · simp only [List.countP_nil, List.filterMap_cons, List.filterMap_nil, List.countP_cons] at i ⊢
        omega
      · simp only [List.countP_nil, List.filterMap_cons, List.filterMap_nil, List.countP_cons] at i ⊢
        omega
    | .said w =>
      rcases step_said h1 with ⟨rest, e1, e2, e3⟩ | ⟨e1, rfl, e2, e3, e4⟩
      · rw [e1, List.countP_cons] at i
        rw [e2]
        simp only [List.filterMap_cons, List.filterMap_nil, List.countP_cons, List.countP_nil] at i ⊢
        omega
      · rw [e1] at i
        rw [e3]
        simp only [List.filterMap_cons, List.filterMap_nil, List.countP_cons, List.countP_nil, answersTo, Bool.false_eq_true, if_false] at i ⊢
        omega

/-- N0 is said once for every N. -/
theorem begins_exact {ts : List Turn} {d : Dialogue} (h : dialogue ts = some d) (n : Int) :
    (saids ts).count (.begun n) + d.left.count (.begun n) = ((later ts ++ atOnce ts).flatMap begins).count (.begun n) := by
  induction ts using List.reverseRecOn generalizing d with
  | nil => cases h; rfl
  | append_singleton ts t ih =>
    obtain ⟨d0, h0, h1⟩ := dialogue_last h
    have i := ih h0
    rw [List.flatMap_append, List.count_append] at i ⊢
    rw [saids, later, atOnce, List.filterMap_append, List.filterMap_append, List.filterMap_append, List.flatMap_append, List.flatMap_append, List.count_append, List.count_append, List.count_append]
    rw [saids, later, atOnce] at i
    match t with
    | .begun nw cs =>
      obtain ⟨e0, -, e, -⟩ := step_begun h1
      rw [e0] at i
      have hl : d.left.count (.begun n) = (begins cs).count (.begun n) := by
        rw [e, List.count_append]
        rcases Bool.eq_false_or_eq_true (poses cs) with hp | hp
        · simp [hp]
        · simp [hp]
      rw [hl]
      cases nw
      · simp only [List.filterMap_cons, List.filterMap_nil, List.flatMap_cons, List.flatMap_nil, List.append_nil, List.count_nil] at i ⊢
        omega
      · simp only [List.filterMap_cons, List.filterMap_nil, List.flatMap_cons, List.flatMap_nil, List.append_nil, List.count_nil] at i ⊢
        omega
    | .said w =>
      rcases step_said h1 with ⟨rest, e1, e2, e3⟩ | ⟨e1, rfl, e2, e3, e4⟩
      · rw [e1, List.count_cons] at i
        rw [e2]
        simp only [List.filterMap_cons, List.filterMap_nil, List.count_cons, List.count_nil, List.flatMap_nil] at i ⊢
        omega
      · rw [e1] at i
        rw [e3]
        have : (List.count (Word.begun n) [.finished d0.due]) = 0 := by simp
        simp only [List.filterMap_cons, List.filterMap_nil, List.count_nil, List.flatMap_nil, this] at i ⊢
        omega

/-- what is due after the last order. -/
theorem due_after {ts1 ts2 : List Turn} {d0 d : Dialogue} (h1 : dialogue ts1 = some d0) (h2 : dialogue (ts1 ++ ts2) = some d) (hl : later ts2 = []) (hq : ∀ cs ∈ atOnce ts2, demands cs = false) :
    (d.due = d0.due ∨ d.due = -1) ∧ ∀ n, .finished n ∈ saids ts2 → d.due = -1 := by
  induction ts2 using List.reverseRecOn generalizing d with
  | nil => rw [List.append_nil, h1] at h2; cases h2; exact ⟨.inl rfl, fun n hn => by cases hn⟩
  | append_singleton ts t ih =>
    rw [← List.append_assoc] at h2
    obtain ⟨d1, g1, g2⟩ := dialogue_last h2
    have i := ih g1 (by rw [later, List.filterMap_append, List.append_eq_nil_iff] at hl; exact hl.1) fun cs hcs => hq cs (by rw [atOnce, List.filterMap_append] at *; exact List.mem_append_left _ hcs)
    have hk := left_kind g1
    match t with
    | .begun false cs => rw [later, List.filterMap_append, List.append_eq_nil_iff] at hl; exact absurd hl.2 (by simp)
    | .begun true cs =>
      obtain ⟨-, -, -, e⟩ := step_begun g2
      rw [hq cs (by simp [atOnce])] at e
      simp only [Bool.false_eq_true, if_false] at e
      rw [e]
      refine ⟨i.1, fun n hn => i.2 n ?_⟩
      simpa [saids] using hn
    | .said w =>
      rcases step_said g2 with ⟨rest, e1, e2, e3⟩ | ⟨e1, rfl, e2, e3, e4⟩
      · rw [e3]
        refine ⟨i.1, fun n hn => i.2 n ?_⟩
        have : w ≠ .finished n := hk w (by rw [e1]; exact List.mem_cons_self) n
        rw [saids, List.filterMap_append, List.mem_append] at hn
        rcases hn with hn | hn
        · exact hn
        · simp at hn; exact absurd hn.symm this
      · exact ⟨.inr e4, fun _ _ => e4⟩

end Mrc.Props
