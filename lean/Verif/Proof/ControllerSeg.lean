import Verif.Proof.Controller
/- Outcomes of one segment of a move, in the vocabulary of Spec/Controller. -/
set_option linter.unusedSectionVars false
namespace Mrc.RC
open Mrc Mrc.Prog Mrc.Spec
variable {F : Type} [FloatOps F]

/-! ### traces -/

theorem still_nil : Still ([] : List (Act F)) := fun _ _ h => by cases h
theorem still_append {a b : List (Act F)} (ha : Still a) (hb : Still b) : Still (a ++ b) := by
  intro j m h; rcases List.mem_append.1 h with h | h
  · exact ha j m h
  · exact hb j m h
theorem still_reads {l : List (Act F)} (h : Reads l) : Still l := by
  intro j m hm; obtain ⟨i, s, e⟩ := h _ hm; cases e
theorem reads_readT (v : Fin 6 → Servo F) (is : List (Fin 6)) : Reads (readT v is) := by
  intro a ha; obtain ⟨i, _, e⟩ := List.mem_map.1 ha; exact ⟨i, v i, e.symm⟩
theorem still_readAll (v : Fin 6 → Servo F) : Still (readAll v) := still_reads (reads_readT v _)
theorem still_raw {l : List (Act F)} (h : ∀ a ∈ l, ∃ t, a = .out (.raw t)) : Still l := by
  intro j m hm; obtain ⟨t, e⟩ := h _ hm; cases e

theorem still_out1 (o : Out F) : Still [Act.out o] := by intro j m hm; simp at hm

theorem targets_append (a b : List (Act F)) : targets (a ++ b) = targets a ++ targets b := by simp [targets]
theorem targets_still {l : List (Act F)} (h : Still l) : targets l = [] := by
  simp only [targets, List.filterMap_eq_nil_iff]
  intro a ha
  match a, ha with
  | .micro j m, ha => exact absurd ha (h j m)
  | .servo _ _, _ | .now _, _ | .pin _ _, _ | .rx _, _ | .eeRead _, _ | .eeWrite _ _, _ | .out _, _ => rfl
theorem targets_apply (t : Six F) (time : F) (x y : Fin 6 → Servo F) (is : List (Fin 6)) :
    targets (applyT t time x y is) = is.map fun i => (armServo i, t i) := by
  induction is with
  | nil => rfl
  | cons i is ih =>
    simp only [applyT, List.flatMap_cons] at ih ⊢
    rw [targets_append, ih]
    rfl

theorem reading_readAll (v : Fin 6 → Servo F) {tr : List (Act F)} (h : ∀ a ∈ readAll v, a ∈ tr) : Reading tr (curs v) := by
  intro i
  exact ⟨v i, h _ (List.mem_map.2 ⟨i, List.mem_finRange i, rfl⟩), rfl⟩

/-- what a segment can do. -/
theorem cmd_cases {cfg : RCfg F} {L U : Six F} {r r' : RC F} {t : Six F} {mt : F} {tr : List (Act F)} (h : Cmd cfg L U r t mt tr r') :
    (¬ Fits cfg L U t ∧ GaveUp cfg tr r') ∨ (Fits cfg L U t ∧ r'.state = .moving ∧ (Still tr ∨ Commanded (cfg.l2p t) tr)) := by
  cases h with
  | refused l v u hf hl =>
    refine .inl ⟨hf, still_append (still_append (still_reads hl) (still_readAll v)) (still_readAll u), rfl, curs v, curs u, ?_, ?_, rfl, rfl⟩
    · exact reading_readAll v fun a ha => List.mem_append_left _ (List.mem_append_right _ ha)
    · exact reading_readAll u fun a ha => List.mem_append_right _ ha
  | zero v m hf _ => exact .inr ⟨hf, rfl, .inl (still_append (still_readAll v) (still_readAll m))⟩
  | moved v m x y hf _ =>
    refine .inr ⟨hf, rfl, .inr ?_⟩
    unfold Commanded
    rw [targets_append, targets_append, targets_still (still_readAll v), targets_still (still_readAll m), targets_apply]; rfl

theorem _root_.Mrc.Spec.GaveUp.prepend {cfg : RCfg F} {l tr : List (Act F)} {r' : RC F} (hl : Still l) (h : GaveUp cfg tr r') : GaveUp cfg (l ++ tr) r' := by
  obtain ⟨h1, h2, a, b, ha, hb, h3, h4⟩ := h
  refine ⟨still_append hl h1, h2, a, b, fun i => ?_, fun i => ?_, h3, h4⟩
  · obtain ⟨s, hs, e⟩ := ha i; exact ⟨s, List.mem_append_right _ hs, e⟩
  · obtain ⟨s, hs, e⟩ := hb i; exact ⟨s, List.mem_append_right _ hs, e⟩
theorem _root_.Mrc.Spec.Commanded.prepend {p : Six F} {l tr : List (Act F)} (hl : Still l) (h : Commanded p tr) : Commanded p (l ++ tr) := by
  unfold Commanded at *; rw [targets_append, targets_still hl, List.nil_append, h]

/-- a segment gives up, or its angles fit and it commands them (or has nothing to do). -/
def SegOutcome (cfg : RCfg F) (L U : Six F) (tr : List (Act F)) (r' : RC F) : Prop :=
  GaveUp cfg tr r' ∨ ∃ t, Fits cfg L U t ∧ r'.state = .moving ∧ (Still tr ∨ Commanded (cfg.l2p t) tr)

theorem SegOutcome.prepend {cfg : RCfg F} {L U : Six F} {l tr : List (Act F)} {r' : RC F} (hl : Still l) (h : SegOutcome cfg L U tr r') :
    SegOutcome cfg L U (l ++ tr) r' := by
  rcases h with h | ⟨t, h1, h2, h3⟩
  · exact .inl (h.prepend hl)
  · refine .inr ⟨t, h1, h2, ?_⟩
    rcases h3 with h3 | h3
    · exact .inl (still_append hl h3)
    · exact .inr (h3.prepend hl)

theorem cmd_seg {cfg : RCfg F} {L U : Six F} {r r' : RC F} {t : Six F} {mt : F} {tr : List (Act F)} (h : Cmd cfg L U r t mt tr r') :
    SegOutcome cfg L U tr r' := by
  rcases cmd_cases h with h | h
  · exact .inl h.2
  · exact .inr ⟨t, h⟩

theorem start_seg {cfg : RCfg F} {L U : Six F} {r r' : RC F} {tr : List (Act F)} (h : Start cfg L U r tr r') : SegOutcome cfg L U tr r' := by
  cases h with
  | p2p _ hc =>
    refine SegOutcome.prepend (l := [_]) ?_ (cmd_seg hc)
    intro j m hm; simp at hm
  | unreachable v u _ _ =>
    refine .inl ⟨still_append (still_readAll v) (still_readAll u), rfl, curs v, curs u, ?_, ?_, rfl, rfl⟩
    · exact reading_readAll v fun a ha => List.mem_append_left _ ha
    · exact reading_readAll u fun a ha => List.mem_append_right _ ha
  | linear _ _ _ hc => exact cmd_seg hc
  | singular _ _ _ hc =>
    refine SegOutcome.prepend (l := [_, _]) ?_ (cmd_seg hc)
    intro j m hm; simp at hm

theorem waypoint_eq (r : RC F) : r.waypoint = linePoint r.startPose r.targetPose r.step r.total := by
  funext i; match i with | 0 | 1 | 2 | 3 | 4 | 5 => rfl

end Mrc.RC
