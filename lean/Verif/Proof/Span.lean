import Verif.Proof.Endless
/- The accesses of a stretch of an endless run, and what becomes of a servo in it; any arithmetic. -/
set_option linter.unusedSectionVars false
namespace Mrc.Brisk
open Mrc Mrc.Spec Mrc.Prog

variable {F : Type} [FloatOps F] {cfg : Cfg F} {w0 : World F} {junk : Nat → Byte} {σ : ℕ → Sys F} {ev : ℕ → Ev F}

theorem span_cons (a k : ℕ) : span ev a (k + 1) = ev a :: span ev (a + 1) k := by
  simp only [span, List.range_succ_eq_map, List.map_cons, List.map_map, Nat.add_zero]
  congr 1
  apply List.map_congr_left
  intro j _
  simp only [Function.comp]
  congr 1; omega

/-- the next access. -/
theorem next_act {a k : ℕ} {x : Act F} {l : List (Act F)} (h : acts (span ev a k) = x :: l) :
    ∃ n, a ≤ n ∧ n < a + k ∧ ev n = .act x ∧ (∀ j, a ≤ j → j < n → ∀ y, ev j ≠ .act y) ∧ acts (span ev (n + 1) (a + k - (n + 1))) = l := by
  induction k generalizing a with
  | zero => simp [span, acts] at h
  | succ k ih =>
    rw [span_cons] at h
    have hskip : (∀ y, ev a ≠ .act y) → acts (span ev (a + 1) k) = x :: l →
        ∃ n, a ≤ n ∧ n < a + (k + 1) ∧ ev n = .act x ∧ (∀ j, a ≤ j → j < n → ∀ y, ev j ≠ .act y) ∧ acts (span ev (n + 1) (a + (k + 1) - (n + 1))) = l := fun hne h' => by
      obtain ⟨n, h1, h2, h3, h4, h5⟩ := ih h'
      refine ⟨n, by omega, by omega, h3, fun j hj hjn => ?_, by rw [show a + (k + 1) = a + 1 + k by omega]; exact h5⟩
      rcases Nat.eq_or_lt_of_le hj with rfl | hlt
      · exact hne
      · exact h4 j hlt hjn
    cases he : ev a with
    | act y =>
      rw [he] at h
      simp only [acts, List.filterMap_cons] at h
      injection h with h1 h2
      subst h1
      refine ⟨a, le_refl _, by omega, he, fun j hj hjn => by omega, ?_⟩
      rw [show a + (k + 1) - (a + 1) = k by omega]
      exact h2
    | _ =>
      rw [he] at h
      exact hskip (fun y e => by rw [he] at e; cases e) h

theorem no_act {a k : ℕ} (h : acts (span ev a k) = []) : ∀ j, a ≤ j → j < a + k → ∀ y, ev j ≠ .act y := by
  intro j h1 h2 y e
  have : y ∈ acts (span ev a k) := acts_mem.2 (mem_span.2 ⟨j, h1, h2, e⟩)
  rw [h] at this; cases this

/-- the last beginning of a pass before `n`. -/
theorem last_next (ev : ℕ → Ev F) (n : ℕ) : (∃ a, a < n ∧ ev a = .next ∧ ∀ j, a < j → j < n → ev j ≠ .next) ∨ ∀ j, j < n → ev j ≠ .next := by
  induction n with
  | zero => exact .inr fun j hj => by omega
  | succ n ih =>
    by_cases hn : ev n = .next
    · exact .inl ⟨n, by omega, hn, fun j h1 h2 => by omega⟩
    · rcases ih with ⟨a, h1, h2, h3⟩ | h1
      · refine .inl ⟨a, by omega, h2, fun j g1 g2 => ?_⟩
        rcases Nat.lt_or_ge j n with g | g
        · exact h3 j g1 g
        · rw [show j = n by omega]; exact hn
      · refine .inr fun j g => ?_
        rcases Nat.lt_or_ge j n with g' | g'
        · exact h1 j g'
        · rw [show j = n by omega]; exact hn

section
variable (h : Endless cfg w0 junk σ ev)
include h

/-- what concerns servo `i` in event `n`. -/
theorem servo_step (n : ℕ) (i : Fin 8) : (σ (n + 1)).w.servos i = evServo i ((σ n).w.servos i) (ev n) := do_servos (h.step n) i

/-- a projection of servo `i` that the interrupt keeps stays as long as no store changes it. -/
theorem proj_stays {X : Type} (f : Servo F → X) {a b : ℕ} {i : Fin 8} (hab : a ≤ b)
    (hs : ∀ j, a ≤ j → j < b → f (evServo i ((σ j).w.servos i) (ev j)) = f ((σ j).w.servos i)) : f ((σ b).w.servos i) = f ((σ a).w.servos i) := by
  induction b, hab using Nat.le_induction with
  | base => rfl
  | succ b hb ih =>
    rw [servo_step h, hs b hb (by omega)]
    exact ih fun j h1 h2 => hs j h1 (by omega)

end

end Mrc.Brisk
