import Verif.Proof.Rest
/- The servo interrupt finds the servos in order if it never falls into a command (C119, C120). Any arithmetic. -/
set_option linter.unusedSectionVars false
set_option linter.unusedSimpArgs false
namespace Mrc.Rest
open Mrc Mrc.Spec Mrc.Prog Mrc.Props
open Mrc.Brisk (servo_step proj_stays next_act no_act last_next span_cons)

variable {F : Type} [FloatOps F] {cfg : Cfg F} {w0 : World F} {junk : Nat → Byte} {σ : ℕ → Sys F} {ev : ℕ → Ev F}

section
variable (h : Endless cfg w0 junk σ ev) {P : Servo F → Prop} (ht : ∀ s, P s → P (s.tick 20)) {Q : Servo F → Servo F → F → F → Prop}
  (hcmd : ∀ i x y v t n1 n2 n3 n4 n5 n6, Q x y v t → CommandAt ev i x y v t n1 n2 n3 n4 n5 n6 → P ((σ (n6 + 1)).w.servos (armServo i)))
include h ht hcmd

/-- in a sequence of commands: at an interrupt. -/
theorem isr_blocks (hu : Unbroken ev) {l : List (Act F)} (hl : Blk Q l) {a k : ℕ} (he : acts (span ev a k) = l) (hx : ∀ j, a ≤ j → j < a + k → ev j ≠ .next) (i : Fin 6)
    (hf : P ((σ a).w.servos (armServo i))) {c : ℕ} (ha : a ≤ c) (hc : c < a + k) (hi : ev c = .isr) : P ((σ c).w.servos (armServo i)) := by
  induction hl generalizing a k with
  | nil => exact keep_stays h ht ha (fun j h1 h2 m => no_act he j h1 (by omega) _) hf
  | @plain x l hp _ ih =>
    obtain ⟨n, h1, h2, h3, h4, h5⟩ := next_act he
    have hno : ∀ c, c ≤ n + 1 → Untouched ev (armServo i) a c := fun c hc j g1 g2 m => by
      rcases Nat.lt_or_ge j n with g | g
      · exact h4 j g1 g _
      · rw [show j = n by omega, h3]; intro e; injection e with e; exact hp i m e
    rcases Nat.lt_or_ge n c with g | g
    · exact ih h5 (fun j g1 g2 => hx j (by omega) (by omega)) (keep_stays h ht (by omega) (hno _ (le_refl _)) hf) (by omega) (by omega)
    · exact keep_stays h ht ha (hno c (by omega)) hf
  | @command i' x y v t l hg _ ih =>
    obtain ⟨n1, a1, b1, e1, q1, r1⟩ := next_act he
    obtain ⟨n2, a2, b2, e2, q2, r2⟩ := next_act r1
    obtain ⟨n3, a3, b3, e3, q3, r3⟩ := next_act r2
    obtain ⟨n4, a4, b4, e4, q4, r4⟩ := next_act r3
    obtain ⟨n5, a5, b5, e5, q5, r5⟩ := next_act r4
    obtain ⟨n6, a6, b6, e6, q6, r6⟩ := next_act r5
    have hcm : CommandAt ev i' x y v t n1 n2 n3 n4 n5 n6 := ⟨by omega, by omega, by omega, by omega, by omega, e1, e2, e3, e4, e5, e6, q2, q3, q4, q5, q6, fun j g1 g2 => hx j (by omega) (by omega)⟩
    have hq := hcm.quiet hu
    -- before the command nothing is stored
    have hbef : Untouched ev (armServo i) a (n1 + 1) := fun j g1 g2 m hm => by
      rcases Nat.lt_or_ge j n1 with g | g
      · exact q1 j g1 g _ hm
      · rw [show j = n1 by omega, e1] at hm; cases hm
    rcases Nat.lt_or_ge n6 c with g | g
    · refine ih r6 (fun j g1 g2 => hx j (by omega) (by omega)) ?_ (by omega) (by omega)
      by_cases hii : i = i'
      · subst hii; exact hcmd i x y v t n1 n2 n3 n4 n5 n6 hg hcm
      · refine keep_stays h ht (by omega) (fun j g1 g2 m hm => ?_) hf
        have hne : armServo i ≠ armServo i' := fun e => hii (armServo_inj e)
        rcases Nat.lt_or_ge j (n1 + 1) with g' | g'
        · exact hbef j g1 g' m hm
        rcases Nat.lt_or_ge j n6 with g'' | g''
        · rcases hcm.all (by omega) g'' hm with e | e | e | e <;> subst e
          · rw [e2] at hm; injection hm with hm; injection hm with hm; exact hne hm.symm
          · rw [e3] at hm; cases hm
          · rw [e4] at hm; injection hm with hm; injection hm with hm; exact hne hm.symm
          · rw [e5] at hm; injection hm with hm; injection hm with hm; exact hne hm.symm
        · rw [show j = n6 by omega, e6] at hm; injection hm with hm; injection hm with hm; exact hne hm.symm
    · rcases Nat.lt_or_ge n1 c with g' | g'
      · rcases Nat.eq_or_lt_of_le g with rfl | g
        · rw [e6] at hi; cases hi
        · exact absurd hi (hq c g' g)
      · exact keep_stays h ht ha (fun j g1 g2 => hbef j g1 (by omega)) hf

variable (hpass : ∀ a b s', ev a = .next → a < b → Between σ b s' → (∀ j, a < j → j < b → ev j ≠ .next) → Blk Q (acts (span ev (a + 1) (b - (a + 1)))))
  (h0 : ∀ i : Fin 6, P (w0.servos (armServo i)))
include hpass h0

/-- **at every interrupt the servos are in order.** -/
theorem isr_order (hu : Unbroken ev) {c : ℕ} (hi : ev c = .isr) (i : Fin 6) : P ((σ c).w.servos (armServo i)) := by
  obtain ⟨e, s, h1, h2, h3⟩ := pass_end h c
  rcases Nat.eq_or_lt_of_le h1 with rfl | h1
  · exact keep_between h ht hcmd hpass h0 c s h2 i
  rcases last_next ev c with ⟨a, g1, g2, g3⟩ | g1
  · obtain ⟨s0, hb, hp, hw⟩ := h.atNext g2
    have hfa := keep_between h ht hcmd hpass h0 a s0 hb i
    have hall : ∀ j, a < j → j < e → ev j ≠ .next := fun j k1 k2 => by
      rcases Nat.lt_or_ge j c with g | g
      · exact g3 j k1 g
      · exact h3 j g k2
    exact isr_blocks h ht hcmd hu (hpass a e s g2 (by omega) h2 hall) rfl (fun j k1 k2 => hall j (by omega) (by omega)) i (by rw [hw]; exact hfa) (c := c) (by omega) (by omega) hi
  · refine keep_stays h ht (Nat.zero_le c) (boot_untouched h ht hcmd hpass h0 g1 _) ?_
    rw [h.boot]; exact h0 i

end

end Mrc.Rest
