import Verif.Proof.Rest
import Verif.Proof.ToldAny
import Verif.Props.Told
/- What a finished point to point move means for the servos at the moment of the report (C109). Any arithmetic. -/
set_option linter.unusedSectionVars false
set_option linter.unusedSimpArgs false
namespace Mrc.Rest
open Mrc Mrc.Spec Mrc.Prog Mrc.Props
open Mrc.Brisk (servo_step proj_stays next_act no_act last_next span_cons)

variable {F : Type} [FloatOps F] {cfg : Cfg F} {w0 : World F} {junk : Nat → Byte} {σ : ℕ → Sys F} {ev : ℕ → Ev F}

theorem tick_target (s : Servo F) (d : ℕ) : (s.tick d).target = s.target := by
  unfold Servo.tick
  simp only
  split
  · rfl
  · split <;> rfl

/-- where an access of a stretch is. -/
theorem span_at {a k : ℕ} {p1 p2 : List (Act F)} {x : Act F} (he : acts (span ev a k) = p1 ++ x :: p2) :
    ∃ r, a ≤ r ∧ r < a + k ∧ ev r = .act x ∧ acts (span ev (r + 1) (a + k - (r + 1))) = p2 := by
  induction p1 generalizing a k with
  | nil =>
    obtain ⟨n, h1, h2, h3, _, h5⟩ := next_act he
    exact ⟨n, h1, h2, h3, h5⟩
  | cons y p1 ih =>
    obtain ⟨n, h1, h2, h3, _, h5⟩ := next_act he
    obtain ⟨r, g1, g2, g3, g4⟩ := ih h5
    refine ⟨r, by omega, by omega, g3, ?_⟩
    rw [show n + 1 + (a + k - (n + 1)) = a + k by omega] at g4
    exact g4

theorem untouched_of {a k : ℕ} {i : Fin 8} (h : ∀ m, Act.micro i m ∉ acts (span ev a k)) : Untouched ev i a (a + k) :=
  fun j g1 g2 m e => h m (acts_mem.2 (mem_span.2 ⟨j, g1, g2, e⟩))

/-- the accesses between two moments. -/
theorem acts_between {k0 k : ℕ} (hk : k0 < k) {x y : Act F} (h0 : ev k0 = .act x) (h1 : ev k = .act y) :
    acts (sofar ev (k + 1)) = acts (sofar ev k0) ++ x :: acts (span ev (k0 + 1) (k - (k0 + 1))) ++ y :: [] := by
  have e : sofar ev (k + 1) = sofar ev k ++ [ev k] := by simp [sofar, List.range_succ]
  rw [e, acts_append, h1, sofar_span, span_split (c := k0) (Nat.zero_le _) (by omega) h0]
  simp [sofar_span, acts]

theorem acts_drop {k0 k : ℕ} (hk : k0 < k) : (sofar ev k).drop (k0 + 1) = span ev (k0 + 1) (k - (k0 + 1)) := by
  rw [sofar, span, ← List.map_drop]
  refine List.ext_getElem (by simp) fun n h1 h2 => ?_
  simp

/-- the servos when a move is over that was begun at rest: they have been sent where they were to go, or were near enough already. -/
theorem moved_now (h : Endless cfg w0 junk σ ev) {k0 k : ℕ} (hk : k0 < k) {x y : Act F} (h0 : ev k0 = .act x) (h1 : ev k = .act y)
    (hx : ∀ (i : Fin 6) m, x ≠ .micro (armServo i) m)
    (hst : ∀ (i : Fin 6) n, k0 ≤ n → Untouched ev (armServo i) k0 n → ((σ n).w.servos (armServo i)).atTarget = true) {L U A : Six F} (hf : Fits cfg.toRCfg L U A)
    (hm : Moved cfg.toRCfg L U A (acts (span ev (k0 + 1) (k - (k0 + 1))))) :
    (∀ i, ((σ k).w.servos (armServo i)).target = cfg.l2p A i) ∨
    ∃ v : Fin 6 → Servo F, (∀ i, .servo (armServo i) (v i) ∈ acts (sofar ev k) ∧ (v i).atTarget = true ∧ (v i).target = ((σ k).w.servos (armServo i)).target) ∧
      (RC.anglesEqual (cfg.p2l fun i => (v i).cur) A = true ∨ ∃ mt, feq (timeFor (cfg.l2p A) v mt) (lit 0) = true) := by
  have hend : k0 + 1 + (k - (k0 + 1)) = k := by omega
  -- a servo left alone since `r`
  have tgt : ∀ {i : Fin 6} {r : ℕ} {sv : Servo F}, r ≤ k → ev r = .act (.servo (armServo i) sv) → Untouched ev (armServo i) r k → ((σ k).w.servos (armServo i)).target = sv.target := by
    intro i r sv hr er hn
    have := h.read er
    subst this
    exact keep_stays (P := fun s => s.target = ((σ r).w.servos (armServo i)).target) h (fun s hs => by rw [tick_target]; exact hs) hr hn rfl
  have hmem : ∀ {z}, z ∈ acts (span ev (k0 + 1) (k - (k0 + 1))) → z ∈ acts (sofar ev k) := fun hz => by
    rw [sofar_span, span_split (c := k0) (Nat.zero_le _) (by omega) h0, Nat.zero_add]; simp [hz]
  -- an arm left alone since the instruction began
  have still : ∀ v : Fin 6 → Servo F, ArmStill (acts (span ev (k0 + 1) (k - (k0 + 1)))) → (∀ i, .servo (armServo i) (v i) ∈ acts (span ev (k0 + 1) (k - (k0 + 1)))) →
      ∀ i, .servo (armServo i) (v i) ∈ acts (sofar ev k) ∧ (v i).atTarget = true ∧ (v i).target = ((σ k).w.servos (armServo i)).target := by
    intro v hs hv i
    obtain ⟨r, r1, r2, r3⟩ := mem_span.1 (acts_mem.1 (hv i))
    have hun : Untouched ev (armServo i) k0 k := fun j g1 g2 m e => by
      rcases Nat.eq_or_lt_of_le g1 with rfl | g1
      · rw [h0] at e; injection e with e; exact hx i m e
      · exact hs i m (acts_mem.2 (mem_span.2 ⟨j, by omega, by omega, e⟩))
    refine ⟨hmem (hv i), ?_, (tgt (by omega) r3 fun j g1 g2 => hun j (by omega) g2).symm⟩
    have := h.read r3
    rw [this]
    exact hst i r (by omega) fun j g1 g2 => hun j g1 (by omega)
  cases hm with
  | refused h1 => exact absurd hf h1
  | there b g1 g2 g3 =>
    choose v hv hb using g1
    refine .inr ⟨v, still v g3 hv, .inl ?_⟩
    rw [← show b = fun i => (v i).cur from funext hb]; exact g2
  | noTime v mt g1 g2 g3 g4 => exact .inr ⟨v, still v g4 g2, .inr ⟨mt, g3⟩⟩
  | went g1 g2 g3 =>
    left
    intro i
    have e := acts_between hk h0 h1
    obtain ⟨p1, sv, p2, e1, e2, e3, _⟩ := Told.went_seen (h.run (k + 1)) (p0 := acts (sofar ev k0) ++ [x]) (rest := [y]) (mid := acts (span ev (k0 + 1) (k - (k0 + 1)))) (by rw [e]; simp) g2 g3 i
    obtain ⟨r, r1, r2, r3, r4⟩ := span_at e1
    have hun : Untouched ev (armServo i) r k := fun j k1 k2 m em => by
      rcases Nat.eq_or_lt_of_le k1 with rfl | k1
      · rw [r3] at em; cases em
      · refine e2 m ?_
        rw [← r4]
        exact acts_mem.2 (mem_span.2 ⟨j, by omega, by omega, em⟩)
    rw [tgt (by omega) r3 hun]
    exact e3

end Mrc.Rest
