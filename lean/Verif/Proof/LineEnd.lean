import Verif.Proof.RestTold
import Verif.Props.LineKit
/- Where the servos are when a straight move is over (C114). Any arithmetic. -/
set_option linter.unusedSectionVars false
set_option linter.unusedSimpArgs false
namespace Mrc.Rest
open Mrc Mrc.Spec Mrc.Prog Mrc.Props Mrc.Told

variable {F : Type} [FloatOps F] {cfg : Cfg F} {w0 : World F} {junk : Nat → Byte} {σ : ℕ → Sys F} {ev : ℕ → Ev F}

/-- the last way point passed. -/
theorem line_last {c : RCfg F} {L U S P : Six F} {n k : ℕ} {o : Option (Six F)} {mid : List (Act F)} (h : Line c L U S P n k o mid) (hk : 0 < k) :
    ∃ m tr x t, mid = m ++ (tr ++ x) ∧ o = some t ∧ Spec.Arrived m ∧ WayPoint c S P n k tr t ∧ Fits c L U t ∧ ArmStill x ∧
      (armTargets tr = six6 (c.l2p t) ∨ ArmStill tr ∧ ∃ (v : Fin 6 → Servo F) (mt : F), (∀ i, .servo (armServo i) (v i) ∈ tr) ∧ feq (timeFor (c.l2p t) v mt) (lit 0) = true) := by
  induction h with
  | begin => omega
  | @next k o t mid tr h1 h2 h3 h4 h5 => exact ⟨mid, tr, [], t, by simp, rfl, h2, h3, h4, armStill_nil, h5⟩
  | @wait k o mid tr h1 h2 ih =>
    obtain ⟨m, tr', x, t, rfl, e2, e3, e4, e5, e6, e7⟩ := ih hk
    exact ⟨m, tr', x ++ tr, t, by simp, e2, e3, e4, e5, armStill_append.2 ⟨e6, h2⟩, e7⟩

theorem line_zero {c : RCfg F} {L U S P : Six F} {n : ℕ} {o : Option (Six F)} {mid : List (Act F)} (h : Line c L U S P n 0 o mid) : ArmStill mid := by
  generalize hk : 0 = k at h
  induction h with
  | begin h => exact h
  | next => omega
  | wait _ h ih => exact armStill_append.2 ⟨ih hk, h⟩

/-- the servos when a straight move is over that was begun at rest: they have been sent to the last way point, or were there already. -/
theorem line_now (h : Endless cfg w0 junk σ ev) {k0 k : ℕ} (hk : k0 < k) {x y : Act F} (h0 : ev k0 = .act x) (h1 : ev k = .act y)
    (hx : ∀ (i : Fin 6) m, x ≠ .micro (armServo i) m)
    (hst : ∀ (i : Fin 6) n, k0 ≤ n → Untouched ev (armServo i) k0 n → ((σ n).w.servos (armServo i)).atTarget = true)
    (hsee : ∀ (i : Fin 6) r n, r ≤ n → n ≤ k → Untouched ev (armServo i) r k → ((σ r).w.servos (armServo i)).atTarget = true → ((σ n).w.servos (armServo i)).atTarget = true)
    {L U S P : Six F} {n j : ℕ} {o : Option (Six F)} (hj : 0 < j) (hl : Line cfg.toRCfg L U S P n j o (acts (span ev (k0 + 1) (k - (k0 + 1)))))
    (ha : Spec.Arrived (acts (span ev (k0 + 1) (k - (k0 + 1))))) :
    ∃ tr t, (∀ z ∈ tr, z ∈ acts (sofar ev k)) ∧ WayPoint cfg.toRCfg S P n j tr t ∧ Fits cfg.toRCfg L U t ∧ ((∀ i, ((σ k).w.servos (armServo i)).target = cfg.l2p t i) ∨
    ∃ v : Fin 6 → Servo F, (∀ i, .servo (armServo i) (v i) ∈ acts (sofar ev k) ∧ (v i).atTarget = true ∧ (v i).target = ((σ k).w.servos (armServo i)).target) ∧
      ∃ mt, feq (timeFor (cfg.l2p t) v mt) (lit 0) = true) := by
  have hend : k0 + 1 + (k - (k0 + 1)) = k := by omega
  have tgt : ∀ {i : Fin 6} {r : ℕ} {sv : Servo F}, r ≤ k → ev r = .act (.servo (armServo i) sv) → Untouched ev (armServo i) r k → ((σ k).w.servos (armServo i)).target = sv.target := by
    intro i r sv hr er hn
    have := h.read er
    subst this
    exact keep_stays (P := fun s => s.target = ((σ r).w.servos (armServo i)).target) h (fun s hs => by rw [tick_target]; exact hs) hr hn rfl
  have hmem : ∀ {z}, z ∈ acts (span ev (k0 + 1) (k - (k0 + 1))) → z ∈ acts (sofar ev k) := fun hz => by
    rw [sofar_span, span_split (c := k0) (Nat.zero_le _) (by omega) h0, Nat.zero_add]; simp [hz]
  -- a reading after which the servo is left alone
  have at_ : ∀ {i : Fin 6} {sv : Servo F} {p1 p2 : List (Act F)} {a b : ℕ}, acts (span ev a b) = p1 ++ .servo (armServo i) sv :: p2 → a + b = k → (∀ m, .micro (armServo i) m ∉ p2) →
      ∃ r, a ≤ r ∧ r < k ∧ ev r = .act (.servo (armServo i) sv) ∧ Untouched ev (armServo i) r k ∧ acts (span ev (r + 1) (k - (r + 1))) = p2 := by
    intro i sv p1 p2 a b e hab hn
    obtain ⟨r, r1, r2, r3, r4⟩ := span_at e
    rw [hab] at r2 r4
    refine ⟨r, r1, r2, r3, fun j k1 k2 m em => ?_, r4⟩
    rcases Nat.eq_or_lt_of_le k1 with rfl | k1
    · rw [r3] at em; cases em
    · refine hn m ?_
      rw [← r4]
      exact acts_mem.2 (mem_span.2 ⟨j, by omega, by omega, em⟩)
  obtain ⟨m, tr, x', t, e, _, g1, g2, g3, g4, g5⟩ := line_last hl hj
  refine ⟨tr, t, fun z hz => hmem (by rw [e]; simp [hz]), g2, g3, ?_⟩
  rcases g5 with g5 | ⟨g5, v, mt, g6, g7⟩
  · left
    intro i
    have e' := acts_between hk h0 h1
    rw [e] at e' ha
    obtain ⟨p1, sv, p2, e1, e2, e3, _⟩ := Told.went_seen (h.run (k + 1)) (p0 := acts (sofar ev k0) ++ x :: m) (rest := [y]) (mid := tr ++ x') (by rw [e']; simp)
      (show armTargets (tr ++ x') = _ by rw [armTargets_append, g5, armTargets_armStill g4, List.append_nil]) (arrived_suffix ha) i
    obtain ⟨r, r1, r2, r3, r4, _⟩ := at_ (i := i) (sv := sv) (p1 := m ++ p1) (p2 := p2) (by rw [e, e1]; simp) hend e2
    rw [tgt r2.le r3 r4, e3]
  · right
    have still : ArmStill (tr ++ x') := armStill_append.2 ⟨g5, g4⟩
    refine ⟨v, fun i => ⟨hmem (by rw [e]; simp [g6 i]), ?_⟩, mt, g7⟩
    obtain ⟨t1, t2, et⟩ := List.append_of_mem (g6 i)
    have et2 : ∀ m, Act.micro (armServo i) m ∉ t2 ++ x' := fun m hm => still i m (by rw [et]; simp only [List.mem_append, List.mem_cons] at hm ⊢; tauto)
    by_cases hex : ∃ a ∈ m, ∃ q, a = .micro (armServo i) q
    · obtain ⟨q1, a, q2, eq, ⟨q, rfl⟩, hq⟩ := Told.last_split hex
      obtain ⟨sv, hs1, hs2⟩ := g1 i q1 q q2 eq
      obtain ⟨s1, s2, es⟩ := List.append_of_mem hs1
      have hfree : ∀ m, Act.micro (armServo i) m ∉ s2 ++ (tr ++ x') := fun m' hm => by
        rcases List.mem_append.1 hm with hm | hm
        · exact hq _ (by rw [es]; simp [hm]) ⟨m', rfl⟩
        · exact still i m' hm
      obtain ⟨r, r1, r2, r3, r4, r5⟩ := at_ (i := i) (sv := sv) (p1 := q1 ++ .micro (armServo i) q :: s1) (p2 := s2 ++ (tr ++ x')) (by rw [e, eq, es]; simp) hend hfree
      obtain ⟨r', l1, l2, l3, l4, _⟩ := at_ (i := i) (sv := v i) (p1 := s2 ++ t1) (p2 := t2 ++ x') (by rw [r5, et]; simp) (by omega) et2
      refine ⟨?_, (tgt l2.le l3 l4).symm⟩
      have hr := h.read r3
      rw [hr] at hs2
      rw [h.read l3]
      exact hsee i r r' (by omega) l2.le r4 hs2
    · obtain ⟨r', l1, l2, l3, l4, _⟩ := at_ (i := i) (sv := v i) (p1 := m ++ t1) (p2 := t2 ++ x') (by rw [e, et]; simp) hend et2
      refine ⟨?_, (tgt l2.le l3 l4).symm⟩
      rw [h.read l3]
      refine hst i r' (by omega) fun j j1 j2 q eq => ?_
      rcases Nat.eq_or_lt_of_le j1 with rfl | j1
      · rw [h0] at eq; injection eq with eq; exact hx i q eq
      · have : Act.micro (armServo i) q ∈ acts (span ev (k0 + 1) (k - (k0 + 1))) := acts_mem.2 (mem_span.2 ⟨j, by omega, by omega, eq⟩)
        rw [e] at this
        rcases List.mem_append.1 this with h | h
        · exact hex ⟨_, h, q, rfl⟩
        · exact still i q h

end Mrc.Rest
