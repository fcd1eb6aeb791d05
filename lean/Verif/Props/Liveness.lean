import Verif.Proof.Endless
/-
C77-C80: what must eventually happen.
-/
set_option linter.unusedSectionVars false
namespace Mrc.Props
open Mrc Mrc.Prog Mrc.Spec
variable {F : Type} [FloatOps F] {cfg : Cfg F} {w0 : World F} {junk : Nat → Byte} {σ : ℕ → Sys F} {ev : ℕ → Ev F}

/-- what a pass in which nothing begins but questions achieves. -/
inductive PassR (σ : ℕ → Sys F) (ev : ℕ → Ev F) (a b : ℕ) (r r' : RC F) : Prop
  | rest : r.state = .idle → r' = r → (∀ n, a ≤ n → n < b → ∀ (i : Fin 6) m, ev n ≠ .act (.micro (armServo i) m)) → PassR σ ev a b r r'
  | wait : r.state = .moving → r' = r → (∀ n, a ≤ n → n < b → ∀ (i : Fin 6) m, ev n ≠ .act (.micro (armServo i) m)) →
      (∃ n i, a ≤ n ∧ n < b ∧ ((σ n).w.servos (armServo i)).atTarget = false) → PassR σ ev a b r r'
  | done : r.state ≠ .idle → r'.state = .idle → PassR σ ev a b r r'
  | on : r.state = .moving → r'.state = .moving → r'.total = r.total → r.step < r'.step → r'.step ≤ r'.total → PassR σ ev a b r r'
  | first : r.state = .prepareMove → r'.state = .moving → PassR σ ev a b r r'

theorem pass_next (h : Endless cfg w0 junk σ ev) (hP : Parts F) {a b : ℕ} {s : FW F} (hp : PassAt σ ev a b s) (hq : ∀ n, a ≤ n → n < b → ¬ Orders ev n) :
    ∃ s', Between σ b s' ∧ PassR σ ev a b s.core.rc s'.core.rc := by
  obtain ⟨s', hs', hx⟩ := h.pass_exec hp
  refine ⟨s', hs', ?_⟩
  have hlt := hp.lt
  have hmem : ∀ x, x ∈ acts (span ev (a + 1) (b - (a + 1))) ↔ ∃ n, a + 1 ≤ n ∧ n < b ∧ ev n = .act x := by
    intro x
    rw [acts_mem, mem_span, show a + 1 + (b - (a + 1)) = b by omega]
  have hgh : ∀ x ∈ acts (span ev (a + 1) (b - (a + 1))), ¬ OrdersI x := by
    rintro x hx ⟨src, m, rfl, ho⟩
    obtain ⟨n, h1, h2, h3⟩ := (hmem _).1 hx
    exact hq n (by omega) h2 ⟨src, m, h3, ho⟩
  have hlim := h.limits_span (a + 1) (b - (a + 1))
  generalize htr : acts (span ev (a + 1) (b - (a + 1))) = tr at *
  obtain ⟨t1, t2, t3, t4, t5, r1, s2, c3, rfl, k1, k2, -, -, -, -, -, -, -, -, hst⟩ := quiet_pass hx (h.sane hP hp.start).closed hgh
  have hl1 : Limits (Endless.lo w0) (Endless.hi w0) t1 := fun i s hs => hlim i s (by simp [hs])
  have hl2 : Limits (Endless.lo w0) (Endless.hi w0) t2 := fun i s hs => hlim i s (by simp [hs])
  obtain ⟨hr1, p1⟩ := RC.process_next hP k1 hl1 (h.sane hP hp.start)
  obtain ⟨hr2, p2⟩ := RC.process_next hP k2 hl2 hr1
  have quiet : ArmStill t1 → ArmStill t2 → ∀ n, a ≤ n → n < b → ∀ (i : Fin 6) m, ev n ≠ .act (.micro (armServo i) m) := by
    intro q1 q2 n h1 h2 i m he
    rcases Nat.lt_or_ge n (a + 1) with h3 | h3
    · have : n = a := by omega
      subst this
      rw [hp.here] at he; cases he
    · have := (hmem _).2 ⟨n, h3, h2, he⟩
      rcases List.mem_append.1 this with h4 | h4
      · rcases List.mem_append.1 h4 with h4 | h4
        · exact q1 i m h4
        · exact q2 i m h4
      · exact hst i m h4
  have unarrived : (∃ i s, .servo (armServo i) s ∈ t1 ++ t2 ++ (t3 ++ (t4 ++ t5)) ∧ s.atTarget = false) → ∃ n i, a ≤ n ∧ n < b ∧ ((σ n).w.servos (armServo i)).atTarget = false := by
    rintro ⟨i, s, hs, hf⟩
    obtain ⟨n, h1, h2, h3⟩ := (hmem _).1 hs
    exact ⟨n, i, by omega, h2, by rw [← h.read h3]; exact hf⟩
  have st : ∀ {t : List (Act F)}, Still t → ArmStill t := fun h i m => h _ m
  have stn : ArmStill ([] : List (Act F)) := fun i m hm => by cases hm
  cases p1 with
  | idle i1 e1 n1 =>
    subst e1 n1
    cases p2 with
    | idle i2 e2 n2 => subst n2; exact .rest i1 e2 (quiet stn stn)
    | wait i2 => rw [i1] at i2; cases i2
    | done i2 => exact absurd i1 i2
    | on i2 => rw [i1] at i2; cases i2
    | first i2 => rw [i1] at i2; cases i2
  | wait i1 e1 n1 w1 =>
    subst e1
    cases p2 with
    | idle i2 => rw [i1] at i2; cases i2
    | wait i2 e2 n2 w2 =>
      obtain ⟨i, s, hs, hf⟩ := w1
      exact .wait i1 e2 (quiet (st n1) (st n2)) (unarrived ⟨i, s, by simp [hs], hf⟩)
    | done _ i2 => exact .done (by simp [i1]) i2
    | on i2 j2 t2 s2 l2 => exact .on i2 j2 t2 (by omega) l2
    | first i2 => rw [i1] at i2; cases i2
  | done i0 i1 =>
    cases p2 with
    | idle i2 e2 n2 => rw [e2]; exact .done i0 i1
    | wait i2 => rw [i1] at i2; cases i2
    | done j2 i2 => exact absurd i1 j2
    | on i2 => rw [i1] at i2; cases i2
    | first i2 => rw [i1] at i2; cases i2
  | on i1 j1 t1 s1 l1 =>
    cases p2 with
    | idle i2 => rw [j1] at i2; cases i2
    | wait i2 e2 n2 w2 => rw [e2]; exact .on i1 j1 t1 (by omega) l1
    | done _ i2 => exact .done (by simp [i1]) i2
    | on i2 j2 t2 s2 l2 => exact .on i1 j2 (by omega) (by omega) l2
    | first i2 => rw [j1] at i2; cases i2
  | first i1 j1 =>
    cases p2 with
    | idle i2 => rw [j1] at i2; cases i2
    | wait i2 e2 n2 w2 => rw [e2]; exact .first i1 j1
    | done _ i2 => exact .done (by simp [i1]) i2
    | on i2 j2 t2 s2 l2 => exact .first i1 j2
    | first i2 => rw [j1] at i2; cases i2

/-- number of timer interrupts. -/
theorem ticked (h : Endless cfg w0 junk σ ev) {a : ℕ} {i : Fin 8} (hst : ∀ n, a ≤ n → ∀ m, ev n ≠ .act (.micro i m)) (k : ℕ) :
    ∃ n, a ≤ n ∧ ∀ m, n ≤ m → ∃ j, k ≤ j ∧ (σ m).w.servos i = (fun s => s.tick 20)^[j] ((σ a).w.servos i) := by
  have stay : ∀ n j, a ≤ n → (σ n).w.servos i = (fun s => s.tick 20)^[j] ((σ a).w.servos i) →
      ∃ j', j ≤ j' ∧ (ev n = .isr → j + 1 ≤ j') ∧ (σ (n + 1)).w.servos i = (fun s => s.tick 20)^[j'] ((σ a).w.servos i) := by
    intro n j hn hj
    have hd := h.step n
    have hm := hst n hn
    generalize ev n = e at hd hm
    have := do_servos hd i
    match e, hm, this with
    | .isr, _, this => exact ⟨j + 1, by omega, fun _ => Nat.le_refl _, by rw [this, hj, Function.iterate_succ_apply']; rfl⟩
    | .act (.micro j' m), hm, this =>
      have hne : i ≠ j' := fun e => hm m (by rw [e])
      simp only [evServo, hne, if_false] at this
      exact ⟨j, Nat.le_refl _, (fun h => by cases h), this.trans hj⟩
    | .act (.servo _ _), _, this | .act (.now _), _, this | .act (.pin _ _), _, this | .act (.rx _), _, this | .act (.eeRead _), _, this | .act (.eeWrite _ _), _, this
    | .act (.out _), _, this | .next, _, this | .clock _, _, this | .pins _, _, this | .arrive _, _, this =>
      exact ⟨j, Nat.le_refl _, (fun h => by cases h), this.trans hj⟩
  have keep : ∀ n j, a ≤ n → (σ n).w.servos i = (fun s => s.tick 20)^[j] ((σ a).w.servos i) → ∀ m, n ≤ m →
      ∃ j', j ≤ j' ∧ (σ m).w.servos i = (fun s => s.tick 20)^[j'] ((σ a).w.servos i) := by
    intro n j hn hj m hm
    induction m, hm using Nat.le_induction with
    | base => exact ⟨j, Nat.le_refl _, hj⟩
    | succ m hm ih =>
      obtain ⟨j1, h1, h2⟩ := ih
      obtain ⟨j2, h3, _, h4⟩ := stay m j1 (by omega) h2
      exact ⟨j2, by omega, h4⟩
  induction k with
  | zero =>
    refine ⟨a, Nat.le_refl _, fun m hm => ?_⟩
    exact (keep a 0 (Nat.le_refl _) rfl m hm).imp fun j hj => ⟨by omega, hj.2⟩
  | succ k ih =>
    obtain ⟨n, hn, hh⟩ := ih
    obtain ⟨m, hm, he⟩ := h.ticks n
    obtain ⟨j, h1, h2⟩ := hh m hm
    obtain ⟨j', h3, h4, h5⟩ := stay m j (by omega) h2
    refine ⟨m + 1, by omega, fun m' hm' => ?_⟩
    obtain ⟨j2, h6, h7⟩ := keep (m + 1) j' (by omega) h5 m' hm'
    exact ⟨j2, by have := h4 he; omega, h7⟩

/-- servos that are not commanded any more arrive. -/
theorem arrive (h : Endless cfg w0 junk σ ev) {a : ℕ} (hst : ∀ n, a ≤ n → ∀ (i : Fin 6) m, ev n ≠ .act (.micro (armServo i) m))
    (hs : ∀ i, Settles ((σ a).w.servos (armServo i))) : ∃ n, a ≤ n ∧ ∀ m, n ≤ m → ∀ i, ((σ m).w.servos (armServo i)).atTarget = true := by
  have one : ∀ i, ∃ n, a ≤ n ∧ ∀ m, n ≤ m → ((σ m).w.servos (armServo i)).atTarget = true := by
    intro i
    obtain ⟨K, hK⟩ := hs i
    obtain ⟨n, hn, hh⟩ := ticked h (i := armServo i) (fun n hn m => hst n hn i m) K
    refine ⟨n, hn, fun m hm => ?_⟩
    obtain ⟨j, hj, e⟩ := hh m hm
    rw [e]; exact hK j hj
  have all : ∀ is : List (Fin 6), ∃ n, a ≤ n ∧ ∀ m, n ≤ m → ∀ i ∈ is, ((σ m).w.servos (armServo i)).atTarget = true := by
    intro is
    induction is with
    | nil => exact ⟨a, Nat.le_refl _, by simp⟩
    | cons i is ih =>
      obtain ⟨n1, h1, g1⟩ := ih
      obtain ⟨n2, h2, g2⟩ := one i
      refine ⟨n1 + n2, by omega, fun m hm j hj => ?_⟩
      rcases List.mem_cons.1 hj with rfl | hj
      · exact g2 m (by omega)
      · exact g1 m (by omega) j hj
  obtain ⟨n, hn, hh⟩ := all (List.finRange 6)
  exact ⟨n, hn, fun m hm i => hh m hm i (List.mem_finRange i)⟩

/-- an idle controller stays idle and leaves the arm alone. -/
theorem stays_idle (h : Endless cfg w0 junk σ ev) (hP : Parts F) {a : ℕ} (ha : ev a = .next) (hq : ∀ n, a ≤ n → ¬ Orders ev n) {s : FW F} (hb : Between σ a s) (hi : s.core.rc.state = .idle)
    (k : ℕ) : ∃ s', PassAt σ ev (h.begin_ a k) (h.begin_ a (k + 1)) s' ∧ s'.core.rc = s.core.rc := by
  induction k with
  | zero =>
    obtain ⟨s', hp⟩ := h.pass_begin ha 0
    have e : s' = s := by have := hp.start.symm.trans hb; injection this
    exact ⟨s', hp, by rw [e]⟩
  | succ k ih =>
    obtain ⟨s1, hp1, e1⟩ := ih
    obtain ⟨s2, hb2, hr⟩ := pass_next h hP hp1 (fun n hn _ => hq n (Nat.le_trans (h.begin_le a k) hn))
    obtain ⟨s2', hp2⟩ := h.pass_begin ha (k + 1)
    have e : s2' = s2 := by have := hp2.start.symm.trans hb2; injection this
    subst e
    refine ⟨s2', hp2, ?_⟩
    rw [← e1]
    have i1 : s1.core.rc.state = .idle := by rw [e1]; exact hi
    cases hr with
    | rest _ e _ => exact e
    | wait h1 => rw [i1] at h1; cases h1
    | on h1 => rw [i1] at h1; cases h1
    | first h1 => rw [i1] at h1; cases h1
    | done h1 => exact absurd i1 h1

/-- a move in progress comes to its end. -/
theorem ends (h : Endless cfg w0 junk σ ev) (hP : Parts F) (k : ℕ) : ∀ {a : ℕ} {s : FW F}, ev a = .next → Between σ a s → (∀ n, a ≤ n → ¬ Orders ev n) →
    (∀ n t, a ≤ n → Between σ n t → ∀ i, Settles ((σ n).w.servos (armServo i))) → s.core.rc.state = .moving → s.core.rc.total - s.core.rc.step ≤ k →
    ∃ b t, a ≤ b ∧ ev b = .next ∧ Between σ b t ∧ t.core.rc.state = .idle := by
  induction k using Nat.strongRecOn with
  | _ k ih =>
    intro a s ha hb hq hs hm hk
    by_contra hc
    have hsane := (h.sane hP hb).parts hm
    -- every later pass waits
    have key : ∀ j, ∃ t, PassAt σ ev (h.begin_ a j) (h.begin_ a (j + 1)) t ∧ t.core.rc = s.core.rc ∧
        (∀ n, h.begin_ a j ≤ n → n < h.begin_ a (j + 1) → ∀ (i : Fin 6) m, ev n ≠ .act (.micro (armServo i) m)) ∧
        ∃ n i, h.begin_ a j ≤ n ∧ n < h.begin_ a (j + 1) ∧ ((σ n).w.servos (armServo i)).atTarget = false := by
      intro j
      have hex : ∃ t, Between σ (h.begin_ a j) t ∧ t.core.rc = s.core.rc := by
        induction j with
        | zero => exact ⟨s, hb, rfl⟩
        | succ j ihj =>
          obtain ⟨t, ht, e⟩ := ihj
          obtain ⟨t0, hp⟩ := h.pass_begin ha j
          have e0 : t0 = t := by have := hp.start.symm.trans ht; injection this
          subst e0
          obtain ⟨t', hb', hr⟩ := pass_next h hP hp (fun n hn _ => hq n (Nat.le_trans (h.begin_le a j) hn))
          refine ⟨t', hb', ?_⟩
          have m0 : t0.core.rc.state = .moving := by rw [e]; exact hm
          cases hr with
          | rest h1 => rw [m0] at h1; cases h1
          | wait _ e1 => rw [e1, e]
          | done _ h1 => exact absurd ⟨_, t', h.begin_le a (j + 1), h.begin_next ha (j + 1), hb', h1⟩ hc
          | on h1 h2 h3 h4 h5 =>
            rw [e] at h3 h4
            obtain ⟨b, u, h6, h7⟩ := ih (t'.core.rc.total - t'.core.rc.step) (by omega) (h.begin_next ha (j + 1)) hb'
              (fun n hn => hq n (Nat.le_trans (h.begin_le a (j + 1)) hn)) (fun n u hn => hs n u (Nat.le_trans (h.begin_le a (j + 1)) hn)) h2 (Nat.le_refl _)
            exact absurd ⟨b, u, Nat.le_trans (h.begin_le a (j + 1)) h6, h7⟩ hc
          | first h1 => rw [m0] at h1; cases h1
      obtain ⟨t, ht, e⟩ := hex
      obtain ⟨t0, hp⟩ := h.pass_begin ha j
      have e0 : t0 = t := by have := hp.start.symm.trans ht; injection this
      subst e0
      obtain ⟨t', hb', hr⟩ := pass_next h hP hp (fun n hn _ => hq n (Nat.le_trans (h.begin_le a j) hn))
      have m0 : t0.core.rc.state = .moving := by rw [e]; exact hm
      refine ⟨t0, hp, e, ?_⟩
      cases hr with
      | rest h1 => rw [m0] at h1; cases h1
      | wait _ e1 q w => exact ⟨q, w⟩
      | done _ h1 => exact absurd ⟨_, t', h.begin_le a (j + 1), h.begin_next ha (j + 1), hb', h1⟩ hc
      | on h1 h2 h3 h4 h5 =>
        rw [e] at h3 h4
        obtain ⟨b, u, h6, h7⟩ := ih (t'.core.rc.total - t'.core.rc.step) (by omega) (h.begin_next ha (j + 1)) hb'
          (fun n hn => hq n (Nat.le_trans (h.begin_le a (j + 1)) hn)) (fun n u hn => hs n u (Nat.le_trans (h.begin_le a (j + 1)) hn)) h2 (Nat.le_refl _)
        exact absurd ⟨b, u, Nat.le_trans (h.begin_le a (j + 1)) h6, h7⟩ hc
      | first h1 => rw [m0] at h1; cases h1
    -- so the servos are left alone and arrive, which the next pass notices
    have hst : ∀ n, a ≤ n → ∀ (i : Fin 6) m, ev n ≠ .act (.micro (armServo i) m) := by
      intro n hn
      obtain ⟨j, h1, h2⟩ := h.cover a n hn
      obtain ⟨_, _, _, q, _⟩ := key j
      exact q n h1 h2
    obtain ⟨n, hn, harr⟩ := arrive h hst (hs a s (Nat.le_refl _) hb)
    obtain ⟨j, h1, h2⟩ := h.cover a n hn
    obtain ⟨_, _, _, _, m, i, h3, h4, h5⟩ := key (j + 1)
    rw [harr m (by omega) i] at h5
    cases h5

/-- **C77**: the arm comes to rest.  If from some time on no instruction begins (except for questions asked at once), and the servos, looked at between two passes, are such that
left alone they would arrive, then from some time on no arm servo is touched any more, all of them are at their targets, and the
controller does not report a movement. -/
theorem C77_rest (h : Endless cfg w0 junk σ ev) (hP : Parts F) (n0 : ℕ) (hq : ∀ n, n0 ≤ n → ¬ Orders ev n)
    (hs : ∀ n s, n0 ≤ n → Between σ n s → ∀ i, Settles ((σ n).w.servos (armServo i))) :
    ∃ n1, n0 ≤ n1 ∧ ∀ n, n1 ≤ n → (∀ (i : Fin 6) m, ev n ≠ .act (.micro (armServo i) m)) ∧ (∀ i, ((σ n).w.servos (armServo i)).atTarget = true) ∧
      ∀ s, Between σ n s → s.core.rc.isMoving = false := by
  -- an idle moment
  obtain ⟨a, ha0, ha⟩ := h.loops n0
  obtain ⟨s, hb, _⟩ := h.atNext ha
  have hidle : ∃ b t, a ≤ b ∧ ev b = .next ∧ Between σ b t ∧ t.core.rc.state = .idle := by
    have hmov : ∀ {b t}, a ≤ b → ev b = .next → Between σ b t → t.core.rc.state = .moving → ∃ b' t', a ≤ b' ∧ ev b' = .next ∧ Between σ b' t' ∧ t'.core.rc.state = .idle := by
      intro b t hab hb' hbt hm
      obtain ⟨c, u, h1, h2⟩ := ends h hP (t.core.rc.total - t.core.rc.step) hb' hbt (fun n hn => hq n (by omega)) (fun n u hn => hs n u (by omega)) hm (Nat.le_refl _)
      exact ⟨c, u, by omega, h2⟩
    cases hst : s.core.rc.state with
    | idle => exact ⟨a, s, Nat.le_refl _, ha, hb, hst⟩
    | moving => exact hmov (Nat.le_refl _) ha hb hst
    | startMove => exact absurd hst (h.sane hP hb).notStart
    | prepareMove =>
      obtain ⟨t, hp⟩ := h.pass ha
      have e : t = s := by have := hp.start.symm.trans hb; injection this
      subst e
      obtain ⟨s', hb', hr⟩ := pass_next h hP hp (fun n hn _ => hq n (by omega))
      have hle : a ≤ h.after a := Nat.le_of_lt hp.lt
      cases hr with
      | rest h1 => rw [hst] at h1; cases h1
      | wait h1 => rw [hst] at h1; cases h1
      | done _ h1 => exact ⟨_, s', hle, hp.stop, hb', h1⟩
      | on h1 => rw [hst] at h1; cases h1
      | first _ h1 => exact hmov hle hp.stop hb' h1
  obtain ⟨b, t, hab, hbn, hbt, hi⟩ := hidle
  have stay := stays_idle h hP hbn (fun n hn => hq n (by omega)) hbt hi
  have quiet : ∀ n, b ≤ n → ∀ (i : Fin 6) m, ev n ≠ .act (.micro (armServo i) m) := by
    intro n hn
    obtain ⟨k, h1, h2⟩ := h.cover b n hn
    obtain ⟨u, hp, e⟩ := stay k
    obtain ⟨u', _, hr⟩ := pass_next h hP hp (fun n hn _ => hq n (by have := h.begin_le b k; omega))
    have i0 : u.core.rc.state = .idle := by rw [e]; exact hi
    cases hr with
    | rest _ _ q => exact q n h1 h2
    | wait h1 => rw [i0] at h1; cases h1
    | done h1 => exact absurd i0 h1
    | on h1 => rw [i0] at h1; cases h1
    | first h1 => rw [i0] at h1; cases h1
  obtain ⟨n1, h1, harr⟩ := arrive h quiet (hs b t (by omega) hbt)
  refine ⟨n1, by omega, fun n hn => ⟨quiet n (by omega), harr n hn, fun u hu => ?_⟩⟩
  obtain ⟨n', hn', he, hu⟩ : ∃ n', n ≤ n' ∧ ev n' = .next ∧ Between σ n' u := by
    classical
    have hsp := Nat.find_spec (h.loops n)
    exact ⟨_, hsp.1, hsp.2, h.waits hu hsp.1 fun k h1 h2 hk => Nat.find_min (h.loops n) h2 ⟨h1, hk⟩⟩
  obtain ⟨k, h2, h3⟩ := h.cover b n' (by omega)
  obtain ⟨v, hp, e⟩ := stay k
  have : n' = h.begin_ b k := by
    by_contra hne
    exact hp.one n' (by omega) h3 he
  subst this
  have e2 : u = v := by have := hu.symm.trans hp.start; injection this
  subst e2
  simp [RC.isMoving, e, hi]

end Mrc.Props
