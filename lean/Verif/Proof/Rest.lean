import Verif.Proof.Span
import Verif.Props.Arrival
import Verif.Proof.Mark
import Verif.Spec.Rest
/- A servo between two commands: what holds after a command and is kept by the timer interrupt (C108). Any arithmetic. -/
set_option linter.unusedSectionVars false
set_option linter.unusedSimpArgs false
namespace Mrc.Rest
open Mrc Mrc.Spec Mrc.Prog Mrc.Props
open Mrc.Brisk (servo_step proj_stays next_act no_act last_next span_cons)

variable {F : Type} [FloatOps F] {cfg : Cfg F} {w0 : World F} {junk : Nat → Byte} {σ : ℕ → Sys F} {ev : ℕ → Ev F}

/-- where the command of a servo is. -/
structure CommandAt (ev : ℕ → Ev F) (i : Fin 6) (x y : Servo F) (v t : F) (n1 n2 n3 n4 n5 n6 : ℕ) : Prop where
  o12 : n1 < n2
  o23 : n2 < n3
  o34 : n3 < n4
  o45 : n4 < n5
  o56 : n5 < n6
  e1 : ev n1 = .act (.servo (armServo i) x)
  e2 : ev n2 = .act (.micro (armServo i) (.setVel v))
  e3 : ev n3 = .act (.servo (armServo i) y)
  e4 : ev n4 = .act (.micro (armServo i) (.setStart y.cur))
  e5 : ev n5 = .act (.micro (armServo i) .zeroElapsed)
  e6 : ev n6 = .act (.micro (armServo i) (.setTarget t))
  q12 : ∀ j, n1 + 1 ≤ j → j < n2 → ∀ z, ev j ≠ .act z
  q23 : ∀ j, n2 + 1 ≤ j → j < n3 → ∀ z, ev j ≠ .act z
  q34 : ∀ j, n3 + 1 ≤ j → j < n4 → ∀ z, ev j ≠ .act z
  q45 : ∀ j, n4 + 1 ≤ j → j < n5 → ∀ z, ev j ≠ .act z
  q56 : ∀ j, n5 + 1 ≤ j → j < n6 → ∀ z, ev j ≠ .act z
  qn : ∀ j, n1 < j → j < n6 → ev j ≠ .next

/-- the accesses between the ends of a command. -/
theorem CommandAt.all {i : Fin 6} {x y : Servo F} {v t : F} {n1 n2 n3 n4 n5 n6 : ℕ} (h : CommandAt ev i x y v t n1 n2 n3 n4 n5 n6) {j : ℕ} (g1 : n1 < j) (g2 : j < n6) {z : Act F}
    (hz : ev j = .act z) : j = n2 ∨ j = n3 ∨ j = n4 ∨ j = n5 := by
  by_contra hcon
  simp only [not_or] at hcon
  rcases Nat.lt_or_ge j n2 with g | g
  · exact h.q12 j (by omega) g z hz
  rcases Nat.lt_or_ge j n3 with g | g
  · exact h.q23 j (by omega) g z hz
  rcases Nat.lt_or_ge j n4 with g | g
  · exact h.q34 j (by omega) g z hz
  rcases Nat.lt_or_ge j n5 with g | g
  · exact h.q45 j (by omega) g z hz
  · exact h.q56 j (by omega) g2 z hz

/-- an unbroken command. -/
theorem CommandAt.quiet {i : Fin 6} {x y : Servo F} {v t : F} {n1 n2 n3 n4 n5 n6 : ℕ} (h : CommandAt ev i x y v t n1 n2 n3 n4 n5 n6) (hu : Unbroken ev) :
    ∀ j, n1 < j → j < n6 → ev j ≠ .isr := by
  have o12 := h.o12; have o23 := h.o23; have o34 := h.o34; have o45 := h.o45; have o56 := h.o56
  refine hu i x v t n1 n2 n6 o12 (by omega) h.e1 h.e2 h.e6 (fun j k1 k2 => h.q12 j (by omega) k2) (fun j k1 k2 z hz => ?_) h.qn
  rcases h.all (by omega) k2 hz with e | e | e | e
  · omega
  · rw [e, h.e3] at hz; injection hz with hz; exact .inl ⟨y, hz.symm⟩
  · rw [e, h.e4] at hz; injection hz with hz; exact .inr (.inl ⟨_, hz.symm⟩)
  · rw [e, h.e5] at hz; injection hz with hz; exact .inr (.inr hz.symm)

/-- a sequence of accesses that command no arm servo, and of commands. -/
inductive Blk (Q : Servo F → Servo F → F → F → Prop) : List (Act F) → Prop
  | nil : Blk Q []
  | plain {a l} : (∀ (i : Fin 6) m, a ≠ .micro (armServo i) m) → Blk Q l → Blk Q (a :: l)
  | command {i : Fin 6} {x y v t l} : Q x y v t → Blk Q l → Blk Q (.servo (armServo i) x :: .micro (armServo i) (.setVel v) :: .servo (armServo i) y :: .micro (armServo i) (.setStart y.cur) ::
      .micro (armServo i) .zeroElapsed :: .micro (armServo i) (.setTarget t) :: l)

section
variable (h : Endless cfg w0 junk σ ev) {P : Servo F → Prop} (ht : ∀ s, P s → P (s.tick 20))
include h ht

theorem keep_step {n : ℕ} {i : Fin 8} (hn : ∀ m, ev n ≠ .act (.micro i m)) (hf : P ((σ n).w.servos i)) : P ((σ (n + 1)).w.servos i) := by
  rw [do_servos (h.step n) i]
  generalize he : ev n = e at hn
  match e, hn with
  | .isr, _ => exact ht _ hf
  | .act (.micro j m), hn =>
    simp only [evServo]
    rw [if_neg (fun e => hn m (by rw [e]))]; exact hf
  | .act (.servo _ _), _ | .act (.now _), _ | .act (.pin _ _), _ | .act (.rx _), _ | .act (.eeRead _), _ | .act (.eeWrite _ _), _
  | .act (.out _), _ | .next, _ | .clock _, _ | .pins _, _ | .arrive _, _ => exact hf

/-- what the interrupt keeps is kept as long as nothing is stored. -/
theorem keep_stays {a b : ℕ} {i : Fin 8} (hab : a ≤ b) (hn : Untouched ev i a b) (hf : P ((σ a).w.servos i)) : P ((σ b).w.servos i) := by
  induction b, hab using Nat.le_induction with
  | base => exact hf
  | succ b hb ih => exact keep_step h ht (hn b hb (by omega)) (ih fun j h1 h2 => hn j h1 (by omega))

variable {Q : Servo F → Servo F → F → F → Prop}
  (hcmd : ∀ i x y v t n1 n2 n3 n4 n5 n6, Q x y v t → CommandAt ev i x y v t n1 n2 n3 n4 n5 n6 → P ((σ (n6 + 1)).w.servos (armServo i)))
include hcmd

/-- in a sequence of commands: after the last store into the servo. -/
theorem at_blocks {l : List (Act F)} (hl : Blk Q l) {a k : ℕ} (he : acts (span ev a k) = l) (hx : ∀ j, a ≤ j → j < a + k → ev j ≠ .next) (i : Fin 6)
    (hf : P ((σ a).w.servos (armServo i))) {c : ℕ} (ha : a ≤ c) (hc : c ≤ a + k) (hn : Untouched ev (armServo i) c (a + k)) : P ((σ c).w.servos (armServo i)) := by
  induction hl generalizing a k with
  | nil => exact keep_stays h ht ha (fun j h1 h2 m => no_act he j h1 (by omega) _) hf
  | @plain x l hp _ ih =>
    obtain ⟨n, h1, h2, h3, h4, h5⟩ := next_act he
    have hno : ∀ c, c ≤ n + 1 → Untouched ev (armServo i) a c := fun c hc j g1 g2 m => by
      rcases Nat.lt_or_ge j n with g | g
      · exact h4 j g1 g _
      · rw [show j = n by omega, h3]; intro e; injection e with e; exact hp i m e
    rcases Nat.lt_or_ge n c with g | g
    · exact ih h5 (fun j g1 g2 => hx j (by omega) (by omega)) (keep_stays h ht (by omega) (hno _ (le_refl _)) hf) (by omega) (by omega) (fun j g1 g2 => hn j g1 (by omega))
    · exact keep_stays h ht ha (hno c (by omega)) hf
  | @command i' x y v t l hg _ ih =>
    obtain ⟨n1, a1, b1, e1, q1, r1⟩ := next_act he
    obtain ⟨n2, a2, b2, e2, q2, r2⟩ := next_act r1
    obtain ⟨n3, a3, b3, e3, q3, r3⟩ := next_act r2
    obtain ⟨n4, a4, b4, e4, q4, r4⟩ := next_act r3
    obtain ⟨n5, a5, b5, e5, q5, r5⟩ := next_act r4
    obtain ⟨n6, a6, b6, e6, q6, r6⟩ := next_act r5
    by_cases hi : i = i'
    · subst hi
      have key := hcmd i x y v t n1 n2 n3 n4 n5 n6 hg ⟨by omega, by omega, by omega, by omega, by omega, e1, e2, e3, e4, e5, e6, q2, q3, q4, q5, q6, fun j g1 g2 => hx j (by omega) (by omega)⟩
      rcases Nat.lt_or_ge n6 c with g | g
      · exact ih r6 (fun j g1 g2 => hx j (by omega) (by omega)) key (by omega) (by omega) (fun j g1 g2 => hn j g1 (by omega))
      · exact absurd e6 (hn n6 g (by omega) _)
    · have hno : Untouched ev (armServo i) a (n6 + 1) := fun j g1 g2 m hm => by
        have hne : armServo i ≠ armServo i' := fun e => hi (armServo_inj e)
        rcases Nat.lt_or_ge j n1 with g | g
        · exact q1 j g1 g _ hm
        rcases Nat.eq_or_lt_of_le g with rfl | g
        · rw [e1] at hm; cases hm
        rcases Nat.lt_or_ge j n2 with g' | g'
        · exact q2 j (by omega) g' _ hm
        rcases Nat.eq_or_lt_of_le g' with rfl | g'
        · rw [e2] at hm; injection hm with hm; injection hm with hm; exact hne hm.symm
        rcases Nat.lt_or_ge j n3 with g' | g'
        · exact q3 j (by omega) g' _ hm
        rcases Nat.eq_or_lt_of_le g' with rfl | g'
        · rw [e3] at hm; cases hm
        rcases Nat.lt_or_ge j n4 with g' | g'
        · exact q4 j (by omega) g' _ hm
        rcases Nat.eq_or_lt_of_le g' with rfl | g'
        · rw [e4] at hm; injection hm with hm; injection hm with hm; exact hne hm.symm
        rcases Nat.lt_or_ge j n5 with g' | g'
        · exact q5 j (by omega) g' _ hm
        rcases Nat.eq_or_lt_of_le g' with rfl | g'
        · rw [e5] at hm; injection hm with hm; injection hm with hm; exact hne hm.symm
        rcases Nat.lt_or_ge j n6 with g' | g'
        · exact q6 j (by omega) g' _ hm
        · rw [show j = n6 by omega, e6] at hm; injection hm with hm; injection hm with hm; exact hne hm.symm
      rcases Nat.lt_or_ge n6 c with g | g
      · exact ih r6 (fun j g1 g2 => hx j (by omega) (by omega)) (keep_stays h ht (by omega) hno hf) (by omega) (by omega) (fun j g1 g2 => hn j g1 (by omega))
      · exact keep_stays h ht ha (fun j g1 g2 => hno j g1 (by omega)) hf

variable (hpass : ∀ a b s', ev a = .next → a < b → Between σ b s' → (∀ j, a < j → j < b → ev j ≠ .next) → Blk Q (acts (span ev (a + 1) (b - (a + 1)))))
  (h0 : ∀ i : Fin 6, P (w0.servos (armServo i)))
include hpass h0

/-- before the first pass nothing is stored. -/
theorem boot_untouched {n : ℕ} (h1 : ∀ j, j < n → ev j ≠ .next) (i : Fin 8) : Untouched ev i 0 n := by
  have hx := h.exec 0 n fun j g1 g2 => h1 j (by omega)
  rw [h.boot] at hx
  have ho : (setup cfg junk).only (fun a : Act F => ∀ i m, a ≠ .micro i m) (fun _ => True) := by
    simp only [setup, RC.new, RC.getCurrentPose, RC.getCurrentLogicalAngles, RC.readAngles, readServo, bind_def, pure_def, Prog.bind, Prog.only]
    simp
  have hno := (only_exec hx ho).1
  exact fun j g1 g2 m e => hno _ (acts_mem.2 (mem_span.2 ⟨j, g1, by omega, e⟩)) _ m rfl

/-- between two passes. -/
theorem keep_between (n : ℕ) : ∀ s, Between σ n s → ∀ i : Fin 6, P ((σ n).w.servos (armServo i)) := by
  induction n using Nat.strong_induction_on with
  | _ n ih =>
    intro s hs i
    rcases last_next ev n with ⟨a, h1, h2, h3⟩ | h1
    · obtain ⟨s0, hb, hp, hw⟩ := h.atNext h2
      have hfa := ih a h1 s0 hb i
      have := at_blocks h ht hcmd (hpass a n s h2 h1 hs h3) rfl (fun j g1 g2 => h3 j (by omega) (by omega)) i (by rw [hw]; exact hfa) (c := n) (by omega) (by omega)
        (fun j g1 g2 => by omega)
      exact this
    · refine keep_stays h ht (Nat.zero_le n) (boot_untouched h ht hcmd hpass h0 h1 _) ?_
      rw [h.boot]; exact h0 i

/-- within a pass, after the last store into the servo in this pass. -/
theorem keep_at {c e : ℕ} {s : FW F} (hce : c ≤ e) (hs : Between σ e s) (hx : ∀ j, c ≤ j → j < e → ev j ≠ .next) {i : Fin 6} (hn : Untouched ev (armServo i) c e) :
    P ((σ c).w.servos (armServo i)) := by
  rcases last_next ev c with ⟨a, h1, h2, h3⟩ | h1
  · obtain ⟨s0, hb, hp, hw⟩ := h.atNext h2
    have hfa := keep_between h ht hcmd hpass h0 a s0 hb i
    have hall : ∀ j, a < j → j < e → ev j ≠ .next := fun j g1 g2 => by
      rcases Nat.lt_or_ge j c with g | g
      · exact h3 j g1 g
      · exact hx j g g2
    exact at_blocks h ht hcmd (hpass a e s h2 (by omega) hs hall) rfl (fun j g1 g2 => hall j (by omega) (by omega)) i (by rw [hw]; exact hfa) (c := c) (by omega) (by omega)
      (fun j g1 g2 => hn j g1 (by omega))
  · refine keep_stays h ht (Nat.zero_le c) (boot_untouched h ht hcmd hpass h0 h1 _) ?_
    rw [h.boot]; exact h0 i

end

/-! ### reports -/

theorem reportsAt_iff {k : ℕ} : ReportsAt ev k ↔ ∃ a, ev k = .act a ∧ reports a := by
  constructor
  · rintro (⟨n, e⟩ | ⟨src, m, hs, e⟩)
    · exact ⟨_, e, trivial⟩
    · refine ⟨_, e, ?_⟩
      cases src with
      | immediate => exact absurd rfl hs
      | queue => trivial
      | eeprom => trivial
  · rintro ⟨a, e, ha⟩
    match a, ha with
    | .out (.msg (.n1 n)), _ => exact .inl ⟨n, e⟩
    | .out (.ghost .queue m), _ => exact .inr ⟨_, m, by simp, e⟩
    | .out (.ghost .eeprom m), _ => exact .inr ⟨_, m, by simp, e⟩

theorem span_split {a k c : ℕ} (h1 : a ≤ c) (h2 : c < a + k) {x : Act F} (he : ev c = .act x) :
    acts (span ev a k) = acts (span ev a (c - a)) ++ x :: acts (span ev (c + 1) (a + k - (c + 1))) := by
  obtain ⟨d, rfl⟩ := Nat.exists_eq_add_of_le h1
  obtain ⟨r, hr⟩ := Nat.exists_eq_add_of_lt (show d < k by omega)
  have : span ev a k = span ev a d ++ (ev (a + d) :: span ev (a + d + 1) r) := by
    subst hr
    simp only [span]
    rw [show d + r + 1 = d + (1 + r) by omega, List.range_add, List.map_append]
    congr 1
    rw [List.map_map, show 1 + r = r + 1 by omega, List.range_succ_eq_map]
    simp only [List.map_cons, List.map_map, Function.comp_def, Nat.add_zero]
    congr 1
    apply List.map_congr_left
    intro j _
    congr 1
    omega
  rw [this, acts_append, he]
  have e1 : a + d - a = d := by omega
  have e2 : a + k - (a + d + 1) = r := by omega
  rw [e1, e2]
  rfl

theorem mem_second {α : Type} {l1 l2 pre post : List α} {x : α} (h : l1 ++ l2 = pre ++ x :: post) (hx : x ∉ l1) : ∀ y ∈ post, y ∈ l2 := by
  rcases List.append_eq_append_iff.1 h with ⟨a, e1, e2⟩ | ⟨b, e1, e2⟩
  · intro y hy; rw [e2]; simp [hy]
  · cases b with
    | nil => intro y hy; rw [List.nil_append] at e2; rw [← e2]; simp [hy]
    | cons z b =>
      rw [List.cons_append] at e2
      injection e2 with e2 e3
      subst e2
      exact absurd (by rw [e1]; simp) hx

/-- after a report no arm servo is commanded in this pass. -/
theorem quiet_after (h : Endless cfg w0 junk σ ev) {k e : ℕ} {s : FW F} (hr : ReportsAt ev k) (hke : k ≤ e) (hs : Between σ e s) (hx : ∀ j, k ≤ j → j < e → ev j ≠ .next) (i : Fin 6) :
    Untouched ev (armServo i) k e := by
  obtain ⟨x, hk, hr⟩ := reportsAt_iff.1 hr
  rcases Nat.eq_or_lt_of_le hke with rfl | hke
  · exact fun j g1 g2 => by omega
  rcases last_next ev k with ⟨a, h1, h2, h3⟩ | h1
  · obtain ⟨s0, hb, hp, hw⟩ := h.atNext h2
    have hall : ∀ j, a < j → j < e → ev j ≠ .next := fun j g1 g2 => by
      rcases Nat.lt_or_ge j k with g | g
      · exact h3 j g1 g
      · exact hx j g g2
    have hexec := h.exec (a + 1) (e - (a + 1)) fun j g1 g2 => hall j (by omega) (by omega)
    rw [hp, show a + 1 + (e - (a + 1)) = e by omega, show (σ e).p = .ret s from hs] at hexec
    rw [span_split (c := k) (by omega) (by omega) hk] at hexec
    generalize hpre : acts (span ev (a + 1) (k - (a + 1))) = pre at hexec
    generalize hpost : acts (span ev (k + 1) (a + 1 + (e - (a + 1)) - (k + 1))) = post at hexec
    generalize htr : pre ++ x :: post = tr at hexec
    unfold loopBody at hexec
    simp only [bind_def] at hexec
    obtain ⟨b1, t1, u, rfl, k1, hexec⟩ := exec_bind_ret hexec
    obtain ⟨b2, t2, u, rfl, k2, hexec⟩ := exec_bind_ret hexec
    obtain ⟨s2, t3, u, rfl, k3, hexec⟩ := exec_bind_ret hexec
    obtain ⟨c3, t4, t5, rfl, k4, k5⟩ := exec_bind_ret hexec
    obtain ⟨r1, t1', u1, rfl, l1, k1'⟩ := exec_bind_ret k1
    obtain ⟨rfl, _⟩ := exec_ret k1'
    obtain ⟨r2, t2', u2, rfl, l2, k2'⟩ := exec_bind_ret k2
    obtain ⟨rfl, _⟩ := exec_ret k2'
    have hnot : ∀ (r r' : RC F) (t : List (Act F)), Exec (RC.process cfg.toRCfg r) t (.ret r') → x ∉ t := by
      intro r r' t ht hm
      have := (only_exec ht (RC.process_only cfg.toRCfg r)).1 x hm
      match x, hr, this with
      | .out (.raw _), hr, _ => exact hr
    have hmem : ∀ y ∈ post, y ∈ t3 ++ (t4 ++ t5) := by
      refine mem_second (l1 := (t1' ++ []) ++ (t2' ++ [])) (l2 := t3 ++ (t4 ++ t5)) (pre := pre) (x := x) ?_ ?_
      · rw [htr]; simp
      · simp only [List.append_nil, List.mem_append, not_or]
        exact ⟨hnot _ _ _ l1, hnot _ _ _ l2⟩
    intro j g1 g2 m hm
    rcases Nat.eq_or_lt_of_le g1 with rfl | g1
    · rw [hk] at hm; injection hm with hm; subst hm; exact hr
    have : Act.micro (armServo i) m ∈ post := by
      rw [← hpost]; exact acts_mem.2 (mem_span.2 ⟨j, by omega, by omega, hm⟩)
    have := hmem _ this
    rcases List.mem_append.1 this with hm | hm
    · exact (only_exec k3 (serial_arm cfg SERIAL_BYTES _)).1 _ hm i m rfl
    rcases List.mem_append.1 hm with hm | hm
    · exact (only_exec k4 (mrilProcess_only _)).1 _ hm
    · exact (only_exec k5 (process_arm cfg _)).1 _ hm i m rfl
  · have hex := h.exec 0 e fun j g1 g2 => by
      rcases Nat.lt_or_ge j k with g | g
      · exact h1 j g
      · exact hx j g (by omega)
    rw [h.boot] at hex
    have ho : (setup cfg junk).only (fun a : Act F => ∀ i m, a ≠ .micro i m) (fun _ => True) := by
      simp only [setup, RC.new, RC.getCurrentPose, RC.getCurrentLogicalAngles, RC.readAngles, readServo, bind_def, pure_def, Prog.bind, Prog.only]
      simp
    have hno := (only_exec hex ho).1
    exact fun j g1 g2 m e' => hno _ (acts_mem.2 (mem_span.2 ⟨j, by omega, by omega, e'⟩)) _ m rfl

/-- the end of the pass. -/
theorem pass_end (h : Endless cfg w0 junk σ ev) (k : ℕ) : ∃ e s, k ≤ e ∧ Between σ e s ∧ ∀ j, k ≤ j → j < e → ev j ≠ .next := by
  classical
  have hex := h.loops k
  refine ⟨Nat.find hex, ?_⟩
  have h1 := Nat.find_spec hex
  obtain ⟨s, hs, _⟩ := h.atNext h1.2
  exact ⟨s, h1.1, hs, fun j g1 g2 hj => Nat.find_min hex g2 ⟨g1, hj⟩⟩

/-- the last store into servo `i` before time `k`. -/
theorem last_store (ev : ℕ → Ev F) (i : Fin 8) (k : ℕ) : (∃ j m, j < k ∧ ev j = .act (.micro i m) ∧ Untouched ev i (j + 1) k) ∨ Untouched ev i 0 k := by
  induction k with
  | zero => exact .inr fun j g1 g2 => by omega
  | succ k ih =>
    by_cases hk : ∃ m, ev k = .act (.micro i m)
    · obtain ⟨m, hk⟩ := hk
      exact .inl ⟨k, m, by omega, hk, fun j g1 g2 => by omega⟩
    · have hk' : ∀ m, ev k ≠ .act (.micro i m) := fun m e => hk ⟨m, e⟩
      have ext : ∀ a, Untouched ev i a k → Untouched ev i a (k + 1) := fun a hu j g1 g2 => by
        rcases Nat.lt_or_ge j k with g | g
        · exact hu j g1 g
        · rw [show j = k by omega]; exact hk'
      rcases ih with ⟨j, m, h1, h2, h3⟩ | h1
      · exact .inl ⟨j, m, by omega, h2, ext _ h3⟩
      · exact .inr (ext _ h1)

theorem sofar_span (k : ℕ) : sofar ev k = span ev 0 k := by
  simp [sofar, span]

section
variable (h : Endless cfg w0 junk σ ev) {P : Servo F → Prop} (ht : ∀ s, P s → P (s.tick 20)) (hat : ∀ s, P s → s.atTarget = true → (s.tick 20).atTarget = true)
  {Q : Servo F → Servo F → F → F → Prop} (hcmd : ∀ i x y v t n1 n2 n3 n4 n5 n6, Q x y v t → CommandAt ev i x y v t n1 n2 n3 n4 n5 n6 → P ((σ (n6 + 1)).w.servos (armServo i)))
  (hpass : ∀ a b s', ev a = .next → a < b → Between σ b s' → (∀ j, a < j → j < b → ev j ≠ .next) → Blk Q (acts (span ev (a + 1) (b - (a + 1)))))
  (h0 : ∀ i : Fin 6, P (w0.servos (armServo i)))
include h ht hat hcmd hpass h0

/-- after a report: since the last store the servo is in order. -/
theorem order_at {k c : ℕ} (hr : ReportsAt ev k) (hck : c ≤ k) {i : Fin 6} (hn : Untouched ev (armServo i) c k) : P ((σ c).w.servos (armServo i)) := by
  obtain ⟨e, s, h1, h2, h3⟩ := pass_end h c
  refine keep_at h ht hcmd hpass h0 h1 h2 h3 ?_
  rcases Nat.lt_or_ge k e with g | g
  · have := quiet_after h hr (by omega) h2 (fun j g1 g2 => h3 j (by omega) g2) i
    intro j g1 g2
    rcases Nat.lt_or_ge j k with g' | g'
    · exact hn j g1 g'
    · exact this j g' g2
  · exact fun j g1 g2 => hn j g1 (by omega)

/-- at the target it stays. -/
theorem stays_there {a b : ℕ} {i : Fin 8} (hab : a ≤ b) (hn : Untouched ev i a b) (hP : P ((σ a).w.servos i)) (hf : ((σ a).w.servos i).atTarget = true) :
    P ((σ b).w.servos i) ∧ ((σ b).w.servos i).atTarget = true :=
  keep_stays (P := fun s => P s ∧ s.atTarget = true) h (fun s hs => ⟨ht s hs.1, hat s hs.1 hs.2⟩) hab hn ⟨hP, hf⟩

variable (h1 : ∀ i : Fin 6, (w0.servos (armServo i)).atTarget = true)
include h1

/-- at a report the servos are at their targets. -/
theorem rest_at {k : ℕ} (hr : ReportsAt ev k) (hs : SeenArrived (acts (sofar ev k))) (i : Fin 6) : P ((σ k).w.servos (armServo i)) ∧ ((σ k).w.servos (armServo i)).atTarget = true := by
  rcases last_store ev (armServo i) k with ⟨j, m, g1, g2, g3⟩ | g
  · rw [sofar_span, span_split (c := j) (Nat.zero_le _) (by omega) g2] at hs
    obtain ⟨sv, hsv, hat'⟩ := hs i _ m _ rfl
    obtain ⟨r, r1, r2, r3⟩ := mem_span.1 (acts_mem.1 hsv)
    have hrd := h.read r3
    subst hrd
    have hn : Untouched ev (armServo i) r k := fun j' g1 g2 => g3 j' (by omega) g2
    exact stays_there h ht hat hcmd hpass h0 (by omega) hn (order_at h ht hat hcmd hpass h0 hr (by omega) hn) hat'
  · refine stays_there h ht hat hcmd hpass h0 (Nat.zero_le k) g ?_ ?_
    · rw [h.boot]; exact h0 i
    · rw [h.boot]; exact h1 i

variable (hi : CalmImmediates ev)
include hi

/-- **the arm is at rest at every report.** -/
theorem rest_report {k : ℕ} (hr : ReportsAt ev k) (i : Fin 6) : P ((σ k).w.servos (armServo i)) ∧ ((σ k).w.servos (armServo i)).atTarget = true := by
  refine rest_at h ht hat hcmd hpass h0 h1 hr ?_ i
  obtain ⟨a, hk, ha⟩ := reportsAt_iff.1 hr
  have e : acts (sofar ev (k + 1)) = acts (sofar ev k) ++ a :: [] := by
    rw [show sofar ev (k + 1) = sofar ev k ++ [ev k] by simp [sofar, List.range_succ], acts_append, hk]; rfl
  refine C76_arrived_partial (h.run (k + 1)).trace ?_ ?_ e
  · intro p1 m p2 e' hnp
    have hm : Act.out (.ghost .immediate m) ∈ acts (sofar ev (k + 1)) := by rw [e']; simp
    -- the events of the list up to the immediate instruction
    have : ∀ n (p1 p2 : List (Act F)), acts (sofar ev n) = p1 ++ .out (.ghost .immediate m) :: p2 → ∃ j, ev j = .act (.out (.ghost .immediate m)) ∧ acts (sofar ev j) = p1 := by
      intro n
      induction n with
      | zero => intro p1 p2 e; simp [sofar, acts] at e
      | succ n ih =>
        intro p1 p2 e
        rw [show sofar ev (n + 1) = sofar ev n ++ [ev n] by simp [sofar, List.range_succ], acts_append] at e
        cases hv : ev n with
        | act y =>
          rw [hv] at e
          have e : acts (sofar ev n) ++ [y] = p1 ++ .out (.ghost .immediate m) :: p2 := e
          rcases List.eq_nil_or_concat p2 with rfl | ⟨p3, b, rfl⟩
          · obtain ⟨e1, e2⟩ := List.append_inj' e rfl
            injection e2 with e2
            exact ⟨n, by rw [hv, e2], e1⟩
          · have e' : acts (sofar ev n) ++ [y] = (p1 ++ .out (.ghost .immediate m) :: p3) ++ [b] := by rw [e]; simp
            exact ih _ _ (List.append_inj' e' rfl).1
        | _ =>
          rw [hv] at e
          simp only [acts, List.filterMap_cons, List.filterMap_nil, List.append_nil] at e
          exact ih _ _ e
    obtain ⟨j, hj, rfl⟩ := this _ _ _ e'
    exact hi j m hj hnp
  · rcases hr with ⟨n, hn⟩ | ⟨src, m, hs, hn⟩
    · rw [hk] at hn; injection hn with hn; exact .inl ⟨n, hn⟩
    · rw [hk] at hn; injection hn with hn; exact .inr ⟨src, m, hs, hn⟩

end

/-- the servo after a command that no interrupt fell into. -/
theorem command_end {cfg : Cfg F} {w0 : World F} {junk : Nat → Byte} {σ : ℕ → Sys F} {ev : ℕ → Ev F} (h : Endless cfg w0 junk σ ev) {i : Fin 6} {x y : Servo F} {v t : F} {n1 n2 n3 n4 n5 n6 : ℕ}
    (hc : CommandAt ev i x y v t n1 n2 n3 n4 n5 n6) (hno : ∀ j, n1 < j → j < n6 → ev j ≠ .isr) :
    ((σ (n6 + 1)).w.servos (armServo i)).cur = y.cur ∧ ((σ (n6 + 1)).w.servos (armServo i)).start = y.cur ∧ ((σ (n6 + 1)).w.servos (armServo i)).elapsed = 0 := by
  have o12 := hc.o12; have o23 := hc.o23; have o34 := hc.o34; have o45 := hc.o45; have o56 := hc.o56
  have ey := h.read hc.e3
  -- the position has not changed since the last reading
  have hcur : ((σ (n6 + 1)).w.servos (armServo i)).cur = y.cur := by
    rw [ey]
    refine proj_stays h Servo.cur (by omega) fun j k1 k2 => ?_
    cases hj : ev j with
    | isr =>
      rcases Nat.eq_or_lt_of_le k1 with rfl | k1
      · rw [hc.e3] at hj; cases hj
      · rcases Nat.lt_or_ge j n6 with g | g
        · exact absurd hj (hno j (by omega) g)
        · rw [show j = n6 by omega, hc.e6] at hj; cases hj
    | act z =>
      rcases Nat.lt_or_ge j n6 with g | g
      · rcases hc.all (by omega) g hj with e | e | e | e
        · omega
        · rw [e, hc.e3] at hj; injection hj with hj; subst hj; rfl
        · rw [e, hc.e4] at hj; injection hj with hj; subst hj; simp [evServo, Servo.micro]
        · rw [e, hc.e5] at hj; injection hj with hj; subst hj; simp [evServo, Servo.micro]
      · rw [show j = n6 by omega, hc.e6] at hj; injection hj with hj; subst hj; simp [evServo, Servo.micro]
    | _ => rfl
  have hstart : ((σ (n6 + 1)).w.servos (armServo i)).start = y.cur := by
    have ha : ((σ (n4 + 1)).w.servos (armServo i)).start = y.cur := by
      rw [servo_step h, hc.e4]; simp only [evServo, if_true, Servo.micro]
    rw [← ha]
    refine proj_stays h Servo.start (by omega) fun j k1 k2 => ?_
    cases hj : ev j with
    | isr =>
      rcases Nat.lt_or_ge j n6 with g | g
      · exact absurd hj (hno j (by omega) g)
      · rw [show j = n6 by omega, hc.e6] at hj; cases hj
    | act z =>
      rcases Nat.lt_or_ge j n6 with g | g
      · rcases hc.all (by omega) g hj with e | e | e | e
        · omega
        · omega
        · omega
        · rw [e, hc.e5] at hj; injection hj with hj; subst hj; simp [evServo, Servo.micro]
      · rw [show j = n6 by omega, hc.e6] at hj; injection hj with hj; subst hj; simp [evServo, Servo.micro]
    | _ => rfl
  have hel : ((σ (n6 + 1)).w.servos (armServo i)).elapsed = 0 := by
    have ha : ((σ (n5 + 1)).w.servos (armServo i)).elapsed = 0 := by
      rw [servo_step h, hc.e5]; simp only [evServo, if_true, Servo.micro]
    rw [← ha]
    refine proj_stays h Servo.elapsed (by omega) fun j k1 k2 => ?_
    cases hj : ev j with
    | isr =>
      rcases Nat.lt_or_ge j n6 with g | g
      · exact absurd hj (hno j (by omega) g)
      · rw [show j = n6 by omega, hc.e6] at hj; cases hj
    | act z =>
      rcases Nat.lt_or_ge j n6 with g | g
      · rcases hc.all (by omega) g hj with e | e | e | e <;> omega
      · rw [show j = n6 by omega, hc.e6] at hj; injection hj with hj; subst hj; simp [evServo, Servo.micro]
    | _ => rfl
  exact ⟨hcur, hstart, hel⟩

end Mrc.Rest
