import Verif.Proof.Progress
import Verif.Proof.Order
import Verif.Props.Notices
/-
C78-C80: nothing accepted is forgotten.
-/
set_option linter.unusedSectionVars false
namespace Mrc.Props
open Mrc Mrc.Prog Mrc.Spec
variable {F : Type} [FloatOps F] {cfg : Cfg F} {w0 : World F} {junk : Nat → Byte} {σ : ℕ → Sys F} {ev : ℕ → Ev F}

theorem sofar_succ (ev : ℕ → Ev F) (n : ℕ) : sofar ev (n + 1) = sofar ev n ++ [ev n] := by simp [sofar, List.range_succ]
theorem view_succ (ev : ℕ → Ev F) (n : ℕ) : view ev (n + 1) = (acts [ev n]).foldl Dev.act (view ev n) := by
  rw [view, view, sofar_succ, acts_append, Dev.after, Dev.after, List.foldl_append]

theorem agrees (h : Endless cfg w0 junk σ ev) {n : ℕ} {s : FW F} (hb : Between σ n s) : Agrees s (view ev n) := by
  have := (h.run n).trace
  rw [hb] at this
  exact (trace_dev this).2

/-- the host's view after one more event that starts no instruction, but perhaps a question asked at once. -/
theorem view_step (ev : ℕ → Ev F) (n : ℕ) (hboot : (view ev n).booted = true) (hq : (view ev n).sel = .queue) (hk : KeepsQueue ev n) (hb : ¬ Orders ev n) :
    (view ev (n + 1)).booted = true ∧ (view ev (n + 1)).sel = .queue ∧ (view ev (n + 1)).started = (view ev n).started ∧ ∃ x, (view ev (n + 1)).queue = (view ev n).queue ++ x := by
  have same : view ev (n + 1) = view ev n → (view ev (n + 1)).booted = true ∧ (view ev (n + 1)).sel = .queue ∧ (view ev (n + 1)).started = (view ev n).started ∧
      ∃ x, (view ev (n + 1)).queue = (view ev n).queue ++ x := fun e => by
    rw [e]; exact ⟨hboot, hq, rfl, [], by simp⟩
  have e := view_succ ev n
  have hkn := hk n (Nat.le_refl _)
  generalize he : ev n = x at *
  match x, he with
  | .act (.rx (some b)), he =>
    have e : view ev (n + 1) = (view ev n).recv b := e
    rw [e]
    unfold Dev.recv
    by_cases hb13 : b = 13
    · subst hb13
      simp only [if_true]
      cases ho : overlong (view ev n).line with
      | true => exact ⟨hboot, hq, rfl, [], by simp⟩
      | false =>
        obtain ⟨h1, h2⟩ := hkn rfl ho
        simp only [Bool.false_eq_true, if_false]
        cases hf : frame (payload (view ev n).line) with
        | clear => exact absurd hf h1
        | store m => exact absurd hf (h2 m)
        | put m =>
          simp only [Dev.frame]
          split
          · exact ⟨hboot, rfl, rfl, [m], rfl⟩
          · exact ⟨hboot, rfl, rfl, [], by simp⟩
        | free => exact ⟨hboot, hq, rfl, [], by simp [Dev.frame]⟩
        | now m => exact ⟨hboot, hq, rfl, [], by simp [Dev.frame]⟩
        | erase => exact ⟨hboot, hq, rfl, [], by simp [Dev.frame]⟩
        | empty => exact ⟨hboot, hq, rfl, [], by simp [Dev.frame]⟩
    · simp only [hb13, if_false]
      exact ⟨hboot, hq, trivial, [], by simp⟩
  | .act (.eeRead m), he =>
    refine same ?_
    rw [e]
    show (if (view ev n).booted = true then view ev n else _) = view ev n
    rw [if_pos hboot]
  | .act (.out (.ghost .immediate m)), _ => exact same e
  | .act (.out (.ghost .queue m)), he => exact absurd ⟨.queue, m, he, by simp⟩ hb
  | .act (.out (.ghost .eeprom m)), he => exact absurd ⟨.eeprom, m, he, by simp⟩ hb
  | .act (.rx none), _ | .act (.servo _ _), _ | .act (.micro _ _), _ | .act (.now _), _ | .act (.pin _ _), _ | .act (.eeWrite _ _), _
  | .act (.out (.msg _)), _ | .act (.out (.raw _)), _ | .act (.out (.pinMode _ _)), _ | .act (.out (.digitalWrite _ _)), _
  | .next, _ | .isr, _ | .clock _, _ | .pins _, _ | .arrive _, _ => exact same e

theorem view_stays (ev : ℕ → Ev F) {n0 : ℕ} (hboot : (view ev n0).booted = true) (hq : (view ev n0).sel = .queue) (hk : KeepsQueue ev n0) (n : ℕ) (hn : n0 ≤ n)
    (hb : ∀ k, n0 ≤ k → k < n → ¬ Orders ev k) :
    (view ev n).booted = true ∧ (view ev n).sel = .queue ∧ (view ev n).started = (view ev n0).started ∧ ∃ x, (view ev n).queue = (view ev n0).queue ++ x := by
  induction n, hn using Nat.le_induction with
  | base => exact ⟨hboot, hq, rfl, [], by simp⟩
  | succ n hn ih =>
    obtain ⟨h1, h2, h3, x, h4⟩ := ih fun k h1 h2 => hb k h1 (by omega)
    obtain ⟨g1, g2, g3, y, g4⟩ := view_step ev n h1 h2 (fun k hk1 => hk k (by omega)) (hb n hn (by omega))
    exact ⟨g1, g2, by rw [g3, h3], x ++ y, by rw [g4, h4, List.append_assoc]⟩

/-- the storage has been looked at once the main loop runs. -/
theorem booted (h : Endless cfg w0 junk σ ev) {k n : ℕ} (hk : ev k = .next) (hn : k ≤ n) : (view ev n).booted = true := by
  have stay : ∀ n, (view ev n).booted = true → (view ev (n + 1)).booted = true := by
    intro n hb
    rw [view_succ]
    generalize ev n = x
    match x with
    | .act (.rx (some b)) =>
      show ((view ev n).recv b).booted = true
      unfold Dev.recv
      split
      · split
        · exact hb
        · generalize frame _ = f
          cases f <;> simp only [Dev.frame] <;> first | exact hb | (split <;> exact hb)
      · exact hb
    | .act (.eeRead m) =>
      show (if (view ev n).booted = true then view ev n else _).booted = true
      rw [if_pos hb]; exact hb
    | .act (.out (.ghost .queue m)) => exact hb
    | .act (.out (.ghost .immediate m)) | .act (.out (.ghost .eeprom m)) | .act (.rx none) | .act (.servo _ _) | .act (.micro _ _) | .act (.now _)
    | .act (.pin _ _) | .act (.eeWrite _ _) | .act (.out (.msg _)) | .act (.out (.raw _)) | .act (.out (.pinMode _ _)) | .act (.out (.digitalWrite _ _))
    | .next | .isr | .clock _ | .pins _ | .arrive _ => exact hb
  obtain ⟨s, hb, _⟩ := h.atNext hk
  induction n, hn using Nat.le_induction with
  | base => exact (agrees h hb).booted
  | succ n _ ih => exact stay n ih

/-- **C78**: nothing in the queue is forgotten.  The main loop runs and takes instructions from the queue, whose oldest one is `m`. From now on the host
sends no frame that clears the queue or switches to the storage, no immediate instruction that does more than ask begins (queuing further instructions and
asking for free space is allowed), servos left alone would arrive (see C77), and again and again there is a pass during which all inputs
waited for have the required level and the waiting time is over. Then `m` is the next instruction to begin, and it does begin. -/
theorem C78_started (h : Endless cfg w0 junk σ ev) (hP : Parts F) {n0 : ℕ} (hrun : ∃ k ≤ n0, ev k = .next) (hsel : (view ev n0).sel = .queue) {m : List Byte} {q : List (List Byte)}
    (hm : (view ev n0).queue = m :: q) (hk : KeepsQueue ev n0) (hi : OnlyAsksNow ev n0) (hf : Fair σ ev)
    (hs : ∀ n s, n0 ≤ n → Between σ n s → ∀ i, Settles ((σ n).w.servos (armServo i))) :
    ∃ n, n0 ≤ n ∧ ev n = .act (.out (.ghost .queue m)) ∧ (∀ k, n0 ≤ k → k < n → ¬ Orders ev k) ∧
      (view ev (n + 1)).started = (view ev n0).started ++ [m] ∧ ∃ x, (view ev (n + 1)).queue = q ++ x := by
  obtain ⟨k0, hk0, hk0'⟩ := hrun
  have hboot := booted h hk0' hk0
  have hex : ∃ n, n0 ≤ n ∧ Orders ev n := by
    by_contra hno
    have hno : ∀ n, n0 ≤ n → ¬ Orders ev n := fun n hn hb => hno ⟨n, hn, hb⟩
    obtain ⟨n1, h1, hrest⟩ := C77_rest h hP n0 hno hs
    obtain ⟨a, b, s, ha, hp, hrel⟩ := hf n1
    have hlt := hp.lt
    obtain ⟨s', hb', _⟩ := h.atNext hp.stop
    have hsv := h.served hP hp (fun n hn _ => hno n (by omega)) hrel hb' ((hrest b (by omega)).2.2 s' hb')
    have hag := agrees h hb'
    obtain ⟨_, g2, _, x, g4⟩ := view_stays ev hboot hsel hk b (by omega) (fun k h1 _ => hno k h1)
    have hmode := hag.mode
    rw [g2] at hmode
    have hz := hsv.2.2.2 hmode
    have : s'.rb.getSize = qSize (view ev b).queue := hag.queue.size
    rw [this, g4, hm] at hz
    simp [qSize] at hz
  classical
  have hsp := Nat.find_spec hex
  have hmin : ∀ k, n0 ≤ k → k < Nat.find hex → ¬ Orders ev k := fun k h1 h2 hb => Nat.find_min hex h2 ⟨h1, hb⟩
  generalize Nat.find hex = n at *
  obtain ⟨hn, src, m', he, ho⟩ := hsp
  obtain ⟨_, g2, g3, x, g4⟩ := view_stays ev hboot hsel hk n hn hmin
  have hok : (devMon (F := F)).ok (view ev n) (.out (.ghost src m')) := by
    have htr := (h.run (n + 1)).trace
    refine (trace_dev htr).1 (acts (sofar ev n)) _ [] ?_ rfl
    rw [sofar_succ, acts_append, he]; rfl
  cases src with
  | immediate => exact absurd ⟨rfl, hi n hn m' he⟩ ho
  | eeprom => have := hok.2.1 m' rfl; rw [g2] at this; cases this
  | queue =>
    have hh := (hok.1 m' rfl).1
    rw [g4, hm] at hh
    injection hh with hh
    subst hh
    refine ⟨n, hn, he, hmin, ?_, x, ?_⟩
    · rw [view_succ, he]; show (view ev n).started ++ [m] = _; rw [g3]
    · rw [view_succ, he]; show (view ev n).queue.tail = _; rw [g4, hm]; rfl

/-- **C79**: all of them.  Under the same conditions every instruction now in the queue is started, in order and before any other. -/
theorem C79_drained (h : Endless cfg w0 junk σ ev) (hP : Parts F) (hf : Fair σ ev) (q : List (List Byte)) : ∀ {n0 : ℕ}, (∃ k ≤ n0, ev k = .next) → (view ev n0).sel = .queue →
    (∃ x, (view ev n0).queue = q ++ x) → KeepsQueue ev n0 → OnlyAsksNow ev n0 →
    (∀ n s, n0 ≤ n → Between σ n s → ∀ i, Settles ((σ n).w.servos (armServo i))) →
    ∃ n, n0 ≤ n ∧ (view ev n).started = (view ev n0).started ++ q := by
  induction q with
  | nil => intro n0 _ _ _ _ _ _; exact ⟨n0, Nat.le_refl _, by simp⟩
  | cons m q ih =>
    rintro n0 ⟨k0, hk0, hk0'⟩ hsel ⟨x, hx⟩ hk hi hs
    obtain ⟨n, h1, h2, h3, h4, y, h5⟩ := C78_started h hP ⟨k0, hk0, hk0'⟩ hsel hx hk hi hf hs
    have hsel' : (view ev (n + 1)).sel = .queue := by
      have := (view_stays ev (booted h hk0' hk0) hsel hk n h1 h3).2.1
      rw [view_succ, h2]; exact this
    obtain ⟨n', g1, g2⟩ := ih (n0 := n + 1) ⟨k0, by omega, hk0'⟩ hsel' ⟨x ++ y, h5.trans (List.append_assoc q x y)⟩ (fun k hk' => hk k (by omega)) (fun k hk' => hi k (by omega))
      (fun k s hk' => hs k s (by omega))
    exact ⟨n', by omega, by rw [g2, h4, List.append_assoc]; rfl⟩

/-- **C111**: completion is reported, whatever the source. A numbered instruction is started (also at once), and the next immediate instruction, if any, begins only after
a report of completion. Then N1<n> is sent, before any other instruction begins. -/
theorem C111_reported (h : Endless cfg w0 junk σ ev) (hP : Parts F) {k : ℕ} {src : Src} {m : List Byte} {n : Int} (hk : ev k = .act (.out (.ghost src m)))
    (hm : Numbered m n) (hi : ∀ i m', k < i → ev i = .act (.out (.ghost .immediate m')) → ¬ Asks m' → ∃ j x, k < j ∧ j < i ∧ ev j = .act (.out (.msg (.n1 x)))) (hf : Fair σ ev)
    (hs : ∀ n s, k ≤ n → Between σ n s → ∀ i, Settles ((σ n).w.servos (armServo i))) :
    ∃ j, k < j ∧ ev j = .act (.out (.msg (.n1 n))) ∧ ∀ i, k < i → i < j → ¬ Orders ev i := by
  -- events after `k`
  have split : ∀ b, k < b → acts (sofar ev b) = acts (sofar ev k) ++ .out (.ghost src m) :: acts (span ev (k + 1) (b - (k + 1))) := by
    intro b hb
    have e : sofar ev b = sofar ev k ++ ev k :: span ev (k + 1) (b - (k + 1)) := by
      obtain ⟨d, rfl⟩ := Nat.exists_eq_add_of_le (show k + 1 ≤ b from hb)
      rw [Nat.add_sub_cancel_left]
      induction d with
      | zero => rw [Nat.add_zero, sofar_succ]; rfl
      | succ d ih => rw [← Nat.add_assoc, sofar_succ, ih (by omega), span_succ]; simp
    rw [e, acts_append, hk]; rfl
  have hmid : ∀ b, k < b → (∀ i, k < i → i < b → ¬ Orders ev i) → ∀ x ∈ acts (span ev (k + 1) (b - (k + 1))), ¬ OrdersI x := by
    rintro b hb hno x hx ⟨src', m', rfl, ho⟩
    rw [acts_mem, mem_span] at hx
    obtain ⟨i, h1, h2, h3⟩ := hx
    exact hno i (by omega) (by omega) ⟨src', m', h3, ho⟩
  -- a report of completion gives the claim
  have found : ∀ b, k < b → (∀ i, k < i → i < b → ¬ Orders ev i) → Order.reps (acts (span ev (k + 1) (b - (k + 1)))) = [n] →
      ∃ j, k < j ∧ ev j = .act (.out (.msg (.n1 n))) ∧ ∀ i, k < i → i < j → ¬ Orders ev i := by
    intro b hb hno he
    have hin : n ∈ Order.reps (acts (span ev (k + 1) (b - (k + 1)))) := by rw [he]; simp
    simp only [Order.reps, List.mem_filterMap] at hin
    obtain ⟨x, hx, hx'⟩ := hin
    have : x = .out (.msg (.n1 n)) := by
      split at hx'
      · injection hx' with e; rw [e]
      · cases hx'
    subst this
    rw [acts_mem, mem_span] at hx
    obtain ⟨j, h1, h2, h3⟩ := hx
    exact ⟨j, by omega, h3, fun i h4 h5 => hno i h4 (by omega)⟩
  by_cases hex : ∃ b, k < b ∧ Orders ev b
  · classical
    have hsp := Nat.find_spec hex
    have hmin : ∀ i, k < i → i < Nat.find hex → ¬ Orders ev i := fun i h1 h2 hb => Nat.find_min hex h2 ⟨h1, hb⟩
    generalize Nat.find hex = b at *
    obtain ⟨hb, src', m', he, ho⟩ := hsp
    by_cases himm : src' = .immediate
    · subst himm
      obtain ⟨j, x, j1, j2, j3⟩ := hi b m' hb he fun ha => ho ⟨rfl, ha⟩
      have hq : ∀ i, k < i → i < j → ¬ Orders ev i := fun i g1 g2 => hmin i g1 (by omega)
      have : x = n := by
        refine (Order.own (src := src) (pre := acts (sofar ev k)) (post := []) (h.run (j + 1)).trace ?_ (hmid j j1 hq) hm).1
        rw [sofar_succ, acts_append, split j j1, j3]
        simp [acts]
      subst this
      exact ⟨j, j1, j3, hq⟩
    have hst : Starts (.out (.ghost src' m') : Act F) := ⟨src', m', himm, rfl⟩
    refine found b hb hmin (Order.complete (src := src) (pre := acts (sofar ev k)) (post := []) (h.run (b + 1)).trace ?_ hst (hmid b hb hmin) hm)
    rw [sofar_succ, acts_append, split b hb, he]
    simp [acts]
  · have hno : ∀ i, k < i → ¬ Orders ev i := fun i hi hb => hex ⟨i, hi, hb⟩
    obtain ⟨n1, h1, hrest⟩ := C77_rest h hP (k + 1) (fun i hi => hno i hi) (fun i s hi => hs i s (by omega))
    obtain ⟨a, b, s, ha, hp, hrel⟩ := hf n1
    have hlt := hp.lt
    obtain ⟨s', hb', _⟩ := h.atNext hp.stop
    have hsv := h.served hP hp (fun i hi _ => hno i (by omega)) hrel hb' ((hrest b (by omega)).2.2 s' hb')
    have htr := (h.run b).trace
    rw [hb', split b (by omega)] at htr
    refine found b (by omega) (fun i h1 _ => hno i h1) ?_
    rcases Order.between htr (hmid b (by omega) fun i h1 _ => hno i h1) hm with h2 | h2
    · obtain ⟨_, _, _, _, _, _, _, _, _, hn⟩ := hm
      have := hsv.2.1
      omega
    · exact h2

/-- **C80**: completion is reported.  A numbered instruction is taken from the queue or the storage, no immediate instruction that does more than ask begins after it, and the conditions of C78 on
servos, inputs and waiting times hold. Then N1<n> is sent, before any other instruction begins. -/
theorem C80_reported (h : Endless cfg w0 junk σ ev) (hP : Parts F) {k : ℕ} {src : Src} {m : List Byte} {n : Int} (hk : ev k = .act (.out (.ghost src m))) (_hsrc : src ≠ .immediate)
    (hm : Numbered m n) (hi : OnlyAsksNow ev (k + 1)) (hf : Fair σ ev)
    (hs : ∀ n s, k ≤ n → Between σ n s → ∀ i, Settles ((σ n).w.servos (armServo i))) :
    ∃ j, k < j ∧ ev j = .act (.out (.msg (.n1 n))) ∧ ∀ i, k < i → i < j → ¬ Orders ev i :=
  C111_reported h hP hk hm (fun i m' h1 h2 h3 => absurd (hi i h1 m' h2) h3) hf hs

end Mrc.Props
