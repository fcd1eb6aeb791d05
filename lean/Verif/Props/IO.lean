import Verif.Proof.Mril
/-
Property theorems C30-C35 (inputs, outputs, waiting).
-/
namespace Mrc.Props
open Mrc Mrc.Prog Mrc.Spec
variable {F : Type} [FloatOps F]

/-- a program performs exactly these accesses and returns this. -/
def Does {α : Type} (p : Prog F α) (tr : List (Act F)) (a : α) : Prop := Exec p tr (.ret a)

/-- **C30** (release): one check reads the pins of the pending conditions in order, up to the first unmet one.  It
releases (and forgets) the condition set exactly if every condition was observed satisfied in this one check;
otherwise the set stays as it was. -/
theorem C30_release (c : Conds) (tr : List (Act F)) (b : Bool) (c' : Conds)
    (h : Does (IOL.isDone c) tr (b, c')) :
    (b = true ∧ c' = [] ∧ tr = (effective c).map metRead) ∨
    (b = false ∧ c' = c ∧ ∃ c1 x c2, effective c = c1 ++ x :: c2 ∧ tr = c1.map metRead ++ [unmetRead x]) :=
  isDone_spec c tr b c' h

example : Does (F := F) (IOL.isDone [(3, 1), (5, 0)]) [.pin 3 true, .pin 5 true] (false, [(3, 1), (5, 0)]) :=
  .cons (.pin _ _ _) (.cons (.pin _ _ _) (.nil _))
example : Does (F := F) (IOL.isDone [(3, 1), (5, 0)]) [.pin 3 true, .pin 5 false] (true, []) :=
  .cons (.pin _ _ _) (.cons (.pin _ _ _) (.nil _))

/-- **C30** (blocking): if in a loop pass the dispatcher does anything (takes an instruction from queue or storage), then
in the completion check just before it every pending condition was observed satisfied. -/
theorem C30_blocks (cfg : Cfg F) (s : FW F) (tr u : List (Act F)) (c' : Core F) (q : Prog F (FW F))
    (h : Does (Mril.process s.core) tr c') (hu : Exec (Mrcp.process cfg { s with core := c' }) u q) (hne : u ≠ []) :
    (∀ x ∈ effective s.core.conds, metRead x ∈ tr) ∧ c'.conds = [] := by
  have hd := done_of_dispatch cfg s c' u q hu hne
  rcases process_spec _ _ _ h with ⟨c1, x, c2, _, _, rfl⟩ | ⟨_, _, rfl⟩ | ⟨_, t, ⟨_, _, rfl⟩ | ⟨_, _, rfl, rfl⟩ | ⟨_, _, rfl, rfl⟩⟩
  · simp at hd
  · simp at hd
  · simp at hd
  · exact ⟨fun x hx => by simp only [List.mem_append, List.mem_map]; exact .inl ⟨x, hx, rfl⟩, rfl⟩
  · exact ⟨fun x hx => by simp only [List.mem_append, List.mem_map]; exact .inl ⟨x, hx, rfl⟩, rfl⟩

/-- **C31**: the command O<pin><state> switches exactly the mapped pin to exactly the level given, and does nothing else
(other states than 0/1: only the pin mode). -/
theorem C31_output (cfg : Cfg F) (s : Core F) (l : Loc F) (pin st p : Nat) (rest : List Byte) (hp : pin < 10) (hs : st < 10)
    (hm : cfg.pinMap[pin]? = some p) (tr : List (Act F)) (s' : Core F) (l' : Loc F)
    (h : Does (Mril.exec cfg s l (79 :: digit pin :: digit st :: rest)) tr (s', l')) :
    s' = s ∧ tr = .out (.pinMode p .output) ::
      (if st = 1 then [.out (.digitalWrite p true)] else if st = 0 then [.out (.digitalWrite p false)] else []) := by
  have e := exec_O cfg s l pin st p rest hp hs hm
  rw [e] at h
  cases h with | cons hs he =>
  cases hs
  by_cases h1 : st = 1
  · subst h1
    cases he with | cons hs he =>
    cases hs
    obtain ⟨rfl, h3⟩ := exec_ret he
    simp at h3
    exact ⟨h3.1, rfl⟩
  · by_cases h0 : st = 0
    · subst h0
      cases he with | cons hs he =>
      cases hs
      obtain ⟨rfl, h3⟩ := exec_ret he
      simp at h3
      exact ⟨h3.1, rfl⟩
    · simp only [if_neg h1, if_neg h0] at he ⊢
      obtain ⟨rfl, h3⟩ := exec_ret he
      simp at h3
      exact ⟨h3.1, rfl⟩

/-- the controller's I/O pin table (src/main.cpp:48) used in the examples. -/
def pins10 : List Nat := [0, 1, 2, 3, 4, 5, 6, 7, 8, 9]

example (cfg : Cfg F) (s : Core F) (hm : cfg.pinMap = pins10) :
    Does (Mril.exec cfg s {} (str "O31")) [.out (.pinMode 3 .output), .out (.digitalWrite 3 true)]
      (s, { ctype := .write }) := by
  have e := exec_O cfg s {} 3 1 3 [] (by omega) (by omega) (by rw [hm]; rfl)
  rw [show str "O31" = 79 :: digit 3 :: digit 1 :: [] by decide, e]
  exact .cons (.out _ _) (.cons (.out _ _) (.nil _))

/-- **C32** fails: an instruction with eleven input conditions (33 characters, fits a frame) writes behind the table of
conditions. -/
theorem C32_capacity_false (cfg : Cfg F) (s : Core F) (p : Nat) (hm : cfg.pinMap[0]? = some p) (hc : s.conds = []) (w : World F) :
    (Mril.parse cfg s (str "I01I01I01I01I01I01I01I01I01I01I01")).run w = .error .oobWrite := by
  have h3 : ∀ c ∈ List.replicate 11 (⟨73, [48, 49]⟩ : Cmd), c.Ok := by
    intro c hc
    rw [List.eq_of_mem_replicate hc]
    exact ⟨by decide, by decide, by decide⟩
  rw [show str "I01I01I01I01I01I01I01I01I01I01I01" = text (List.replicate 11 ⟨73, [48, 49]⟩) by decide,
    parse_text cfg _ h3 (by simp)]
  have step : ∀ (s : Core F) (l : Loc F), Mril.exec cfg s l (Cmd.text ⟨73, [48, 49]⟩) =
      .out (.pinMode p .input_pulldown) (if s.conds.length ≥ MAX_PINS then .fault .oobWrite else
        .ret ({ s with conds := s.conds ++ [(p, 1)] }, { l with ctype := .write })) := by
    intro s l
    exact exec_I cfg s l 0 1 p [] (by omega) (by omega) hm
  simp [List.replicate, execAll, step, Prog.bind, Prog.run, MAX_PINS, hc]

/-- **C32** (partial): a condition is recorded as long as fewer than ten are pending, and nothing else changes.  Missing:
the eleventh (`C32_capacity_false`). -/
theorem C32_capacity_partial (cfg : Cfg F) (s : Core F) (l : Loc F) (pin st p : Nat) (rest : List Byte) (hp : pin < 10)
    (hs : st < 10) (hm : cfg.pinMap[pin]? = some p) (hc : s.conds.length < 10) :
    ∃ tr l', Does (Mril.exec cfg s l (73 :: digit pin :: digit st :: rest)) tr ({ s with conds := s.conds ++ [(p, st)] }, l') := by
  have hn : ¬ s.conds.length ≥ MAX_PINS := by show ¬ (10 ≤ s.conds.length); omega
  rw [exec_I cfg s l pin st p rest hp hs hm, if_neg hn]
  exact ⟨_, _, .cons (.out _ _) (.nil _)⟩

/-- the conditions pending after adding requests (logical pin, level) one after the other. -/
def pending (pinMap : List Nat) : List (Nat × Nat) → Conds
  | rs => rs.filterMap fun r => (pinMap[r.1]?).map fun p => (p, r.2)

/-- **C33**: getTargetState(pin) is the level required by the first pending request for that pin, 2 if there is none (pin
table without duplicates, as in main.cpp). -/
theorem C33_target_state (pinMap : List Nat) (hnd : pinMap.Nodup) (rs : List (Nat × Nat))
    (hr : ∀ r ∈ rs, r.1 < pinMap.length) (pin : Nat) (hp : pin < pinMap.length) :
    IOL.getTargetState pinMap (pending pinMap rs) pin =
      some (match rs.find? (fun r => r.1 == pin) with | some r => r.2 | none => 2) := by
  have hpp : pinMap[pin]? = some pinMap[pin] := List.getElem?_eq_getElem hp
  simp only [IOL.getTargetState, hpp]
  induction rs with
  | nil => simp [pending]
  | cons r rs ih =>
    have h1 := hr r (by simp)
    have h2 : pinMap[r.1]? = some pinMap[r.1] := List.getElem?_eq_getElem h1
    have ih' := ih (fun x hx => hr x (by simp [hx]))
    have e : pending pinMap (r :: rs) = (pinMap[r.1], r.2) :: pending pinMap rs := by
      simp [pending, h2]
    rw [e]
    by_cases hq : r.1 = pin
    · have : pinMap[r.1] = pinMap[pin] := by simp [hq]
      simp [List.find?_cons, this, hq]
    · have : pinMap[r.1] ≠ pinMap[pin] := fun h => hq ((List.getElem_inj hnd).1 h)
      simp only [List.find?_cons, beq_iff_eq, this, hq]
      rw [show (pinMap[r.1] == pinMap[pin]) = false by simpa using this, show (r.1 == pin) = false by simpa using hq]
      exact ih'

example : IOL.getTargetState pins10 (pending pins10 [(3, 1), (5, 0), (3, 0)]) 3 = some 1 ∧
    IOL.getTargetState pins10 (pending pins10 [(3, 1), (5, 0), (3, 0)]) 7 = some 2 := by decide

/-- **C34**: D<ms> executed at time t (no wrap of the 32 bit millisecond counter): at time t + e the wait counts as finished
exactly if more than ms milliseconds have passed. -/
theorem C34_wait (t ms e : Nat) (h1 : t + ms < 4294967296) :
    Wait.isDone (t + e) (Wait.waitMs t ms) = true ↔ ms < e := by
  simp only [Wait.isDone, Wait.waitMs, u32, Nat.mod_eq_of_lt h1, decide_eq_true_eq]
  omega

/-- **C34** (sequencing): D stores the wait computed from the clock, and as long as the clock read in the completion check
has not passed it, nothing is reported done, nothing is sent and the dispatcher takes nothing. -/
theorem C34_blocks (cfg : Cfg F) (s : FW F) (tr u : List (Act F)) (c' : Core F) (q : Prog F (FW F))
    (h : Does (Mril.process s.core) tr c') (hu : Exec (Mrcp.process cfg { s with core := c' }) u q) (hne : u ≠ []) :
    ∃ t, Act.now t ∈ tr ∧ s.core.waitUntil < t := by
  have hd := done_of_dispatch cfg s c' u q hu hne
  rcases process_spec _ _ _ h with ⟨c1, x, c2, _, _, rfl⟩ | ⟨_, _, rfl⟩ | ⟨_, t, ⟨_, _, rfl⟩ | ⟨ht, _, rfl, rfl⟩ | ⟨ht, _, rfl, rfl⟩⟩
  · simp at hd
  · simp at hd
  · simp at hd
  · exact ⟨t, by simp, ht⟩
  · exact ⟨t, by simp, ht⟩

/-- D<ms>: reads the clock once and sets the time to wait for; nothing else changes. -/
theorem C34_command (cfg : Cfg F) (s : Core F) (l : Loc F) (arg : List Byte) (ha : arg ≠ []) (tr : List (Act F)) (s' : Core F)
    (l' : Loc F) (h : Does (Mril.exec cfg s l (68 :: arg)) tr (s', l')) :
    ∃ t, tr = [.now t] ∧ s' = { s with waitUntil := Wait.waitMs t (u32OfInt (atol arg)) } := by
  have e : Mril.exec cfg s l (68 :: arg) = .now fun t =>
      .ret ({ s with waitUntil := Wait.waitMs t (u32OfInt (atol arg)) }, { l with ctype := .write }) := by
    simp [Mril.exec, poseIdx, ha]
  rw [e] at h
  cases h with | cons hs he =>
  cases hs with | now _ t =>
  obtain ⟨rfl, h3⟩ := exec_ret he
  simp at h3
  exact ⟨t, rfl, h3.1⟩

example : Wait.isDone (1000 + 500) (Wait.waitMs 1000 500) = false ∧ Wait.isDone (1000 + 501) (Wait.waitMs 1000 500) = true := by
  decide

/-- **C35** fails: a wait of 20 ms started 10 ms before the counter wraps is over at once. -/
theorem C35_wrap_false : ¬ ∀ t ms e : Nat, t < 4294967296 → ms < 2147483648 → e < 2147483648 →
    (Wait.isDone (u32 (t + e)) (Wait.waitMs t ms) = true ↔ ms < e) := by
  intro h
  exact absurd (h 4294967286 20 1 (by omega) (by omega) (by omega)) (by decide)

/-- **C35** (partial): exact behaviour around the wrap.  If neither the end of the wait nor the time of the check is behind
the wrap, the wait is correct; if the end of the wait is behind the wrap, the wait counts as finished at every
check before the wrap (it is skipped); if only the check is behind the wrap, it does not count as finished until the
counter passes the old value again.  Missing: correctness in the last two cases (false). -/
theorem C35_wrap_partial (t ms e : Nat) (ht : t < 4294967296) (hms : ms < 4294967296) :
    (t + ms < 4294967296 → t + e < 4294967296 → (Wait.isDone (u32 (t + e)) (Wait.waitMs t ms) = true ↔ ms < e)) ∧
    (4294967296 ≤ t + ms → t + e < 4294967296 → Wait.isDone (u32 (t + e)) (Wait.waitMs t ms) = true) ∧
    (t + ms < 4294967296 → 4294967296 ≤ t + e → t + e < 8589934592 →
      (Wait.isDone (u32 (t + e)) (Wait.waitMs t ms) = true ↔ ms + 4294967296 < e)) := by
  have key : ∀ a b : Nat, Wait.isDone a b = true ↔ b < a := by intro a b; simp [Wait.isDone]
  simp only [key, Wait.waitMs, u32]
  refine ⟨fun h1 h2 => ?_, fun h1 h2 => ?_, fun h1 h2 h3 => ?_⟩
  · omega
  · omega
  · omega

end Mrc.Props
