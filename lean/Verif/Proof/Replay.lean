import Verif.Proof.Store
/- Which stored messages are started. -/
set_option linter.unusedSectionVars false
namespace Mrc
open Mrc.Prog Mrc.Spec
variable {F : Type} [FloatOps F] {cfg : Cfg F} {junk : Nat → Byte}

theorem storeStarts_append (a b : List (Act F)) : storeStarts (a ++ b) = storeStarts a ++ storeStarts b := List.filterMap_append

theorem no_starts {α : Type} {K : Act F → Prop} {R : α → Prop} {p q : Prog F α} {t : List (Act F)} (e : Exec p t q) (h : p.only K R) (hK : ∀ a, K a → storeStarts [a] = []) : storeStarts t = [] := by
  have := (only_exec e h).1
  rw [storeStarts, List.filterMap_eq_nil_iff]
  intro a ha
  have h1 := hK a (this a ha)
  match a, h1 with
  | .rx _, _ | .eeRead _, _ | .eeWrite _ _, _ | .servo _ _, _ | .micro _ _, _ | .now _, _ | .pin _ _, _ | .out (.msg _), _ | .out (.raw _), _
  | .out (.pinMode _ _), _ | .out (.digitalWrite _ _), _ | .out (.ghost .queue _), _ | .out (.ghost .immediate _), _ => rfl

theorem mrilAct_starts {a : Act F} (ha : mrilAct a) : storeStarts [a] = [] := by
  match a, ha with
  | .servo _ _, _ | .micro _ _, _ | .now _, _ | .out (.msg (.n0 _)), _ | .out (.msg (.reply _ _)), _ | .out (.raw .comment), _
  | .out (.pinMode _ _), _ | .out (.digitalWrite _ _), _ => rfl

theorem parse_starts {s : Core F} {m : List Byte} {t : List (Act F)} {p : Prog F (Core F)} (e : Exec (Mril.parse cfg s m) t p) : storeStarts t = [] :=
  no_starts e (parse_only cfg s m) fun _ h => mrilAct_starts h

theorem rc_s {s : FW F} {t : List (Act F)} {p : Prog F (FW F)} (e : Exec (rcProcess cfg s) t p) : storeStarts t = [] ∧ ∀ s', p = .ret s' → s'.eePtr = s.eePtr ∧ s'.mode = s.mode := by
  have ho : (rcProcess cfg s).only rcAct (fun s' => s'.eePtr = s.eePtr ∧ s'.mode = s.mode) := by
    rw [rcProcess, only_bind]
    exact only_mono (fun _ h => h) (fun _ _ => ⟨rfl, rfl⟩) (RC.process_only cfg.toRCfg s.core.rc)
  refine ⟨no_starts e ho ?_, ?_⟩
  · intro a ha
    match a, ha with
    | .servo _ _, _ | .micro _ _, _ | .out (.raw _), _ => rfl
  · rintro s' rfl
    exact (only_exec e ho).2

theorem check_s {c : Core F} {t : List (Act F)} {p : Prog F (Core F)} (e : Exec (Mril.process c) t p) : storeStarts t = [] := by
  refine no_starts e (mrilProcess_only c) ?_
  intro a ha
  match a, ha with
  | .pin _ _, _ | .now _, _ | .out (.msg (.n1 _)), _ => rfl

theorem setup_s {t : List (Act F)} {p : Prog F (FW F)} (e : Exec (setup cfg junk) t p) : storeStarts t = [] ∧ ∀ s', p = .ret s' → s'.eePtr = 1 := by
  have ho : (setup cfg junk).only (fun a => storeStarts [a] = []) (fun s' => s'.eePtr = 1) := by
    simp only [setup, RC.new, RC.getCurrentPose, RC.getCurrentLogicalAngles, RC.readAngles, readServo, bind_def, pure_def, Prog.bind, Prog.only]
    simp [storeStarts]
  refine ⟨no_starts e ho fun _ h => h, ?_⟩
  rintro s' rfl
  exact (only_exec e ho).2

/-- a frame: no stored instruction is started; the pointer stays unless the storage is erased. -/
theorem command_ptr (s : FW F) (p : List Byte) : (Mrcp.parseCommand cfg s p).only (fun a => storeStarts [a] = []) (fun s' => (1 ≤ s.eePtr → 1 ≤ s'.eePtr) ∧ (frame p ≠ .erase → s'.eePtr = s.eePtr)) := by
  cases p with
  | nil => exact ⟨id, fun _ => rfl⟩
  | cons c m =>
    simp only [Mrcp.parseCommand, frame]
    by_cases h66 : c = 66
    · simp only [h66, if_true]
      exact ⟨rfl, id, fun _ => rfl⟩
    · simp only [h66, if_false]
      by_cases h69 : c = 69
      · simp only [h69, if_true, Mrcp.handOver]
        refine ⟨rfl, ?_⟩
        rw [only_bind]
        exact only_mono (fun _ h => mrilAct_starts h) (fun _ _ => ⟨id, fun _ => rfl⟩) (parse_only cfg s.core m)
      · simp only [h69, if_false]
        by_cases h81 : c = 81
        · simp only [h81, if_true]
          split <;> exact ⟨id, fun _ => rfl⟩
        · simp only [h81, if_false]
          by_cases h87 : c = 87
          · simp only [h87, if_true]
            by_cases hm0 : m = []
            · simp only [hm0, if_true]
              exact ⟨rfl, fun _ => Nat.le_refl _, fun h => absurd rfl h⟩
            · simp only [hm0, if_false]
              intro mem
              have hgo : ((eeWrites (EE.appendWrites mem m) : Prog F Unit).bind fun _ => .ret { s with mode := .eeprom }).only (fun a => storeStarts [a] = [])
                  (fun s' : FW F => (1 ≤ s.eePtr → 1 ≤ s'.eePtr) ∧ (Frame.store m ≠ .erase → s'.eePtr = s.eePtr)) := by
                rw [only_bind]
                have : ∀ ws, (eeWrites ws : Prog F Unit).only (fun a => storeStarts [a] = []) (fun _ => True) := by
                  intro ws
                  induction ws with
                  | nil => trivial
                  | cons w ws ih => exact ⟨rfl, ih⟩
                exact only_mono (fun _ h => h) (fun _ _ => ⟨id, fun _ => rfl⟩) (this _)
              refine ⟨rfl, ?_⟩
              show Prog.only _ _ (if _ then _ else _)
              split
              · exact ⟨rfl, hgo⟩
              · exact hgo
          · simp only [h87, if_false]
            exact ⟨id, fun _ => rfl⟩

theorem char_s {s : FW F} {line : List Byte} {b : Byte} {t : List (Act F)} {p : Prog F (FW F)} (hl : s.framer.At line) (e : Exec (Mrcp.parseChar cfg s b) t p) :
    storeStarts t = [] ∧ ∀ s', p = .ret s' → (1 ≤ s.eePtr → 1 ≤ s'.eePtr) ∧ (byteOps line b = [] → s'.eePtr = s.eePtr) := by
  have ho : (Mrcp.parseChar cfg s b).only (fun a => storeStarts [a] = []) (fun s' => (1 ≤ s.eePtr → 1 ≤ s'.eePtr) ∧ (byteOps line b = [] → s'.eePtr = s.eePtr)) := by
    simp only [Mrcp.parseChar]
    by_cases hb13 : b = 13
    · subst hb13
      obtain ⟨h1, h2⟩ := Framer.at_cr hl
      rw [h2]
      by_cases hl : (payload line).length + 1 ≥ 80
      · rw [if_pos hl]; trivial
      · rw [if_neg hl]
        by_cases ho : overlong line = true
        · simp only [ho, if_true, List.nil_append, Mrcp.events]
          exact ⟨id, fun _ => rfl⟩
        · simp only [Bool.not_eq_true] at ho
          simp only [ho, List.nil_append, Bool.false_eq_true, if_false, Mrcp.events]
          rw [bind_ret]
          refine only_mono (fun _ h => h) (fun s' h => ⟨h.1, fun hn => h.2 fun he => ?_⟩) (command_ptr { s with framer := (s.framer.step 13).1 } (payload line))
          rw [byteOps, if_pos ⟨rfl, ho⟩, he] at hn
          cases hn
    · obtain ⟨h1, h2⟩ := Framer.at_step hl b hb13
      generalize (s.framer.step b).2 = es at *
      generalize (s.framer.step b).1 = fr at *
      cases es with
      | nil => exact ⟨id, fun _ => rfl⟩
      | cons x es =>
        obtain rfl := h2 x (by simp)
        trivial
  refine ⟨no_starts e ho fun _ h => h, ?_⟩
  rintro s' rfl
  exact (only_exec e ho).2

/-- index of the next message. -/
def nextIx (L : List (List Byte)) (p : Nat) : Nat := if L.length ≤ p then 1 else p

theorem proc_s {m0 : EMem} {L : List (List Byte)} (hst : EE.Stored m0 L) {s : FW F} {t : List (Act F)} {p : Prog F (FW F)} (e : Exec (Mrcp.process cfg s) t p) (hr : ReadsTrue m0 t) :
    (storeStarts t = [] ∨ L.getD (nextIx L s.eePtr) [] ≠ [] ∧ storeStarts t = [L.getD (nextIx L s.eePtr) []]) ∧
    ∀ s', p = .ret s' → (s'.eePtr = s.eePtr ∧ storeStarts t = []) ∨
      (s'.eePtr = nextIx L s.eePtr + 1 ∧ storeStarts t = if L.getD (nextIx L s.eePtr) [] = [] then [] else [L.getD (nextIx L s.eePtr) []]) := by
  have stay : ∀ {t : List (Act F)} {p : Prog F (FW F)} {q : Prog F (FW F)}, Exec q t p → q.only (fun a => storeStarts [a] = []) (fun s' => s'.eePtr = s.eePtr) →
      (storeStarts t = [] ∨ L.getD (nextIx L s.eePtr) [] ≠ [] ∧ storeStarts t = [L.getD (nextIx L s.eePtr) []]) ∧
      ∀ s', p = .ret s' → (s'.eePtr = s.eePtr ∧ storeStarts t = []) ∨
        (s'.eePtr = nextIx L s.eePtr + 1 ∧ storeStarts t = if L.getD (nextIx L s.eePtr) [] = [] then [] else [L.getD (nextIx L s.eePtr) []]) := by
    intro t p q e h
    have hn := no_starts e h fun _ h => h
    refine ⟨.inl hn, ?_⟩
    rintro s' rfl
    exact .inl ⟨(only_exec e h).2, hn⟩
  rw [Mrcp.process] at e
  split at e
  · exact stay e rfl
  · split at e
    · split at e
      · split at e
        · refine stay e ⟨rfl, ?_⟩
          generalize s.rb.getMessage = x
          obtain ⟨m, rb⟩ := x
          show Prog.only _ _ (if _ then _ else _)
          split
          · trivial
          · refine ⟨rfl, ?_⟩
            rw [only_bind]
            exact only_mono (fun _ h => mrilAct_starts h) (fun _ _ => rfl) (parse_only cfg s.core m)
        · exact stay e rfl
      · cases e with
        | nil => exact ⟨.inl rfl, fun s' h => by cases h⟩
        | @cons _ a q t p hs e =>
          cases hs with
          | eeRead k mem =>
          have hmem : mem = m0 := hr [] mem t rfl
          subst hmem
          have hx : EE.getNextMessage mem s.eePtr = (L.getD (nextIx L s.eePtr) [], nextIx L s.eePtr + 1) := by
            simp only [EE.getNextMessage, EE.getNumberOfMessages, EE.scan_stored hst, EE.getMessage_stored hst]; rfl
          simp only [hx] at e
          have e1 : storeStarts (.eeRead mem :: t) = storeStarts t := rfl
          rw [e1]
          generalize L.getD (nextIx L s.eePtr) [] = m at *
          split at e
          · cases e with
            | nil => exact ⟨.inl rfl, fun s' h => by cases h⟩
            | cons hs _ => cases hs
          · split at e
            · rename_i hm
              have hm : m ≠ [] := by rintro rfl; exact hm rfl
              rw [Mrcp.handOver] at e
              cases e with
              | nil => exact ⟨.inl rfl, fun s' h => by cases h⟩
              | cons hs e =>
                cases hs
                rcases exec_bind e with ⟨p', ex, he⟩ | ⟨c, t1, t2, rfl, ex, e2⟩
                · refine ⟨.inr ⟨hm, ?_⟩, ?_⟩
                  · show m :: storeStarts _ = _; rw [parse_starts ex]
                  · rintro s' rfl
                    cases p' with
                    | ret c =>
                      injection he with he
                      subst he
                      exact .inr ⟨rfl, by rw [if_neg hm]; show m :: storeStarts _ = _; rw [parse_starts ex]⟩
                    | _ => cases he
                · obtain ⟨rfl, h2⟩ : t2 = [] ∧ _ = p := by
                    cases e2 with
                    | nil => exact ⟨rfl, rfl⟩
                    | cons hs _ => cases hs
                  subst h2
                  have e3 : storeStarts (.out (.ghost .eeprom m) :: (t1 ++ [])) = [m] := by
                    show m :: storeStarts (t1 ++ []) = _; rw [List.append_nil, parse_starts ex]
                  rw [e3]
                  refine ⟨.inr ⟨hm, rfl⟩, fun s' h => ?_⟩
                  injection h with h
                  subst h
                  exact .inr ⟨rfl, by rw [if_neg hm]⟩
            · rename_i hm
              have hm : m = [] := by simpa using hm
              subst hm
              cases e with
              | nil => 
                refine ⟨.inl rfl, fun s' h => ?_⟩
                injection h with h
                subst h
                exact .inr ⟨rfl, by simp [storeStarts]⟩
              | cons hs _ => cases hs
      · exact stay e rfl
    · exact stay e rfl


/-! ### the order -/

theorem storeOps_mono (r x : List Byte) : ∃ o, storeOps (r ++ x) = storeOps r ++ o := by
  generalize hl : x.length = l
  induction l generalizing x with
  | zero => rw [List.length_eq_zero_iff] at hl; subst hl; exact ⟨[], by simp⟩
  | succ l ih =>
    obtain ⟨u, b, rfl⟩ : ∃ u b, x = u ++ [b] := by
      rcases List.eq_nil_or_concat x with rfl | ⟨u, b, rfl⟩
      · cases hl
      · exact ⟨u, b, by simp⟩
    obtain ⟨o, ho⟩ := ih u (by simpa using hl)
    exact ⟨o ++ byteOps (tail (r ++ u)) b, by rw [← List.append_assoc, storeOps_snoc, ho, List.append_assoc]⟩

theorem program_congr (L : List (List Byte)) {r r' : List Byte} (h : storeOps r = storeOps r') : program L r = program L r' := by rw [program, program, h]

/-- what the dispatcher may do. -/
def Adv (L : List (List Byte)) (p p' : Nat) (y : List (List Byte)) : Prop :=
  (p' = p ∧ y = []) ∨ (p' = nextIx L p + 1 ∧ y = if L.getD (nextIx L p) [] = [] then [] else [L.getD (nextIx L p) []])

/-- `x` has been played, beginning with number `j`; `p` is the pointer. -/
def Plays (L : List (List Byte)) (j p : Nat) (x : List (List Byte)) : Prop :=
  (L.length ≤ 1 → x = []) ∧ (2 ≤ L.length → ∃ k, x = cyc L.tail j k ∧ nextIx L p - 1 = (j + k) % L.tail.length)

theorem cyc_succ (T : List (List Byte)) (j k : Nat) : cyc T j (k + 1) = cyc T j k ++ [T.getD ((j + k) % T.length) []] := by simp [cyc, List.range_succ]

theorem Plays.start (L : List (List Byte)) {p : Nat} (hp : 1 ≤ p) : Plays L (nextIx L p - 1) p [] := by
  refine ⟨fun _ => rfl, fun h => ⟨0, rfl, ?_⟩⟩
  rw [List.length_tail, Nat.add_zero, Nat.mod_eq_of_lt]
  rw [nextIx]; split <;> omega

theorem Plays.zero (L : List (List Byte)) : Plays L 0 1 [] := by
  have := Plays.start L (Nat.le_refl 1)
  have e : nextIx L 1 = 1 := by rw [nextIx]; split <;> rfl
  rw [e] at this; exact this

theorem getD_short {L : List (List Byte)} (h : L.length ≤ 1) (p : Nat) (hp : 1 ≤ p) : L.getD (nextIx L p) [] = [] := by
  rw [List.getD_eq_getElem?_getD, List.getElem?_eq_none]; rfl
  rw [nextIx]; split <;> omega

theorem getD_next {L : List (List Byte)} (h : 2 ≤ L.length) (p : Nat) (hp : 1 ≤ p) : L.getD (nextIx L p) [] = L.tail.getD (nextIx L p - 1) [] := by
  have : 1 ≤ nextIx L p := by rw [nextIx]; split <;> omega
  obtain ⟨n, e⟩ : ∃ n, nextIx L p = n + 1 := ⟨_, (Nat.sub_add_cancel this).symm⟩
  rw [e]
  cases L with
  | nil => simp at h
  | cons a L => simp

theorem getD_ne {L : List (List Byte)} (hok : ∀ m ∈ L, m ≠ [] ∧ m.length ≤ 255) (h : 2 ≤ L.length) (p : Nat) : L.getD (nextIx L p) [] ≠ [] := by
  have hlt : nextIx L p < L.length := by rw [nextIx]; split <;> omega
  rw [List.getD_eq_getElem?_getD, List.getElem?_eq_getElem hlt]
  exact (hok _ (List.getElem_mem hlt)).1

theorem Plays.next {L : List (List Byte)} {j p p' : Nat} {x y : List (List Byte)} (hok : ∀ m ∈ L, m ≠ [] ∧ m.length ≤ 255) (hp : 1 ≤ p) (h : Plays L j p x) (ha : Adv L p p' y) : Plays L j p' (x ++ y) := by
  rcases ha with ⟨rfl, rfl⟩ | ⟨rfl, rfl⟩
  · rw [List.append_nil]; exact h
  · refine ⟨fun hs => ?_, fun hl => ?_⟩
    · rw [h.1 hs, if_pos (getD_short hs p hp)]; rfl
    · obtain ⟨k, h1, h2⟩ := h.2 hl
      refine ⟨k + 1, ?_, ?_⟩
      · rw [if_neg (getD_ne hok hl p), getD_next hl p hp, h2, h1, cyc_succ]
      · have h3 : 1 ≤ nextIx L p ∧ nextIx L p < L.length := by rw [nextIx]; split <;> omega
        have hT : L.tail.length = L.length - 1 := List.length_tail
        have h4 : (j + (k + 1)) % L.tail.length = ((j + k) % L.tail.length + 1) % L.tail.length := by rw [← Nat.add_assoc, ← Nat.mod_add_mod]
        rw [h4, ← h2, hT]
        generalize nextIx L p = q at h3
        rw [nextIx]
        split
        · have : q = L.length - 1 := by omega
          subst this
          rw [Nat.sub_add_cancel (by omega), Nat.mod_self]
        · rw [Nat.sub_add_cancel h3.1, Nat.mod_eq_of_lt (by omega)]; omega

theorem Plays.any {L : List (List Byte)} {j p : Nat} {x : List (List Byte)} (h : Plays L j p x) : ∃ k, x = cyc L.tail j k ∧ (L.tail = [] → k = 0) := by
  rcases Nat.lt_or_ge L.length 2 with hl | hl
  · exact ⟨0, by rw [h.1 (by omega)]; rfl, fun _ => rfl⟩
  · obtain ⟨k, h1, h2⟩ := h.2 hl
    refine ⟨k, h1, fun e => ?_⟩
    have := congrArg List.length e
    rw [List.length_tail] at this
    simp at this; omega

/-- one phase. -/
structure Next (L : List (List Byte)) (tr : List (Act F)) (s : FW F) (t : List (Act F)) (s' : FW F) : Prop where
  pos : 1 ≤ s.eePtr → 1 ≤ s'.eePtr
  go : (storeStarts t = [] ∧ (storeOps (rxBytes (tr ++ t)) = storeOps (rxBytes tr) → s'.eePtr = s.eePtr)) ∨
    (rxBytes t = [] ∧ Adv (program L (rxBytes tr)) s.eePtr s'.eePtr (storeStarts t))

theorem Mark.phases {m0 : EMem} {L : List (List Byte)} (h0 : EE.Stored m0 L) {P : List (Act F) → FW F → Prop}
    (hs : ∀ tr s, storeStarts tr = [] → rxBytes tr = [] → s.eePtr = 1 → P tr s)
    (hn : ∀ tr s t s', Mark cfg junk tr s → EE.Stored (memAfter m0 tr) (program L (rxBytes tr)) → P tr s → Next L tr s t s' → P (tr ++ t) s')
    {tr : List (Act F)} {s : FW F} (h : Mark cfg junk tr s) (hr : ReadsTrue m0 tr) : P tr s := by
  induction h with
  | setup e => exact hs _ _ (setup_s e).1 (setup_w e).2 ((setup_s e).2 _ rfl)
  | @rc tr s t s' h e ih =>
    have hp := ((rc_s e).2 _ rfl).1
    exact hn _ _ _ _ h (h.stored h0 hr.left) (ih hr.left) ⟨fun h => by rw [hp]; exact h, .inl ⟨(rc_s e).1, fun _ => hp⟩⟩
  | none h ih => exact hn _ _ _ _ h (h.stored h0 hr.left) (ih hr.left) ⟨id, .inl ⟨rfl, fun _ => rfl⟩⟩
  | check h e ih => exact hn _ _ _ _ h (h.stored h0 hr.left) (ih hr.left) ⟨id, .inl ⟨check_s e, fun _ => rfl⟩⟩
  | @char tr s b t s' h e ih =>
    have hl := h.agrees.line
    rw [after_line] at hl
    obtain ⟨h1, h2⟩ := char_s hl e
    obtain ⟨h2, h3⟩ := h2 _ rfl
    refine hn _ _ _ _ h (h.stored h0 hr.left) (ih hr.left) ⟨h2, .inl ⟨h1, fun he => h3 ?_⟩⟩
    have hx : rxBytes (tr ++ .rx (some b) :: t) = rxBytes tr ++ [b] := by
      rw [rxBytes_append]
      show rxBytes tr ++ b :: rxBytes t = _
      rw [char_rx e]
    rw [hx, storeOps_snoc] at he
    simpa using he
  | @proc tr s t s' h e ih =>
    have hst := h.stored h0 hr.left
    have := (proc_s hst e hr.right).2 _ rfl
    refine hn _ _ _ _ h hst (ih hr.left) ⟨fun h => ?_, .inr ⟨(proc_w e).2, this⟩⟩
    rcases this with ⟨h1, -⟩ | ⟨h1, -⟩ <;> omega

theorem Mark.pos {m0 : EMem} {L : List (List Byte)} (h0 : EE.Stored m0 L) {tr : List (Act F)} {s : FW F} (h : Mark cfg junk tr s) (hr : ReadsTrue m0 tr) : 1 ≤ s.eePtr :=
  Mark.phases (P := fun _ s => 1 ≤ s.eePtr) h0 (fun _ _ _ _ h => by omega) (fun _ _ _ _ _ _ h hn => hn.pos h) h hr

theorem Mark.boot {m0 : EMem} {L : List (List Byte)} (h0 : EE.Stored m0 L) {tr : List (Act F)} {s : FW F} (h : Mark cfg junk tr s) (hr : ReadsTrue m0 tr) :
    1 ≤ s.eePtr ∧ (storeOps (rxBytes tr) = [] → Plays L 0 s.eePtr (storeStarts tr)) := by
  refine Mark.phases (P := fun tr s => 1 ≤ s.eePtr ∧ (storeOps (rxBytes tr) = [] → Plays L 0 s.eePtr (storeStarts tr))) h0 ?_ ?_ h hr
  · intro tr s h1 h2 h3
    refine ⟨by omega, fun _ => ?_⟩
    rw [h1, h3]; exact Plays.zero L
  · rintro tr s t s' - hst ⟨hp, ih⟩ hn
    refine ⟨hn.pos hp, fun hops => ?_⟩
    obtain ⟨o, ho⟩ := storeOps_mono (rxBytes tr) (rxBytes t)
    rw [← rxBytes_append, hops] at ho
    have h1 : storeOps (rxBytes tr) = [] := (List.append_eq_nil_iff.1 ho.symm).1
    have hL : program L (rxBytes tr) = L := program_congr (r' := []) L h1
    have ih := ih h1
    rw [storeStarts_append]
    rcases hn.go with ⟨g1, g2⟩ | ⟨g1, g2⟩
    · rw [g1, g2 (by rw [hops, h1]), List.append_nil]; exact ih
    · rw [hL] at g2 hst
      exact ih.next hst.ok hp g2

/-- from any moment on. -/
theorem Mark.since {m0 : EMem} {L : List (List Byte)} (h0 : EE.Stored m0 L) {tr : List (Act F)} {s : FW F} (h : Mark cfg junk tr s) (hr : ReadsTrue m0 tr) :
    1 ≤ s.eePtr ∧ ∀ a b, tr = a ++ b → storeOps (rxBytes tr) = storeOps (rxBytes a) → ∃ j, Plays (program L (rxBytes a)) j s.eePtr (storeStarts b) := by
  refine Mark.phases (P := fun tr s => 1 ≤ s.eePtr ∧ ∀ a b, tr = a ++ b → storeOps (rxBytes tr) = storeOps (rxBytes a) → ∃ j, Plays (program L (rxBytes a)) j s.eePtr (storeStarts b)) h0 ?_ ?_ h hr
  · intro tr s h1 h2 h3
    refine ⟨by omega, fun a b e _ => ?_⟩
    subst e
    rw [storeStarts_append] at h1
    rw [(List.append_eq_nil_iff.1 h1).2]
    exact ⟨_, Plays.start _ (by omega)⟩
  · rintro tr s t s' - hst ⟨hp, ih⟩ hn
    have hp' := hn.pos hp
    refine ⟨hp', fun a b e hops => ?_⟩
    rcases List.append_eq_append_iff.1 e with ⟨z, rfl, rfl⟩ | ⟨z, rfl, rfl⟩
    · -- the moment is in this phase
      by_cases hb : storeStarts b = []
      · rw [hb]; exact ⟨_, Plays.start _ hp'⟩
      · rcases hn.go with ⟨g1, -⟩ | ⟨g1, g2⟩
        · rw [storeStarts_append] at g1
          exact absurd (List.append_eq_nil_iff.1 g1).2 hb
        · have hz : rxBytes z = [] := by rw [rxBytes_append] at g1; exact (List.append_eq_nil_iff.1 g1).1
          rw [rxBytes_append, hz, List.append_nil]
          have hall : storeStarts (z ++ b) = storeStarts b := by
            rcases g2 with ⟨-, g2⟩ | ⟨-, g2⟩
            · rw [storeStarts_append] at g2
              exact absurd (List.append_eq_nil_iff.1 g2).2 hb
            · rw [storeStarts_append] at g2 ⊢
              split at g2
              · exact absurd (List.append_eq_nil_iff.1 g2).2 hb
              · rcases List.append_eq_singleton_iff.1 g2 with ⟨h1, _⟩ | ⟨_, h2⟩
                · rw [h1]; rfl
                · exact absurd h2 hb
          rw [hall] at g2
          have := (Plays.start (program L (rxBytes tr)) hp).next hst.ok hp g2
          exact ⟨_, this⟩
    · obtain ⟨o1, ho1⟩ := storeOps_mono (rxBytes a) (rxBytes z)
      obtain ⟨o2, ho2⟩ := storeOps_mono (rxBytes (a ++ z)) (rxBytes t)
      rw [← rxBytes_append] at ho1 ho2
      have h1 : o1 = [] ∧ o2 = [] := by
        rw [hops, ho1, List.append_assoc] at ho2
        exact List.append_eq_nil_iff.1 (List.append_right_eq_self.1 ho2.symm)
      rw [h1.1, List.append_nil] at ho1
      rw [h1.2, List.append_nil] at ho2
      obtain ⟨j, ih⟩ := ih a z rfl ho1
      refine ⟨j, ?_⟩
      rw [storeStarts_append]
      rcases hn.go with ⟨g1, g2⟩ | ⟨g1, g2⟩
      · rw [g1, g2 ho2, List.append_nil]; exact ih
      · rw [program_congr L ho1] at g2 hst
        exact ih.next hst.ok hp g2

/-- an arbitrary point. -/
theorem Cut.back {m0 : EMem} {L : List (List Byte)} (h0 : EE.Stored m0 L) {tr' : List (Act F)} (h : Cut cfg junk tr') (hr : ReadsTrue m0 tr') :
    storeStarts tr' = [] ∨ ∃ tr s t, tr' = tr ++ t ∧ Mark cfg junk tr s ∧ (storeStarts t = [] ∨
      rxBytes t = [] ∧ (program L (rxBytes tr)).getD (nextIx (program L (rxBytes tr)) s.eePtr) [] ≠ [] ∧ storeStarts t = [(program L (rxBytes tr)).getD (nextIx (program L (rxBytes tr)) s.eePtr) []]) := by
  cases h with
  | setup e => exact .inl (setup_s e).1
  | rc h e => exact .inr ⟨_, _, _, rfl, h, .inl (rc_s e).1⟩
  | here h => exact .inr ⟨_, _, [], by simp, h, .inl rfl⟩
  | char h e =>
    have hl := h.agrees.line
    rw [after_line] at hl
    exact .inr ⟨_, _, _, rfl, h, .inl (char_s hl e).1⟩
  | check h e => exact .inr ⟨_, _, _, rfl, h, .inl (check_s e)⟩
  | proc h e =>
    have hst := h.stored h0 hr.left
    refine .inr ⟨_, _, _, rfl, h, ?_⟩
    rcases (proc_s hst e hr.right).1 with h1 | h1
    · exact .inl h1
    · exact .inr ⟨(proc_w e).2, h1⟩

theorem Cut.boot {m0 : EMem} {L : List (List Byte)} (h0 : EE.Stored m0 L) {tr : List (Act F)} (h : Cut cfg junk tr) (hr : ReadsTrue m0 tr) (hops : storeOps (rxBytes tr) = []) :
    ∃ k, storeStarts tr = cyc L.tail 0 k ∧ (L.tail = [] → k = 0) := by
  rcases h.back h0 hr with h1 | ⟨tr, s, t, rfl, hm, hz⟩
  · exact ⟨0, by rw [h1]; rfl, fun _ => rfl⟩
  · obtain ⟨o, ho⟩ := storeOps_mono (rxBytes tr) (rxBytes t)
    rw [← rxBytes_append, hops] at ho
    have h1 : storeOps (rxBytes tr) = [] := (List.append_eq_nil_iff.1 ho.symm).1
    have hL : program L (rxBytes tr) = L := program_congr (r' := []) L h1
    obtain ⟨hp, hb⟩ := hm.boot h0 hr.left
    have hst := hm.stored h0 hr.left
    rw [hL] at hz hst
    rw [storeStarts_append]
    rcases hz with hz | ⟨-, hne, hz⟩
    · rw [hz, List.append_nil]; exact (hb h1).any
    · exact ((hb h1).next hst.ok hp (.inr ⟨rfl, by rw [if_neg hne]; exact hz⟩)).any

theorem Cut.since {m0 : EMem} {L : List (List Byte)} (h0 : EE.Stored m0 L) {a b : List (Act F)} (h : Cut cfg junk (a ++ b)) (hr : ReadsTrue m0 (a ++ b)) (hops : storeOps (rxBytes (a ++ b)) = storeOps (rxBytes a)) :
    ∃ j k, storeStarts b = cyc (program L (rxBytes a)).tail j k ∧ ((program L (rxBytes a)).tail = [] → k = 0) := by
  have none : storeStarts b = [] → ∃ j k, storeStarts b = cyc (program L (rxBytes a)).tail j k ∧ ((program L (rxBytes a)).tail = [] → k = 0) := fun e => ⟨0, 0, by rw [e]; rfl, fun _ => rfl⟩
  rcases h.back h0 hr with h1 | ⟨tr, s, t, e, hm, hz⟩
  · rw [storeStarts_append] at h1
    exact none (List.append_eq_nil_iff.1 h1).2
  · rw [e] at hr
    have hst := hm.stored h0 hr.left
    obtain ⟨hp, hb⟩ := hm.since h0 hr.left
    rcases List.append_eq_append_iff.1 e with ⟨z, rfl, rfl⟩ | ⟨z, rfl, rfl⟩
    · -- before this phase
      obtain ⟨o1, ho1⟩ := storeOps_mono (rxBytes a) (rxBytes z)
      obtain ⟨o2, ho2⟩ := storeOps_mono (rxBytes (a ++ z)) (rxBytes t)
      rw [← rxBytes_append] at ho1 ho2
      have h1 : o1 = [] ∧ o2 = [] := by
        rw [← List.append_assoc] at hops
        rw [hops, ho1, List.append_assoc] at ho2
        exact List.append_eq_nil_iff.1 (List.append_right_eq_self.1 ho2.symm)
      rw [h1.1, List.append_nil] at ho1
      obtain ⟨j, hb⟩ := hb a z rfl ho1
      rw [program_congr L ho1] at hz hst
      rw [storeStarts_append]
      refine ⟨j, ?_⟩
      rcases hz with hz | ⟨-, hne, hz⟩
      · rw [hz, List.append_nil]; exact hb.any
      · exact (hb.next hst.ok hp (.inr ⟨rfl, by rw [if_neg hne]; exact hz⟩)).any
    · by_cases hb' : storeStarts b = []
      · exact none hb'
      · rcases hz with hz | ⟨hx, hne, hz⟩
        · rw [storeStarts_append] at hz
          exact absurd (List.append_eq_nil_iff.1 hz).2 hb'
        · have hx' : rxBytes z = [] := by rw [rxBytes_append] at hx; exact (List.append_eq_nil_iff.1 hx).1
          rw [rxBytes_append, hx', List.append_nil]
          rw [storeStarts_append] at hz
          have hb'' : storeStarts b = [(program L (rxBytes tr)).getD (nextIx (program L (rxBytes tr)) s.eePtr) []] := by
            rcases List.append_eq_singleton_iff.1 hz with ⟨_, h2⟩ | ⟨_, h2⟩
            · exact h2
            · exact absurd h2 hb'
          have := (Plays.start (program L (rxBytes tr)) hp).next hst.ok hp (.inr ⟨rfl, by rw [if_neg hne]⟩)
          rw [hb'']
          exact ⟨_, this.any⟩

end Mrc
