import Verif.Proof.Flow
import Verif.Proof.Stream
import Verif.Props.System
import Verif.Proof.Demo
/-
C89: a host that counts loses nothing.
-/
set_option linter.unusedSectionVars false
namespace Mrc.Props
open Mrc Mrc.Prog Mrc.Spec
variable {F : Type} [FloatOps F]

theorem puts_append (r s : List Byte) : ∃ x, puts (r ++ s) = puts r ++ x := by
  rw [puts, decode_append, List.filterMap_append]; exact ⟨_, rfl⟩

theorem asks_append (r s : List Byte) : asks r ≤ asks (r ++ s) := by
  rw [asks, asks, decode_append, List.countP_append]; omega

theorem asks_snoc (r : List Byte) (b : Byte) : (asks (r ++ [b]) : Int) = asks r + (if b = 13 ∧ overlong (tail r) = false ∧ frame (payload (tail r)) = .free then 1 else 0) := by
  rw [asks, decode_snoc, List.countP_append, ← asks, completed]
  by_cases h1 : b = 13 <;> by_cases h2 : overlong (tail r) = false <;> by_cases h3 : frame (payload (tail r)) = .free <;> simp [h1, h2, h3]

/-- the tally is: questions read, plus instructions started, minus reports. -/
theorem tally_eq (tr : List (Act F)) : tally tr = asks (rxBytes tr) + (Dev.after tr).started.length - freeReports tr := by
  generalize hl : tr.length = l
  induction l generalizing tr with
  | zero => rw [List.length_eq_zero_iff] at hl; subst hl; rfl
  | succ l ih =>
    obtain ⟨t, a, rfl⟩ : ∃ u a, tr = u ++ [a] := by
      rcases List.eq_nil_or_concat tr with rfl | ⟨u, a, rfl⟩
      · cases hl
      · exact ⟨u, a, by simp⟩
    have i := ih t (by simpa using hl)
    have e : tally (t ++ [a]) = tally t + delta (Dev.after t) a := by
      rw [tally, tally, List.foldl_append]
      show _ + delta (t.foldl (flowMon (F := F) false).upd ({}, 0)).1 a = _
      rw [foldl_flow_fst]; rfl
    rw [e, i, after_snoc, rxBytes_append]
    have hf : freeReports (t ++ [a]) = freeReports t + freeReports [a] := by rw [freeReports, List.countP_append]; rfl
    rw [hf]
    match a with
    | .rx (some b) =>
      have h1 : ((Dev.after t).act (.rx (some b) : Act F)).started = (Dev.after t).started := by
        show ((Dev.after t).recv b).started = _
        unfold Dev.recv
        split
        · split
          · rfl
          · rw [(frame_line _ _).2]
        · rfl
      rw [h1]
      show _ + delta (Dev.after t) (.rx (some b) : Act F) = (asks (rxBytes t ++ [b]) : Int) + _ - ((freeReports t + 0 : Nat) : Int)
      rw [asks_snoc, ← after_line]
      simp only [delta, asked]
      by_cases h1 : b = 13 <;> by_cases h2 : overlong (Dev.after t).line = true <;> by_cases h3 : frame (payload (Dev.after t).line) = .free <;> simp [h1, h2, h3] <;> omega
    | .eeRead m =>
      have : ((Dev.after t).act (.eeRead m : Act F)).started = (Dev.after t).started := by
        show (if (Dev.after t).booted then _ else _ : Dev).started = _
        split <;> rfl
      rw [this]
      simp [delta, rxBytes, freeReports]
    | .out (.ghost .queue m) => simp [delta, rxBytes, freeReports, Dev.act]; omega
    | .out (.msg (.free n)) => simp [delta, rxBytes, freeReports, Dev.act]; omega
    | .out (.ghost .immediate m) | .out (.ghost .eeprom m) | .rx none | .servo _ _ | .micro _ _ | .now _ | .pin _ _ | .eeWrite _ _
    | .out (.msg (.n0 _)) | .out (.msg (.n1 _)) | .out (.msg (.reply _ _)) | .out (.raw _) | .out (.pinMode _ _) | .out (.digitalWrite _ _) => simp [delta, rxBytes, freeReports, Dev.act]

/-! ### C89 -/

theorem qSize_append (a b : List (List Byte)) : qSize (a ++ b) = qSize a + qSize b := by simp [qSize]

theorem qSize_drop_le {a : List (List Byte)} {i j : Nat} (h : i ≤ j) : qSize (a.drop j) ≤ qSize (a.drop i) := by
  have : a.drop i = (a.drop i).take (j - i) ++ a.drop j := by
    have e := List.take_append_drop (j - i) (a.drop i)
    rw [List.drop_drop, Nat.add_sub_cancel' h] at e
    exact e.symm
  rw [this, qSize_append]; omega

/-- clearing is due to a clear frame. -/
theorem cleared_iff (tr : List (Act F)) (h : ∀ p ∈ decode (rxBytes tr), frame p ≠ .clear) : (Dev.after tr).cleared = false := by
  generalize hl : tr.length = l
  induction l generalizing tr with
  | zero => rw [List.length_eq_zero_iff] at hl; subst hl; rfl
  | succ l ih =>
    obtain ⟨t, a, rfl⟩ : ∃ u a, tr = u ++ [a] := by
      rcases List.eq_nil_or_concat tr with rfl | ⟨u, a, rfl⟩
      · cases hl
      · exact ⟨u, a, by simp⟩
    rw [rxBytes_append] at h
    have i := ih t (fun p hp => h p (by rw [decode_append]; exact List.mem_append_left _ hp)) (by simpa using hl)
    rw [after_snoc]
    match a, h with
    | .rx (some b), h =>
      have h : ∀ p ∈ decode (rxBytes t ++ [b]), frame p ≠ .clear := h
      show ((Dev.after t).recv b).cleared = false
      unfold Dev.recv
      by_cases hb : b = 13
      · rw [if_pos hb]
        cases ho : overlong (Dev.after t).line
        · have := h (payload (Dev.after t).line) (by
            rw [decode_snoc, completed, ← after_line, if_pos ⟨hb, ho⟩]; simp)
          simp only [Bool.false_eq_true, if_false]
          generalize hf : frame (payload (Dev.after t).line) = f at *
          cases f <;> simp only [Dev.frame] <;> first | exact i | exact absurd rfl this | (split <;> exact i)
        · exact i
      · rw [if_neg hb]; exact i
    | .eeRead m, _ =>
      show (if (Dev.after t).booted then _ else _ : Dev).cleared = false
      split <;> exact i
    | .out (.ghost .queue m), _ | .out (.ghost .immediate m), _ | .out (.ghost .eeprom m), _ | .rx none, _ | .servo _ _, _ | .micro _ _, _ | .now _, _ | .pin _ _, _ | .eeWrite _ _, _
    | .out (.msg _), _ | .out (.raw _), _ | .out (.pinMode _ _), _ | .out (.digitalWrite _ _), _ => exact i

theorem prefix_split {x y : List (Ev F)} {r0 : List Byte} (h : CountingHost r0 (x ++ y)) : CountingHost r0 x := fun a b e => h a (b ++ y) (by rw [e]; simp)

variable {cfg : Cfg F} {w0 : World F} {junk : Nat → Byte} {evs : List (Ev F)} {s : Sys F}

/-- **C89** (nothing is lost): the host counts and never clears the queue. Then every instruction for the queue in the bytes read so far has been accepted: those started, in order
and each once, followed by those waiting in the queue, are exactly those read. -/
theorem C89_nothing_lost (h : Sys.Run cfg w0 junk evs s) (hc : CountingHost w0.rxq evs) (hq : ∀ p ∈ decode (sent w0.rxq evs), frame p ≠ .clear) :
    (Dev.after (acts evs)).started ++ (Dev.after (acts evs)).queue = puts (rxBytes (acts evs)) := by
  have key : (Dev.after (acts evs)).accepted = puts (rxBytes (acts evs)) := by
    induction h with
    | init => rfl
    | @step evs s e t h hs ih =>
      have hq' : ∀ p ∈ decode (sent w0.rxq evs), frame p ≠ .clear := fun p hp => hq p (by
        rw [sent, arrivals_append, ← List.append_assoc, decode_append]
        exact List.mem_append_left _ hp)
      have i := ih (prefix_split hc) hq'
      have hcl : (Dev.after (acts evs)).cleared = false := cleared_iff _ fun p hp => hq' p (by
        rw [sent, h.fifo, decode_append]; exact List.mem_append_left _ hp)
      have hord := C61_order h.trace hcl
      rw [acts_append]
      have same : acts [e] = [] ∨ (∃ a, acts [e] = [a] ∧ (Dev.after (acts evs ++ [a])).accepted = (Dev.after (acts evs)).accepted ∧ rxBytes [a] = []) →
          (Dev.after (acts evs ++ acts [e])).accepted = puts (rxBytes (acts evs ++ acts [e])) := by
        rintro (h | ⟨a, h, h1, h2⟩)
        · rw [h, List.append_nil]; exact i
        · rw [h, h1, rxBytes_append, h2, List.append_nil]; exact i
      cases hs with
      | @rxSome w b bs k hr =>
        show (Dev.after (acts evs ++ [.rx (some b)])).accepted = puts (rxBytes (acts evs ++ [.rx (some b)]))
        have e2 : puts (rxBytes (acts evs ++ [(.rx (some b) : Act F)])) = puts (rxBytes (acts evs)) ++ ((completed (rxBytes (acts evs)) b).filterMap fun p => match frame p with | .put m => some m | _ => none) := by
          rw [rxBytes_append]
          show puts (rxBytes (acts evs) ++ [b]) = _
          rw [puts, decode_snoc, List.filterMap_append, ← puts]; rfl
        rw [e2, after_snoc, completed, ← after_line]
        show ((Dev.after (acts evs)).recv b).accepted = _
        unfold Dev.recv
        by_cases hb : b = 13
        · rw [if_pos hb]
          cases ho : overlong (Dev.after (acts evs)).line
          · simp only [Bool.false_eq_true, if_false, hb, true_and, if_true]
            cases hf : frame (payload (Dev.after (acts evs)).line) with
            | put m =>
              -- the host's count says that it fits
              have hfit : qSize (Dev.after (acts evs)).queue + (m.length + 1) ≤ QUEUE := by
                have ht := tally_rx h.trace
                rw [tally_eq] at ht
                have hh := hc evs [_] rfl
                have hsent : sent w0.rxq evs = rxBytes (acts evs) ++ b :: bs := by rw [sent, h.fifo, hr]
                obtain ⟨x, hx⟩ : ∃ x, puts (sent w0.rxq evs) = (Dev.after (acts evs)).started ++ ((Dev.after (acts evs)).queue ++ [m]) ++ x := by
                  rw [hsent, show rxBytes (acts evs) ++ b :: bs = (rxBytes (acts evs) ++ [b]) ++ bs by simp]
                  obtain ⟨x, hx⟩ := puts_append (rxBytes (acts evs) ++ [b]) bs
                  refine ⟨x, ?_⟩
                  have : puts (rxBytes (acts evs) ++ [b]) = puts (rxBytes (acts evs)) ++ [m] := by
                    rw [puts, decode_snoc, List.filterMap_append, ← puts, completed, ← after_line, if_pos ⟨hb, ho⟩]
                    simp [hf]
                  rw [hx, this, ← i, hord]; simp
                have hask : asks (rxBytes (acts evs)) ≤ asks (sent w0.rxq evs) := by rw [hsent]; exact asks_append _ _
                have hle := qSize_drop_le (a := puts (sent w0.rxq evs)) (i := freeReports (acts evs) - asks (sent w0.rxq evs)) (j := (Dev.after (acts evs)).started.length) (by omega)
                have hd : (puts (sent w0.rxq evs)).drop (Dev.after (acts evs)).started.length = (Dev.after (acts evs)).queue ++ [m] ++ x := by rw [hx, List.append_assoc, List.drop_left]
                rw [hd, qSize_append, qSize_append] at hle
                have : qSize [m] = m.length + 1 := by simp [qSize]
                omega
              simp only [Dev.frame, if_pos hfit]
              rw [i]; simp [hf]
            | free => simp [Dev.frame, hf, i]
            | now m => simp [Dev.frame, hf, i]
            | clear => simp [Dev.frame, hf, i]
            | erase => simp [Dev.frame, hf, i]
            | store m => simp [Dev.frame, hf, i]
            | empty => simp [Dev.frame, hf, i]
          · simp [i]
        · rw [if_neg hb, if_neg (fun h => hb h.1)]; simp [i]
      | loop => exact same (.inl rfl)
      | isr => exact same (.inl rfl)
      | clock t ht => exact same (.inl rfl)
      | pins f => exact same (.inl rfl)
      | arrive bs => exact same (.inl rfl)
      | @eeRead w k => exact same (.inr ⟨_, rfl, by rw [after_snoc]; show (if (Dev.after (acts evs)).booted then _ else _ : Dev).accepted = _; split <;> rfl, rfl⟩)
      | @out w o k =>
        refine same (.inr ⟨_, rfl, ?_, rfl⟩)
        rw [after_snoc]
        match o with
        | .ghost .queue _ | .ghost .immediate _ | .ghost .eeprom _ | .msg _ | .raw _ | .pinMode _ _ | .digitalWrite _ _ => rfl
      | servo => exact same (.inr ⟨_, rfl, by rw [after_snoc]; rfl, rfl⟩)
      | micro => exact same (.inr ⟨_, rfl, by rw [after_snoc]; rfl, rfl⟩)
      | now => exact same (.inr ⟨_, rfl, by rw [after_snoc]; rfl, rfl⟩)
      | pin => exact same (.inr ⟨_, rfl, by rw [after_snoc]; rfl, rfl⟩)
      | rxNone hr => exact same (.inr ⟨_, rfl, by rw [after_snoc]; rfl, rfl⟩)
      | eeWrite => exact same (.inr ⟨_, rfl, by rw [after_snoc]; rfl, rfl⟩)
  have hcl : (Dev.after (acts evs)).cleared = false := cleared_iff _ fun p hp => hq p (by
    rw [sent, h.fifo, decode_append]; exact List.mem_append_left _ hp)
  rw [← C61_order h.trace hcl, key]

/-- **C89** (what is executed): the instructions started from the queue are the first ones sent, in order, each once. -/
theorem C89_started (h : Sys.Run cfg w0 junk evs s) (hc : CountingHost w0.rxq evs) (hq : ∀ p ∈ decode (sent w0.rxq evs), frame p ≠ .clear) :
    (Dev.after (acts evs)).started <+: puts (sent w0.rxq evs) := by
  have h1 := C89_nothing_lost h hc hq
  obtain ⟨x, hx⟩ := puts_append (rxBytes (acts evs)) s.w.rxq
  rw [sent, h.fifo, hx, ← h1, List.append_assoc]
  exact List.prefix_append _ _

end Mrc.Props
