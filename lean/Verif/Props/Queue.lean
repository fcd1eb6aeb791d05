import Verif.Proof.RingBuffer
/-
Property theorems C01-C04 (instruction queue).
-/
namespace Mrc.Props
open Mrc Mrc.Spec

/-- the implementation's answer to a queue operation. -/
def qImpl (r : RB) : QOp → RB × QOut
  | .put m => ((r.putBytes m).1, if (r.putBytes m).2 = RB.STATUS_OK then .accepted else .refused)
  | .get => (r.getMessage.2, .msg r.getMessage.1)
  | .clear => (r.clear, .unit)
  | .size => (r, .size r.getSize)

def qImplRun : RB → List QOp → List QOut
  | _, [] => []
  | r, o :: os => (qImpl r o).2 :: qImplRun (qImpl r o).1 os

/-- messages must not contain the separator '!' (they cannot: the framer only lets digits, letters and `+,-.` pass)
and are shorter than 2^31 bytes. -/
def qOk : QOp → Prop
  | .put m => (33 : Byte) ∉ m ∧ m.length < 2147483648
  | _ => True

private def enc (q : List (List Byte)) : List Byte := q.flatMap (· ++ [RB.END])

private theorem enc_length (q) : (enc q).length = qSize q := by
  induction q with
  | nil => simp [enc, qSize]
  | cons m q ih =>
    simp only [enc, qSize, List.flatMap_cons, List.length_append, List.map_cons, List.sum_cons] at *
    simp at *; try omega

private structure Rel (cap : Nat) (r : RB) (q : List (List Byte)) : Prop where
  wf : r.WF
  cap : r.capacity = cap
  abs : r.abs = enc q
  sep : ∀ m ∈ q, RB.END ∉ m

private theorem step_rel {cap r q} (h : Rel cap r q) (o : QOp) (ho : qOk o) :
    (qImpl r o).2 = (qStep cap q o).2 ∧ Rel cap (qImpl r o).1 (qStep cap q o).1 := by
  have hlen : r.length = qSize q := by rw [RB.length_abs, h.abs, enc_length]
  cases o with
  | put m =>
    obtain ⟨hs, hm⟩ := ho
    have := RB.putBytes_spec h.wf m hm
    rw [h.cap, hlen, Nat.add_assoc] at this
    by_cases hfit : qSize q + (m.length + 1) ≤ cap
    · rw [if_pos hfit] at this
      simp only [qImpl, qStep, if_pos hfit, this.1, if_true]
      refine ⟨trivial, this.2.2.1, by rw [this.2.2.2], ?_, ?_⟩
      · rw [this.2.1, h.abs]; simp [enc]
      · intro x hx
        simp at hx
        rcases hx with hx | hx
        · exact h.sep x hx
        · subst hx; exact hs
    · rw [if_neg hfit] at this
      simp [qImpl, qStep, if_neg hfit, this, RB.STATUS_OK, RB.STATUS_FULL, h]
  | get =>
    cases q with
    | nil =>
      have := RB.getMessage_empty h.wf (by rw [h.abs]; rfl)
      simp [qImpl, qStep, this, h]
    | cons m q =>
      have ⟨a, b, c, d⟩ := RB.getMessage_spec h.wf m (enc q) (h.sep m (by simp)) (by rw [h.abs]; simp [enc])
      simp only [qImpl, qStep, a]
      exact ⟨trivial, c, by rw [d, h.cap], b, fun x hx => h.sep x (by simp [hx])⟩
  | clear =>
    refine ⟨rfl, RB.WF_clear h.wf, h.cap, ?_, by simp [qStep]⟩
    simp only [qImpl, qStep, RB.abs_clear]; rfl
  | size =>
    refine ⟨?_, h⟩
    simp [qImpl, qStep, RB.getSize, hlen]

private theorem run_rel {cap r q} (h : Rel cap r q) (os : List QOp) (ho : ∀ o ∈ os, qOk o) :
    qImplRun r os = qRun cap q os := by
  induction os generalizing r q with
  | nil => rfl
  | cons o os ih =>
    have ⟨a, b⟩ := step_rel h o (ho o (by simp))
    simp only [qImplRun, qRun, a]
    rw [ih b (fun o' h' => ho o' (by simp [h']))]

/-- **C01/C02**: for every capacity and every history of put/get/clear/size operations on a fresh buffer, all results
(accepted / refused, returned messages, sizes) are those of the bounded FIFO list of messages. -/
theorem C01_queue_is_fifo (cap : Nat) (hc : 0 < cap) (hc2 : cap ≤ 2147483648) (junk : Nat → Byte)
    (os : List QOp) (ho : ∀ o ∈ os, qOk o) :
    qImplRun (RB.new cap junk) os = qRun cap [] os := by
  apply run_rel _ os ho
  exact ⟨RB.WF_new cap junk hc hc2, rfl, by rw [RB.abs_new]; rfl, by simp⟩

/-- non-vacuous: a wrapped history on a 7 byte buffer; the answers are the expected ones. -/
example : qImplRun (RB.new 7) [.put [65, 66, 67], .get, .put [68, 69, 70, 71], .put [72, 73], .size, .get, .get] =
    [.accepted, .msg [65, 66, 67], .accepted, .refused, .size 5, .msg [68, 69, 70, 71], .msg []] := by decide
example : ∀ o ∈ ([.put [65, 66, 67], .get] : List QOp), qOk o := by
  simp [qOk]

/-- state after a history. -/
def qImplState : RB → List QOp → RB
  | r, [] => r
  | r, o :: os => qImplState (qImpl r o).1 os

private theorem state_rel {cap r q} (h : Rel cap r q) (os : List QOp) (ho : ∀ o ∈ os, qOk o) :
    ∃ q', Rel cap (qImplState r os) q' := by
  induction os generalizing r q with
  | nil => exact ⟨q, h⟩
  | cons o os ih => exact ih (step_rel h o (ho o (by simp))).2 (fun o' h' => ho o' (by simp [h']))

/-- **C02**: after any history: the size never exceeds the capacity; a message of `n` bytes is accepted iff `n+1`
bytes are free, then the size grows by exactly `n+1`; a refused message leaves the object unchanged. -/
theorem C02_capacity (cap : Nat) (hc : 0 < cap) (hc2 : cap ≤ 2147483648) (junk : Nat → Byte)
    (os : List QOp) (ho : ∀ o ∈ os, qOk o) (m : List Byte) (hm : m.length < 2147483648) :
    let r := qImplState (RB.new cap junk) os
    r.getSize ≤ cap ∧ r.getCapacity = cap ∧
    ((r.putBytes m).2 = RB.STATUS_OK ↔ m.length + 1 ≤ cap - r.getSize) ∧
    ((r.putBytes m).2 = RB.STATUS_OK → (r.putBytes m).1.getSize = r.getSize + (m.length + 1)) ∧
    ((r.putBytes m).2 ≠ RB.STATUS_OK → (r.putBytes m).1 = r) := by
  intro r
  obtain ⟨q, h⟩ := state_rel (os := os) (q := []) (r := RB.new cap junk) (cap := cap)
    ⟨RB.WF_new cap junk hc hc2, rfl, by rw [RB.abs_new]; rfl, by simp⟩ ho
  change Rel cap r q at h
  have hl := h.wf.len
  have hc := h.cap
  have := RB.putBytes_spec h.wf m hm
  rw [h.cap] at this
  refine ⟨by rw [← hc]; exact hl, hc, ?_, ?_, ?_⟩
  all_goals
    split at this
    · rename_i hfit
      have hs : (r.putBytes m).1.length = r.length + (m.length + 1) := by
        rw [RB.length_abs, this.2.1]; simp <;> omega
      simp only [this.1, RB.getSize, RB.STATUS_OK, hs] <;> simp
      try omega
    · rename_i hfit
      simp only [this, RB.getSize, RB.STATUS_OK, RB.STATUS_FULL] <;> simp
      try omega

/-- **C03 is false**: on a fresh buffer of 300 bytes, `putBytesInFront("AB")` reports success, but the next message is
"A" — the last byte is lost. -/
theorem C03_putBytesInFront_false :
    ∃ r', (RB.new 300).putBytesInFront [65, 66] = some (r', RB.STATUS_OK) ∧ r'.getMessage.1 = [65] := by
  refine ⟨_, rfl, ?_⟩
  decide

/-- **C03 (partial)**: what it really does, for every reachable queue state and nonempty message that fits: the message
without its last byte becomes the next message and everything else stays.  Missing from the full statement: the last
byte (the code drops it). -/
theorem C03_putBytesInFront_partial (cap : Nat) (hc : 0 < cap) (hc2 : cap ≤ 2147483648) (junk : Nat → Byte)
    (os : List QOp) (ho : ∀ o ∈ os, qOk o) (m : List Byte) (b : Byte) (hm : (33 : Byte) ∉ m)
    (hfit : m.length + 2 ≤ cap - (qImplState (RB.new cap junk) os).getSize) :
    ∃ r', (qImplState (RB.new cap junk) os).putBytesInFront (m ++ [b]) = some (r', RB.STATUS_OK) ∧
      r'.getMessage.1 = m ∧
      ∀ os', (∀ o ∈ os', qOk o) →
        qImplRun r'.getMessage.2 os' = qImplRun (qImplState (RB.new cap junk) os) os' := by
  obtain ⟨q, h⟩ := state_rel (os := os) (q := []) (r := RB.new cap junk) (cap := cap)
    ⟨RB.WF_new cap junk hc hc2, rfl, by rw [RB.abs_new]; rfl, by simp⟩ ho
  generalize hr : qImplState (RB.new cap junk) os = r at *
  have hl := h.wf.len
  have hcap := h.cap
  simp only [RB.getSize] at hfit
  have hu : u32 (r.length + (m ++ [b]).length) = r.length + (m ++ [b]).length := by
    apply Nat.mod_eq_of_lt; simp; omega
  have ⟨e1, e2, e3⟩ := RB.putInFront_spec h.wf (by omega) RB.END
  have elen : (r.putInFront RB.END).length = r.length + 1 := rfl
  have ⟨f1, f2, f3⟩ := RB.foldl_putInFront_spec e2 m.reverse (by rw [elen, e3]; simp; omega)
  refine ⟨m.reverse.foldl RB.putInFront (r.putInFront RB.END), ?_, ?_⟩
  · unfold RB.putBytesInFront
    rw [hu, if_pos (by simp; omega), if_neg (by simp)]
    simp
  · have ha : (m.reverse.foldl RB.putInFront (r.putInFront RB.END)).abs = m ++ RB.END :: r.abs := by
      rw [f1, e1]; simp
    have ⟨g1, g2, g3, g4⟩ := RB.getMessage_spec f2 m r.abs hm ha
    refine ⟨g1, ?_⟩
    intro os' ho'
    rw [run_rel h os' ho']
    apply run_rel _ os' ho'
    exact ⟨g3, by rw [g4, f3, e3, hcap], by rw [g2, h.abs], h.sep⟩

example : (1 : Nat) + 2 ≤ 10 - (qImplState (RB.new 10) [.put [65]]).getSize := by decide

/-- byte level implementation. -/
def bImpl (r : RB) : BOp → RB × BOut
  | .get => (r.get.2, .byte r.get.1)
  | .back => (r.getFromBack.2, .byte r.getFromBack.1)
  | .peek i => (r, .byte (r.peek i))
  | .put m => ((r.putBytes m).1, .status ((r.putBytes m).2 == RB.STATUS_OK))
  | .clear => (r.clear, .unit)
  | .size => (r, .nat r.getSize)

def bImplRun : RB → List BOp → List BOut
  | _, [] => []
  | r, o :: os => (bImpl r o).2 :: bImplRun (bImpl r o).1 os

private theorem bstep_rel {cap : Nat} {r : RB} (hw : r.WF) (hc : r.capacity = cap) (o : BOp) (ho : bValid r.abs o) :
    (bImpl r o).2 = (bStep cap 33 r.abs o).2 ∧ (bImpl r o).1.abs = (bStep cap 33 r.abs o).1 ∧
    (bImpl r o).1.WF ∧ (bImpl r o).1.capacity = cap := by
  cases o with
  | get =>
    have := RB.get_spec hw
    simp only [bImpl, bStep]
    generalize r.abs = l at *
    cases l with
    | nil =>
      rw [this]
      simp only
      refine ⟨rfl, ?_, hw, hc⟩
      have := RB.get_spec hw
      cases h : r.abs with
      | nil => rfl
      | cons b t => rw [h] at this; simp_all
    | cons b t => simp [this, hc]
  | back =>
    have := RB.getFromBack_spec hw
    simp only [bImpl, bStep]
    cases h : r.abs.getLast? with
    | none =>
      rw [h] at this
      simp only [List.getLast?_eq_none_iff] at h
      simp [this, hw, hc, h]
    | some b => rw [h] at this; simp [this, hc]
  | peek i =>
    have hi : i < r.length := by simpa [bValid] using ho
    simp [bImpl, bStep, RB.peek_spec hw i hi, hw, hc]
  | put m =>
    have := RB.putBytes_spec hw m ho
    rw [hc] at this
    simp only [bImpl, bStep, RB.abs_length]
    split at this
    · rename_i hfit; rw [if_pos hfit]; simp [this, RB.END]
    · rename_i hfit; rw [if_neg hfit]; simp [this, hw, hc, RB.STATUS_OK, RB.STATUS_FULL]
  | clear => exact ⟨rfl, RB.abs_clear r, RB.WF_clear hw, hc⟩
  | size => simp [bImpl, bStep, RB.getSize, hw, hc]

/-- **C04**: every history of byte level operations behaves like a plain byte sequence. -/
theorem C04_byte_deque (cap : Nat) (hc : 0 < cap) (hc2 : cap ≤ 2147483648) (junk : Nat → Byte)
    (os : List BOp) (ho : bValidRun cap 33 [] os) :
    bImplRun (RB.new cap junk) os = bRun cap 33 [] os := by
  have gen : ∀ (r : RB), r.WF → r.capacity = cap → bValidRun cap 33 r.abs os →
      bImplRun r os = bRun cap 33 r.abs os := by
    clear ho
    induction os with
    | nil => intros; rfl
    | cons o os ih =>
      intro r hw hcap ho
      have ⟨a, b, c, d⟩ := bstep_rel hw hcap o ho.1
      simp only [bImplRun, bRun, a]
      rw [ih _ c d (by rw [b]; exact ho.2), b]
  have := gen (RB.new cap junk) (RB.WF_new cap junk hc hc2) rfl (by rw [RB.abs_new]; exact ho)
  rw [RB.abs_new] at this
  exact this

example : bValidRun 5 33 [] [.put [65, 66], .get, .peek 1, .put [67], .back] := by
  simp [bValidRun, bValid, bStep]

end Mrc.Props
