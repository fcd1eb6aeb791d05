import Verif.Model.RingBuffer
import Verif.Spec.Queue
/- Helper lemmas for the ring buffer: abstraction to a byte list. -/
namespace Mrc.RB

/-- buffered bytes, oldest first. -/
def abs (r : RB) : List Byte := (List.range r.length).map fun i => r.data ((r.position + i) % r.capacity)

/-- representation invariant. -/
structure WF (r : RB) : Prop where
  cap : 0 < r.capacity
  pos : r.position < r.capacity
  len : r.length ≤ r.capacity
  small : r.capacity ≤ 2147483648

@[simp] theorem abs_length (r : RB) : r.abs.length = r.length := by simp [abs]

theorem abs_get? (r : RB) (i : Nat) (h : i < r.length) :
    r.abs[i]? = some (r.data ((r.position + i) % r.capacity)) := by
  simp [abs, h]

theorem abs_new (cap : Nat) (j) : (new cap j).abs = [] := by simp [abs, new]
theorem abs_clear (r : RB) : r.clear.abs = [] := by simp [abs, clear]

theorem WF_new (cap : Nat) (j) (h : 0 < cap) (h2 : cap ≤ 2147483648) : (new cap j).WF := by
  constructor <;> simp [new] <;> omega
theorem WF_clear {r : RB} (h : r.WF) : r.clear.WF := by
  constructor <;> simp [clear] <;> first | exact h.cap | exact h.small

theorem mod_inj {p c i j : Nat} (_ : 0 < c) (hi : i < c) (hj : j < c) (h : (p + i) % c = (p + j) % c) : i = j := by
  have : (p + i) % c = (p + j) % c := h
  have a := Nat.div_add_mod (p + i) c
  have b := Nat.div_add_mod (p + j) c
  rcases Nat.lt_trichotomy ((p+i)/c) ((p+j)/c) with hh | hh | hh
  · have := Nat.mul_le_mul_left c hh
    rw [Nat.mul_succ] at this; omega
  · rw [hh] at a; omega
  · have := Nat.mul_le_mul_left c hh
    rw [Nat.mul_succ] at this; omega

theorem put_spec {r : RB} (h : r.WF) (hl : r.length < r.capacity) (b : Byte) :
    (r.put b).abs = r.abs ++ [b] ∧ (r.put b).WF := by
  have hs := h.small; have hp := h.pos
  have hu : u32 (r.position + r.length) = r.position + r.length := by
    apply Nat.mod_eq_of_lt; omega
  constructor
  · apply List.ext_getElem
    · simp [put]
    · intro i h1 h2
      simp only [abs_length, put] at h1
      simp only [abs, put, hu, List.getElem_map, List.getElem_range, store]
      by_cases hi : i = r.length
      · subst hi
        simp
      · have : i < r.length := by omega
        rw [List.getElem_append_left (by simpa using this)]
        simp only [List.getElem_map, List.getElem_range]
        rw [if_neg]
        intro heq
        exact hi (mod_inj h.cap (by omega) hl heq)
  · constructor <;> simp [put] <;> first | exact h.cap | exact h.pos | exact h.small | omega

theorem foldl_put_spec {r : RB} (h : r.WF) (m : List Byte) (hl : r.length + m.length ≤ r.capacity) :
    (m.foldl put r).abs = r.abs ++ m ∧ (m.foldl put r).WF ∧ (m.foldl put r).capacity = r.capacity := by
  induction m generalizing r with
  | nil => simp [h]
  | cons b m ih =>
    simp only [List.length_cons] at hl
    have ⟨h1, h2⟩ := put_spec h (by omega) b
    have := ih h2 (by simp [put]; omega)
    simp only [List.foldl_cons]
    refine ⟨?_, this.2.1, this.2.2⟩
    rw [this.1, h1]; simp

theorem put_capacity (r : RB) (b) : (r.put b).capacity = r.capacity := rfl

theorem length_abs (r : RB) : r.length = r.abs.length := by simp

theorem putBytes_spec {r : RB} (h : r.WF) (m : List Byte) (hm : m.length < 2147483648) :
    if r.length + m.length + 1 ≤ r.capacity then
      (r.putBytes m).2 = STATUS_OK ∧ (r.putBytes m).1.abs = r.abs ++ m ++ [END] ∧ (r.putBytes m).1.WF
        ∧ (r.putBytes m).1.capacity = r.capacity
    else r.putBytes m = (r, STATUS_FULL) := by
  have hs := h.small; have hl := h.len
  have hu : u32 (r.length + m.length) = r.length + m.length := by
    apply Nat.mod_eq_of_lt; omega
  unfold putBytes
  rw [hu]
  split
  · rw [if_pos (by omega)]
    have ⟨a, b, c⟩ := foldl_put_spec h m (by omega)
    have hlen : (m.foldl put r).length = r.length + m.length := by
      rw [length_abs, a]; simp
    have ⟨d, e⟩ := put_spec b (by omega) END
    refine ⟨rfl, ?_, e, c⟩
    simp only [d, a]
  · rw [if_neg (by omega)]

theorem get_spec {r : RB} (h : r.WF) :
    match r.abs with
    | [] => r.get = (END, r)
    | b :: t => r.get.1 = b ∧ r.get.2.abs = t ∧ r.get.2.WF ∧ r.get.2.capacity = r.capacity := by
  have hs := h.small; have hl := h.len; have hp := h.pos; have hc := h.cap
  unfold get
  by_cases h0 : r.length > 0
  · have : r.abs = r.data r.position ::
        (List.range (r.length - 1)).map (fun i => r.data ((r.position + 1 + i) % r.capacity)) := by
      apply List.ext_getElem
      · simp; omega
      · intro i h1 h2
        cases i with
        | zero => simp [abs, Nat.mod_eq_of_lt h.pos]
        | succ i => simp [abs]; congr 2; omega
    rw [this]
    simp only [h0, if_true]
    refine ⟨trivial, ?_, ?_, trivial⟩
    · simp [abs, Nat.add_mod]
    · constructor <;> simp <;> first | exact Nat.mod_lt _ hc | omega
  · have : r.abs = [] := by
      apply List.eq_nil_of_length_eq_zero; simp; omega
    rw [this]; simp [h0]

theorem getLoop_spec {r : RB} (h : r.WF) (m t : List Byte) (hm : END ∉ m) (ha : r.abs = m ++ END :: t) (n : Nat)
    (hn : m.length < n) :
    (getLoop n r).1 = m ∧ (getLoop n r).2.abs = t ∧ (getLoop n r).2.WF ∧ (getLoop n r).2.capacity = r.capacity := by
  induction m generalizing r n with
  | nil =>
    cases n with
    | zero => simp at hn
    | succ n =>
      have := get_spec h
      rw [ha] at this
      simp only [List.nil_append] at this
      simp only [getLoop, getByte, this.1, if_true]
      exact ⟨trivial, this.2⟩
  | cons b m ih =>
    cases n with
    | zero => simp at hn
    | succ n =>
      have hg := get_spec h
      rw [ha] at hg
      simp only [List.cons_append] at hg
      have hb : b ≠ END := by
        intro hb; apply hm; simp [hb]
      simp only [getLoop, getByte, hg.1, hb, if_false]
      have := ih hg.2.2.1 (by intro hh; apply hm; simp [hh]) hg.2.1 n (by simp at hn; omega)
      refine ⟨by rw [this.1], this.2.1, this.2.2.1, ?_⟩
      rw [this.2.2.2, hg.2.2.2]

theorem getMessage_spec {r : RB} (h : r.WF) (m t : List Byte) (hm : END ∉ m) (ha : r.abs = m ++ END :: t) :
    r.getMessage.1 = m ∧ r.getMessage.2.abs = t ∧ r.getMessage.2.WF ∧ r.getMessage.2.capacity = r.capacity := by
  apply getLoop_spec h m t hm ha
  have := congrArg List.length ha
  simp at this; omega

theorem getMessage_empty {r : RB} (h : r.WF) (ha : r.abs = []) : r.getMessage = ([], r) := by
  have := get_spec h
  rw [ha] at this
  simp only at this
  simp [getMessage, getLoop, getByte, this]

theorem getFromBack_spec {r : RB} (h : r.WF) :
    match r.abs.getLast? with
    | none => r.getFromBack = (0, r)
    | some b => r.getFromBack.1 = b ∧ r.getFromBack.2.abs = r.abs.dropLast ∧ r.getFromBack.2.WF
        ∧ r.getFromBack.2.capacity = r.capacity := by
  have hs := h.small; have hl := h.len; have hp := h.pos; have hc := h.cap
  unfold getFromBack
  by_cases h0 : r.length > 0
  · have hu : u32 (r.position + r.length - 1) = r.position + (r.length - 1) := by
      rw [u32, Nat.mod_eq_of_lt] <;> omega
    have hl : r.abs.getLast? = some (r.data ((r.position + (r.length - 1)) % r.capacity)) := by
      rw [List.getLast?_eq_getElem?, abs_length, abs_get? r _ (by omega)]
    rw [hl]
    simp only [h0, if_true, hu]
    refine ⟨trivial, ?_, ?_, trivial⟩
    · apply List.ext_getElem
      · simp
      · intro i h1 h2; simp [abs]
    · constructor <;> simp <;> omega
  · have : r.abs = [] := by
      apply List.eq_nil_of_length_eq_zero; simp; omega
    rw [this]; simp [h0]

theorem peek_spec {r : RB} (h : r.WF) (i : Nat) (hi : i < r.length) : r.abs[i]? = some (r.peek i) := by
  have hs := h.small; have hl := h.len; have hp := h.pos
  have hu : u32 (r.position + i) = r.position + i := by
    rw [u32, Nat.mod_eq_of_lt]; omega
  rw [abs_get? r i hi, peek, hu]

theorem putInFront_spec {r : RB} (h : r.WF) (hl : r.length < r.capacity) (b : Byte) :
    (r.putInFront b).abs = b :: r.abs ∧ (r.putInFront b).WF ∧ (r.putInFront b).capacity = r.capacity := by
  have hs := h.small; have hp := h.pos; have hc := h.cap
  have key : ∃ p, p < r.capacity ∧ (p + 1) % r.capacity = r.position ∧
      (if r.position = 0 then r.capacity - 1 else (r.position - 1) % r.capacity) = p := by
    by_cases h0 : r.position = 0
    · refine ⟨r.capacity - 1, by omega, ?_, by simp [h0]⟩
      rw [h0, Nat.sub_add_cancel hc]; simp
    · refine ⟨r.position - 1, by omega, ?_, ?_⟩
      · rw [Nat.sub_add_cancel (by omega)]; exact Nat.mod_eq_of_lt hp
      · simp [h0]; apply Nat.mod_eq_of_lt; omega
  obtain ⟨p, hp1, hp2, hp3⟩ := key
  refine ⟨?_, ?_, rfl⟩
  · apply List.ext_getElem
    · simp [putInFront]
    · intro i h1 h2
      simp only [putInFront, hp3]
      cases i with
      | zero => simp [abs, store, Nat.mod_eq_of_lt hp1]
      | succ i =>
        simp only [abs_length, putInFront] at h1
        have e : (p + (i + 1)) % r.capacity = (r.position + i) % r.capacity := by
          rw [← hp2, Nat.add_mod ((p+1) % r.capacity), Nat.mod_mod, ← Nat.add_mod]; congr 1; omega
        simp only [abs, store, List.getElem_map, List.getElem_range, List.getElem_cons_succ, e]
        rw [if_neg]
        intro hh
        have : (p + (i + 1)) % r.capacity = (p + 0) % r.capacity := by
          rw [e, hh]; exact (Nat.mod_eq_of_lt hp1).symm
        have := mod_inj hc (by omega) hc this
        omega
  · constructor <;> simp [putInFront, hp3] <;> omega

theorem foldl_putInFront_spec {r : RB} (h : r.WF) (m : List Byte) (hl : r.length + m.length ≤ r.capacity) :
    (m.foldl putInFront r).abs = m.reverse ++ r.abs ∧ (m.foldl putInFront r).WF ∧
      (m.foldl putInFront r).capacity = r.capacity := by
  induction m generalizing r with
  | nil => simp [h]
  | cons b m ih =>
    simp only [List.length_cons] at hl
    have ⟨h1, h2, h3⟩ := putInFront_spec h (by omega) b
    have := ih h2 (by simp [putInFront]; omega)
    simp only [List.foldl_cons]
    refine ⟨?_, this.2.1, by rw [this.2.2, h3]⟩
    rw [this.1, h1]; simp

end Mrc.RB
