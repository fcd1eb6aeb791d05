import Verif.Proof.Eeprom
import Verif.Model.Mrcp
/-
Property theorems C14-C19 (program storage in the EEPROM).
-/
namespace Mrc.Props
open Mrc Mrc.Spec

/-- the implementation's reaction to a storage request. -/
def eImpl (m : EMem) : EOp → EMem × EOut
  | .append x => (EE.appendMessage m x, .unit)
  | .clear => (EE.clear m, .unit)
  | .count => (m, .num (EE.getNumberOfMessages m))
  | .get i => (m, .msg (EE.getMessage m i))

/-- memory and answers after a history of requests. -/
def eImplRun : EMem → List EOp → EMem × List EOut
  | m, [] => (m, [])
  | m, o :: os => ((eImplRun (eImpl m o).1 os).1, (eImpl m o).2 :: (eImplRun (eImpl m o).1 os).2)

private theorem run_stored {m L} (h : EE.Stored m L) (ops : List EOp) (hok : ∀ o ∈ ops, eOk o) :
    EE.Stored (eImplRun m ops).1 (eRun L ops).1 ∧ (eImplRun m ops).2 = (eRun L ops).2 := by
  induction ops generalizing m L with
  | nil => exact ⟨h, rfl⟩
  | cons o os ih =>
    have ho := hok o (by simp)
    have hos : ∀ o ∈ os, eOk o := fun x hx => hok x (by simp [hx])
    have key : EE.Stored (eImpl m o).1 (eStep L o).1 ∧ (eImpl m o).2 = (eStep L o).2 := by
      cases o with
      | append x => exact ⟨EE.append_stored h x ho, rfl⟩
      | clear => exact ⟨EE.clear_stored m, rfl⟩
      | count => exact ⟨h, by simp [eImpl, eStep, EE.getNumberOfMessages, EE.scan_stored h]⟩
      | get i => exact ⟨h, by simp [eImpl, eStep, EE.getMessage_stored h]⟩
    have := ih key.1 hos
    simp only [eImplRun, eRun, key.2, this.2]
    exact ⟨this.1, trivial⟩

/-- **C14**: whatever the memory held before, after a `clear` every history of appends, clears, counts and reads is
answered exactly like by a list of messages limited to 2048 bytes (one length byte per message). -/
theorem C14_round_trip (m : EMem) (ops : List EOp) (hok : ∀ o ∈ ops, eOk o) :
    (eImplRun m (.clear :: ops)).2 = .unit :: (eRun [] ops).2 := by
  simp only [eImplRun, (run_stored (EE.clear_stored m) ops hok : _), eImpl]

example : (eImplRun (fun _ => 255) [.clear, .append (str "X1"), .append (str "Y22"), .get 1, .get 0, .count, .get 2]).2
    = [.unit, .unit, .unit, .msg (str "Y22"), .msg (str "X1"), .num 2, .msg []] := by decide +kernel

/-- memories a history of requests can produce, with the program they hold. -/
def Holds (m : EMem) (L : List (List Byte)) : Prop :=
  ∃ m0 ops, (∀ o ∈ ops, eOk o) ∧ m = (eImplRun m0 (.clear :: ops)).1 ∧ L = (eRun [] ops).1

private theorem Holds.stored {m L} (h : Holds m L) : EE.Stored m L := by
  obtain ⟨m0, ops, hok, rfl, rfl⟩ := h
  exact (run_stored (EE.clear_stored m0) ops hok).1

private theorem eImplRun_append (m : EMem) (a b : List EOp) : (eImplRun m (a ++ b)).1 = (eImplRun (eImplRun m a).1 b).1 := by
  induction a generalizing m with
  | nil => rfl
  | cons o a ih => simp only [List.cons_append, eImplRun, ih]

private theorem eRun_append (L : List (List Byte)) (a b : List EOp) : (eRun L (a ++ b)).1 = (eRun (eRun L a).1 b).1 := by
  induction a generalizing L with
  | nil => rfl
  | cons o a ih => simp only [List.cons_append, eRun, ih]

theorem Holds.append {m L} (h : Holds m L) (x : List Byte) (hx : x ≠ [] ∧ x.length ≤ 255) :
    Holds (EE.appendMessage m x) (eStep L (.append x)).1 := by
  obtain ⟨m0, ops, hok, rfl, rfl⟩ := h
  refine ⟨m0, ops ++ [.append x], ?_, ?_, ?_⟩
  · intro o ho
    rcases List.mem_append.1 ho with ho | ho
    · exact hok o ho
    · simp at ho; subst ho; exact hx
  · rw [← List.cons_append, eImplRun_append]; rfl
  · rw [eRun_append]; rfl

theorem Holds.scan {m L} (h : Holds m L) : (EE.scan m).2 = eSize L := by rw [EE.scan_stored h.stored]

/-- witness used in the examples: the storage holding "X1","Y22". -/
theorem holds_example : Holds (eImplRun (fun _ => 255) [.clear, .append (str "X1"), .append (str "Y22")]).1 [str "X1", str "Y22"] :=
  ⟨fun _ => 255, [.append (str "X1"), .append (str "Y22")], by
    intro o ho; simp at ho; rcases ho with rfl | rfl <;> exact ⟨by decide, by decide⟩, rfl, by decide⟩

/-- **C15** fails as stated: when a message exactly fills the storage, its terminator is written to address 2048, one
behind the end. -/
theorem C15_bounds_false :
    ¬ ∀ (m : EMem) (L) (x : List Byte), Holds m L → x ≠ [] ∧ x.length ≤ 255 →
        ∀ w ∈ EE.appendWrites m x, w.1 < 2048 := by
  intro h
  -- 7 messages of 255 bytes and an eighth fill the storage exactly
  obtain ⟨x, hx⟩ : ∃ x : List Byte, x.length = 255 := ⟨List.replicate 255 65, List.length_replicate⟩
  have hne : x ≠ [] ∧ x.length ≤ 255 := ⟨by intro e; simp [e] at hx, by omega⟩
  let ops : List EOp := [.append x, .append x, .append x, .append x, .append x, .append x, .append x]
  have hH : Holds (eImplRun (fun _ => 0) (.clear :: ops)).1 (eRun [] ops).1 :=
    ⟨fun _ => 0, ops, by intro o ho; simp [ops] at ho; subst ho; exact hne, rfl, rfl⟩
  have hsc := EE.scan_stored (Holds.stored hH)
  have hL : eSize (eRun [] ops).1 = 1792 := by simp [eRun, ops, eStep, eSize, hx]
  rw [hL] at hsc
  have := h _ _ x hH hne (1792 + 1 + 255, 0) (by
    simp [EE.appendWrites, hsc, EEPROM_SIZE, hx])
  omega

/-- **C15** (partial): exactly which addresses are written.  A message that does not fit writes nothing; otherwise only
addresses from the end of the stored program up to the new terminator are written, and the only address outside
the 2048 bytes that can be written is 2048 (the terminator, exactly when the storage becomes full).
Missing: that one write. -/
theorem C15_bounds_partial (m : EMem) (L) (x : List Byte) (h : Holds m L) :
    (2048 < eSize L + x.length + 1 → EE.appendWrites m x = [] ∧ EE.appendMessage m x = m) ∧
    ∀ w ∈ EE.appendWrites m x, eSize L ≤ w.1 ∧ w.1 ≤ eSize L + x.length + 1 ∧ w.1 ≤ 2048 ∧
      (w.1 = 2048 → w.2 = 0 ∧ eSize L + x.length + 1 = 2048) := by
  have hs := EE.scan_stored h.stored
  constructor
  · intro hf
    have : EE.appendWrites m x = [] := by
      simp only [EE.appendWrites, hs]; rw [if_pos]; simp only [EEPROM_SIZE]; omega
    exact ⟨this, by simp [EE.appendMessage, this, EE.writes]⟩
  · intro w hw
    simp only [EE.appendWrites, hs] at hw
    split at hw
    · simp at hw
    · next hf =>
      simp only [EEPROM_SIZE] at hf
      simp only [List.cons_append, List.mem_cons, List.mem_append, List.mem_map, List.not_mem_nil, or_false] at hw
      rcases hw with rfl | ⟨⟨a, i⟩, ha, rfl⟩ | rfl
      · exact ⟨by simp, by simp; omega, by simp; omega, by simp; omega⟩
      · have h1 := List.le_snd_of_mem_zipIdx ha
        have h2 := List.snd_lt_of_mem_zipIdx ha
        simp only at *
        exact ⟨by omega, by omega, by omega, by omega⟩
      · simp only
        exact ⟨by omega, by omega, by omega, by intro; exact ⟨trivial, by omega⟩⟩

example : ∃ m L, Holds m L ∧ EE.appendWrites m (str "Z3") ≠ [] := ⟨_, _, holds_example, by decide +kernel⟩

/-- **C16** (first half, proved): if power fails after any prefix of the byte writes of an append, all messages stored
before are still there, unchanged, at their places. -/
theorem C16_crash_keeps_old (m : EMem) (L) (x : List Byte) (h : Holds m L) (k i : Nat) (hi : i < L.length) :
    EE.getMessage (EE.writes m ((EE.appendWrites m x).take k)) i = L.getD i [] ∧
    L.length ≤ EE.getNumberOfMessages (EE.writes m ((EE.appendWrites m x).take k)) := by
  have hb := (C15_bounds_partial m L x h).2
  have hs := h.stored
  have hge : ∀ w ∈ (EE.appendWrites m x).take k, eSize L ≤ w.1 := fun w hw => (hb w (List.mem_of_mem_take hw)).1
  have hh : EE.Holds (EE.writes m ((EE.appendWrites m x).take k)) 0 (EE.enc L) := by
    refine EE.holds_congr (fun j _ hj => EE.writes_below hge j ?_) hs.holds
    simpa [EE.enc_length] using hj
  refine ⟨EE.getMessage_prefix hs.ok hh hs.fits hi, ?_⟩
  have := hs.ok.lt
  have hf := hs.fits
  exact EE.scanFrom_prefix hs.ok hh (by simpa using hf) (by omega)

/-- **C16** (second half) fails: a crash can leave a program that is neither the old nor the new one. -/
theorem C16_crash_atomic_false :
    ¬ ∀ (m : EMem) (L) (x : List Byte) (k : Nat), Holds m L → x ≠ [] ∧ x.length ≤ 255 →
        EE.getNumberOfMessages (EE.writes m ((EE.appendWrites m x).take k)) = L.length ∨
        EE.getMessage (EE.writes m ((EE.appendWrites m x).take k)) L.length = x := by
  intro h
  have := h _ _ (str "Z3") 1 holds_example ⟨by decide, by decide⟩
  exact absurd this (by decide +kernel)

/-- **C16** (partial): before the first write the program is the old one, after the last it is the new one, and every
crash in between keeps the old messages readable.  Missing: atomicity (false, `C16_crash_atomic_false`). -/
theorem C16_crash_partial (m : EMem) (L) (x : List Byte) (h : Holds m L) (hx : x ≠ [] ∧ x.length ≤ 255)
    (hf : eSize L + x.length + 1 ≤ 2048) :
    let ws := EE.appendWrites m x
    (∀ i, EE.getMessage (EE.writes m (ws.take 0)) i = L.getD i []) ∧
    (∀ i, EE.getMessage (EE.writes m (ws.take ws.length)) i = (L ++ [x]).getD i []) ∧
    (∀ k i, i < L.length → EE.getMessage (EE.writes m (ws.take k)) i = L.getD i []) := by
  refine ⟨fun i => EE.getMessage_stored h.stored i, fun i => ?_, fun k i hi => (C16_crash_keeps_old m L x h k i hi).1⟩
  have := EE.append_stored h.stored x hx
  simp only [eStep, if_pos hf] at this
  rw [List.take_length]
  exact EE.getMessage_stored this i

/-- the storage mode replay: messages returned by the next `n` calls of getNextMessage. -/
def replay (m : EMem) : Nat → Nat → List (List Byte)
  | 0, _ => []
  | n + 1, ptr => (EE.getNextMessage m ptr).1 :: replay m n (EE.getNextMessage m ptr).2

/-- **C17** fails: the first stored message is never replayed. -/
theorem C17_replay_false :
    ¬ ∀ (m : EMem) (L), Holds m L → L ≠ [] → ∀ n, replay m n 1 = (List.range n).map fun k => L.getD (k % L.length) [] := by
  intro h
  have := h _ _ holds_example (by simp) 2
  exact absurd this (by decide +kernel)

/-- **C17** (partial): all messages except the first are replayed cyclically, in order, each once per cycle (with a
single stored message nothing is replayed).  Missing: the first message, never replayed (`C17_replay_false`). -/
theorem C17_replay_partial (m : EMem) (L) (h : Holds m L) (n : Nat) :
    replay m n 1 = (List.range n).map fun k => (L.tail).getD (k % L.tail.length) [] := by
  have hs := h.stored
  have hc : EE.getNumberOfMessages m = L.length := by simp [EE.getNumberOfMessages, EE.scan_stored hs]
  have hnext : ∀ p, EE.getNextMessage m p =
      (L.getD (if L.length ≤ p then 1 else p) [], (if L.length ≤ p then 1 else p) + 1) := by
    intro p; simp only [EE.getNextMessage, hc, EE.getMessage_stored hs]
  cases L with
  | nil =>
    have : ∀ n p, replay m n p = (List.range n).map fun _ => [] := by
      intro n; induction n with
      | zero => intro p; rfl
      | succ n ih =>
        intro p
        rw [replay, hnext, ih, List.range_succ_eq_map, List.map_cons, List.map_map]; rfl
    rw [this]; simp
  | cons a T =>
    rcases Nat.eq_zero_or_pos T.length with h0 | hpos
    · have hT : T = [] := List.eq_nil_of_length_eq_zero h0
      subst hT
      have : ∀ n p, 1 ≤ p → replay m n p = (List.range n).map fun _ => [] := by
        intro n; induction n with
        | zero => intro p _; rfl
        | succ n ih =>
          intro p hp
          have e : (if [a].length ≤ p then 1 else p) = 1 := by simp [hp]
          rw [replay, hnext, e, ih _ (by omega), List.range_succ_eq_map, List.map_cons, List.map_map]; rfl
      rw [this n 1 (by omega)]; simp
    · have : ∀ n j, j ≤ T.length → replay m n (j + 1) = (List.range n).map fun k => T.getD ((j + k) % T.length) [] := by
        intro n; induction n with
        | zero => intro j _; rfl
        | succ n ih =>
          intro j hj
          rw [replay, hnext, List.range_succ_eq_map, List.map_cons, List.map_map]
          by_cases hjt : j = T.length
          · have e : (if (a :: T).length ≤ j + 1 then 1 else j + 1) = 1 := by simp [hjt]
            simp only [e]
            rw [ih 1 (by omega), hjt]
            congr 1
            · simp
            · apply List.map_congr_left
              intro k _
              simp only [Function.comp]
              rw [show T.length + k.succ = (1 + k) + T.length by omega, Nat.add_mod_right]
          · have e : (if (a :: T).length ≤ j + 1 then 1 else j + 1) = j + 1 := by simp; omega
            simp only [e]
            rw [ih (j + 1) (by omega)]
            congr 1
            · simp [Nat.mod_eq_of_lt (show j < T.length by omega)]
            · apply List.map_congr_left
              intro k _
              simp only [Function.comp]
              rw [show j + 1 + k = j + k.succ by omega]
      have := this n 0 (by omega)
      simpa using this

example : ∃ m L, Holds m L ∧ L.tail ≠ [] := ⟨_, _, holds_example, by decide⟩

variable {F : Type} [FloatOps F]

/-- **C18** (partial): after power-up the controller is in storage mode
iff at least one message is stored, else it waits for commands, and the storage is not modified by starting; together
with `C17_replay_partial` it then replays the stored messages except the first.
Missing: the first stored message is not replayed (see C17), so with exactly one message nothing is. -/
theorem C18_power_cycle_partial (cfg : Cfg F) (junk : Nat → Byte) (w w' : World F) (fw : FW F) (L)
    (h : Holds w.ee L) (hr : (setup cfg junk).run w = .ok (fw, w')) :
    w'.ee = w.ee ∧ (fw.mode = .eeprom ↔ L ≠ []) ∧ (fw.mode = .execute ↔ L = []) ∧
    ∀ n, replay w'.ee n fw.eePtr = (List.range n).map fun k => (L.tail).getD (k % L.tail.length) [] := by
  have hc : EE.getNumberOfMessages w.ee = L.length := by simp [EE.getNumberOfMessages, EE.scan_stored h.stored]
  have hrun : (setup cfg junk).run w = .ok (fw, w') → w' = w ∧ fw.eePtr = 1 ∧
      fw.mode = if EE.getNumberOfMessages w.ee > 0 then .eeprom else .execute := by
    intro hr
    have hr' : Except.ok (_, _) = Except.ok (fw, w') := hr
    simp only [Except.ok.injEq, Prod.mk.injEq] at hr'
    obtain ⟨rfl, rfl⟩ := hr'
    exact ⟨rfl, rfl, rfl⟩
  obtain ⟨rfl, h2, h3⟩ := hrun hr
  refine ⟨rfl, ?_, ?_, fun n => by rw [h2]; exact C17_replay_partial _ _ h n⟩
  · rw [h3, hc]; cases L <;> simp
  · rw [h3, hc]; cases L <;> simp

/-- **C18** fails as stated: a program of one message is not replayed at all. -/
theorem C18_single_false : ∃ (m : EMem) (x : List Byte), Holds m [x] ∧ ∀ n, replay m n 1 = List.replicate n [] := by
  refine ⟨(eImplRun (fun _ => 255) [.clear, .append (str "X1")]).1, str "X1",
    ⟨fun _ => 255, [.append (str "X1")], ?_, rfl, by decide⟩, fun n => ?_⟩
  · intro o ho; simp at ho; subst ho; exact ⟨by decide, by decide⟩
  · have := C17_replay_partial _ [str "X1"] ⟨fun _ => 255, [.append (str "X1")], by
      intro o ho; simp at ho; subst ho; exact ⟨by decide, by decide⟩, rfl, by decide⟩ n
    rw [show [EOp.clear, EOp.append (str "X1")] = .clear :: [EOp.append (str "X1")] from rfl, this]
    simp [List.map_const']

/-- **C19** (first half, proved): whatever the storage contains, scanning it ends after at most 2048 steps, at a zero byte
(more steps change nothing). -/
theorem C19_scan_terminates (m : EMem) :
    (∀ k, EE.scanFrom m (2049 + k) 0 = EE.scan m) ∧ EE.read m (EE.scan m).2 = 0 ∧ EE.getNumberOfMessages m ≤ 2048 := by
  have h := fun k => EE.scanFrom_fuel m 2049 k 0 (by simp [EEPROM_SIZE])
  refine ⟨fun k => (h k).1, (h 0).2, ?_⟩
  have : ∀ n p, (EE.scanFrom m n p).1 ≤ 2048 - p := by
    intro n
    induction n with
    | zero => intro p; simp [EE.scanFrom]
    | succ n ih =>
      intro p
      simp only [EE.scanFrom]
      split
      · simp
      · next hne =>
        have hp : p < 2048 := by
          apply Nat.lt_of_not_le; intro hle; apply hne
          rw [EE.read, if_neg (by simp only [EEPROM_SIZE]; omega)]
        have := ih (p + (EE.read m p).toNat + 1)
        simp only
        omega
  exact this _ 0

/-- **C19** (second half) fails: an erased (all 0xFF) EEPROM makes the controller start in storage mode and read a
255-byte message into its 80-byte buffer. -/
theorem C19_overrun_false :
    EE.getNumberOfMessages (fun _ => 255) > 0 ∧ (EE.getNextMessage (fun _ => 255) 1).1.length = 255 := by
  decide +kernel

/-- **C19** (partial): a message read from arbitrary storage contents has at most 255 bytes, and if the contents come from
storing messages of at most 80 bytes, it has at most 80.  Missing: arbitrary contents (`C19_overrun_false`). -/
theorem C19_overrun_partial (m : EMem) (i : Nat) :
    (EE.getMessage m i).length ≤ 255 ∧ ∀ L, Holds m L → (∀ x ∈ L, x.length ≤ 80) → (EE.getMessage m i).length ≤ 80 := by
  constructor
  · simp only [EE.getMessage]
    split
    · simp
    · rename_i p _
      have := (EE.read m p).toNat_lt
      simp; omega
  · intro L h hx
    rw [EE.getMessage_stored h.stored]
    rw [List.getD_eq_getElem?_getD]
    cases hi : L[i]? with
    | none => simp
    | some x => exact hx x (List.mem_of_getElem? hi)

end Mrc.Props
