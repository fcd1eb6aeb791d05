import Verif.Model.Eeprom
import Verif.Spec.Storage
/- Helper lemmas for the EEPROM storage. -/
namespace Mrc
open Spec
namespace EE

/-- memory image of a program. -/
def enc (L : List (List Byte)) : List Byte := L.flatMap fun m => UInt8.ofNat m.length :: m

theorem enc_cons (m L) : enc (m :: L) = UInt8.ofNat m.length :: m ++ enc L := rfl

theorem enc_append (L K) : enc (L ++ K) = enc L ++ enc K := by simp [enc]

theorem enc_length (L) : (enc L).length = eSize L := by
  induction L with
  | nil => simp [enc, eSize]
  | cons m L ih =>
    rw [enc_cons]
    simp [eSize] at *
    omega

/-- memory holds `bs` at `p`. -/
def Holds (m : EMem) : Nat → List Byte → Prop
  | _, [] => True
  | p, b :: bs => m p = b ∧ Holds m (p + 1) bs

theorem holds_append (m p a b) : Holds m p (a ++ b) ↔ Holds m p a ∧ Holds m (p + a.length) b := by
  induction a generalizing p with
  | nil => simp [Holds]
  | cons x a ih =>
    simp only [List.cons_append, Holds, ih, List.length_cons, and_assoc]
    have : p + 1 + a.length = p + (a.length + 1) := by omega
    rw [this]

theorem holds_congr {m m' : EMem} {p : Nat} {bs : List Byte} (h : ∀ j, p ≤ j → j < p + bs.length → m' j = m j)
    (hm : Holds m p bs) : Holds m' p bs := by
  induction bs generalizing p with
  | nil => trivial
  | cons b bs ih =>
    simp only [Holds, List.length_cons] at *
    refine ⟨by rw [h p (by omega) (by omega)]; exact hm.1, ih (fun j h1 h2 => h j (by omega) (by omega)) hm.2⟩

theorem read_holds {m : EMem} {p : Nat} {bs : List Byte} (h : Holds m p bs) (hb : p + bs.length ≤ EEPROM_SIZE) :
    (List.range bs.length).map (fun k => read m (p + k)) = bs := by
  induction bs generalizing p with
  | nil => simp
  | cons b bs ih =>
    simp only [Holds, List.length_cons] at *
    rw [List.range_succ_eq_map, List.map_cons, List.map_map]
    have e := ih h.2 (by omega)
    have : (fun k => read m (p + k)) ∘ Nat.succ = fun k => read m (p + 1 + k) := by
      funext k; simp only [Function.comp, Nat.succ_eq_add_one]; congr 1; omega
    rw [this, e]
    have : read m (p + 0) = b := by
      simp only [read, Nat.add_zero]
      rw [if_pos (by omega)]; exact h.1
    rw [this]

/-- every message is storable. -/
def Ok (L : List (List Byte)) : Prop := ∀ m ∈ L, m ≠ [] ∧ m.length ≤ 255

theorem Ok.lt {L} (h : Ok L) : 2 * L.length ≤ eSize L := by
  induction L with
  | nil => simp
  | cons m L ih =>
    have h1 := (h m (by simp)).1
    have h2 := ih (fun x hx => h x (by simp [hx]))
    have : 0 < m.length := List.length_pos_iff.2 h1
    simp [eSize] at *
    omega

/-- the memory stores the program L. -/
structure Stored (m : EMem) (L : List (List Byte)) : Prop where
  ok : Ok L
  holds : Holds m 0 (enc L)
  fits : eSize L ≤ EEPROM_SIZE
  term : read m (eSize L) = 0

theorem len_byte {x : List Byte} (h : x ≠ [] ∧ x.length ≤ 255) :
    (UInt8.ofNat x.length).toNat = x.length ∧ UInt8.ofNat x.length ≠ 0 := by
  have h0 : 0 < x.length := List.length_pos_iff.2 h.1
  have h1 : (UInt8.ofNat x.length).toNat = x.length := by
    rw [UInt8.toNat_ofNat']; omega
  refine ⟨h1, fun e => ?_⟩
  rw [e] at h1
  simp at h1
  omega

theorem scanFrom_enc {m : EMem} {L} (hL : Ok L) {p n : Nat} (h : Holds m p (enc L)) (hp : p + eSize L ≤ EEPROM_SIZE)
    (ht : read m (p + eSize L) = 0) (hn : L.length < n) : scanFrom m n p = (L.length, p + eSize L) := by
  induction L generalizing p n with
  | nil =>
    obtain ⟨n, rfl⟩ : ∃ k, n = k + 1 := ⟨n - 1, by simp at hn; omega⟩
    simp [eSize] at ht
    simp [scanFrom, ht, eSize]
  | cons x L ih =>
    obtain ⟨n, rfl⟩ : ∃ k, n = k + 1 := ⟨n - 1, by simp at hn; omega⟩
    have hx := hL x (by simp)
    obtain ⟨l1, l2⟩ := len_byte hx
    have es : eSize (x :: L) = x.length + 1 + eSize L := by simp [eSize]
    rw [enc_cons, List.cons_append, Holds, holds_append] at h
    have hr : read m p = UInt8.ofNat x.length := by
      rw [read, if_pos (by omega)]; exact h.1
    have hstep := ih (fun y hy => hL y (by simp [hy])) (p := p + 1 + x.length) (n := n) h.2.2 (by omega)
      (by rw [es] at ht; rw [← ht]; congr 1; omega) (by simp at hn; omega)
    rw [scanFrom, hr, if_neg l2, l1, show p + x.length + 1 = p + 1 + x.length by omega, hstep]
    simp [es]; omega

theorem scan_stored {m L} (h : Stored m L) : scan m = (L.length, eSize L) := by
  have := h.ok.lt
  have hf := h.fits
  have := scanFrom_enc (n := EEPROM_SIZE + 1) h.ok h.holds (by simpa using hf) (by simpa using h.term) (by omega)
  simpa [scan] using this

theorem msgPos_enc {m : EMem} {L} (hL : Ok L) {p i : Nat} (h : Holds m p (enc L)) (hp : p + eSize L ≤ EEPROM_SIZE)
    (ht : read m (p + eSize L) = 0) :
    (match msgPos m i p with
      | none => []
      | some q => (List.range (read m q).toNat).map (fun k => read m (q + 1 + k))) = L.getD i [] := by
  induction L generalizing p i with
  | nil =>
    simp [eSize] at ht
    cases i with
    | zero => simp [msgPos, ht]
    | succ i => simp [msgPos, ht]
  | cons x L ih =>
    have hx := hL x (by simp)
    obtain ⟨l1, l2⟩ := len_byte hx
    have es : eSize (x :: L) = x.length + 1 + eSize L := by simp [eSize]
    rw [enc_cons, List.cons_append, Holds, holds_append] at h
    have hr : read m p = UInt8.ofNat x.length := by
      rw [read, if_pos (by omega)]; exact h.1
    cases i with
    | zero =>
      simp only [msgPos, hr, l1, List.getD_cons_zero]
      exact read_holds h.2.1 (by omega)
    | succ i =>
      simp only [msgPos, hr, if_neg l2, l1, List.getD_cons_succ]
      rw [show p + x.length + 1 = p + 1 + x.length by omega]
      exact ih (fun y hy => hL y (by simp [hy])) h.2.2 (by omega) (by rw [es] at ht; rw [← ht]; congr 1; omega)

theorem getMessage_stored {m L} (h : Stored m L) (i : Nat) : getMessage m i = L.getD i [] := by
  have := msgPos_enc (i := i) h.ok h.holds (by simpa using h.fits) (by simpa using h.term)
  rw [← this, getMessage]
  cases msgPos m i 0 <;> rfl

/-- only the first messages: enough that the image is a prefix of the memory. -/
theorem msgPos_prefix {m : EMem} {L} (hL : Ok L) {p i : Nat} (h : Holds m p (enc L)) (hp : p + eSize L ≤ EEPROM_SIZE)
    (hi : i < L.length) :
    (match msgPos m i p with
      | none => []
      | some q => (List.range (read m q).toNat).map (fun k => read m (q + 1 + k))) = L.getD i [] := by
  induction L generalizing p i with
  | nil => simp at hi
  | cons x L ih =>
    have hx := hL x (by simp)
    obtain ⟨l1, l2⟩ := len_byte hx
    have es : eSize (x :: L) = x.length + 1 + eSize L := by simp [eSize]
    rw [enc_cons, List.cons_append, Holds, holds_append] at h
    have hr : read m p = UInt8.ofNat x.length := by
      rw [read, if_pos (by omega)]; exact h.1
    cases i with
    | zero =>
      simp only [msgPos, hr, l1, List.getD_cons_zero]
      exact read_holds h.2.1 (by omega)
    | succ i =>
      simp only [msgPos, hr, if_neg l2, l1, List.getD_cons_succ]
      rw [show p + x.length + 1 = p + 1 + x.length by omega]
      exact ih (fun y hy => hL y (by simp [hy])) h.2.2 (by omega) (by simpa using hi)

theorem getMessage_prefix {m : EMem} {L} (hL : Ok L) {i : Nat} (h : Holds m 0 (enc L)) (hp : eSize L ≤ EEPROM_SIZE)
    (hi : i < L.length) : getMessage m i = L.getD i [] := by
  have := msgPos_prefix hL h (by simpa using hp) hi
  rw [← this, getMessage]
  cases msgPos m i 0 <;> rfl

theorem scanFrom_prefix {m : EMem} {L} (hL : Ok L) {p n : Nat} (h : Holds m p (enc L)) (hp : p + eSize L ≤ EEPROM_SIZE)
    (hn : L.length < n) : L.length ≤ (scanFrom m n p).1 := by
  induction L generalizing p n with
  | nil => simp
  | cons x L ih =>
    obtain ⟨n, rfl⟩ : ∃ k, n = k + 1 := ⟨n - 1, by simp at hn; omega⟩
    have hx := hL x (by simp)
    obtain ⟨l1, l2⟩ := len_byte hx
    have es : eSize (x :: L) = x.length + 1 + eSize L := by simp [eSize]
    rw [enc_cons, List.cons_append, Holds, holds_append] at h
    have hr : read m p = UInt8.ofNat x.length := by
      rw [read, if_pos (by omega)]; exact h.1
    have hstep := ih (fun y hy => hL y (by simp [hy])) (p := p + 1 + x.length) (n := n) h.2.2 (by omega) (by simp at hn; omega)
    rw [scanFrom, hr, if_neg l2, l1, show p + x.length + 1 = p + 1 + x.length by omega]
    simpa using hstep

/-! ### writes -/

theorem writes_append (m : EMem) (a b) : writes m (a ++ b) = writes (writes m a) b := by simp [writes]

theorem writes_below {m : EMem} {ws : List (Nat × Byte)} {p : Nat} (h : ∀ w ∈ ws, p ≤ w.1) (j : Nat) (hj : j < p) :
    writes m ws j = m j := by
  induction ws generalizing m with
  | nil => rfl
  | cons w ws ih =>
    have : writes m (w :: ws) = writes (write m w.1 w.2) ws := rfl
    rw [this, ih (fun v hv => h v (by simp [hv]))]
    have := h w (by simp)
    simp only [write]; rw [if_neg (by omega)]

theorem writes_above {m : EMem} {ws : List (Nat × Byte)} {p : Nat} (h : ∀ w ∈ ws, w.1 < p) (j : Nat) (hj : p ≤ j) :
    writes m ws j = m j := by
  induction ws generalizing m with
  | nil => rfl
  | cons w ws ih =>
    have : writes m (w :: ws) = writes (write m w.1 w.2) ws := rfl
    rw [this, ih (fun v hv => h v (by simp [hv]))]
    have := h w (by simp)
    simp only [write]; rw [if_neg (by omega)]

/-- writing a block byte by byte. -/
theorem writes_block (m : EMem) (bs : List Byte) (p : Nat) (hp : p + bs.length ≤ EEPROM_SIZE) :
    Holds (writes m ((bs.zipIdx p).map fun x => (x.2, x.1))) p bs := by
  induction bs generalizing m p with
  | nil => trivial
  | cons b bs ih =>
    simp only [List.length_cons] at hp
    rw [List.zipIdx_cons, List.map_cons]
    show Holds (writes (write m p b) ((bs.zipIdx (p + 1)).map fun x => (x.2, x.1))) p (b :: bs)
    refine ⟨?_, ih _ _ (by omega)⟩
    rw [writes_below (p := p + 1)]
    · simp [write]; intro h; omega
    · intro w hw
      rw [List.mem_map] at hw
      obtain ⟨⟨x, i⟩, hx, rfl⟩ := hw
      exact List.le_snd_of_mem_zipIdx hx
    · omega

theorem append_stored {m L} (h : Stored m L) (x : List Byte) (hx : x ≠ [] ∧ x.length ≤ 255) :
    Stored (appendMessage m x) (eStep L (.append x)).1 := by
  simp only [appendMessage, appendWrites, scan_stored h, eStep]
  by_cases hf : eSize L + x.length + 1 ≤ 2048
  · rw [if_pos hf, if_neg (by simp only [EEPROM_SIZE]; omega)]
    have es : eSize (L ++ [x]) = eSize L + x.length + 1 := by simp [eSize]; omega
    rw [show (eSize L, UInt8.ofNat x.length) :: (x.zipIdx (eSize L + 1)).map (fun y => (y.2, y.1)) ++ [(eSize L + 1 + x.length, (0 : Byte))]
        = (((UInt8.ofNat x.length :: x).zipIdx (eSize L)).map fun y => (y.2, y.1)) ++ [(eSize L + 1 + x.length, 0)] from rfl]
    have hblk := writes_block m (UInt8.ofNat x.length :: x) (eSize L) (by simp [EEPROM_SIZE]; omega)
    have hge : ∀ w ∈ ((UInt8.ofNat x.length :: x).zipIdx (eSize L)).map (fun y => (y.2, y.1)), eSize L ≤ w.1 := by
      intro w hw
      rw [List.mem_map] at hw
      obtain ⟨⟨a, i⟩, ha, rfl⟩ := hw
      exact List.le_snd_of_mem_zipIdx ha
    generalize ((UInt8.ofNat x.length :: x).zipIdx (eSize L)).map (fun y => (y.2, y.1)) = ws at *
    rw [writes_append]
    have hterm : ∀ w ∈ [(eSize L + 1 + x.length, (0 : Byte))], eSize L + 1 + x.length ≤ w.1 := by simp
    refine ⟨?_, ?_, by rw [es]; exact hf, ?_⟩
    · intro y hy
      rw [List.mem_append] at hy
      rcases hy with hy | hy
      · exact h.ok y hy
      · simp at hy; exact hy ▸ hx
    · rw [enc_append, holds_append, Nat.zero_add]
      have e1 : enc [x] = UInt8.ofNat x.length :: x := by simp [enc]
      rw [e1, enc_length]
      constructor
      · refine holds_congr ?_ (holds_congr (fun j _ hj => writes_below hge j (by simpa [enc_length] using hj)) h.holds)
        intro j _ hj
        rw [Nat.zero_add, enc_length] at hj
        exact writes_below hterm j (by omega)
      · refine holds_congr ?_ hblk
        intro j _ hj
        simp only [List.length_cons] at hj
        exact writes_below hterm j (by omega)
    · rw [es, read]
      split
      · simp only [writes, List.foldl, write]
        rw [if_pos ⟨by omega, by omega⟩]
      · rfl
  · rw [if_neg hf, if_pos (by simp only [EEPROM_SIZE]; omega)]
    exact h

theorem clear_stored (m : EMem) : Stored (clear m) [] := by
  refine ⟨by simp [Ok], trivial, by simp [eSize], ?_⟩
  simp [read, clear, write, EEPROM_SIZE, eSize]

/-- enough fuel: the result of the scan does not depend on it, and the final pointer reads 0. -/
theorem scanFrom_fuel (m : EMem) (n k p : Nat) (h : EEPROM_SIZE < p + n) :
    scanFrom m (n + k) p = scanFrom m n p ∧ (read m (scanFrom m n p).2 = 0) := by
  induction n generalizing p with
  | zero =>
    have hr : read m p = 0 := by simp [read]; intro; omega
    cases k <;> simp [scanFrom, hr]
  | succ n ih =>
    rw [Nat.succ_add]
    by_cases hr : read m p = 0
    · simp [scanFrom, hr]
    · have := ih (p + (read m p).toNat + 1) (by omega)
      simp only [scanFrom, hr, if_false, this.1, this.2, and_self]

end EE
end Mrc
