import Verif.Props.Notices
import Verif.Spec.Reading
import Mathlib.Tactic.Ring
/-
C97: a host can read everything that is sent.
-/
set_option linter.unusedSectionVars false
namespace Mrc.Props
open Mrc Mrc.Prog Mrc.Spec
variable {F : Type} [FloatOps F]

theorem readDigit_digitChar (d : Fin 10) : readDigit (digitChar d) = some d.val := by revert d; decide
theorem digitChar_ne (d : Fin 10) : digitChar d ≠ 46 ∧ digitChar d ≠ 45 ∧ digitChar d ≠ 32 ∧ isLetter (digitChar d) = false := by revert d; decide

theorem readDigits_map (ds : List (Fin 10)) (v : Nat) : readDigits v (ds.map digitChar) = some (v * 10 ^ ds.length + natVal ds) := by
  induction ds generalizing v with
  | nil => simp [readDigits, natVal]
  | cons d ds ih =>
    simp only [List.map_cons, readDigits, readDigit_digitChar, ih, natVal, List.length_cons, Nat.pow_succ]
    congr 1
    ring

theorem readNat_map {ds : List (Fin 10)} (h : ds ≠ []) : readNat (ds.map digitChar) = some (natVal ds) := by
  rw [readNat, if_neg (by simpa using h), readDigits_map]; simp

/-- the digits of a natural number. -/
theorem natStr_digits (n : Nat) : ∃ ds : List (Fin 10), ds ≠ [] ∧ natStr n = ds.map digitChar ∧ natVal ds = n := by
  have hc : ∀ d : Fin 10, (Nat.digitChar d.val).toUInt8 = digitChar d := by decide
  have key : ∀ (k n : Nat) (acc : List Char), n < k → ∃ ds : List (Fin 10), ds ≠ [] ∧
      (Nat.toDigitsCore 10 k n acc).map Char.toUInt8 = ds.map digitChar ++ acc.map Char.toUInt8 ∧ natVal ds = n := by
    intro k
    induction k with
    | zero => intro n acc h; omega
    | succ k ih =>
      intro n acc h
      have e : (Nat.digitChar (n % 10)).toUInt8 = digitChar ⟨n % 10, Nat.mod_lt _ (by decide)⟩ := hc ⟨n % 10, Nat.mod_lt _ (by decide)⟩
      rw [Nat.toDigitsCore]
      split
      · rename_i h0
        refine ⟨[⟨n % 10, Nat.mod_lt _ (by decide)⟩], by simp, by simp [e], ?_⟩
        simp only [natVal, List.length_nil, Nat.pow_zero]
        omega
      · rename_i h0
        obtain ⟨ds, h1, h2, h3⟩ := ih (n / 10) (Nat.digitChar (n % 10) :: acc) (by omega)
        refine ⟨ds ++ [⟨n % 10, Nat.mod_lt _ (by decide)⟩], by simp, ?_, ?_⟩
        · rw [h2]; simp [e]
        · have happ : ∀ (ds : List (Fin 10)) (x : Fin 10), natVal (ds ++ [x]) = 10 * natVal ds + x.val := by
            intro ds x
            induction ds with
            | nil => simp [natVal]
            | cons d ds ih => simp only [List.cons_append, natVal, ih, List.length_append, List.length_singleton, Nat.pow_succ]; ring
          rw [happ, h3]
          show 10 * (n / 10) + n % 10 = n
          omega
  obtain ⟨ds, h1, h2, h3⟩ := key (n + 1) n [] (by omega)
  exact ⟨ds, h1, by simpa [natStr, Nat.toDigits] using h2, h3⟩

theorem map_head {ds : List (Fin 10)} : (ds.map digitChar).head? ≠ some 45 := by
  cases ds with
  | nil => simp
  | cons d ds => simpa using (digitChar_ne d).2.1

theorem readInt_intStr (i : Int) : readInt (intStr i) = some i := by
  obtain ⟨ds, h1, h2, h3⟩ := natStr_digits i.natAbs
  rw [intStr, readInt]
  split
  · rw [if_pos (by simp), h2]
    show (readNat (ds.map digitChar)).map _ = _
    rw [readNat_map h1, h3, Option.map_some]
    congr 1; omega
  · rw [h2, if_neg map_head, readNat_map h1, h3, Option.map_some]
    congr 1; omega

theorem int_chars (i : Int) : ∀ b ∈ intStr i, b ≠ 32 ∧ b ≠ 46 ∧ isLetter b = false := by
  obtain ⟨ds, h1, h2, h3⟩ := natStr_digits i.natAbs
  have hd : ∀ b ∈ natStr i.natAbs, b ≠ 32 ∧ b ≠ 46 ∧ isLetter b = false := by
    rw [h2]; intro b hb
    obtain ⟨d, _, rfl⟩ := List.mem_map.1 hb
    exact ⟨(digitChar_ne d).2.2.1, (digitChar_ne d).1, (digitChar_ne d).2.2.2⟩
  intro b hb
  rw [intStr] at hb
  split at hb
  · rcases List.mem_cons.1 hb with rfl | hb
    · decide
    · exact hd b hb
  · exact hd b hb

theorem takeWhile_app {p : Byte → Bool} {a : List Byte} (h : ∀ b ∈ a, p b = true) (c : Byte) (hc : p c = false) (r : List Byte) :
    (a ++ c :: r).takeWhile p = a ∧ (a ++ c :: r).dropWhile p = c :: r := by
  induction a with
  | nil => simp [hc]
  | cons x a ih => simp [h x (by simp), ih fun b hb => h b (by simp [hb])]

theorem takeWhile_all {p : Byte → Bool} {a : List Byte} (h : ∀ b ∈ a, p b = true) : a.takeWhile p = a ∧ a.dropWhile p = [] := by
  induction a with
  | nil => simp
  | cons x a ih => simp [h x (by simp), ih fun b hb => h b (by simp [hb])]

/-- printed numbers are read back. -/
theorem readNum_printed {t : List Byte} {v : Rat} (h : Printed t v) : readNum t = some v := by
  obtain ⟨⟨neg, ip, fp⟩, h1, ⟨a, b, rfl⟩, rfl, rfl⟩ := h
  simp only at h1
  have hip : ∀ c ∈ ip.map digitChar, (c != 46) = true := by
    intro c hc
    obtain ⟨d, _, rfl⟩ := List.mem_map.1 hc
    simpa using (digitChar_ne d).1
  have habs : readAbs (ip.map digitChar ++ 46 :: [a, b].map digitChar) = some (natVal ip + (natVal [a, b] : Rat) / ((10 ^ 2 : Nat) : Rat)) := by
    obtain ⟨h2, h3⟩ := takeWhile_app hip 46 (by decide) ([a, b].map digitChar)
    rw [readAbs, h2, h3, readNat_map h1]
    have := readDigits_map [a, b] 0
    simp only [this, Nat.zero_mul, Nat.zero_add]
    simp
  have hhead : (ip.map digitChar ++ 46 :: [a, b].map digitChar).head? ≠ some 45 := by
    cases ip with
    | nil => exact absurd rfl h1
    | cons d ds => simpa using (digitChar_ne d).2.1
  cases neg with
  | true =>
    rw [readNum, show Dec.text ⟨true, ip, some [a, b]⟩ = 45 :: (ip.map digitChar ++ 46 :: [a, b].map digitChar) by simp [Dec.text], if_pos (by simp)]
    show Option.map _ (readAbs (ip.map digitChar ++ 46 :: [a, b].map digitChar)) = _
    rw [habs]
    simp [Dec.val]
  | false =>
    rw [readNum, show Dec.text ⟨false, ip, some [a, b]⟩ = ip.map digitChar ++ 46 :: [a, b].map digitChar by simp [Dec.text], if_neg hhead, habs]
    simp [Dec.val]

theorem printed_chars {t : List Byte} {v : Rat} (h : Printed t v) : (∀ b ∈ t, isLetter b = false) ∧ (46 : Byte) ∈ t ∧ t ≠ [] := by
  obtain ⟨⟨neg, ip, fp⟩, h1, ⟨a, b, rfl⟩, rfl, rfl⟩ := h
  refine ⟨fun c hc => ?_, by simp [Dec.text], by simp [Dec.text]⟩
  simp only [Dec.text, List.mem_append, List.mem_map, List.mem_cons] at hc
  rcases hc with (hc | ⟨d, _, rfl⟩) | rfl | ⟨d, _, rfl⟩
  · cases neg <;> simp at hc
    subst hc; decide
  · exact (digitChar_ne d).2.2.2
  · decide
  · exact (digitChar_ne d).2.2.2

theorem part_field (fl : F → List Byte) (v : F → Rat) (p : Part F) (hg : GoodPart p) (hp : PartPrinted fl v p) :
    ∃ c r, p.text fl = c :: r ∧ isLetter c = true ∧ (∀ b ∈ r, isLetter b = false) ∧ readField c r = some (Part.field v p) ∧ (c = 66 → (46 : Byte) ∈ r) ∧ c ≠ 78 := by
  cases p with
  | method c =>
    obtain ⟨ds, h1, h2, h3⟩ := natStr_digits c
    refine ⟨77, natStr c, rfl, by decide, ?_, ?_, by simp, by decide⟩
    · rw [h2]; intro b hb
      obtain ⟨d, _, rfl⟩ := List.mem_map.1 hb
      exact (digitChar_ne d).2.2.2
    · rw [readField, if_neg (by decide), h2, readNum, if_neg map_head, readAbs]
      have : ∀ b ∈ ds.map digitChar, (b != 46) = true := by
        intro c hc
        obtain ⟨d, _, rfl⟩ := List.mem_map.1 hc
        simpa using (digitChar_ne d).1
      rw [(takeWhile_all this).2, readNat_map h1, h3]
      rfl
  | velocity x =>
    exact ⟨86, fl x, rfl, by decide, (printed_chars hp).1, by rw [readField, if_neg (by decide), readNum_printed hp]; rfl, by simp, by decide⟩
  | pose sym x =>
    have hs : isLetter sym = true ∧ sym ≠ 82 ∧ sym ≠ 78 := by
      simp only [GoodPart, poseIdx] at hg
      split at hg; · subst_vars; decide
      split at hg; · subst_vars; decide
      split at hg; · subst_vars; decide
      split at hg; · subst_vars; decide
      split at hg; · subst_vars; decide
      split at hg; · subst_vars; decide
      cases hg
    exact ⟨sym, fl x, rfl, hs.1, (printed_chars hp).1, by rw [readField, if_neg hs.2.1, readNum_printed hp]; rfl, fun _ => (printed_chars hp).2.1, hs.2.2⟩
  | angle o x =>
    have ho : o < 8 := hg
    have e : natStr o = [UInt8.ofNat (48 + o)] := by
      have : ∀ o : Fin 8, natStr o.val = [UInt8.ofNat (48 + o.val)] := by decide
      exact this ⟨o, ho⟩
    have hl : isLetter (UInt8.ofNat (48 + o)) = false := by
      have : ∀ o : Fin 8, isLetter (UInt8.ofNat (48 + o.val)) = false := by decide
      exact this ⟨o, ho⟩
    refine ⟨82, UInt8.ofNat (48 + o) :: fl x, by rw [Part.text, e]; rfl, by decide, ?_, ?_, by simp, by decide⟩
    · intro b hb
      rcases List.mem_cons.1 hb with rfl | hb
      · exact hl
      · exact (printed_chars hp).1 b hb
    · rw [readField, if_pos rfl]
      show (readNum (fl x)).map _ = _
      rw [readNum_printed hp]; rfl

theorem fields_text (fl : F → List Byte) (v : F → Rat) (ps : List (Part F)) (hg : ∀ p ∈ ps, GoodPart p) (hp : ∀ p ∈ ps, PartPrinted fl v p) :
    readFields (ps.flatMap (Part.text fl)) = some (ps.map (Part.field v)) := by
  induction ps with
  | nil => simp [readFields]
  | cons p ps ih =>
    obtain ⟨c, r, h1, h2, h3, h4, _⟩ := part_field fl v p (hg p (by simp)) (hp p (by simp))
    have ih := ih (fun q hq => hg q (by simp [hq])) (fun q hq => hp q (by simp [hq]))
    rw [List.flatMap_cons, h1, List.cons_append, readFields]
    have hsplit : (r ++ ps.flatMap (Part.text fl)).takeWhile (fun b => !isLetter b) = r ∧ (r ++ ps.flatMap (Part.text fl)).dropWhile (fun b => !isLetter b) = ps.flatMap (Part.text fl) := by
      have hr : ∀ b ∈ r, (!isLetter b) = true := fun b hb => by simp [h3 b hb]
      cases ps with
      | nil => simpa using takeWhile_all hr
      | cons q qs =>
        obtain ⟨c', r', k1, k2, _⟩ := part_field fl v q (hg q (by simp)) (hp q (by simp))
        rw [List.flatMap_cons, k1, List.cons_append]
        exact takeWhile_app hr c' (by simp [k2]) _
    rw [hsplit.1, hsplit.2, h4, ih]
    rfl

/-- **C97** (one message): its text says what it means. -/
theorem C97_text (fl : F → List Byte) (v : F → Rat) (m : Msg F) (hg : GoodMsg m) (hp : ∀ num ps, m = .reply num ps → ∀ p ∈ ps, PartPrinted fl v p) :
    readNote (m.text fl) = some (Msg.note v m) := by
  cases m with
  | free n =>
    show (if (intStr n).contains 46 then _ else (readInt (intStr n)).map Note.free) = _
    rw [if_neg, readInt_intStr]; · rfl
    intro h
    exact (int_chars n 46 (by simpa using h)).2.1 rfl
  | n0 n =>
    show (readInt (intStr n)).map Note.accepted = _
    rw [readInt_intStr]; rfl
  | n1 n =>
    show (match (intStr n).dropWhile (· != 32) with | [] => _ | _ :: _ => _) = _
    rw [(takeWhile_all fun b hb => by simpa using (int_chars n b hb).1).2]
    show (readInt (intStr n)).map Note.done = _
    rw [readInt_intStr]; rfl
  | reply num ps =>
    have hp' := hp num ps rfl
    have hf := fields_text fl v ps hg hp'
    cases num with
    | some n =>
      show (match (intStr n ++ 32 :: ps.flatMap (Part.text fl)).dropWhile (· != 32) with | [] => _ | _ :: _ => _) = _
      obtain ⟨h1, h2⟩ := takeWhile_app (p := (· != 32)) (a := intStr n) (fun b hb => by simpa using (int_chars n b hb).1) 32 (by decide) (ps.flatMap (Part.text fl))
      rw [h2]
      show (match readInt ((intStr n ++ 32 :: ps.flatMap (Part.text fl)).takeWhile (· != 32)), readFields (ps.flatMap (Part.text fl)) with | some n, some vs => _ | _, _ => _) = _
      rw [h1, readInt_intStr, hf]
      rfl
    | none =>
      show readNote (ps.flatMap (Part.text fl)) = some (.answer none (ps.map (Part.field v)))
      cases ps with
      | nil => rw [List.flatMap_nil] at hf ⊢; show (readFields []).map _ = _; rw [hf]; rfl
      | cons p ps =>
        obtain ⟨c, r, h1, h2, h3, h4, h5, h6⟩ := part_field fl v p (hg p (by simp)) (hp' p (by simp))
        rw [List.flatMap_cons, h1, List.cons_append] at hf ⊢
        unfold readNote
        split
        · rename_i e; simp at e; exact absurd e.1 h6
        · rename_i e; simp at e; exact absurd e.1 h6
        · rename_i e; simp at e
          obtain ⟨rfl, rfl⟩ := e
          rw [if_pos (by simp [h5 rfl]), hf]; rfl
        · rw [hf]; rfl

/-! ### the whole stream -/

theorem skim_text (t rest done : List Byte) (ht : Clean t) (hd : Clean done) : skim (some done) (t ++ 13 :: 10 :: rest) = (done ++ t) :: skim none rest := by
  have hlast : ∀ l : List Byte, Clean l → l.getLast? ≠ some 13 := by
    intro l hl e
    exact (hl 13 (List.mem_of_getLast? e)).2.1 rfl
  induction t generalizing done with
  | nil =>
    simp only [List.nil_append, skim, List.append_nil]
    rw [if_neg (by simp), if_pos (by simp)]
    simp
  | cons b t ih =>
    obtain ⟨h1, h2, h3⟩ := ht b (by simp)
    simp only [List.cons_append, skim]
    rw [if_neg (by simp [h3]), ih _ (fun x hx => ht x (by simp [hx])) (clean_append hd fun x hx => by simp at hx; subst hx; exact ⟨h1, h2, h3⟩)]
    simp

theorem skim_raw (t rest : List Byte) (h : (58 : Byte) ∉ t) : skim none (t ++ rest) = skim none rest := by
  induction t with
  | nil => rfl
  | cons b t ih =>
    simp only [List.cons_append, skim]
    rw [if_neg (fun e => h (by simp [e])), ih fun hm => h (by simp [hm])]

/-- **C97**: a host that ignores what is outside of frames reads everything the controller says: the texts it finds in the bytes sent mean exactly the messages sent, in order. (As long as no
error is logged: that text contains a ':'. `fl`: how numbers are printed, not modelled; assumed: no ':' CR LF, and the numbers in answers are printed as their values `v`.) -/
theorem C97_read {cfg : Cfg F} {junk : Nat → Byte} {tr : List (Act F)} {p : Prog F (FW F)} (h : Trace cfg junk tr p)
    (fl : F → List Byte) (hfl : ∀ x, ∀ b ∈ fl x, b ≠ 58 ∧ b ≠ 13 ∧ b ≠ 10) (v : F → Rat) (hv : ∀ num ps, .out (.msg (.reply num ps)) ∈ tr → ∀ q ∈ ps, PartPrinted fl v q)
    (herr : ∀ t, .out (.raw (.error t)) ∉ tr) :
    (skim none ((outs tr).flatMap (Out.wire fl))).map readNote = (msgs tr).map fun m => some (Msg.note v m) := by
  have key : ∀ t : List (Act F), (∀ m ∈ msgs t, GoodMsg m) → (∀ num ps, .out (.msg (.reply num ps)) ∈ t → ∀ q ∈ ps, PartPrinted fl v q) → (∀ x, .out (.raw (.error x)) ∉ t) →
      (skim none ((outs t).flatMap (Out.wire fl))).map readNote = (msgs t).map fun m => some (Msg.note v m) := by
    intro t
    induction t with
    | nil => intros; rfl
    | cons a t ih =>
      intro hg hv herr
      have hv' : ∀ num ps, .out (.msg (.reply num ps)) ∈ t → ∀ q ∈ ps, PartPrinted fl v q := fun num ps hm => hv num ps (List.mem_cons_of_mem _ hm)
      have herr' : ∀ x, .out (.raw (.error x)) ∉ t := fun x hm => herr x (List.mem_cons_of_mem _ hm)
      match a, hg, hv, herr with
      | .out (.msg m), hg, hv, _ =>
        have ih := ih (fun m' hm => hg m' (List.mem_cons_of_mem _ hm)) hv' herr'
        have e : (outs (.out (.msg m) :: t)).flatMap (Out.wire fl) = 58 :: (m.text fl ++ 13 :: 10 :: (outs t).flatMap (Out.wire fl)) := by
          show ((Out.msg m) :: outs t).flatMap (Out.wire fl) = _
          rw [List.flatMap_cons]; simp [Out.wire, Msg.wire]
        have hgm : GoodMsg m := hg m List.mem_cons_self
        rw [e, skim, if_pos rfl, skim_text _ _ _ (clean_msg fl hfl m hgm) (by intro b hb; simp at hb), List.nil_append, List.map_cons, ih,
          C97_text fl v m hgm fun num ps e => hv num ps (by rw [e]; exact List.mem_cons_self)]
        rfl
      | .out (.raw r), hg, _, herr =>
        have ih := ih (fun m' hm => hg m' hm) hv' herr'
        have e : (outs (.out (.raw r) :: t)).flatMap (Out.wire fl) = r.wire fl ++ (outs t).flatMap (Out.wire fl) := by
          show ((Out.raw r) :: outs t).flatMap (Out.wire fl) = _
          rw [List.flatMap_cons]; rfl
        rw [e, skim_raw]
        · exact ih
        · cases r with
          | comment => show (58 : Byte) ∉ str "comment-breaking" ++ [13, 10]; decide
          | moveInTime x =>
            intro hm
            rcases List.mem_append.1 hm with hm | hm
            · exact (hfl x _ hm).1 rfl
            · simp at hm
          | error x => exact absurd List.mem_cons_self (herr x)
      | .out (.pinMode _ _), hg, _, _ | .out (.digitalWrite _ _), hg, _, _ | .out (.ghost _ _), hg, _, _ => exact ih (fun m' hm => hg m' hm) hv' herr'
      | .servo _ _, hg, _, _ | .micro _ _, hg, _, _ | .now _, hg, _, _ | .pin _ _, hg, _, _ | .rx _, hg, _, _ | .eeRead _, hg, _, _ | .eeWrite _ _, hg, _, _ =>
        exact ih (fun m' hm => hg m' hm) hv' herr'
  exact key tr (msgs_good h) hv herr

section
open Mrc.Demo
theorem one_printed : Printed (str "1.00") 1 := ⟨⟨false, [1], some [0, 0]⟩, by simp, ⟨0, 0, rfl⟩, by decide, by decide +kernel⟩

/-- C97: a history with two answers, notices and the printed duration of a move; numbers printed as 1.00. -/
example : (outs (kit ":EN7VR2\x0d:QN5M0R110\x0d" 3).1).flatMap (Out.wire fun _ => str "1.00") =
    str ":N07\r\n:N17 V1.00R21.00\r\n:B291\r\n:N05\r\n1.00\r\n" ∧ (∀ x : Rat, PartPrinted (fun _ => str "1.00") (fun _ => 1) (.velocity x)) ∧
    (skim none (str ":N07\r\n:N17 V1.00R21.00\r\n:B291\r\n:N05\r\n1.00\r\n")).map readNote =
      [some (.accepted 7), some (.answer (some 7) [(str "V", 1), (str "R2", 1)]), some (.free 291), some (.accepted 5)] := by
  refine ⟨by decide +kernel, fun _ => one_printed, by decide +kernel⟩
end

end Mrc.Props
