import Verif.Proof.System
import Verif.Proof.Run
/- Byte streams read piece by piece, and the host's view of the line. -/
set_option linter.unusedSectionVars false
namespace Mrc
open Mrc.Prog Mrc.Spec
variable {F : Type} [FloatOps F]

/-! ### streams cut in two -/

theorem stream_append (l : Nat) : ∀ r s : List Byte, r.length ≤ l → decode (r ++ s) = decode r ++ decode (tail r ++ s) ∧ tail (r ++ s) = tail (tail r ++ s) ∧ (13 : Byte) ∉ tail r := by
  induction l with
  | zero =>
    intro r s hr
    obtain rfl : r = [] := List.length_eq_zero_iff.1 (by omega)
    exact ⟨rfl, rfl, by decide⟩
  | succ l ih =>
    intro r s hr
    rcases stream_cases r with h | ⟨a, b, h, rfl⟩
    · rw [tail_noCR r h, decode_tail r h]; exact ⟨rfl, rfl, h⟩
    · have hb : b.length ≤ l := by simp at hr; omega
      obtain ⟨h1, h2, h3⟩ := ih b s hb
      rw [List.append_assoc, List.cons_append, decode_cons _ _ h, decode_cons _ _ h, tail_cons _ _ h, tail_cons _ _ h, h1, h2, List.append_assoc]
      exact ⟨rfl, rfl, h3⟩

theorem decode_append (r s : List Byte) : decode (r ++ s) = decode r ++ decode (tail r ++ s) := (stream_append _ r s (Nat.le_refl _)).1
theorem tail_append (r s : List Byte) : tail (r ++ s) = tail (tail r ++ s) := (stream_append _ r s (Nat.le_refl _)).2.1
theorem tail_clean (r : List Byte) : (13 : Byte) ∉ tail r := (stream_append _ r [] (Nat.le_refl _)).2.2

/-- the frame completed by one more byte, if any. -/
def completed (r : List Byte) (b : Byte) : List (List Byte) := if b = 13 ∧ overlong (tail r) = false then [payload (tail r)] else []

theorem decode_snoc (r : List Byte) (b : Byte) : decode (r ++ [b]) = decode r ++ completed r b := by
  rw [decode_append, completed]
  congr 1
  by_cases hb : b = 13
  · subst hb
    rw [decode_cons _ _ (tail_clean r)]
    cases overlong (tail r) <;> simp [decode_tail]
  · rw [if_neg (fun h => hb h.1), decode_tail]
    simp [tail_clean r, Ne.symm hb]

theorem tail_snoc (r : List Byte) (b : Byte) : tail (r ++ [b]) = if b = 13 then [] else tail r ++ [b] := by
  rw [tail_append]
  by_cases hb : b = 13
  · subst hb; rw [if_pos rfl, tail_cons _ _ (tail_clean r)]; rfl
  · rw [if_neg hb, tail_noCR]; simp [tail_clean r, Ne.symm hb]

/-! ### what the host's view says about the bytes read -/

theorem after_snoc (tr : List (Act F)) (a : Act F) : Dev.after (tr ++ [a]) = (Dev.after tr).act a := by simp [Dev.after]

theorem frame_line (d : Dev) (f : Frame) : (d.frame f).line = d.line ∧ (d.frame f).started = d.started := by
  cases f <;> first | exact ⟨rfl, rfl⟩ | (simp only [Dev.frame]; split <;> exact ⟨rfl, rfl⟩)

theorem after_line (tr : List (Act F)) : (Dev.after tr).line = tail (rxBytes tr) := by
  generalize hl : tr.length = l
  induction l generalizing tr with
  | zero => rw [List.length_eq_zero_iff] at hl; subst hl; rfl
  | succ l ih =>
    obtain ⟨t, a, rfl⟩ : ∃ u a, tr = u ++ [a] := by
      rcases List.eq_nil_or_concat tr with rfl | ⟨u, a, rfl⟩
      · cases hl
      · exact ⟨u, a, by simp⟩
    have i := ih t (by simpa using hl)
    rw [after_snoc, rxBytes_append]
    match a with
    | .rx (some b) =>
      show ((Dev.after t).recv b).line = tail (rxBytes t ++ [b])
      rw [tail_snoc]
      unfold Dev.recv
      by_cases hb : b = 13
      · rw [if_pos hb, if_pos hb]
        split
        · rfl
        · rw [(frame_line _ _).1]
      · rw [if_neg hb, if_neg hb, ← i]
    | .eeRead m =>
      show (if (Dev.after t).booted then _ else _ : Dev).line = tail (rxBytes t ++ [])
      rw [List.append_nil, ← i]
      split <;> rfl
    | .out (.ghost .queue m) | .out (.ghost .immediate m) | .out (.ghost .eeprom m) | .rx none | .servo _ _ | .micro _ _ | .now _ | .pin _ _ | .eeWrite _ _
    | .out (.msg _) | .out (.raw _) | .out (.pinMode _ _) | .out (.digitalWrite _ _) =>
      show (Dev.after t).line = tail (rxBytes t ++ [])
      rw [List.append_nil, i]

end Mrc
