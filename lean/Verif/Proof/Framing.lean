import Verif.Model.Framer
import Verif.Spec.Framing
/- Helper lemmas for the serial framer. -/
namespace Mrc
open Spec

def FEv.payload? : FEv → Option (List Byte)
  | .cmd p => some p
  | .oob => none

/-- payloads handed to parseCommand. -/
def cmds (es : List FEv) : List (List Byte) := es.filterMap FEv.payload?

theorem toUpper_eq (c : Byte) : toUpper c = upper c := by
  have : ∀ n : Fin 256, toUpper (UInt8.ofNat n.val) = upper (UInt8.ofNat n.val) := by decide +kernel
  simpa using this ⟨c.toNat, c.toNat_lt⟩

theorem allowed_eq (c : Byte) : allowed c = counts c := by
  have : ∀ n : Fin 256, allowed (UInt8.ofNat n.val) = counts (UInt8.ofNat n.val) := by decide +kernel
  simpa using this ⟨c.toNat, c.toNat_lt⟩

theorem upper_idem (c : Byte) : upper (upper c) = upper c := by
  have : ∀ n : Fin 256, upper (upper (UInt8.ofNat n.val)) = upper (UInt8.ofNat n.val) := by decide +kernel
  simpa using this ⟨c.toNat, c.toNat_lt⟩

theorem upper_special (c : Byte) : (upper c = 13 ↔ c = 13) ∧ (upper c = 58 ↔ c = 58) ∧ isComment (upper c) = isComment c := by
  have : ∀ n : Fin 256, (upper (UInt8.ofNat n.val) = 13 ↔ UInt8.ofNat n.val = 13) ∧
    (upper (UInt8.ofNat n.val) = 58 ↔ UInt8.ofNat n.val = 58) ∧
    isComment (upper (UInt8.ofNat n.val)) = isComment (UInt8.ofNat n.val) := by decide +kernel
  simpa using this ⟨c.toNat, c.toNat_lt⟩

theorem counts_special (c : Byte) (h : counts c = true) : c ≠ 13 ∧ c ≠ 58 ∧ isComment c = false := by
  have : ∀ n : Fin 256, counts (UInt8.ofNat n.val) = true → UInt8.ofNat n.val ≠ 13 ∧
    UInt8.ofNat n.val ≠ 58 ∧ isComment (UInt8.ofNat n.val) = false := by decide +kernel
  simpa using this ⟨c.toNat, c.toNat_lt⟩ (by simpa using h)

/-- The part of the framer state the future depends on. -/
def Framer.norm (s : Framer) : List Byte × Bool × Bool := (if s.started then s.buf else [], s.full, s.comment)

/-- normalised step. -/
def nstep (n : List Byte × Bool × Bool) (c0 : Byte) : (List Byte × Bool × Bool) × List FEv :=
  let c := upper c0
  let b := if c = 58 then [] else n.1
  if c = 13 then (([], false, false), (if b.length + 1 ≥ 80 then [FEv.oob] else []) ++ (if n.2.1 then [] else [.cmd b]))
  else if isComment c || n.2.2 then ((b, n.2.1, true), [])
  else if counts c then ((b ++ [c], n.2.1 || decide (b.length + 1 ≥ 80), false), if b.length ≥ 80 then [.oob] else [])
  else ((b, n.2.1, false), [])

theorem step_norm (s : Framer) (c : Byte) : ((s.step c).1.norm, (s.step c).2) = nstep s.norm c := by
  simp only [Framer.step, nstep, toUpper_eq, allowed_eq, INPUT_BUFFER_SIZE]
  generalize hu : upper c = u
  have hcs := counts_special u
  obtain ⟨st, b, f, cm⟩ := s
  by_cases h1 : u = 13
  · subst h1
    cases st <;> simp [Framer.norm]
  · by_cases h2 : u = 58
    · subst h2
      cases st <;> cases cm <;> simp [Framer.norm, isComment, counts]
    · by_cases h3 : isComment u = true
      · have h3' : (u = 35 ∨ u = 40) := by simpa [isComment] using h3
        cases st <;> simp [Framer.norm, h1, h2, h3, h3']
      · have h3' : ¬ (u = 35 ∨ u = 40) := by simpa [isComment] using h3
        cases hc : counts u <;> cases st <;> cases cm <;> simp [Framer.norm, h1, h2, h3', hc] <;> simp [h3]

def nrun : List Byte × Bool × Bool → List Byte → (List Byte × Bool × Bool) × List FEv
  | n, [] => (n, [])
  | n, c :: cs => ((nrun (nstep n c).1 cs).1, (nstep n c).2 ++ (nrun (nstep n c).1 cs).2)

theorem run_norm (s : Framer) (cs : List Byte) : ((s.run cs).1.norm, (s.run cs).2) = nrun s.norm cs := by
  induction cs generalizing s with
  | nil => rfl
  | cons c cs ih =>
    have h := step_norm s c
    have i := ih (s.step c).1
    simp only [Framer.run, nrun, ← h, ← i]

theorem run_events (s : Framer) (cs : List Byte) : (s.run cs).2 = (nrun s.norm cs).2 := by
  rw [← run_norm]

theorem nrun_append (n) (a b : List Byte) :
    nrun n (a ++ b) = ((nrun (nrun n a).1 b).1, (nrun n a).2 ++ (nrun (nrun n a).1 b).2) := by
  induction a generalizing n with
  | nil => simp [nrun]
  | cons c a ih => simp [nrun, ih]

theorem run_append (s : Framer) (a b : List Byte) :
    (s.run (a ++ b)).2 = (s.run a).2 ++ ((s.run a).1.run b).2 := by
  rw [run_events, nrun_append, run_events, run_events, ← run_norm s a]

theorem cmds_append (a b) : cmds (a ++ b) = cmds a ++ cmds b := by simp [cmds]

/-! ### a line -/

theorem split_ne (s : Byte) (l : List Byte) : split s l ≠ [] := by
  induction l with
  | nil => simp [split]
  | cons c cs ih =>
    simp only [split]; split
    · simp
    · split <;> simp

theorem split_cons_of_ne {s c : Byte} (h : c ≠ s) (cs : List Byte) :
    ∃ p ps, split s cs = p :: ps ∧ split s (c :: cs) = (c :: p) :: ps := by
  cases h2 : split s cs with
  | nil => exact absurd h2 (split_ne s cs)
  | cons p ps => exact ⟨p, ps, rfl, by simp [split, h, h2]⟩

/-- buffer after a line prefix, from prefix content `b` (no comment yet). -/
def lineBuf (b : List Byte) (l : List Byte) : List Byte :=
  if (58 : Byte) ∈ comment l then []
  else match split 58 (code l) with
    | [] => b
    | [p] => b ++ p.filter counts
    | _ :: ps => (ps.getLastD []).filter counts

def lineFull (b : List Byte) (f : Bool) (l : List Byte) : Bool :=
  f || match split 58 (code l) with
    | [] => false
    | p :: ps => decide (80 ≤ (b ++ p.filter counts).length) || ps.any fun p => decide (80 ≤ (p.filter counts).length)

theorem nrun_comment (b : List Byte) (f : Bool) (l : List Byte) (h : (13 : Byte) ∉ l) :
    nrun (b, f, true) l = ((if (58 : Byte) ∈ l.map upper then [] else b, f, true), []) := by
  induction l generalizing b with
  | nil => simp [nrun]
  | cons c cs ih =>
    have hc : c ≠ 13 := by intro hh; apply h; simp [hh]
    have hcs : (13 : Byte) ∉ cs := by intro hh; apply h; simp [hh]
    have ⟨u1, u2, u3⟩ := upper_special c
    have : upper c ≠ 13 := by simpa [u1] using hc
    have e : nstep (b, f, true) c = ((if upper c = 58 then [] else b, f, true), []) := by
      simp [nstep, this]
    simp only [nrun, e, ih _ hcs, List.nil_append]
    by_cases h2 : upper c = 58
    · simp [h2]
    · simp only [h2, if_false, List.map_cons, List.mem_cons, false_or, Ne.symm h2]

theorem nrun_line (b : List Byte) (f : Bool) (l : List Byte) (h : (13 : Byte) ∉ l) (hb : 80 ≤ b.length → f = true) :
    (nrun (b, f, false) l).1 = (lineBuf b l, lineFull b f l, l.any isComment) ∧ cmds (nrun (b, f, false) l).2 = [] := by
  induction l generalizing b f with
  | nil =>
    simp [nrun, lineBuf, lineFull, comment, code, split, cmds]
    exact hb
  | cons c cs ih =>
    have hc : c ≠ 13 := by intro hh; apply h; simp [hh]
    have hcs : (13 : Byte) ∉ cs := by intro hh; apply h; simp [hh]
    have ⟨u1, u2, u3⟩ := upper_special c
    have h13 : upper c ≠ 13 := by simpa [u1] using hc
    have hcsp := counts_special (upper c)
    generalize hu : upper c = u at *
    by_cases hcm : isComment u = true
    · have h58 : u ≠ 58 := by intro hh; subst hh; simp [isComment] at hcm
      have e : nstep (b, f, false) c = ((b, f, true), []) := by
        simp [nstep, hu, h13, hcm, h58]
      simp only [nrun, e, nrun_comment _ _ _ hcs]
      have hcode : code (c :: cs) = [] := by simp [code, hu, hcm]
      have hcom : comment (c :: cs) = u :: cs.map upper := by simp [comment, hu, hcm]
      simp only [lineBuf, lineFull, hcode, hcom, split]
      have hany : (c :: cs).any isComment = true := by simp [← u3, hcm]
      rw [hany]
      simp [cmds, Ne.symm h58]
      cases f <;> simp_all
    · have hcode : code (c :: cs) = u :: code cs := by simp [code, hu, hcm]
      have hcom : comment (c :: cs) = comment cs := by simp [comment, hu, hcm]
      have hany : (c :: cs).any isComment = cs.any isComment := by simp [← u3, hcm]
      by_cases h58 : u = 58
      · have e : nstep (b, f, false) c = (([], f, false), []) := by
          simp [nstep, hu, h58, isComment, counts]
        have ⟨i1, i2⟩ := ih [] f hcs (by simp)
        simp only [nrun, e, i1, i2, List.nil_append, hany, and_true]
        simp only [lineBuf, lineFull, hcode, hcom, h58, split, if_true]
        cases hs : split 58 (code cs) with
        | nil => exact absurd hs (split_ne _ _)
        | cons p ps =>
          have hb2 : (f || decide (80 ≤ b.length)) = f := by
            cases f <;> simp_all
          cases ps with
          | nil => simp [← Bool.or_assoc, hb2]
          | cons q qs => simp [← Bool.or_assoc, hb2]
      · obtain ⟨p, ps, hs, hs'⟩ := split_cons_of_ne (s := 58) (c := u) h58 (code cs)
        by_cases hct : counts u = true
        · have e : nstep (b, f, false) c = ((b ++ [u], f || decide (b.length + 1 ≥ 80), false),
              if b.length ≥ 80 then [.oob] else []) := by
            simp [nstep, hu, h13, hcm, h58, hct]
          have ⟨i1, i2⟩ := ih (b ++ [u]) (f || decide (b.length + 1 ≥ 80)) hcs (by simp; omega)
          simp only [nrun, e, i1, hany, cmds_append, i2]
          constructor
          · simp only [lineBuf, lineFull, hcode, hcom, hs, hs']
            congr 2
            · cases ps <;> simp [hct]
            · simp only [List.filter_cons, hct, if_true]
              have : (b.length + 1 ≥ 80) → 80 ≤ (b ++ u :: p.filter counts).length := by
                simp; omega
              cases f <;> simp
              intro hh; left; omega
          · split <;> simp [cmds, FEv.payload?]
        · have e : nstep (b, f, false) c = ((b, f, false), []) := by
            simp [nstep, hu, h13, hcm, h58, hct]
          have ⟨i1, i2⟩ := ih b f hcs hb
          simp only [nrun, e, i1, hany, i2, List.nil_append, and_true]
          simp only [lineBuf, lineFull, hcode, hcom, hs, hs']
          cases ps <;> simp [hct]

theorem lineBuf_nil (l) : lineBuf [] l = payload l := by
  simp only [lineBuf, payload]
  split
  · rfl
  · cases h : split 58 (code l) with
    | nil => simp
    | cons p ps => cases ps <;> simp

theorem lineFull_nil (l) : lineFull [] false l = overlong l := by
  simp only [lineFull, overlong]
  cases h : split 58 (code l) <;> simp

theorem split_noSep {s : Byte} {l : List Byte} (h : s ∉ l) : split s l = [l] := by
  induction l with
  | nil => rfl
  | cons c cs ih =>
    simp at h
    simp [split, ih h.2, Ne.symm h.1]

theorem split_append_sep (s : Byte) (a b : List Byte) (h : s ∉ a) : split s (a ++ s :: b) = a :: split s b := by
  induction a with
  | nil => simp [split]
  | cons c cs ih =>
    simp at h
    simp [split, ih h.2, Ne.symm h.1]

/-- every stream is a first line and the rest, or an unfinished line. -/
theorem stream_cases (s : List Byte) : (13 : Byte) ∉ s ∨ ∃ a b, (13 : Byte) ∉ a ∧ s = a ++ 13 :: b := by
  induction s with
  | nil => simp
  | cons c cs ih =>
    by_cases hc : c = 13
    · exact .inr ⟨[], cs, by simp, by simp [hc]⟩
    · rcases ih with h | ⟨a, b, h1, h2⟩
      · left; simp [h, Ne.symm hc]
      · right; exact ⟨c :: a, b, by simp [h1, Ne.symm hc], by simp [h2]⟩

theorem decode_cons (a b : List Byte) (h : (13 : Byte) ∉ a) :
    decode (a ++ 13 :: b) = (if overlong a then [] else [payload a]) ++ decode b := by
  simp only [decode, lines, split_append_sep 13 a b h]
  rw [List.dropLast_cons_of_ne_nil (split_ne _ _)]
  cases ho : overlong a <;> simp [ho]

theorem decode_tail (a : List Byte) (h : (13 : Byte) ∉ a) : decode a = [] := by
  simp [decode, lines, split_noSep h]

theorem nrun_cr (b : List Byte) (f c : Bool) :
    nstep (b, f, c) 13 = (([], false, false), (if b.length + 1 ≥ 80 then [FEv.oob] else []) ++ (if f then [] else [.cmd b])) := by
  have : upper 13 = 13 := by decide
  simp [nstep, this]

theorem nrun_decode (n : Nat) (s : List Byte) (hn : s.length ≤ n) : cmds (nrun ([], false, false) s).2 = decode s := by
  induction n generalizing s with
  | zero =>
    have : s = [] := by
      apply List.eq_nil_of_length_eq_zero; omega
    subst this
    simp [nrun, cmds, decode, lines, split]
  | succ n ih =>
    rcases stream_cases s with h | ⟨a, b, h1, rfl⟩
    · rw [decode_tail s h]; exact (nrun_line [] false s h (by simp)).2
    · have ⟨i1, i2⟩ := nrun_line [] false a h1 (by simp)
      rw [nrun_append, cmds_append, i2, i1, nrun, nrun_cr, cmds_append, decode_cons a b h1]
      simp only [lineBuf_nil, lineFull_nil]
      rw [ih b (by simp at hn; omega)]
      simp only [List.nil_append]
      congr 1
      split <;> cases overlong a <;> rfl

end Mrc

namespace Mrc
open Spec

/-- a piece of a line with more than 80 counting characters (from buffer content `b`). -/
def lineOob (b : List Byte) (l : List Byte) : Prop :=
  match split 58 (code l) with
  | [] => False
  | p :: ps => (p.filter counts ≠ [] ∧ 81 ≤ (b ++ p.filter counts).length) ∨ ∃ q ∈ ps, 81 ≤ (q.filter counts).length

theorem nrun_line_oob (b : List Byte) (f : Bool) (l : List Byte) (h : (13 : Byte) ∉ l) :
    FEv.oob ∈ (nrun (b, f, false) l).2 ↔ lineOob b l := by
  induction l generalizing b f with
  | nil => simp [nrun, lineOob, code, split]
  | cons c cs ih =>
    have hc : c ≠ 13 := by intro hh; apply h; simp [hh]
    have hcs : (13 : Byte) ∉ cs := by intro hh; apply h; simp [hh]
    have ⟨u1, u2, u3⟩ := upper_special c
    have h13 : upper c ≠ 13 := by simpa [u1] using hc
    generalize hu : upper c = u at *
    by_cases hcm : isComment u = true
    · have h58 : u ≠ 58 := by intro hh; subst hh; simp [isComment] at hcm
      have e : nstep (b, f, false) c = ((b, f, true), []) := by
        simp [nstep, hu, h13, hcm, h58]
      simp only [nrun, e, nrun_comment _ _ _ hcs]
      have hcode : code (c :: cs) = [] := by simp [code, hu, hcm]
      simp [lineOob, hcode, split]
    · have hcode : code (c :: cs) = u :: code cs := by simp [code, hu, hcm]
      by_cases h58 : u = 58
      · have e : nstep (b, f, false) c = (([], f, false), []) := by
          simp [nstep, hu, h58, isComment, counts]
        simp only [nrun, e, List.nil_append, ih [] f hcs]
        simp only [lineOob, hcode, h58, split, if_true]
        cases hs : split 58 (code cs) with
        | nil => exact absurd hs (split_ne _ _)
        | cons p ps =>
          simp
          constructor
          · rintro (⟨-, h⟩ | h)
            · exact .inl h
            · exact .inr h
          · rintro (h | h)
            · refine .inl ⟨?_, h⟩
              rcases hp : p.filter counts with _ | ⟨x, xs⟩
              · simp [hp] at h
              · have : x ∈ p.filter counts := by simp [hp]
                simp at this
                exact ⟨x, this⟩
            · exact .inr h
      · obtain ⟨p, ps, hs, hs'⟩ := split_cons_of_ne (s := 58) (c := u) h58 (code cs)
        by_cases hct : counts u = true
        · have e : nstep (b, f, false) c = ((b ++ [u], f || decide (b.length + 1 ≥ 80), false),
              if b.length ≥ 80 then [.oob] else []) := by
            simp [nstep, hu, h13, hcm, h58, hct]
          simp only [nrun, e, List.mem_append, ih _ _ hcs]
          simp only [lineOob, hcode, hs, hs', List.filter_cons, hct, if_true]
          by_cases hb : b.length ≥ 80
          · simp [hb]; left; omega
          · simp only [if_neg hb, List.not_mem_nil, false_or]
            simp only [List.append_assoc, List.singleton_append, ne_eq, reduceCtorEq, not_false_eq_true, true_and]
            constructor
            · rintro (⟨-, h⟩ | h)
              · exact .inl h
              · exact .inr h
            · rintro (h | h)
              · refine .inl ⟨?_, h⟩
                rcases hp : p.filter counts with _ | ⟨x, xs⟩
                · simp [hp] at h; omega
                · simp
              · exact .inr h
        · have e : nstep (b, f, false) c = ((b, f, false), []) := by
            simp [nstep, hu, h13, hcm, h58, hct]
          simp only [nrun, e, List.nil_append, ih b f hcs]
          simp only [lineOob, hcode, hs, hs', List.filter_cons, hct]
          simp

theorem lineOob_nil (l : List Byte) : lineOob [] l ↔ ∃ p ∈ split 58 (code l), 81 ≤ (p.filter counts).length := by
  simp only [lineOob]
  cases hs : split 58 (code l) with
  | nil => exact absurd hs (split_ne _ _)
  | cons p ps =>
    have : (p.filter counts ≠ [] ∧ 81 ≤ ([] ++ p.filter counts).length) ↔ 81 ≤ (p.filter counts).length := by
      rw [List.nil_append]
      constructor
      · exact fun h => h.2
      · intro h; refine ⟨?_, h⟩; intro e; simp [e] at h
    simp only [this, List.mem_cons, exists_eq_or_imp]

theorem lines_cons (a b : List Byte) (h : (13 : Byte) ∉ a) : lines (a ++ 13 :: b) = a :: lines b := by
  simp only [lines, split_append_sep 13 a b h]
  rw [List.dropLast_cons_of_ne_nil (split_ne _ _)]

theorem tail_cons (a b : List Byte) (h : (13 : Byte) ∉ a) : tail (a ++ 13 :: b) = tail b := by
  simp only [tail, split_append_sep 13 a b h]
  cases hs : split 13 b with
  | nil => exact absurd hs (split_ne _ _)
  | cons p ps => simp

theorem lines_noCR (a : List Byte) (h : (13 : Byte) ∉ a) : lines a = [] := by simp [lines, split_noSep h]
theorem tail_noCR (a : List Byte) (h : (13 : Byte) ∉ a) : tail a = a := by simp [tail, split_noSep h]

theorem nrun_oob (n : Nat) (s : List Byte) (hn : s.length ≤ n) :
    FEv.oob ∈ (nrun ([], false, false) s).2 ↔
      (∃ l ∈ lines s, 79 ≤ (payload l).length) ∨
      ∃ l ∈ lines s ++ [tail s], ∃ p ∈ split 58 (code l), 81 ≤ (p.filter counts).length := by
  induction n generalizing s with
  | zero =>
    have : s = [] := by
      apply List.eq_nil_of_length_eq_zero; omega
    subst this
    simp [nrun, lines, tail, split, code]
  | succ n ih =>
    rcases stream_cases s with h | ⟨a, b, h1, rfl⟩
    · rw [nrun_line_oob _ _ _ h, lineOob_nil, lines_noCR s h, tail_noCR s h]
      simp
    · have ⟨i1, i2⟩ := nrun_line [] false a h1 (by simp)
      rw [nrun_append, i1, nrun, nrun_cr, lines_cons a b h1, tail_cons a b h1]
      simp only [lineBuf_nil, lineFull_nil, List.mem_append, nrun_line_oob _ _ _ h1, lineOob_nil]
      have e1 : (FEv.oob ∈ (if (payload a).length + 1 ≥ 80 then [FEv.oob] else [])) ↔ 79 ≤ (payload a).length := by
        split <;> simp <;> omega
      have e2 : ¬ (FEv.oob ∈ (if overlong a = true then [] else [FEv.cmd (payload a)])) := by
        split <;> simp
      rw [e1]
      simp only [e2, or_false]
      have e3 : ∀ (P : List Byte → Prop), (∃ l, (l ∈ a :: lines b ∨ l ∈ [tail b]) ∧ P l) ↔
          P a ∨ ∃ l, l ∈ lines b ++ [tail b] ∧ P l := by
        intro P; simp only [List.mem_cons, or_assoc, exists_eq_or_imp, List.mem_append]
      have e4 : ∀ (P : List Byte → Prop), (∃ l, l ∈ a :: lines b ∧ P l) ↔ P a ∨ ∃ l, l ∈ lines b ∧ P l := by
        intro P; simp only [List.mem_cons, exists_eq_or_imp]
      rw [ih b (by simp at hn; omega), e3, e4]
      constructor
      · rintro (h | h | h | h)
        · exact .inr (.inl h)
        · exact .inl (.inl h)
        · exact .inl (.inr h)
        · exact .inr (.inr h)
      · rintro ((h | h) | h | h)
        · exact .inr (.inl h)
        · exact .inr (.inr (.inl h))
        · exact .inl h
        · exact .inr (.inr (.inr h))

/-! ### noise, case, resynchronisation -/

theorem nstep_noise (n) (c : Byte) (h : isNoise c = true) : nstep n c = (n, []) := by
  have ⟨u1, u2, u3⟩ := upper_special c
  simp [isNoise] at h
  obtain ⟨⟨⟨h1, h2⟩, h3⟩, h4⟩ := h
  have a1 : upper c ≠ 13 := fun e => h3 (u1.1 e)
  have a2 : upper c ≠ 58 := fun e => h4 (u2.1 e)
  obtain ⟨b, f, cm⟩ := n
  cases cm <;> simp [nstep, a1, a2, u3, h2, h1]

theorem nrun_noise (n) (s : List Byte) : nrun n (s.filter (fun c => !isNoise c)) = nrun n s := by
  induction s generalizing n with
  | nil => rfl
  | cons c cs ih =>
    by_cases h : isNoise c = true
    · simp [h, nrun, nstep_noise n c h, ih]
    · simp [h, nrun, ih]

theorem nrun_upper (n) (s : List Byte) : nrun n (s.map upper) = nrun n s := by
  induction s generalizing n with
  | nil => rfl
  | cons c cs ih =>
    have : nstep n (upper c) = nstep n c := by simp [nstep, upper_idem]
    simp [nrun, this, ih]

/-- state after the garbage `g`. -/
theorem nrun_state (n : Nat) (g : List Byte) (hn : g.length ≤ n) :
    (nrun ([], false, false) g).1 = (payload (tail g), overlong (tail g), (tail g).any isComment) := by
  induction n generalizing g with
  | zero =>
    have : g = [] := by
      apply List.eq_nil_of_length_eq_zero; omega
    subst this
    simp [nrun, tail, split, payload, overlong, code, comment]
  | succ n ih =>
    rcases stream_cases g with h | ⟨a, b, h1, rfl⟩
    · rw [(nrun_line [] false g h (by simp)).1, tail_noCR g h, lineBuf_nil, lineFull_nil]
    · rw [nrun_append, (nrun_line [] false a h1 (by simp)).1, nrun, nrun_cr]
      simp only
      rw [ih b (by simp at hn; omega), tail_cons a b h1]

end Mrc
