import Verif.Proof.Wp
import Verif.Spec.Instruction
/- Exact behaviour of the completion check (Mril.process), for arbitrary answers of the environment. -/
namespace Mrc
open Mrc.Prog
variable {F : Type} 

/-- conditions that are checked at all (required level 0 or 1). -/
def effective (c : Conds) : Conds := c.filter fun x => x.2 == 0 || x.2 == 1

/-- reading the pin of a condition and finding the required level. -/
def metRead (x : Nat × Nat) : Act F := .pin x.1 (x.2 == 1)
/-- reading the pin of a condition and finding the other level. -/
def unmetRead (x : Nat × Nat) : Act F := .pin x.1 (x.2 != 1)

/-- execution of a program whose next step is fixed. -/
theorem exec_ret {α : Type} {a : α} {tr : List (Act F)} {q : Prog F α} (h : Exec (.ret a) tr q) : tr = [] ∧ q = .ret a := by
  cases h with
  | nil => exact ⟨rfl, rfl⟩
  | cons hs _ => cases hs

theorem check_spec (c : Conds) (tr : List (Act F)) (b : Bool) (h : Exec (IOL.check c) tr (.ret b)) :
    (b = true ∧ tr = (effective c).map metRead) ∨
    (b = false ∧ ∃ c1 x c2, effective c = c1 ++ x :: c2 ∧ tr = c1.map metRead ++ [unmetRead x]) := by
  induction c generalizing tr with
  | nil =>
    obtain ⟨rfl, h2⟩ := exec_ret h
    simp at h2
    exact .inl ⟨h2, rfl⟩
  | cons x c ih =>
    obtain ⟨p, s⟩ := x
    simp only [IOL.check] at h
    by_cases h1 : s = 1
    · subst h1
      simp only [if_true] at h
      have ee : effective ((p, 1) :: c) = (p, 1) :: effective c := by simp [effective]
      cases h with | cons hs he =>
      cases hs with | pin _ _ v =>
      cases v with
      | true =>
        simp only [if_true] at he
        rcases ih _ he with ⟨rfl, rfl⟩ | ⟨rfl, c1, y, c2, h1, rfl⟩
        · exact .inl ⟨rfl, by rw [ee]; rfl⟩
        · exact .inr ⟨rfl, (p, 1) :: c1, y, c2, by rw [ee, h1]; rfl, rfl⟩
      | false =>
        simp only [Bool.false_eq_true, if_false] at he
        obtain ⟨rfl, h2⟩ := exec_ret he
        simp at h2
        exact .inr ⟨h2, [], (p, 1), effective c, by rw [ee]; rfl, rfl⟩
    · by_cases h0 : s = 0
      · subst h0
        simp only [if_true, Nat.zero_ne_one, if_false] at h
        have ee : effective ((p, 0) :: c) = (p, 0) :: effective c := by simp [effective]
        cases h with | cons hs he =>
        cases hs with | pin _ _ v =>
        cases v with
        | false =>
          simp only [Bool.false_eq_true, if_false] at he
          rcases ih _ he with ⟨rfl, rfl⟩ | ⟨rfl, c1, y, c2, h1, rfl⟩
          · exact .inl ⟨rfl, by rw [ee]; rfl⟩
          · exact .inr ⟨rfl, (p, 0) :: c1, y, c2, by rw [ee, h1]; rfl, rfl⟩
        | true =>
          simp only [if_true] at he
          obtain ⟨rfl, h2⟩ := exec_ret he
          simp at h2
          exact .inr ⟨h2, [], (p, 0), effective c, by rw [ee]; rfl, rfl⟩
      · have ee : effective ((p, s) :: c) = effective c := by simp [effective, h0, h1]
        rw [if_neg h1, if_neg h0] at h
        rw [ee]; exact ih _ h

theorem isDone_spec (c : Conds) (tr : List (Act F)) (b : Bool) (c' : Conds)
    (h : Exec (IOL.isDone c) tr (.ret (b, c'))) :
    (b = true ∧ c' = [] ∧ tr = (effective c).map metRead) ∨
    (b = false ∧ c' = c ∧ ∃ c1 x c2, effective c = c1 ++ x :: c2 ∧ tr = c1.map metRead ++ [unmetRead x]) := by
  rcases exec_bind h with ⟨p', h1, h2⟩ | ⟨v, t, u, rfl, h1, h2⟩
  · cases p' with
    | ret a =>
      simp [Prog.bind] at h2
      cases check_spec c tr a h1 with
      | inl k => obtain ⟨rfl, rfl⟩ := k; simp at h2; exact .inl ⟨h2.1, h2.2, rfl⟩
      | inr k => obtain ⟨rfl, k⟩ := k; simp at h2; exact .inr ⟨h2.1, h2.2, k⟩
    | _ => simp [Prog.bind] at h2
  · obtain ⟨rfl, h3⟩ := exec_ret h2
    rw [List.append_nil]
    cases check_spec c t v h1 with
    | inl k => obtain ⟨rfl, rfl⟩ := k; simp at h3; exact .inl ⟨h3.1, h3.2, rfl⟩
    | inr k => obtain ⟨rfl, k⟩ := k; simp at h3; exact .inr ⟨h3.1, h3.2, k⟩


theorem process_spec [FloatOps F] (s s' : Core F) (tr : List (Act F)) (h : Exec (Mril.process s) tr (.ret s')) :
    (∃ c1 x c2, effective s.conds = c1 ++ x :: c2 ∧ tr = c1.map metRead ++ [unmetRead x] ∧ s' = { s with done := false }) ∨
    (s.rc.isMoving = true ∧ tr = (effective s.conds).map metRead ∧ s' = { s with conds := [], done := false }) ∨
    (s.rc.isMoving = false ∧ ∃ t,
      (t ≤ s.waitUntil ∧ tr = (effective s.conds).map metRead ++ [.now t] ∧ s' = { s with conds := [], done := false }) ∨
      (s.waitUntil < t ∧ s.commandNumber ≤ 0 ∧ tr = (effective s.conds).map metRead ++ [.now t] ∧
        s' = { s with conds := [], done := true }) ∨
      (s.waitUntil < t ∧ 0 < s.commandNumber ∧
        tr = (effective s.conds).map metRead ++ [.now t, .out (.msg (.n1 s.commandNumber))] ∧
        s' = { s with conds := [], done := true, commandNumber := -1 })) := by
  obtain ⟨⟨b, d⟩, t, u, rfl, h1, h2⟩ := exec_bind_ret h
  rcases isDone_spec _ _ _ _ h1 with ⟨rfl, rfl, rfl⟩ | ⟨rfl, rfl, c1, x, c2, k1, rfl⟩
  · cases hm : s.rc.isMoving with
    | true =>
      simp only [hm, Bool.true_and, Bool.not_true, Bool.false_eq_true, if_false] at h2
      obtain ⟨rfl, h3⟩ := exec_ret h2
      simp at h3
      exact .inr (.inl ⟨rfl, by simp, h3⟩)
    | false =>
      simp only [hm, Bool.true_and, Bool.not_false, if_true] at h2
      refine .inr (.inr ⟨rfl, ?_⟩)
      cases h2 with | cons hs he =>
      cases hs with | now _ t =>
      refine ⟨t, ?_⟩
      simp only [Wait.isDone] at he
      by_cases ht : s.waitUntil < t
      · simp only [gt_iff_lt, ht, decide_true, if_true] at he
        by_cases hc : 0 < s.commandNumber
        · rw [if_pos hc] at he
          cases he with | cons hs he =>
          cases hs
          obtain ⟨rfl, h3⟩ := exec_ret he
          simp at h3
          exact .inr (.inr ⟨ht, hc, rfl, h3⟩)
        · rw [if_neg hc] at he
          obtain ⟨rfl, h3⟩ := exec_ret he
          simp at h3
          exact .inr (.inl ⟨ht, by omega, rfl, h3⟩)
      · simp only [gt_iff_lt, ht, decide_false, Bool.false_eq_true, if_false] at he
        obtain ⟨rfl, h3⟩ := exec_ret he
        simp at h3
        exact .inl ⟨by omega, rfl, h3⟩
  · simp only [Bool.false_and, Bool.false_eq_true, if_false] at h2
    obtain ⟨rfl, h3⟩ := exec_ret h2
    simp at h3
    exact .inl ⟨c1, x, c2, k1, by simp, h3⟩

end Mrc

namespace Mrc
open Mrc.Prog Mrc.Spec
variable {F : Type} [FloatOps F]

theorem isUpper_iff (c : Byte) : isUpper c = true ↔ 65 ≤ c.toNat ∧ c.toNat ≤ 90 := by
  have : ∀ n : Fin 256, isUpper (UInt8.ofNat n.val) = true ↔ 65 ≤ (UInt8.ofNat n.val).toNat ∧ (UInt8.ofNat n.val).toNat ≤ 90 := by
    decide +kernel
  simpa using this ⟨c.toNat, c.toNat_lt⟩

theorem argChar_facts (c : Byte) (h : argChar c = true) :
    Mril.tokChar c = true ∧ isUpper c = false ∧ c ≠ 35 ∧ c ≠ 40 := by
  have : ∀ n : Fin 256, argChar (UInt8.ofNat n.val) = true →
    Mril.tokChar (UInt8.ofNat n.val) = true ∧ isUpper (UInt8.ofNat n.val) = false ∧ UInt8.ofNat n.val ≠ 35 ∧ UInt8.ofNat n.val ≠ 40 := by
    decide +kernel
  simpa using this ⟨c.toNat, c.toNat_lt⟩ (by simpa using h)

theorem upper_facts (c : Byte) (h : isUpper c = true) :
    Mril.tokChar c = true ∧ c ≠ 35 ∧ c ≠ 40 := by
  have : ∀ n : Fin 256, isUpper (UInt8.ofNat n.val) = true →
    Mril.tokChar (UInt8.ofNat n.val) = true ∧ UInt8.ofNat n.val ≠ 35 ∧ UInt8.ofNat n.val ≠ 40 := by
    decide +kernel
  simpa using this ⟨c.toNat, c.toNat_lt⟩ (by simpa using h)

theorem loop_token (cfg : Cfg F) (s : Core F) (l : Loc F) (tok : List Byte) (c : Byte) (arg rest : List Byte)
    (hc : Mril.tokChar c = true ∧ c ≠ 35 ∧ c ≠ 40) (ha : ∀ b ∈ arg, argChar b = true) (hf : Mril.finished rest = true)
    (hlen : tok.length + arg.length + 1 < 20) :
    Mril.loop cfg (c :: arg ++ rest) s l tok =
      (Mril.exec cfg s l (tok ++ c :: arg)).bind fun r => Mril.loop cfg rest r.1 r.2 [] := by
  induction arg generalizing tok c with
  | nil =>
    simp only [List.cons_append, List.nil_append, Mril.loop, hc.1, hc.2.1, hc.2.2, hf,
      decide_false, Bool.or_self, Bool.false_eq_true, if_false, if_true]
    rw [if_neg (by simp [MRIL_COMMAND_SIZE] at *; omega), if_neg (by simp [MRIL_COMMAND_SIZE] at *; omega)]
  | cons b arg ih =>
    have hb := argChar_facts b (ha b (by simp))
    have hnf : Mril.finished (b :: arg ++ rest) = false := by
      simp [Mril.finished, hb]
    rw [List.cons_append, Mril.loop]
    simp only [hc.1, hc.2.1, hc.2.2, hnf,
      decide_false, Bool.or_self, Bool.false_eq_true, if_false, if_true]
    rw [if_neg (by simp [MRIL_COMMAND_SIZE] at *; omega)]
    rw [ih (tok ++ [c]) b ⟨hb.1, hb.2.2⟩ (fun x hx => ha x (by simp [hx])) (by simp at hlen ⊢; omega)]
    simp

/-- executing commands one after the other. -/
def execAll (cfg : Cfg F) : List Cmd → Core F → Loc F → Prog F (Core F × Loc F)
  | [], s, l => .ret (s, l)
  | c :: cs, s, l => (Mril.exec cfg s l c.text).bind fun r => execAll cfg cs r.1 r.2

theorem finished_text (cs : List Cmd) (h : ∀ c ∈ cs, c.Ok) : Mril.finished (text cs) = true := by
  cases cs with
  | nil => rfl
  | cons c cs =>
    have := (isUpper_iff c.letter).2 (h c (by simp)).letter
    simp [text, Cmd.text, Mril.finished, this]

theorem loop_text (cfg : Cfg F) (cs : List Cmd) (h : ∀ c ∈ cs, c.Ok) (s : Core F) (l : Loc F) :
    Mril.loop cfg (text cs) s l [] = execAll cfg cs s l := by
  induction cs generalizing s l with
  | nil => rfl
  | cons c cs ih =>
    have hc := h c (by simp)
    have hu := upper_facts c.letter ((isUpper_iff c.letter).2 hc.letter)
    have : text (c :: cs) = c.letter :: c.arg ++ text cs := by simp [text, Cmd.text]
    rw [this, loop_token cfg s l [] c.letter c.arg (text cs) hu hc.arg (finished_text cs (fun x hx => h x (by simp [hx])))
      (by have := hc.len; simp; omega)]
    rw [execAll, List.nil_append, Cmd.text]
    congr 1
    funext r
    exact ih (fun x hx => h x (by simp [hx])) r.1 r.2

theorem parse_text (cfg : Cfg F) (cs : List Cmd) (h : ∀ c ∈ cs, c.Ok) (hne : cs ≠ []) (s : Core F) :
    Mril.parse cfg s (text cs) =
      (execAll cfg cs { s with rc := s.rc.startTransaction } {}).bind fun r =>
        Mril.finish { r.1 with rc := r.1.rc.endTransaction } r.2 := by
  have : (text cs).length ≠ 0 := by
    cases cs with
    | nil => exact absurd rfl hne
    | cons c cs => simp [text, Cmd.text]
  rw [Mril.parse, if_neg this, loop_text cfg cs h]

/-- digit character of a number below 10. -/
def digit (n : Nat) : Byte := UInt8.ofNat (48 + n)

theorem optionAt_digit (tok : List Byte) (k n : Nat) (hn : n < 10) (h : tok[k]? = some (digit n)) :
    optionAt tok k = some n := by
  have hk : k < tok.length := by
    rcases Nat.lt_or_ge k tok.length with h' | h'
    · exact h'
    · simp [List.getElem?_eq_none h'] at h
  simp only [optionAt, hk, if_true, h, Option.map_some]
  have : ∀ n : Fin 10, u32OfInt (((digit n.val).toNat : Int) - 48) = n.val := by decide
  rw [this ⟨n, hn⟩]


theorem exec_O (cfg : Cfg F) (s : Core F) (l : Loc F) (pin st p : Nat) (rest : List Byte) (hp : pin < 10) (hs : st < 10)
    (hm : cfg.pinMap[pin]? = some p) : Mril.exec cfg s l (79 :: digit pin :: digit st :: rest) =
      Prog.out (.pinMode p .output) (Prog.bind (if st = 1 then Prog.out (.digitalWrite p true) (.ret ())
      else if st = 0 then Prog.out (.digitalWrite p false) (.ret ()) else .ret ())
        fun _ => .ret (s, { l with ctype := .write })) := by
  simp only [Mril.exec]
  rw [optionAt_digit _ 1 pin hp rfl, optionAt_digit _ 2 st hs rfl]
  simp [IOL.setOutput, hm, poseIdx, Prog.bind]

theorem exec_I (cfg : Cfg F) (s : Core F) (l : Loc F) (pin st p : Nat) (rest : List Byte) (hp : pin < 10) (hs : st < 10)
    (hm : cfg.pinMap[pin]? = some p) : Mril.exec cfg s l (73 :: digit pin :: digit st :: rest) =
      Prog.out (.pinMode p (if st = 1 then .input_pulldown else .input_pullup))
        (if s.conds.length ≥ MAX_PINS then .fault .oobWrite
         else .ret ({ s with conds := s.conds ++ [(p, st)] }, { l with ctype := .write })) := by
  simp only [Mril.exec]
  rw [optionAt_digit _ 1 pin hp rfl, optionAt_digit _ 2 st hs rfl]
  simp [IOL.addCondition, hm, poseIdx, Prog.bind]
  split <;> rfl

theorem done_of_dispatch (cfg : Cfg F) (s : FW F) (c' : Core F) (u : List (Act F)) (q : Prog F (FW F))
    (hu : Exec (Mrcp.process cfg { s with core := c' }) u q) (hne : u ≠ []) : c'.done = true := by
  cases hd : c'.done with
  | true => rfl
  | false =>
    simp only [Mrcp.process, hd] at hu
    split at hu
    · exact absurd (exec_ret hu).1 hne
    · simp at hu; exact absurd (exec_ret hu).1 hne

end Mrc
