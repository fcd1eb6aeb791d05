import Verif.Proof.Tokens
import Verif.Props.Mril
/-
C26, exact: which instruction texts — of all byte strings — the parser can read without leaving its tables.
-/
namespace Mrc.Props
open Mrc Mrc.Prog Mrc.Spec
variable {F : Type} [FloatOps F]

/-- **C26** (safe texts): a text that is safe for the number of conditions pending never makes the parser leave its tables,
in any environment, at any point of its execution. -/
theorem C26_safe (cfg : Cfg F) (hm : cfg.pinMap.length = 10) (s : Core F) (m : List Byte) (h : SafeText s.conds.length m)
    (tr : List (Act F)) (f : Fault) : ¬ Exec (Mril.parse cfg s m) tr (.fault f) := by
  intro he
  exact (wp_exec he (Tok.parse_good cfg hm s m h) (fun _ _ _ _ _ => trivial)).2

/-- **C26** (all other texts): there is no environment in which the parser gets through any other text; whatever the
servos, pins and clock say, it leaves its tables. -/
theorem C26_unsafe (cfg : Cfg F) (hm : cfg.pinMap.length = 10) (s : Core F) (m : List Byte) (h : ¬ SafeText s.conds.length m) :
    (∀ tr s', ¬ Does (Mril.parse cfg s m) tr s') ∧ ∀ w : World F, ∃ f, (Mril.parse cfg s m).run w = .error f := by
  have h1 : ∀ tr s', ¬ Does (Mril.parse cfg s m) tr s' := fun tr s' hd =>
    (wp_exec hd (Tok.parse_bad cfg hm s m h) (fun _ _ _ _ _ => trivial)).2
  refine ⟨h1, fun w => ?_⟩
  cases e : (Mril.parse cfg s m).run w with
  | error f => exact ⟨f, rfl⟩
  | ok r =>
    obtain ⟨tr, ht⟩ := run_exec (a := r.1) (w' := r.2) e
    exact absurd ht (h1 tr r.1)

/-- **C26** (exact): the texts the parser reads without leaving its tables are exactly the safe ones. -/
theorem C26_exact (cfg : Cfg F) (hm : cfg.pinMap.length = 10) (s : Core F) (m : List Byte) :
    SafeText s.conds.length m ↔ ∀ tr f, ¬ Exec (Mril.parse cfg s m) tr (.fault f) := by
  refine ⟨fun h tr f => C26_safe cfg hm s m h tr f, fun h => Classical.byContradiction fun hn => ?_⟩
  obtain ⟨-, h2⟩ := C26_unsafe cfg hm s m hn
  have key : ∀ {α : Type} (p : Prog F α) (w : World F) (f : Fault), p.run w = .error f → ∃ tr, Exec p tr (.fault f) := by
    intro α p
    induction p with
    | ret b => intro w f e; simp [run] at e
    | fault e => intro w f e'; simp [run] at e'; subst e'; exact ⟨[], .nil _⟩
    | servo i k ih => intro w f e; obtain ⟨t, ht⟩ := ih _ _ _ e; exact ⟨_, .cons (.servo _ _ _) ht⟩
    | micro i m k ih => intro w f e; obtain ⟨t, ht⟩ := ih _ _ e; exact ⟨_, .cons (.micro _ _ _) ht⟩
    | now k ih => intro w f e; obtain ⟨t, ht⟩ := ih _ _ _ e; exact ⟨_, .cons (.now _ _) ht⟩
    | pin p k ih => intro w f e; obtain ⟨t, ht⟩ := ih _ _ _ e; exact ⟨_, .cons (.pin _ _ _) ht⟩
    | rx k ih =>
      intro w f e
      simp only [run] at e
      split at e
      · obtain ⟨t, ht⟩ := ih _ _ _ e; exact ⟨_, .cons (.rx _ _) ht⟩
      · obtain ⟨t, ht⟩ := ih _ _ _ e; exact ⟨_, .cons (.rx _ _) ht⟩
    | eeRead k ih => intro w f e; obtain ⟨t, ht⟩ := ih _ _ _ e; exact ⟨_, .cons (.eeRead _ _) ht⟩
    | eeWrite a b k ih => intro w f e; obtain ⟨t, ht⟩ := ih _ _ e; exact ⟨_, .cons (.eeWrite _ _ _) ht⟩
    | out o k ih => intro w f e; obtain ⟨t, ht⟩ := ih _ _ e; exact ⟨_, .cons (.out _ _) ht⟩
  let z : F := FloatOps.ofRat 0
  let w : World F := ⟨fun _ => ⟨0, z, 0, 0, 0, z, z, z, z, z, z, z⟩, 0, fun _ => false, [], fun _ => 0, []⟩
  obtain ⟨f, hf⟩ := h2 w
  obtain ⟨tr, ht⟩ := key _ _ _ hf
  exact h tr f ht

/-! ### C20 for every text -/

/-- the command texts `ts` are executed one after the other, each exactly once. -/
inductive TokSteps (cfg : Cfg F) : List (List Byte) → Core F × Loc F → List (Act F) → Core F × Loc F → Prop
  | nil (r) : TokSteps cfg [] r [] r
  | cons {t ts r a r1 b r2} : Does (Mril.exec cfg r.1 r.2 t) a r1 → TokSteps cfg ts r1 b r2 →
      TokSteps cfg (t :: ts) r (a ++ b) r2

private theorem execToks_steps (cfg : Cfg F) (ts : List (List Byte)) (r r' : Core F × Loc F) (tr : List (Act F)) :
    Does (Tok.execToks cfg ts r.1 r.2) tr r' ↔ TokSteps cfg ts r tr r' := by
  induction ts generalizing r tr with
  | nil =>
    constructor
    · intro h
      obtain ⟨rfl, h2⟩ := exec_ret h
      simp at h2; subst h2; exact .nil _
    · intro h; cases h; exact .nil _
  | cons c cs ih =>
    constructor
    · intro h
      obtain ⟨a, t, u, rfl, h1, h2⟩ := exec_bind_ret h
      exact .cons h1 ((ih a u).1 h2)
    · intro h
      cases h with
      | cons h1 h2 => exact exec_bind_intro h1 ((ih _ _).2 h2)

/-- **C20** (every text that fits): whatever bytes an instruction consists of — blanks, commas, comments, stray characters —
it executes exactly the commands it falls into, each once and in order, inside the transaction, then (if there was a comment)
writes the comment log line, then does the completion bookkeeping; characters left over have no effect. -/
theorem C20_every (cfg : Cfg F) (m : List Byte) (hne : m ≠ []) (s s' : Core F) (tr : List (Act F))
    (h1 : ∀ t ∈ (commands [] (codePart m)).1, t.length ≤ 19) (h2 : (commands [] (codePart m)).2.length ≤ 20) :
    Does (Mril.parse cfg s m) tr s' ↔
      ∃ t u r, tr = t ++ ((if 35 ∈ m ∨ 40 ∈ m then [.out (.raw .comment)] else []) ++ u) ∧
        TokSteps cfg (commands [] (codePart m)).1 ({ s with rc := s.rc.startTransaction }, {}) t r ∧
        Does (Mril.finish { r.1 with rc := r.1.rc.endTransaction } r.2) u s' := by
  rw [Mril.parse, if_neg (by simpa using hne), Tok.loop_toks cfg m _ _ [] h1 h2, Prog.bind_assoc]
  constructor
  · intro h
    obtain ⟨r, t, u, rfl, a, b⟩ := exec_bind_ret h
    have a' := (execToks_steps cfg _ (_, _) r t).1 a
    unfold Tok.note at b
    split at b
    · rename_i hc
      cases b with | cons hs b =>
      cases hs with | out _ _ =>
      exact ⟨t, _, r, by rw [if_pos hc]; rfl, a', b⟩
    · rename_i hc
      exact ⟨t, u, r, by rw [if_neg hc]; rfl, a', b⟩
  · rintro ⟨t, u, r, rfl, a, b⟩
    refine exec_bind_intro ((execToks_steps cfg _ (_, _) r t).2 a) ?_
    unfold Tok.note
    split
    · exact .cons (.out _ _) b
    · exact b

/-! Examples: the parts of some texts; safe and unsafe ones. -/

example : commands [] (codePart (str "N5X10.5 R6-20(up X")) = ([str "N5", str "X10.5R6-20"], []) := by decide
example : commands [] (codePart (str "X10,Y20")) = ([str "X10Y20"], []) := by decide
example : commands [] (codePart (str "X10Y20 #c")) = ([str "X10"], str "Y20") := by decide

/-- a test for examples. -/
def execB (t : List Byte) : Bool :=
  decide (t.length ≤ 19) && (t.head? != some 82 || (match t[1]? with | some d => decide (48 ≤ d ∧ d ≤ 55) | none => false)) &&
    ((t.head? != some 73 && t.head? != some 79) || (match t[1]? with | some d => decide (48 ≤ d ∧ d ≤ 57) | none => false))

theorem execB_iff (t : List Byte) : execB t = true ↔ Executable t := by
  simp only [execB, Bool.and_eq_true, decide_eq_true_eq, Bool.or_eq_true, bne_iff_ne, Executable]
  cases h : t[1]? with
  | none =>
    simp only [Bool.false_eq_true, or_false, reduceCtorEq, false_and, exists_const]
    constructor
    · rintro ⟨⟨h1, h2⟩, h3, h4⟩
      exact ⟨h1, h2, fun e => e.elim h3 h4⟩
    · rintro ⟨h1, h2, h3⟩
      exact ⟨⟨h1, h2⟩, fun e => h3 (.inl e), fun e => h3 (.inr e)⟩
  | some d =>
    simp only [decide_eq_true_eq, Option.some.injEq, exists_eq_left']
    constructor
    · rintro ⟨⟨h1, h2⟩, h3⟩
      exact ⟨h1, fun e => h2.elim (fun h => absurd e h) (fun h => h),
        fun e => h3.elim (fun h => e.elim (fun e => absurd e h.1) (fun e => absurd e h.2)) (fun h => h)⟩
    · rintro ⟨h1, h2, h3⟩
      refine ⟨⟨h1, ?_⟩, ?_⟩
      · by_cases e : t.head? = some 82
        · exact .inr (h2 e)
        · exact .inl e
      · by_cases e : t.head? = some 73 ∨ t.head? = some 79
        · exact .inr (h3 e)
        · exact .inl ⟨fun e' => e (.inl e'), fun e' => e (.inr e')⟩

def safeB (n : Nat) (m : List Byte) : Bool :=
  (commands [] (codePart m)).1.all execB && decide ((commands [] (codePart m)).2.length ≤ 20) &&
    decide (n + inputTests (commands [] (codePart m)).1 ≤ 10 ∨ inputTests (commands [] (codePart m)).1 = 0)

theorem safeB_iff (n : Nat) (m : List Byte) : safeB n m = true ↔ SafeText n m := by
  simp only [safeB, Bool.and_eq_true, decide_eq_true_eq, List.all_eq_true, execB_iff]
  exact ⟨fun ⟨⟨a, b⟩, c⟩ => ⟨a, b, c⟩, fun ⟨a, b, c⟩ => ⟨⟨a, b⟩, c⟩⟩

instance (n : Nat) (m : List Byte) : Decidable (SafeText n m) := decidable_of_iff _ (safeB_iff n m)

example : SafeText 9 (str "N5 I31X10,Y20 #c") := by decide +kernel
example : SafeText 9 (str "N5I31R71O05") ∧ ¬ SafeText 10 (str "N5I31R71O05") ∧ ¬ SafeText 0 (str "X1R8") := by decide +kernel

end Mrc.Props
