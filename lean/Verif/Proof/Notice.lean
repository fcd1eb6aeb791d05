import Verif.Proof.CoreWp
/- Instruction numbers: which commands send notices, the completion check as seen by a monitor. -/
set_option linter.unusedSectionVars false
namespace Mrc
open Mrc.Prog Mrc.Spec
variable {F : Type} [FloatOps F] {σ : Type}

/-- accesses of commands other than N: no message is sent. -/
def quietAct : Act F → Prop
  | .servo _ _ => True
  | .micro _ _ => True
  | .now _ => True
  | .out (.pinMode _ _) => True
  | .out (.digitalWrite _ _) => True
  | _ => False

/-- the kind of a command (MRILParser.cpp:78-82 and 221). -/
def kindOf (tok : List Byte) : CmdType :=
  if tok.headD 0 = 78 then .none
  else if tok.length = 1 || (tok.headD 0 == 82 && tok.length == 2) then .read
  else .write

theorem exec_N (cfg : Cfg F) (s : Core F) (l : Loc F) (tok : List Byte) (h : tok.headD 0 = 78) :
    Mril.exec cfg s l tok = .out (.msg (.n0 (atol (tok.drop 1)))) (.ret (s, { l with ctype := .none, tmpNumber := atol (tok.drop 1) })) := by
  have h1 : ¬ ((78 : Byte) = 77) := by decide
  have h2 : ¬ ((78 : Byte) = 86) := by decide
  have h3 : poseIdx 78 = none := by decide
  have h4 : ¬ ((78 : Byte) = 82) := by decide
  have h5 : ¬ ((78 : Byte) = 73) := by decide
  have h6 : ¬ ((78 : Byte) = 79) := by decide
  have h7 : ¬ ((78 : Byte) = 68) := by decide
  simp only [Mril.exec, h, h1, h2, h3, h4, h5, h6, h7, if_false, if_true]
  rfl

theorem exec_other (cfg : Cfg F) (s : Core F) (l : Loc F) (tok : List Byte) (h : tok.headD 0 ≠ 78) :
    (Mril.exec cfg s l tok).only quietAct (fun r => r.2.tmpNumber = l.tmpNumber ∧ r.1.commandNumber = s.commandNumber ∧ r.2.ctype = kindOf tok) := by
  exec_leaves
  all_goals simp_all [Prog.bind, only, quietAct, kindOf]
  all_goals
    intro h82; rename_i hp _ _; rw [h82] at hp; simp [poseIdx] at hp

/-- the loop over the pins, for monitors that ignore them. -/
theorem ioCheck_wp {M : Mon F σ} {Q : σ → Bool → Prop} (c : Conds) (g : σ) (hp : ∀ p b, M.upd g (.pin p b) = g) (hq : ∀ b, Q g b) :
    (IOL.check c).wp M Q g := by
  induction c with
  | nil => exact hq _
  | cons x c ih =>
    simp only [IOL.check]
    split
    · intro b _; rw [hp]; cases b <;> first | exact ih | exact hq _
    · split
      · intro b _; rw [hp]; cases b <;> first | exact ih | exact hq _
      · exact ih

/-- the completion check, for monitors that ignore pins and clock. -/
theorem mrilProcess_wp {M : Mon F σ} {Q : σ → Core F → Prop} (s : Core F) (g : σ) (hp : ∀ p b, M.upd g (.pin p b) = g)
    (hn : ∀ t, M.upd g (.now t) = g)
    (h1 : ∀ c, Q g { s with conds := c, done := false })
    (h2 : s.commandNumber ≤ 0 → ∀ c, Q g { s with conds := c, done := true })
    (h3 : 0 < s.commandNumber → ∀ c, M.ok g (.out (.msg (.n1 s.commandNumber))) ∧
      Q (M.upd g (.out (.msg (.n1 s.commandNumber)))) { s with conds := c, commandNumber := -1, done := true }) :
    (Mril.process s).wp M Q g := by
  unfold Mril.process IOL.isDone
  rw [wp_bind, wp_bind]
  refine ioCheck_wp _ _ hp fun b => ?_
  have key : ∀ (b : Bool) (c : Conds), Prog.wp M
      (if b && !s.rc.isMoving then
        .now fun t =>
          if Wait.isDone t s.waitUntil then
            if 0 < s.commandNumber then
              .out (.msg (.n1 s.commandNumber)) (.ret { s with conds := c, commandNumber := -1, done := true })
            else .ret { s with conds := c, done := true }
          else .ret { s with conds := c, done := false }
      else .ret { s with conds := c, done := false }) Q g := by
    intro b c
    split
    · intro t _
      rw [hn]
      show Prog.wp M (if _ then _ else _) _ _
      split
      · split
        · exact h3 (by assumption) _
        · exact h2 (by rename_i h; simpa using h) _
      · exact h1 _
    · exact h1 _
  cases b
  · exact key false _
  · exact key true []

theorem foldl_inv {α β : Type} (f : β → α → β) (P : β → Prop) (ok : β → α → Prop) (l : List α) (g0 : β)
    (h0 : P g0) (hs : ∀ g a, P g → ok g a → P (f g a)) (hok : ∀ pre a post, l = pre ++ a :: post → ok (pre.foldl f g0) a) : P (l.foldl f g0) := by
  induction l generalizing g0 with
  | nil => exact h0
  | cons a l ih =>
    refine ih (f g0 a) (hs _ _ h0 (hok [] a l rfl)) ?_
    intro pre b post e
    exact hok (a :: pre) b post (by rw [e]; rfl)

end Mrc
