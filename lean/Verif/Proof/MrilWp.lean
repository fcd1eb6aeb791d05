import Verif.Proof.Mril
/- wp lemmas for the instruction parser. -/
namespace Mrc
open Mrc.Prog Mrc.Spec
variable {F : Type} [FloatOps F] {σ : Type}

/-- unfold `Mril.exec` completely and split into all cases. -/
macro "exec_leaves" : tactic => `(tactic| (
  unfold Mril.exec
  simp only [IOL.addCondition, IOL.setOutput, RC.getCurrentPose, RC.getCurrentLogicalAngles, RC.readAngles, Mril.setAxis,
    readServo, doMicro, send, bind_def, pure_def]
  repeat' split))

theorem axisServo_ge {o : Nat} {a : Fin 8} (h : axisServo o = some a) : 6 ≤ a.val := by
  simp only [axisServo] at h
  split at h
  · simp at h; subst h; decide
  · split at h
    · simp at h; subst h; decide
    · simp at h

theorem loop_wp (M : Mon F σ) (cfg : Cfg F) (I : σ → Core F → Loc F → Prop) (hflt : M.flt .oobWrite)
    (hexec : ∀ g s l tok, I g s l → (Mril.exec cfg s l tok).wp M (fun g r => I g r.1 r.2) g)
    (hraw : ∀ g s l, I g s l → M.ok g (.out (.raw .comment)) ∧ I (M.upd g (.out (.raw .comment))) s l)
    (cs : List Byte) (g : σ) (s : Core F) (l : Loc F) (tok : List Byte) (h : I g s l) :
    (Mril.loop cfg cs s l tok).wp M (fun g r => I g r.1 r.2) g := by
  induction cs generalizing g s l tok with
  | nil => exact h
  | cons c cs ih =>
    simp only [Mril.loop]
    split
    · exact hraw g s l h
    · split
      · split
        · exact hflt
        · split
          · split
            · exact hflt
            · rw [wp_bind]
              exact wp_mono (fun g r hr => ih g r.1 r.2 [] hr) (hexec g s l _ h)
          · exact ih g s l _ h
      · exact ih g s l _ h

theorem parse_wp (M : Mon F σ) (cfg : Cfg F) (I : σ → Core F → Loc F → Prop) (Q : σ → Core F → Prop) (hflt : M.flt .oobWrite)
    (hexec : ∀ g s l tok, I g s l → (Mril.exec cfg s l tok).wp M (fun g r => I g r.1 r.2) g)
    (hraw : ∀ g s l, I g s l → M.ok g (.out (.raw .comment)) ∧ I (M.upd g (.out (.raw .comment))) s l)
    (instr : List Byte) (g : σ) (s : Core F)
    (h0 : instr = [] → Q g s)
    (h : instr ≠ [] → I g { s with rc := s.rc.startTransaction } {})
    (hfin : ∀ g s l, I g s l → (Mril.finish { s with rc := s.rc.endTransaction } l).wp M Q g) :
    (Mril.parse cfg s instr).wp M Q g := by
  unfold Mril.parse
  split
  · exact h0 (List.eq_nil_of_length_eq_zero (by assumption))
  · rw [wp_bind]
    refine wp_mono (fun g r hr => ?_) (loop_wp M cfg I hflt hexec hraw instr g _ _ _ (h (by intro e; simp_all)))
    exact hfin g r.1 r.2 hr

theorem execAll_wp (M : Mon F σ) (cfg : Cfg F) (I : List Cmd → σ → Core F → Loc F → Prop)
    (hexec : ∀ c cs g s l, I (c :: cs) g s l → (Mril.exec cfg s l c.text).wp M (fun g r => I cs g r.1 r.2) g)
    (cs : List Cmd) (g : σ) (s : Core F) (l : Loc F) (h : I cs g s l) :
    (execAll cfg cs s l).wp M (fun g r => I [] g r.1 r.2) g := by
  induction cs generalizing g s l with
  | nil => exact h
  | cons c cs ih =>
    rw [execAll, wp_bind]
    exact wp_mono (fun g r hr => ih g r.1 r.2 hr) (hexec c cs g s l h)

/-! ### text after a comment starter, ignored characters -/

theorem loop_comment (cfg : Cfg F) (a : List Byte) (o : Byte) (ho : o = 35 ∨ o = 40) (c c' : List Byte) (s : Core F) (l : Loc F)
    (tok : List Byte) : Mril.loop cfg (a ++ o :: c) s l tok = Mril.loop cfg (a ++ o :: c') s l tok := by
  induction a generalizing s l tok with
  | nil =>
    simp only [List.nil_append, Mril.loop]
    rcases ho with rfl | rfl <;> simp
  | cons x a ih =>
    have hf : Mril.finished (a ++ o :: c) = Mril.finished (a ++ o :: c') := by
      cases a <;> simp [Mril.finished]
    simp only [List.cons_append, Mril.loop, hf, ih]

theorem loop_ignored (cfg : Cfg F) (a : List Byte) (x d : Byte) (b : List Byte) (hx : Mril.tokChar x = false ∧ x ≠ 35 ∧ x ≠ 40)
    (hd : argChar d = true) (s : Core F) (l : Loc F) (tok : List Byte) :
    Mril.loop cfg (a ++ x :: d :: b) s l tok = Mril.loop cfg (a ++ d :: b) s l tok := by
  have hxu : isUpper x = false := by
    cases h : isUpper x with
    | false => rfl
    | true => have := (upper_facts x h).1; rw [hx.1] at this; cases this
  induction a generalizing s l tok with
  | nil =>
    rw [List.nil_append, List.nil_append]
    conv => lhs; rw [Mril.loop]
    simp [hx]
  | cons y a ih =>
    have hf : Mril.finished (a ++ x :: d :: b) = Mril.finished (a ++ d :: b) := by
      cases a with
      | nil =>
        obtain ⟨_, h2, h3, h4⟩ := argChar_facts d hd
        simp only [List.nil_append, Mril.finished, hxu, h2, Bool.or_false]
        rw [beq_false_of_ne hx.2.1, beq_false_of_ne hx.2.2, beq_false_of_ne h3, beq_false_of_ne h4]
      | cons z a => simp [Mril.finished]
    simp only [List.cons_append, Mril.loop, hf, ih]

end Mrc
