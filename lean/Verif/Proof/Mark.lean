import Verif.Proof.Flow
/- The main program cut into phases: after every phase, and after every single byte read. -/
set_option linter.unusedSectionVars false
namespace Mrc
open Mrc.Prog Mrc.Spec
variable {F : Type} [FloatOps F] {cfg : Cfg F} {junk : Nat → Byte}

/-- points between two phases (a phase: setup, motion control, one byte, the check of the conditions, the dispatcher). -/
inductive Mark (cfg : Cfg F) (junk : Nat → Byte) : List (Act F) → FW F → Prop
  | setup {tr s} (e : Exec (setup cfg junk) tr (.ret s)) : Mark cfg junk tr s
  | rc {tr s t s'} (h : Mark cfg junk tr s) (e : Exec (rcProcess cfg s) t (.ret s')) : Mark cfg junk (tr ++ t) s'
  | none {tr s} (h : Mark cfg junk tr s) : Mark cfg junk (tr ++ [.rx none]) s
  | char {tr s b t s'} (h : Mark cfg junk tr s) (e : Exec (Mrcp.parseChar cfg s b) t (.ret s')) : Mark cfg junk (tr ++ .rx (some b) :: t) s'
  | check {tr s t c} (h : Mark cfg junk tr s) (e : Exec (Mril.process s.core) t (.ret c)) : Mark cfg junk (tr ++ t) { s with core := c }
  | proc {tr s t s'} (h : Mark cfg junk tr s) (e : Exec (Mrcp.process cfg s) t (.ret s')) : Mark cfg junk (tr ++ t) s'

/-- part of one phase after such a point. -/
inductive Cut (cfg : Cfg F) (junk : Nat → Byte) : List (Act F) → Prop
  | setup {tr p} (e : Exec (setup cfg junk) tr p) : Cut cfg junk tr
  | rc {tr s t p} (h : Mark cfg junk tr s) (e : Exec (rcProcess cfg s) t p) : Cut cfg junk (tr ++ t)
  | here {tr s} (h : Mark cfg junk tr s) : Cut cfg junk tr
  | char {tr s b t p} (h : Mark cfg junk tr s) (e : Exec (Mrcp.parseChar cfg s b) t p) : Cut cfg junk (tr ++ .rx (some b) :: t)
  | check {tr s t p} (h : Mark cfg junk tr s) (e : Exec (Mril.process s.core) t p) : Cut cfg junk (tr ++ t)
  | proc {tr s t p} (h : Mark cfg junk tr s) (e : Exec (Mrcp.process cfg s) t p) : Cut cfg junk (tr ++ t)

theorem serial_mark (n : Nat) : ∀ {tr : List (Act F)} {s : FW F} {t : List (Act F)} {s' : FW F}, Mark cfg junk tr s → Exec (serialProcess cfg n s) t (.ret s') → Mark cfg junk (tr ++ t) s' := by
  induction n with
  | zero =>
    intro tr s t s' h e
    cases e with
    | nil => simpa using h
    | cons hs _ => cases hs
  | succ n ih =>
    intro tr s t s' h e
    rw [serialProcess] at e
    cases e with
    | cons hs e =>
      cases hs with
      | rx k b =>
        cases b with
        | none =>
          cases e with
          | nil => exact h.none
          | cons hs _ => cases hs
        | some b =>
          obtain ⟨s1, t1, t2, rfl, e1, e2⟩ := exec_bind_ret e
          have := ih (h.char e1) e2
          simpa using this

theorem serial_cut (n : Nat) : ∀ {tr : List (Act F)} {s : FW F} {t : List (Act F)} {p : Prog F (FW F)}, Mark cfg junk tr s → Exec (serialProcess cfg n s) t p → Cut cfg junk (tr ++ t) := by
  induction n with
  | zero =>
    intro tr s t p h e
    cases e with
    | nil => simpa using Cut.here h
    | cons hs _ => cases hs
  | succ n ih =>
    intro tr s t p h e
    rw [serialProcess] at e
    cases e with
    | nil => simpa using Cut.here h
    | cons hs e =>
      cases hs with
      | rx k b =>
        cases b with
        | none =>
          cases e with
          | nil => exact .here h.none
          | cons hs _ => cases hs
        | some b =>
          rcases exec_bind e with ⟨p', e1, _⟩ | ⟨s1, t1, t2, rfl, e1, e2⟩
          · exact .char h e1
          · have := ih (h.char e1) e2
            simpa using this

theorem pass_mark {tr : List (Act F)} {s : FW F} {t : List (Act F)} {s' : FW F} (h : Mark cfg junk tr s) (e : Exec (loopBody cfg s) t (.ret s')) : Mark cfg junk (tr ++ t) s' := by
  rw [loopBody_eq] at e
  obtain ⟨s2, t, u, rfl, e1, e2⟩ := exec_bind_ret e
  rw [firstPhases] at e1
  obtain ⟨s3, t1, u1, rfl, e3, e1⟩ := exec_bind_ret e1
  obtain ⟨s4, t2, u2, rfl, e4, e1⟩ := exec_bind_ret e1
  obtain ⟨c, t5, u5, rfl, e5, e6⟩ := exec_bind_ret e2
  have := ((serial_mark _ ((h.rc e3).rc e4) e1).check e5).proc e6
  simpa using this

theorem pass_cut {tr : List (Act F)} {s : FW F} {t : List (Act F)} {p : Prog F (FW F)} (h : Mark cfg junk tr s) (e : Exec (loopBody cfg s) t p) : Cut cfg junk (tr ++ t) := by
  rw [loopBody_eq, firstPhases, bind_assoc] at e
  rcases exec_bind e with ⟨p', e1, _⟩ | ⟨s1, t1, u, rfl, e1, e⟩
  · exact .rc h e1
  rw [bind_assoc] at e
  rcases exec_bind e with ⟨p', e2, _⟩ | ⟨s2, t2, u, rfl, e2, e⟩
  · have := Cut.rc (h.rc e1) e2
    simpa using this
  rcases exec_bind e with ⟨p', e3, _⟩ | ⟨s3, t3, u, rfl, e3, e⟩
  · have := serial_cut _ ((h.rc e1).rc e2) e3
    simpa using this
  have h3 := serial_mark _ ((h.rc e1).rc e2) e3
  rcases exec_bind e with ⟨p', e4, _⟩ | ⟨c, t4, u, rfl, e4, e⟩
  · have := Cut.check h3 e4
    simpa using this
  have := Cut.proc (h3.check e4) e
  simpa using this

theorem Trace.marked {tr : List (Act F)} {p : Prog F (FW F)} (h : Trace cfg junk tr p) :
    Exec (setup cfg junk) tr p ∨ ∃ t0 s t, tr = t0 ++ t ∧ Mark cfg junk t0 s ∧ Exec (loopBody cfg s) t p := by
  induction h with
  | init => exact .inl (.nil _)
  | @next tr s h ih =>
    rcases ih with e | ⟨t0, s0, t, rfl, hm, e⟩
    · exact .inr ⟨tr, s, [], by simp, .setup e, .nil _⟩
    · exact .inr ⟨t0 ++ t, s, [], by simp, pass_mark hm e, .nil _⟩
  | @step tr p a q _ hs ih =>
    rcases ih with h | ⟨t0, s, t, rfl, h1, h2⟩
    · exact .inl (exec_append h (.cons hs (.nil _)))
    · exact .inr ⟨t0, s, t ++ [a], by simp, h1, exec_append h2 (.cons hs (.nil _))⟩

theorem Trace.mark {tr : List (Act F)} {s : FW F} (h : Trace cfg junk tr (.ret s)) : Mark cfg junk tr s := by
  rcases h.marked with e | ⟨t0, s0, t, rfl, hm, e⟩
  · exact .setup e
  · exact pass_mark hm e

theorem Trace.cut {tr : List (Act F)} {p : Prog F (FW F)} (h : Trace cfg junk tr p) : Cut cfg junk tr := by
  rcases h.marked with e | ⟨t0, s0, t, rfl, hm, e⟩
  · exact .setup e
  · exact pass_cut hm e

/-- the host's view is right at every mark. -/
theorem Mark.agrees {tr : List (Act F)} {s : FW F} (h : Mark cfg junk tr s) : Agrees s (Dev.after tr) := by
  have go : ∀ {p : Prog F (FW F)} {t : List (Act F)} {s' : FW F} {Q : Dev → FW F → Prop} {d : Dev}, p.wp devMon Q d → Exec p t (.ret s') → Q (t.foldl Dev.act d) s' :=
    fun hw e => (wp_exec e hw fun _ _ _ _ _ => trivial).2
  induction h with
  | setup e => exact go (setup_dev cfg junk) e
  | @rc tr s t s' h e ih =>
    rw [Dev.after, List.foldl_append]
    refine go (Q := fun d s => Agrees s d) ?_ e
    rw [rcProcess, wp_bind]
    refine wp_mono (fun d' r hr => ?_) (wp_of_only (RC.process_only cfg.toRCfg s.core.rc) (Dev.after tr) ?_ (fun _ => trivial))
    · simp only [wp]
      show Agrees _ d'
      rw [hr.1]; exact ih.core _
    · intro a ha
      match a, ha with
      | .servo _ _, _ | .micro _ _, _ | .out (.raw _), _ => exact ⟨rfl, by simp [devMon]⟩
  | none h ih => rw [Dev.after, List.foldl_append]; exact ih
  | @char tr s b t s' h e ih =>
    rw [Dev.after, List.foldl_append]
    exact (go (parseChar_dev cfg s (Dev.after tr) b ih) e).2
  | @check tr s t c h e ih =>
    rw [Dev.after, List.foldl_append]
    have : Agrees s (t.foldl Dev.act (Dev.after tr)) ∧ True := by
      have := (wp_exec e (wp_of_only (M := devMon) (mrilProcess_only s.core) (Dev.after tr) ?_ (fun _ => trivial)) fun _ _ _ _ _ => trivial).2
      · have := this.1
        refine ⟨?_, trivial⟩
        show Agrees s (t.foldl devMon.upd (Dev.after tr))
        rw [this]; exact ih
      · intro a ha
        match a, ha with
        | .pin _ _, _ | .now _, _ | .out (.msg (.n1 _)), _ => exact ⟨rfl, by simp [devMon]⟩
    exact this.1.core c
  | @proc tr s t s' h e ih =>
    rw [Dev.after, List.foldl_append]
    exact go (process_dev cfg s (Dev.after tr) ih) e

end Mrc
