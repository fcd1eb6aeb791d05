import Verif.Proof.Progress
import Verif.Proof.Demo
import Verif.Proof.Notice
import Mathlib.Tactic.Linarith
import Mathlib.Tactic.Ring
import Mathlib.Tactic.Positivity
import Mathlib.Tactic.NormNum
/-
Endless histories exist: a fair scheduler.  Used only in examples that show the hypotheses of C77-C80 to be satisfiable.
-/
set_option linter.unusedSectionVars false
set_option linter.unusedSimpArgs false
namespace Mrc.Demo
open Mrc Mrc.Prog Mrc.Spec
variable {F : Type} [FloatOps F]

/-- the next access of the main program (after a fault only the interrupt runs). -/
def mainEv (cfg : Cfg F) : Sys F → Ev F × Sys F
  | ⟨w, .ret s⟩ => (.next, ⟨w, loopBody cfg s⟩)
  | ⟨w, .fault f⟩ => (.isr, ⟨w.isr, .fault f⟩)
  | ⟨w, .servo i k⟩ => (.act (.servo i (w.servos i)), ⟨w, k (w.servos i)⟩)
  | ⟨w, .micro i m k⟩ => (.act (.micro i m), ⟨w.setServo i ((w.servos i).micro m), k⟩)
  | ⟨w, .now k⟩ => (.act (.now w.now), ⟨w, k w.now⟩)
  | ⟨w, .pin p k⟩ => (.act (.pin p (w.pins p)), ⟨w, k (w.pins p)⟩)
  | ⟨w, .rx k⟩ => match w.rxq with
    | [] => (.act (.rx none), ⟨w, k none⟩)
    | b :: bs => (.act (.rx (some b)), ⟨{ w with rxq := bs }, k (some b)⟩)
  | ⟨w, .eeRead k⟩ => (.act (.eeRead w.ee), ⟨w, k w.ee⟩)
  | ⟨w, .eeWrite a b k⟩ => (.act (.eeWrite a b), ⟨{ w with ee := EE.write w.ee a b }, k⟩)
  | ⟨w, .out o k⟩ => (.act (.out o), ⟨{ w with outs := w.outs ++ [o] }, k⟩)

theorem mainEv_do (cfg : Cfg F) (s : Sys F) : Sys.Do cfg s (mainEv cfg s).1 (mainEv cfg s).2 := by
  obtain ⟨w, p⟩ := s
  cases p with
  | ret s => exact .loop
  | fault f => exact .isr
  | servo i k => exact .servo
  | micro i m k => exact .micro
  | now k => exact .now
  | pin p k => exact .pin
  | rx k =>
    simp only [mainEv]
    split
    · rename_i h; exact .rxNone h
    · rename_i h; exact .rxSome h
  | eeRead k => exact .eeRead
  | eeWrite a b k => exact .eeWrite
  | out o k => exact .out

/-- one interrupt before every pass. The flag: it has already run. -/
def sched (cfg : Cfg F) (x : Sys F × Bool) : Ev F × (Sys F × Bool) :=
  match x with
  | (⟨w, .ret s⟩, false) => (.isr, (⟨w.isr, .ret s⟩, true))
  | (s, _) => ((mainEv cfg s).1, ((mainEv cfg s).2, false))

theorem sched_do (cfg : Cfg F) (x : Sys F × Bool) : Sys.Do cfg x.1 (sched cfg x).1 (sched cfg x).2.1 := by
  obtain ⟨⟨w, p⟩, b⟩ := x
  cases p with
  | ret s => cases b with
    | false => exact .isr
    | true => exact .loop
  | _ => exact mainEv_do cfg _

/-- the history of the scheduler. -/
def after (cfg : Cfg F) (s0 : Sys F) (n : ℕ) : Sys F × Bool := (fun x => (sched cfg x).2)^[n] (s0, false)
def hist (cfg : Cfg F) (s0 : Sys F) (n : ℕ) : Sys F := (after cfg s0 n).1
def evs (cfg : Cfg F) (s0 : Sys F) (n : ℕ) : Ev F := (sched cfg (after cfg s0 n)).1

theorem after_succ (cfg : Cfg F) (s0 : Sys F) (n : ℕ) : after cfg s0 (n + 1) = (sched cfg (after cfg s0 n)).2 := Function.iterate_succ_apply' _ _ _

/-- every pass comes to an end. -/
theorem ends (cfg : Cfg F) (p : Prog F (FW F)) : ∀ (w : World F) (b : Bool), (∀ s, p = .ret s → b = false) → ∃ k w' q, (fun x => (sched cfg x).2)^[k] (⟨w, p⟩, b) = (⟨w', q⟩, false) ∧ ((∃ s, q = .ret s) ∨ ∃ f, q = .fault f) := by
  induction p with
  | ret s => intro w b hb; obtain rfl := hb s rfl; exact ⟨0, w, _, rfl, .inl ⟨s, rfl⟩⟩
  | fault f =>
    intro w b _
    exact ⟨1, w.isr, .fault f, rfl, .inr ⟨f, rfl⟩⟩
  | servo i k ih => intro w b _; obtain ⟨n, w', q, h1, h2⟩ := ih (w.servos i) w false (fun _ _ => rfl); exact ⟨n + 1, w', q, h1, h2⟩
  | micro i m k ih => intro w b _; obtain ⟨n, w', q, h1, h2⟩ := ih (w.setServo i ((w.servos i).micro m)) false (fun _ _ => rfl); exact ⟨n + 1, w', q, h1, h2⟩
  | now k ih => intro w b _; obtain ⟨n, w', q, h1, h2⟩ := ih w.now w false (fun _ _ => rfl); exact ⟨n + 1, w', q, h1, h2⟩
  | pin p k ih => intro w b _; obtain ⟨n, w', q, h1, h2⟩ := ih (w.pins p) w false (fun _ _ => rfl); exact ⟨n + 1, w', q, h1, h2⟩
  | rx k ih =>
    intro w b _
    cases hr : w.rxq with
    | nil =>
      obtain ⟨n, w', q, h1, h2⟩ := ih none w false (fun _ _ => rfl)
      refine ⟨n + 1, w', q, ?_, h2⟩
      rw [Function.iterate_succ_apply]
      simpa [sched, mainEv, hr] using h1
    | cons c bs =>
      obtain ⟨n, w', q, h1, h2⟩ := ih (some c) { w with rxq := bs } false (fun _ _ => rfl)
      refine ⟨n + 1, w', q, ?_, h2⟩
      rw [Function.iterate_succ_apply]
      simpa [sched, mainEv, hr] using h1
  | eeRead k ih => intro w b _; obtain ⟨n, w', q, h1, h2⟩ := ih w.ee w false (fun _ _ => rfl); exact ⟨n + 1, w', q, h1, h2⟩
  | eeWrite a c k ih => intro w b _; obtain ⟨n, w', q, h1, h2⟩ := ih { w with ee := EE.write w.ee a c } false (fun _ _ => rfl); exact ⟨n + 1, w', q, h1, h2⟩
  | out o k ih => intro w b _; obtain ⟨n, w', q, h1, h2⟩ := ih { w with outs := w.outs ++ [o] } false (fun _ _ => rfl); exact ⟨n + 1, w', q, h1, h2⟩

/-- the scheduler's history from power-up is endless if it never faults. -/
theorem endless (cfg : Cfg F) (w0 : World F) (junk : Nat → Byte) (hf : ∀ n f, (hist cfg ⟨w0, setup cfg junk⟩ n).p ≠ .fault f) :
    Endless cfg w0 junk (hist cfg ⟨w0, setup cfg junk⟩) (evs cfg ⟨w0, setup cfg junk⟩) := by
  set s0 : Sys F := ⟨w0, setup cfg junk⟩ with hs0
  have idle : ∀ n, ∃ m, n ≤ m ∧ ∃ w s, after cfg s0 m = (⟨w, .ret s⟩, false) := by
    intro n
    rcases hx : after cfg s0 n with ⟨⟨w, p⟩, b⟩
    have go : ∀ d w p b, after cfg s0 d = (⟨w, p⟩, b) → n ≤ d → (∀ s, p = .ret s → b = false) → ∃ m, n ≤ m ∧ ∃ w s, after cfg s0 m = (⟨w, .ret s⟩, false) := by
      intro d w p b hd hnd hb
      obtain ⟨k, w', q, h1, h2⟩ := ends cfg p w b hb
      have e : after cfg s0 (d + k) = (⟨w', q⟩, false) := by
        rw [after, Nat.add_comm, Function.iterate_add_apply, ← after, hd, h1]
      rcases h2 with ⟨s, rfl⟩ | ⟨f, rfl⟩
      · exact ⟨d + k, by omega, w', s, e⟩
      · exact absurd (by rw [hist, e]) (hf (d + k) f)
    by_cases hb : ∀ s, p = .ret s → b = false
    · exact go n w p b hx (Nat.le_refl _) hb
    · simp only [not_forall, Bool.not_eq_false] at hb
      obtain ⟨s, rfl, rfl⟩ := hb
      exact go (n + 1) w (loopBody cfg s) false (by rw [after_succ, hx]; rfl) (by omega) (fun _ _ => rfl)
  refine ⟨rfl, fun n => ?_, fun n => ?_, fun n => ?_⟩
  · show Sys.Do cfg _ _ (after cfg s0 (n + 1)).1
    rw [after_succ]; exact sched_do cfg _
  · obtain ⟨m, h1, w, s, e⟩ := idle n
    refine ⟨m + 1, by omega, ?_⟩
    show (sched cfg (after cfg s0 (m + 1))).1 = _
    rw [after_succ, e]; rfl
  · obtain ⟨m, h1, w, s, e⟩ := idle n
    refine ⟨m, h1, ?_⟩
    show (sched cfg (after cfg s0 m)).1 = _
    rw [e]; rfl

/-- a state in which, without further input, nothing will ever begin. -/
def Calm (s : FW F) : Prop := s.core.rc.state = .idle ∧ (s.mode = .queue → s.rb.getSize = 0) ∧ s.mode ≠ .eeprom ∧ s.core.conds = [] ∧ s.core.waitUntil = 0

/-- no input; no fault, no store into a servo, no instruction. -/
def cMon : Mon F Unit where
  upd _ _ := ()
  env _ a := (∀ b, a ≠ .rx (some b)) ∧ ∀ m, a = .eeRead m → m 0 = 0
  ok _ a := (∀ i m, a ≠ .micro i m) ∧ (∀ src m, a ≠ .out (.ghost src m)) ∧ ∀ x b, a ≠ .eeWrite x b
  flt _ := False

theorem calm_loop (cfg : Cfg F) (s : FW F) (h : Calm s) : (loopBody cfg s).wp cMon (fun _ s' => Calm s') () := by
  obtain ⟨h1, h2, h3, h4, h5⟩ := h
  have hrc : RC.process cfg.toRCfg s.core.rc = .ret s.core.rc := by simp only [RC.process, h1]; rfl
  have e1 : rcProcess cfg s = .ret s := by rw [rcProcess, hrc]; rfl
  unfold loopBody
  simp only [bind_def, e1, Prog.bind]
  show (Prog.bind (serialProcess cfg (29 + 1) s) _).wp cMon _ ()
  intro b hb
  cases b with
  | some b => exact absurd rfl (hb.1 b)
  | none =>
    show (Prog.bind (Mril.process s.core) _).wp cMon _ ()
    have key : ∀ c : Core F, c.rc = s.core.rc → c.conds = [] → c.waitUntil = 0 → (Mrcp.process cfg { s with core := c }).wp cMon (fun _ s' => Calm s') () := by
      intro c c1 c2 c3
      have : Calm { s with core := c } := ⟨by show c.rc.state = _; rw [c1]; exact h1, h2, h3, c2, c3⟩
      simp only [Mrcp.process]
      split
      · exact this
      · split
        · split
          · split
            · rename_i hm hz; have := h2 hm; omega
            · exact this
          · rename_i hm; exact absurd hm h3
          · exact this
        · exact this
    have hmv : s.core.rc.isMoving = false := by simp [RC.isMoving, h1]
    simp only [Mril.process, IOL.isDone, h4, IOL.check, Prog.bind, hmv, if_true, Bool.not_false, Bool.and_self]
    intro t _
    show Prog.wp _ (Prog.bind (if _ then _ else _) _) _ _
    split
    · split
      · exact ⟨by simp [cMon], key _ rfl rfl h5⟩
      · exact key _ rfl rfl h5
    · exact key _ rfl rfl h5

/-- calm for ever. -/
structure StaysCalm (x : Sys F × Bool) : Prop where
  rx : x.1.w.rxq = []
  ee : x.1.w.ee 0 = 0
  prog : x.1.p.wp cMon (fun _ s => Calm s) ()

theorem calm_sched (cfg : Cfg F) (x : Sys F × Bool) (h : StaysCalm x) :
    StaysCalm (sched cfg x).2 ∧ (∀ src m, (sched cfg x).1 ≠ .act (.out (.ghost src m))) ∧ (∀ b, (sched cfg x).1 ≠ .act (.rx (some b))) ∧ (∀ i m, (sched cfg x).1 ≠ .act (.micro i m)) ∧
      (sched cfg x).2.1.w.now = x.1.w.now ∧ (sched cfg x).2.1.w.pins = x.1.w.pins := by
  obtain ⟨⟨w, p⟩, b⟩ := x
  obtain ⟨h1, he, h2⟩ := h
  simp only at h1 he h2
  cases p with
  | ret s =>
    cases b with
    | false => exact ⟨⟨h1, he, h2⟩, by simp [sched], by simp [sched], by simp [sched], rfl, rfl⟩
    | true => exact ⟨⟨h1, he, calm_loop cfg s h2⟩, by simp [sched, mainEv], by simp [sched, mainEv], by simp [sched, mainEv], rfl, rfl⟩
  | fault f => exact absurd h2 id
  | servo i k => exact ⟨⟨h1, he, h2 _ (by simp [cMon, he])⟩, by simp [sched, mainEv], by simp [sched, mainEv], by simp [sched, mainEv], rfl, rfl⟩
  | micro i m k => exact absurd rfl (h2.1.1 i m)
  | now k => exact ⟨⟨h1, he, h2 _ (by simp [cMon, he])⟩, by simp [sched, mainEv], by simp [sched, mainEv], by simp [sched, mainEv], rfl, rfl⟩
  | pin p k => exact ⟨⟨h1, he, h2 _ (by simp [cMon, he])⟩, by simp [sched, mainEv], by simp [sched, mainEv], by simp [sched, mainEv], rfl, rfl⟩
  | rx k =>
    have e : sched cfg (⟨w, .rx k⟩, b) = (.act (.rx none), (⟨w, k none⟩, false)) := by simp [sched, mainEv, h1]
    rw [e]
    exact ⟨⟨h1, he, h2 none (by simp [cMon])⟩, by simp, by simp, by simp, rfl, rfl⟩
  | eeRead k => exact ⟨⟨h1, he, h2 _ (by simp [cMon, he])⟩, by simp [sched, mainEv], by simp [sched, mainEv], by simp [sched, mainEv], rfl, rfl⟩
  | eeWrite a c k => exact absurd rfl (h2.1.2.2 a c)
  | out o k =>
    refine ⟨⟨h1, he, h2.2⟩, ?_, by simp [sched, mainEv], by simp [sched, mainEv], rfl, rfl⟩
    intro src m e
    have : o = .ghost src m := by simpa [sched, mainEv] using e
    exact h2.1.2.1 src m (by rw [this])

theorem calm_after (cfg : Cfg F) (s0 : Sys F) {N : ℕ} (h : StaysCalm (after cfg s0 N)) (n : ℕ) (hn : N ≤ n) :
    StaysCalm (after cfg s0 n) ∧ (hist cfg s0 n).w.now = (hist cfg s0 N).w.now ∧ (hist cfg s0 n).w.pins = (hist cfg s0 N).w.pins := by
  induction n, hn using Nat.le_induction with
  | base => exact ⟨h, rfl, rfl⟩
  | succ n hn ih =>
    obtain ⟨h1, h2, h3⟩ := ih
    have := calm_sched cfg _ h1
    rw [hist, after_succ]
    exact ⟨this.1, this.2.2.2.2.1.trans h2, this.2.2.2.2.2.trans h3⟩

/-- power-up with an empty storage and nothing on the line. -/
theorem calm_setup (cfg : Cfg F) (junk : Nat → Byte) : (setup cfg junk).wp cMon (fun _ s => Calm s) () := by
  have hsix : ∀ {α : Type} (k : Six F → Prog F α) (Q : Unit → α → Prop), (∀ a, (k a).wp cMon Q ()) → ((RC.getCurrentLogicalAngles cfg.toRCfg).bind k).wp cMon Q () := by
    intro α k Q hk _ _ _ _ _ _ _ _ _ _ _ _
    exact hk _
  show ((RC.new cfg.toRCfg).bind _).wp cMon _ ()
  unfold RC.new
  rw [wp_bind]
  intro _ _ _ _ _ _ _ _ _ _ _ _
  refine hsix _ _ fun a => ?_
  intro m hm
  have : EE.getNumberOfMessages m = 0 := by
    simp [EE.getNumberOfMessages, EE.scan, EE.scanFrom, EE.read, hm.2 m rfl, EEPROM_SIZE]
  simp only [this, Nat.lt_irrefl, if_false]
  exact ⟨rfl, by simp, by simp, rfl, rfl⟩

end Mrc.Demo
