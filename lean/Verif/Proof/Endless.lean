import Mathlib.Data.Nat.Find
import Mathlib.Order.Nat
import Verif.Proof.Liveness
import Verif.Proof.Aside
/- Endless histories as sequences of passes of the main loop. -/
set_option linter.unusedSectionVars false
namespace Mrc
open Mrc.Prog Mrc.Spec
variable {F : Type} [FloatOps F] {cfg : Cfg F} {w0 : World F} {junk : Nat → Byte} {σ : ℕ → Sys F} {ev : ℕ → Ev F}

/-- the events from `a` on, `k` of them. -/
def span (ev : ℕ → Ev F) (a k : ℕ) : List (Ev F) := (List.range k).map fun j => ev (a + j)

theorem acts_mem {es : List (Ev F)} {x : Act F} : x ∈ acts es ↔ .act x ∈ es := by
  simp only [acts, List.mem_filterMap]
  constructor
  · rintro ⟨e, he, h⟩
    cases e with
    | act a => simp only [Option.some.injEq] at h; rw [← h]; exact he
    | _ => cases h
  · intro h; exact ⟨_, h, rfl⟩

theorem mem_span {a k : ℕ} {e : Ev F} : e ∈ span ev a k ↔ ∃ n, a ≤ n ∧ n < a + k ∧ ev n = e := by
  simp only [span, List.mem_map, List.mem_range]
  constructor
  · rintro ⟨j, hj, h⟩; exact ⟨a + j, by omega, by omega, h⟩
  · rintro ⟨n, h1, h2, h⟩; exact ⟨n - a, by omega, by rw [← h]; congr 1; omega⟩

theorem span_succ (a k : ℕ) : span ev a (k + 1) = span ev a k ++ [ev (a + k)] := by simp [span, List.range_succ]
theorem acts_span_append (a k : ℕ) : acts (span ev a (k + 1)) = acts (span ev a k) ++ acts [ev (a + k)] := by rw [span_succ, acts_append]

/-- a step of the system that does not start a pass is a step of the main program, or leaves it alone. -/
theorem do_exec {s t : Sys F} {e : Ev F} (h : Sys.Do cfg s e t) (hn : e ≠ .next) : Exec s.p (acts [e]) t.p := by
  cases h with
  | loop => exact absurd rfl hn
  | servo => exact .cons (.servo _ _ _) (.nil _)
  | micro => exact .cons (.micro _ _ _) (.nil _)
  | now => exact .cons (.now _ _) (.nil _)
  | pin => exact .cons (.pin _ _ _) (.nil _)
  | rxNone h => exact .cons (.rx _ _) (.nil _)
  | rxSome h => exact .cons (.rx _ _) (.nil _)
  | eeRead => exact .cons (.eeRead _ _) (.nil _)
  | eeWrite => exact .cons (.eeWrite _ _ _) (.nil _)
  | out => exact .cons (.out _ _) (.nil _)
  | isr => exact .nil _
  | clock t ht => exact .nil _
  | pins f => exact .nil _
  | arrive bs => exact .nil _

theorem do_next {s t : Sys F} (h : Sys.Do cfg s .next t) : ∃ f, s.p = .ret f ∧ t.p = loopBody cfg f ∧ t.w = s.w := by
  cases h with
  | loop => exact ⟨_, rfl, rfl, rfl⟩

/-- what the main program reads is what is there. -/
theorem do_servo {s t : Sys F} {i : Fin 8} {v : Servo F} (h : Sys.Do cfg s (.act (.servo i v)) t) : v = s.w.servos i := by
  cases h with
  | servo => rfl

/-- what an event does to servo `i`. -/
def evServo (i : Fin 8) (s : Servo F) : Ev F → Servo F
  | .isr => s.tick 20
  | .act (.micro j m) => if i = j then s.micro m else s
  | _ => s

/-- the servos change only by the timer and by stores. -/
theorem do_servos {s t : Sys F} {e : Ev F} (h : Sys.Do cfg s e t) (i : Fin 8) : t.w.servos i = evServo i (s.w.servos i) e := by
  cases h <;> simp [World.isr, World.setServo, evServo]
  split
  · rename_i h; subst h; rfl
  · rfl

theorem tick_limits (s : Servo F) (d : ℕ) : (s.tick d).minA = s.minA ∧ (s.tick d).maxA = s.maxA := by
  unfold Servo.tick
  simp only
  split
  · exact ⟨rfl, rfl⟩
  · split <;> exact ⟨rfl, rfl⟩

theorem micro_limits (s : Servo F) (m : Servo.Micro F) : (s.micro m).minA = s.minA ∧ (s.micro m).maxA = s.maxA := by cases m <;> exact ⟨rfl, rfl⟩

namespace Spec.Endless

theorem run (h : Endless cfg w0 junk σ ev) (n : ℕ) : Sys.Run cfg w0 junk (sofar ev n) (σ n) := by
  induction n with
  | zero => rw [h.boot]; exact .init
  | succ n ih =>
    have : sofar ev (n + 1) = sofar ev n ++ [ev n] := by simp [sofar, List.range_succ]
    rw [this]
    exact .step ih (h.step n)

theorem limits (h : Endless cfg w0 junk σ ev) (n : ℕ) (i : Fin 8) : ((σ n).w.servos i).minA = (w0.servos i).minA ∧ ((σ n).w.servos i).maxA = (w0.servos i).maxA := by
  induction n with
  | zero => rw [h.boot]; exact ⟨rfl, rfl⟩
  | succ n ih =>
    have key : ∀ s : Servo F, s.minA = ((σ n).w.servos i).minA ∧ s.maxA = ((σ n).w.servos i).maxA → s.minA = (w0.servos i).minA ∧ s.maxA = (w0.servos i).maxA :=
      fun s hs => ⟨hs.1.trans ih.1, hs.2.trans ih.2⟩
    rw [do_servos (h.step n) i, evServo.eq_def]
    split
    · exact key _ (tick_limits _ _)
    · split
      · exact key _ (micro_limits _ _)
      · exact ih
    · exact ih

/-- the limits of the servos at power-up. -/
def lo (w0 : World F) : Six F := fun i => (w0.servos (armServo i)).minA
def hi (w0 : World F) : Six F := fun i => (w0.servos (armServo i)).maxA

theorem read (h : Endless cfg w0 junk σ ev) {n : ℕ} {i : Fin 8} {s : Servo F} (hn : ev n = .act (.servo i s)) : s = (σ n).w.servos i := by
  have := h.step n
  rw [hn] at this
  exact do_servo this

theorem limits_span (h : Endless cfg w0 junk σ ev) (a k : ℕ) : Limits (lo w0) (hi w0) (acts (span ev a k)) := by
  intro i s hs
  obtain ⟨n, _, _, hn⟩ := mem_span.1 (acts_mem.1 hs)
  rw [h.read hn]
  exact h.limits n _

theorem exec (h : Endless cfg w0 junk σ ev) (a k : ℕ) (hn : ∀ n, a ≤ n → n < a + k → ev n ≠ .next) : Exec (σ a).p (acts (span ev a k)) (σ (a + k)).p := by
  induction k with
  | zero => exact .nil _
  | succ k ih =>
    rw [acts_span_append]
    exact exec_append (ih fun n h1 h2 => hn n h1 (by omega)) (do_exec (h.step _) (hn _ (by omega) (by omega)))

/-- between two passes the controller is in order. -/
theorem sane (h : Endless cfg w0 junk σ ev) (hP : Parts F) {n : ℕ} {s : FW F} (hs : Between σ n s) : s.core.rc.Sane := by
  have ht := (h.run n).trace
  have := ((sane_core hP cfg (lo w0) (hi w0)).sound () junk (fun v u m _ _ => ⟨rfl, by simp [CoreInv.boot], by simp [CoreInv.boot]⟩) (fun _ _ => rfl) (fun _ => rfl) ht ?_).2
  · rw [hs] at this; exact this
  · intro pre a post e _ i v hv
    have hm : .servo (armServo i) v ∈ acts (sofar ev n) := by rw [e, hv]; simp
    have hm := acts_mem.1 hm
    simp only [sofar, List.mem_map, List.mem_range] at hm
    obtain ⟨m, _, hm⟩ := hm
    rw [h.read hm]
    exact h.limits m _

/-! ### passes -/

/-- a finished pass stays finished until the next one starts. -/
theorem waits (h : Endless cfg w0 junk σ ev) {n m : ℕ} {s : FW F} (hb : Between σ n s) (hnm : n ≤ m) (hn : ∀ k, n ≤ k → k < m → ev k ≠ .next) : Between σ m s := by
  have := h.exec n (m - n) fun k h1 h2 => hn k h1 (by omega)
  rw [hb, show n + (m - n) = m by omega] at this
  exact (exec_ret this).2

theorem atNext (h : Endless cfg w0 junk σ ev) {n : ℕ} (hn : ev n = .next) : ∃ s, Between σ n s ∧ (σ (n + 1)).p = loopBody cfg s ∧ (σ (n + 1)).w = (σ n).w := by
  have := h.step n
  rw [hn] at this
  exact do_next this

open Classical in
/-- the beginning of the pass after time `n`. -/
noncomputable def after (h : Endless cfg w0 junk σ ev) (n : ℕ) : ℕ := Nat.find (h.loops (n + 1))

theorem after_spec (h : Endless cfg w0 junk σ ev) (n : ℕ) : n < after h n ∧ ev (after h n) = .next ∧ ∀ m, n < m → m < after h n → ev m ≠ .next := by
  classical
  have := Nat.find_spec (h.loops (n + 1))
  refine ⟨by have := this.1; unfold after; omega, this.2, fun m h1 h2 he => ?_⟩
  exact Nat.find_min (h.loops (n + 1)) h2 ⟨h1, he⟩

theorem pass (h : Endless cfg w0 junk σ ev) {a : ℕ} (ha : ev a = .next) : ∃ s, PassAt σ ev a (after h a) s := by
  obtain ⟨s, hs, _⟩ := h.atNext ha
  have := after_spec h a
  exact ⟨s, this.1, hs, ha, this.2.1, this.2.2⟩

theorem pass_exec (h : Endless cfg w0 junk σ ev) {a b : ℕ} {s : FW F} (hp : PassAt σ ev a b s) :
    ∃ s', Between σ b s' ∧ Exec (loopBody cfg s) (acts (span ev (a + 1) (b - (a + 1)))) (.ret s') := by
  obtain ⟨s1, h1, h2, _⟩ := h.atNext hp.here
  have e : s1 = s := by have := h1.symm.trans hp.start; injection this
  subst e
  obtain ⟨s', h3, _⟩ := h.atNext hp.stop
  refine ⟨s', h3, ?_⟩
  have := h.exec (a + 1) (b - (a + 1)) fun n h4 h5 => hp.one n (by omega) (by have := hp.lt; omega)
  rw [h2, show a + 1 + (b - (a + 1)) = b by have := hp.lt; omega] at this
  rw [← h3]
  exact this

/-- the beginnings of the passes from `a` on. -/
noncomputable def begin_ (h : Endless cfg w0 junk σ ev) (a : ℕ) : ℕ → ℕ
  | 0 => a
  | k + 1 => after h (begin_ h a k)

theorem begin_next (h : Endless cfg w0 junk σ ev) {a : ℕ} (ha : ev a = .next) (k : ℕ) : ev (begin_ h a k) = .next := by
  cases k with
  | zero => exact ha
  | succ k => exact (after_spec h _).2.1

theorem begin_lt (h : Endless cfg w0 junk σ ev) (a : ℕ) (k : ℕ) : begin_ h a k < begin_ h a (k + 1) := (after_spec h _).1

theorem begin_le (h : Endless cfg w0 junk σ ev) (a : ℕ) (k : ℕ) : a ≤ begin_ h a k := by
  induction k with
  | zero => exact Nat.le_refl _
  | succ k ih => exact Nat.le_trans ih (Nat.le_of_lt (begin_lt h a k))

theorem cover (h : Endless cfg w0 junk σ ev) (a n : ℕ) (hn : a ≤ n) : ∃ k, begin_ h a k ≤ n ∧ n < begin_ h a (k + 1) := by
  induction n, hn using Nat.le_induction with
  | base => exact ⟨0, Nat.le_refl _, begin_lt h a 0⟩
  | succ n hn ih =>
    obtain ⟨k, h1, h2⟩ := ih
    by_cases he : n + 1 < begin_ h a (k + 1)
    · exact ⟨k, by omega, he⟩
    · exact ⟨k + 1, by omega, by have := begin_lt h a (k + 1); omega⟩

theorem pass_begin (h : Endless cfg w0 junk σ ev) {a : ℕ} (ha : ev a = .next) (k : ℕ) : ∃ s, PassAt σ ev (begin_ h a k) (begin_ h a (k + 1)) s :=
  h.pass (h.begin_next ha k)

end Spec.Endless

/-! ### a pass in which nothing begins but questions -/

/-- remembers whether an instruction has been handed over that is more than a question. -/
def gMon : Mon F Prop where
  upd g a := g ∨ OrdersI a

theorem gMon_true {α : Type} (p : Prog F α) {Q : Prop → α → Prop} (hQ : ∀ g a, g → Q g a) {g : Prop} (hg : g) : p.wp gMon Q g := by
  induction p generalizing g with
  | ret a => exact hQ g a hg
  | fault f => trivial
  | servo i k ih => exact fun v _ => ih v (.inl hg)
  | micro i m k ih => exact ⟨trivial, ih (.inl hg)⟩
  | now k ih => exact fun v _ => ih v (.inl hg)
  | pin p k ih => exact fun v _ => ih v (.inl hg)
  | rx k ih => exact fun v _ => ih v (.inl hg)
  | eeRead k ih => exact fun v _ => ih v (.inl hg)
  | eeWrite a b k ih => exact ⟨trivial, ih (.inl hg)⟩
  | out o k ih => exact ⟨trivial, ih (.inl hg)⟩

theorem gMon_foldl {tr : List (Act F)} (h : ∀ x ∈ tr, ¬ OrdersI x) {g : Prop} (hg : ¬ g) : ¬ tr.foldl gMon.upd g := by
  induction tr generalizing g with
  | nil => exact hg
  | cons a tr ih => exact ih (fun x hx => h x (by simp [hx])) (fun e => e.elim hg (h a (by simp)))

theorem gMon_exec {α : Type} {p : Prog F α} {R : α → Prop} {tr : List (Act F)} {a : α} (h : Exec p tr (.ret a)) (hp : p.wp gMon (fun g a => g ∨ R a) False)
    (hg : ∀ x ∈ tr, ¬ OrdersI x) : R a :=
  ((wp_exec h hp (fun _ _ _ _ _ => trivial)).2).resolve_left (gMon_foldl hg id)

/-- a question leaves everything as it is. -/
theorem asks_g (cfg : Cfg F) (src : Src) (s : FW F) (m : List Byte) (hc : s.core.rc.inTransaction = false) (g : Prop) :
    (Mrcp.handOver cfg src s m).wp gMon (fun g a => g ∨ (src = .immediate ∧ a = s)) g := by
  refine ⟨trivial, ?_⟩
  by_cases ho : src = .immediate ∧ Asks m
  · rw [wp_bind]
    refine wp_mono (fun g' c h => ?_) (wp_of_only (Asd.parse_asks cfg s.core ho.2 hc) _ (fun a ha => ⟨?_, trivial⟩) (fun _ => trivial))
    · refine .inr ⟨ho.1, ?_⟩
      show ({ s with core := c } : FW F) = s
      rw [h.2]
    · refine propext ⟨fun e => e.elim id fun ⟨src, m, e, _⟩ => ?_, .inl⟩
      subst e; exact ha.elim
  · exact gMon_true _ (fun g a h => .inl h) (.inr ⟨src, m, rfl, ho⟩)

theorem eeWrites_g (ws : List (Nat × Byte)) (g : Prop) : (eeWrites ws : Prog F Unit).wp gMon (fun _ _ => True) g := by
  induction ws generalizing g with
  | nil => trivial
  | cons w ws ih => exact ⟨trivial, ih _⟩

theorem parseCommand_g (cfg : Cfg F) (s : FW F) (p : List Byte) (hc : s.core.rc.inTransaction = false) (g : Prop) : (Mrcp.parseCommand cfg s p).wp gMon (fun g s' => g ∨ s'.core = s.core) g := by
  cases p with
  | nil => exact .inr rfl
  | cons c m =>
    simp only [Mrcp.parseCommand]
    split
    · exact ⟨trivial, .inr rfl⟩
    · split
      · exact wp_mono (fun g a h => h.imp id fun h => by rw [h.2]) (asks_g cfg _ s m hc g)
      · split
        · split <;> exact .inr rfl
        · split
          · split
            · exact ⟨trivial, .inr rfl⟩
            · intro mem _
              have hgo : ∀ g, ((eeWrites (EE.appendWrites mem m) : Prog F Unit).bind fun _ => .ret { s with mode := .eeprom }).wp gMon (fun g s' => g ∨ s'.core = s.core) g := by
                intro g
                rw [wp_bind]
                exact wp_mono (fun g _ h => .inr rfl) (eeWrites_g _ g)
              show Prog.wp gMon (if _ then _ else _) _ _
              split
              · exact ⟨trivial, hgo _⟩
              · exact hgo _
          · exact .inr rfl

theorem events_g (cfg : Cfg F) (c : Core F) (hc : c.rc.inTransaction = false) (es : List FEv) (s : FW F) (hs : s.core = c) (g : Prop) : (Mrcp.events cfg s es).wp gMon (fun g s' => g ∨ s'.core = c) g := by
  induction es generalizing s g with
  | nil => exact .inr hs
  | cons e es ih =>
    cases e with
    | oob => trivial
    | cmd p =>
      simp only [Mrcp.events, wp_bind]
      refine wp_mono (fun g s' h => ?_) (parseCommand_g cfg s p (by rw [hs]; exact hc) g)
      rcases h with h | h
      · exact gMon_true _ (fun _ _ h => .inl h) h
      · exact ih s' (h.trans hs) g

theorem serial_g (cfg : Cfg F) (c : Core F) (hc : c.rc.inTransaction = false) (n : ℕ) (s : FW F) (hs : s.core = c) (g : Prop) : (serialProcess cfg n s).wp gMon (fun g s' => g ∨ s'.core = c) g := by
  induction n generalizing s g with
  | zero => exact .inr hs
  | succ n ih =>
    intro b _
    cases b with
    | none => exact .inr hs
    | some x =>
      show Prog.wp gMon ((Mrcp.parseChar cfg s x).bind (serialProcess cfg n)) _ _
      rw [wp_bind]
      refine wp_mono (fun g s' h => ?_) (show (Mrcp.parseChar cfg s x).wp gMon (fun g s' => g ∨ s'.core = c) _ from events_g cfg c hc (s.framer.step x).2 { s with framer := (s.framer.step x).1 } hs _)
      rcases h with h | h
      · exact gMon_true _ (fun _ _ h => .inl h) h
      · exact ih s' h g

theorem process_g (cfg : Cfg F) (s : FW F) (g : Prop) : (Mrcp.process cfg s).wp gMon (fun g s' => g ∨ s'.core = s.core ∧ s'.mode = s.mode ∧ s'.rb = s.rb) g := by
  have hand : ∀ src s' m g, src ≠ .immediate → (Mrcp.handOver cfg src s' m).wp gMon (fun g a => g ∨ a.core = s.core ∧ a.mode = s.mode ∧ a.rb = s.rb) g :=
    fun src s' m g hs => ⟨trivial, gMon_true _ (fun _ _ h => .inl h) (.inr ⟨src, m, rfl, fun h => hs h.1⟩)⟩
  simp only [Mrcp.process]
  split
  · exact .inr ⟨rfl, rfl, rfl⟩
  · split
    · split
      · split
        · refine ⟨trivial, ?_⟩
          show Prog.wp gMon (if _ then _ else _) _ _
          split
          · trivial
          · exact hand _ _ _ _ (by simp)
        · exact .inr ⟨rfl, rfl, rfl⟩
      · intro mem _
        show Prog.wp gMon (if _ then _ else _) _ _
        split
        · trivial
        · split
          · exact hand _ _ _ _ (by simp)
          · exact .inr ⟨rfl, rfl, rfl⟩
      · exact .inr ⟨rfl, rfl, rfl⟩
    · exact .inr ⟨rfl, rfl, rfl⟩

/-- no arm servo is touched. -/
def ArmStill (tr : List (Act F)) : Prop := ∀ (i : Fin 6) m, .micro (armServo i) m ∉ tr

theorem armStill_of {tr : List (Act F)} (h : ∀ x ∈ tr, ∀ (i : Fin 6) m, x ≠ .micro (armServo i) m) : ArmStill tr := fun i m hm => h _ hm i m rfl

theorem arm_lt (i : Fin 6) : (armServo i).val < 6 := i.isLt

theorem cmdAct_arm {a : Act F} (h : cmdAct a) (i : Fin 6) (m) : a ≠ .micro (armServo i) m := by
  rintro rfl
  rcases h with h | ⟨n, h⟩ | ⟨m, h⟩ | ⟨m, h⟩ | ⟨x, b, h⟩ | ⟨r, h⟩
  · have : 6 ≤ (armServo i).val := h
    have := arm_lt i
    omega
  all_goals cases h

theorem serial_arm (cfg : Cfg F) (n : ℕ) (s : FW F) : (serialProcess cfg n s).only (fun a => ∀ (i : Fin 6) m, a ≠ .micro (armServo i) m) (fun _ => True) := by
  induction n generalizing s with
  | zero => trivial
  | succ n ih =>
    intro b
    refine ⟨fun _ _ h => (by cases h), ?_⟩
    cases b with
    | none => trivial
    | some c =>
      show Prog.only _ _ ((Mrcp.parseChar cfg s c).bind (serialProcess cfg n))
      rw [only_bind]
      exact only_mono (fun _ h => cmdAct_arm h) (fun s' _ => ih s') (parseChar_only cfg s c)

theorem mrilAct_arm {a : Act F} (h : mrilAct a) (i : Fin 6) (m) : a ≠ .micro (armServo i) m := cmdAct_arm (.inl h) i m

theorem process_arm (cfg : Cfg F) (s : FW F) : (Mrcp.process cfg s).only (fun a => ∀ (i : Fin 6) m, a ≠ .micro (armServo i) m) (fun _ => True) := by
  have hh : ∀ src s m, (Mrcp.handOver cfg src s m).only (fun a => ∀ (i : Fin 6) m, a ≠ .micro (armServo i) m) (fun _ => True) := by
    intro src s m
    refine ⟨fun _ _ h => (by cases h), ?_⟩
    rw [only_bind]
    exact only_mono (fun _ h => mrilAct_arm h) (fun _ _ => trivial) (parse_only cfg s.core m)
  simp only [Mrcp.process]
  split
  · trivial
  · split
    · split
      · split
        · refine ⟨fun _ _ h => (by cases h), ?_⟩
          show Prog.only _ _ (if _ then _ else _)
          split
          · trivial
          · exact hh _ _ _
        · trivial
      · intro mem
        refine ⟨fun _ _ h => (by cases h), ?_⟩
        show Prog.only _ _ (if _ then _ else _)
        split
        · trivial
        · split
          · exact hh _ _ _
          · trivial
      · trivial
    · trivial

/-- the phases of a pass. -/
theorem quiet_pass {s s' : FW F} {tr : List (Act F)} (h : Exec (loopBody cfg s) tr (.ret s')) (hcl : s.core.rc.inTransaction = false) (hg : ∀ x ∈ tr, ¬ OrdersI x) :
    ∃ t1 t2 t3 t4 t5 r1 s2 c3, tr = t1 ++ t2 ++ (t3 ++ (t4 ++ t5)) ∧ Exec (RC.process cfg.toRCfg s.core.rc) t1 (.ret r1) ∧
      Exec (RC.process cfg.toRCfg r1) t2 (.ret s'.core.rc) ∧
      Exec (serialProcess cfg SERIAL_BYTES { s with core := { s.core with rc := s'.core.rc } }) t3 (.ret s2) ∧
      s2.core = { s.core with rc := s'.core.rc } ∧ Exec (Mril.process s2.core) t4 (.ret c3) ∧ c3.rc = s'.core.rc ∧
      Exec (Mrcp.process cfg { s2 with core := c3 }) t5 (.ret s') ∧ s'.core = c3 ∧ s'.mode = s2.mode ∧ s'.rb = s2.rb ∧ ArmStill (t3 ++ (t4 ++ t5)) := by
  unfold loopBody at h
  simp only [bind_def] at h
  obtain ⟨a, t1, u, rfl, h1, h⟩ := exec_bind_ret h
  obtain ⟨b, t2, u, rfl, h2, h⟩ := exec_bind_ret h
  obtain ⟨s2, t3, u, rfl, h3, h⟩ := exec_bind_ret h
  obtain ⟨c3, t4, t5, rfl, h4, h5⟩ := exec_bind_ret h
  have hg' : ∀ x ∈ t1 ++ (t2 ++ (t3 ++ (t4 ++ t5))), ¬ OrdersI x := hg
  obtain ⟨r1, t1', u1, rfl, k1, h1'⟩ := exec_bind_ret h1
  obtain ⟨rfl, e1⟩ := exec_ret h1'
  have e1 : a = { s with core := { s.core with rc := r1 } } := by simpa using e1
  subst e1
  obtain ⟨r2, t2', u2, rfl, k2, h2'⟩ := exec_bind_ret h2
  obtain ⟨rfl, e2⟩ := exec_ret h2'
  have e2 : b = { s with core := { s.core with rc := r2 } } := by simpa using e2
  subst e2
  have hr2 : r2.inTransaction = false :=
    ((only_exec k2 (RC.process_only _ _)).2).1.trans (((only_exec k1 (RC.process_only _ _)).2).1.trans hcl)
  have e3 : s2.core = { s.core with rc := r2 } :=
    gMon_exec (R := fun x : FW F => x.core = { s.core with rc := r2 }) h3 (serial_g cfg _ hr2 SERIAL_BYTES _ rfl _) (fun x hx => hg' x (by simp [hx]))
  have e4 : c3.rc = s2.core.rc := (only_exec h4 (mrilProcess_only s2.core)).2.1
  have e5 := gMon_exec h5 (process_g cfg _ _) (fun x hx => hg' x (by simp [hx]))
  have erc : s'.core.rc = r2 := by rw [e5.1]; show c3.rc = r2; rw [e4, e3]
  have a3 : ArmStill t3 := by
    refine armStill_of fun x hx i m => ?_
    exact (only_exec h3 (serial_arm cfg SERIAL_BYTES _)).1 x hx i m
  have a4 : ArmStill t4 := by
    refine armStill_of fun x hx i m he => ?_
    have := (only_exec h4 (mrilProcess_only _)).1 x hx
    rw [he] at this; exact this
  have a5 : ArmStill t5 := armStill_of fun x hx i m => (only_exec h5 (process_arm cfg _)).1 x hx i m
  refine ⟨t1', t2', t3, t4, t5, r1, s2, c3, by simp, k1, by rw [erc]; exact k2, by rw [erc]; exact h3, by rw [erc]; exact e3, h4, by rw [erc, e4, e3], h5, e5.1, e5.2.1, e5.2.2, ?_⟩
  intro i m hm
  rcases List.mem_append.1 hm with hm | hm
  · exact a3 i m hm
  · rcases List.mem_append.1 hm with hm | hm
    · exact a4 i m hm
    · exact a5 i m hm

end Mrc
