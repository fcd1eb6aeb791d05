import Verif.Proof.Asking
import Verif.Proof.Run
/-
C118 for the whole system: timer interrupt, clock, pins and serial line.
-/
namespace Mrc.Asking
open Mrc Mrc.Spec Prog

variable {F : Type} [FloatOps F]

/-- what an event does to the world, apart from the bytes waiting. -/
def eff (w : World F) : Ev F → World F
  | .act (.micro i m) => w.setServo i ((w.servos i).micro m)
  | .act (.eeWrite a b) => { w with ee := EE.write w.ee a b }
  | .act (.out o) => { w with outs := w.outs ++ [o] }
  | .isr => w.isr
  | .clock t => { w with now := t }
  | .pins f => { w with pins := f }
  | _ => w

omit [FloatOps F] in
/-- an answer is that of the world. -/
def Fit (w : World F) : Ev F → Prop
  | .act (.servo i s) => s = w.servos i
  | .act (.now t) => t = w.now
  | .act (.pin p b) => b = w.pins p
  | .act (.eeRead m) => m = w.ee
  | .clock t => t < 4294967296
  | _ => True

def Fits : World F → List (Ev F) → Prop
  | _, [] => True
  | w, e :: es => Fit w e ∧ Fits (eff w e) es

theorem fits_append (w : World F) (es es' : List (Ev F)) : Fits w (es ++ es') ↔ Fits w es ∧ Fits (es.foldl eff w) es' := by
  induction es generalizing w with
  | nil => simp [Fits]
  | cons e es ih => simp only [List.cons_append, Fits, List.foldl_cons, ih]; exact and_assoc.symm

/-- equal apart from the bytes waiting. -/
def EqRx (w w' : World F) : Prop := w.servos = w'.servos ∧ w.now = w'.now ∧ w.pins = w'.pins ∧ w.ee = w'.ee

theorem eqRx_refl (w : World F) : EqRx w w := ⟨rfl, rfl, rfl, rfl⟩

theorem eff_eqRx {w w' : World F} (h : EqRx w w') (e : Ev F) : EqRx (eff w e) (eff w' e) := by
  obtain ⟨h1, h2, h3, h4⟩ := h
  cases e with
  | act a => cases a <;> simp [eff, EqRx, World.setServo, h1, h2, h3, h4]
  | _ => simp [eff, EqRx, World.isr, h1, h2, h3, h4]

theorem fit_eqRx {w w' : World F} (h : EqRx w w') {e : Ev F} (hf : Fit w e) : Fit w' e := by
  obtain ⟨h1, h2, h3, h4⟩ := h
  cases e with
  | act a => cases a <;> simp only [Fit, h1, h2, h3, h4] at hf ⊢ <;> exact hf
  | _ => exact hf

theorem fold_eqRx {w w' : World F} (h : EqRx w w') (es : List (Ev F)) : EqRx (es.foldl eff w) (es.foldl eff w') := by
  induction es generalizing w w' with
  | nil => exact h
  | cons e es ih => exact ih (eff_eqRx h e)

/-- a step of the system is one of its world. -/
theorem step_fit {cfg : Cfg F} {s t : Sys F} {e : Ev F} (h : Sys.Do cfg s e t) : Fit s.w e ∧ EqRx (eff s.w e) t.w := by
  cases h <;> first | exact ⟨trivial, eqRx_refl _⟩ | exact ⟨rfl, eqRx_refl _⟩ | exact ⟨‹_›, eqRx_refl _⟩ | exact ⟨trivial, rfl, rfl, rfl, rfl⟩

omit [FloatOps F] in
theorem noted_append (es es' : List (Ev F)) : noted (es ++ es') = noted es ++ noted es' := List.filter_append ..

theorem unnoted {w : World F} {e : Ev F} (h : Noted e = false) : eff w e = w := by
  cases e with
  | act a => cases a with
    | rx b => rfl
    | _ => cases h
  | next => rfl
  | arrive _ => rfl
  | _ => cases h

theorem run_fits {cfg : Cfg F} {w0 : World F} {junk : Nat → Byte} {evs : List (Ev F)} {s : Sys F} (h : Sys.Run cfg w0 junk evs s) :
    Fits w0 (noted evs) ∧ EqRx ((noted evs).foldl eff w0) s.w := by
  induction h with
  | init => exact ⟨trivial, eqRx_refl _⟩
  | @step evs s e t _ hs ih =>
    obtain ⟨hf, he⟩ := step_fit hs
    obtain ⟨i1, i2⟩ := ih
    rw [noted_append]
    have tr : ∀ {a b c : World F}, EqRx a b → EqRx b c → EqRx a c := fun h h' => ⟨h.1.trans h'.1, h.2.1.trans h'.2.1, h.2.2.1.trans h'.2.2.1, h.2.2.2.trans h'.2.2.2⟩
    cases hn : Noted e with
    | true =>
      rw [show noted [e] = [e] by simp [noted, hn]]
      refine ⟨(fits_append ..).2 ⟨i1, fit_eqRx ⟨i2.1.symm, i2.2.1.symm, i2.2.2.1.symm, i2.2.2.2.symm⟩ hf, trivial⟩, ?_⟩
      rw [List.foldl_append]
      exact tr (eff_eqRx i2 e) he
    | false =>
      rw [show noted [e] = [] by simp [noted, hn], List.append_nil]
      refine ⟨i1, tr i2 ?_⟩
      rw [unnoted hn] at he; exact he

/-! ### leaving the question out -/

/-- the event only asks and answers. -/
def Idle (e : Ev F) : Prop := ∃ a, e = .act a ∧ OfQuestion a

theorem idle_eff {e : Ev F} (h : Idle e) (w : World F) : EqRx w (eff w e) := by
  obtain ⟨a, rfl, h⟩ := h
  rcases h with ⟨b, rfl⟩ | ⟨m, rfl, _⟩ | ⟨_, rfl⟩ | ⟨_, _, rfl⟩ | ⟨_, rfl⟩ | ⟨_, _, rfl⟩ <;> exact ⟨rfl, rfl, rfl, rfl⟩

theorem merge_fits {a v c : List (Ev F)} (h : Merge a v c) (hv : ∀ e ∈ v, Idle e) {w w' : World F} (hw : EqRx w w') (hf : Fits w c) :
    Fits w' a ∧ EqRx (c.foldl eff w) (a.foldl eff w') := by
  induction h generalizing w w' with
  | nil => exact ⟨trivial, hw⟩
  | left _ ih =>
    obtain ⟨g1, g2⟩ := ih hv (eff_eqRx hw _) hf.2
    exact ⟨⟨fit_eqRx hw hf.1, g1⟩, g2⟩
  | @right x a b c _ ih =>
    refine ih (fun e he => hv e (by simp [he])) ?_ hf.2
    have := idle_eff (hv x (by simp)) w
    exact ⟨this.1.symm.trans hw.1, this.2.1.symm.trans hw.2.1, this.2.2.1.symm.trans hw.2.2.1, this.2.2.2.symm.trans hw.2.2.2⟩

omit [FloatOps F] in
theorem acts_append (es es' : List (Ev F)) : acts (es ++ es') = acts es ++ acts es' := List.filterMap_append ..

omit [FloatOps F] in
theorem acts_noted (es : List (Ev F)) : acts (noted es) = busy (acts es) := by
  induction es with
  | nil => rfl
  | cons e es ih =>
    cases e with
    | act a =>
      cases a with
      | rx b => cases b with
        | none => exact ih
        | some b => exact congrArg (Act.rx (some b) :: ·) ih
      | _ => exact congrArg (_ :: ·) ih
    | _ => exact ih

omit [FloatOps F] in
/-- the decomposition of the accesses is one of the events. -/
theorem merge_events {A v : List (Act F)} (N : List (Ev F)) (h : Merge A v (acts N)) : ∃ N', Merge N' (v.map .act) N ∧ acts N' = A := by
  induction N generalizing A v with
  | nil => cases h; exact ⟨[], .nil, rfl⟩
  | cons e N ih =>
    cases e with
    | act a =>
      have h' : Merge A v (a :: acts N) := h
      cases h' with
      | left h' => obtain ⟨N', g1, g2⟩ := ih h'; exact ⟨.act a :: N', .left g1, congrArg (a :: ·) g2⟩
      | right h' => obtain ⟨N', g1, g2⟩ := ih h'; exact ⟨N', .right g1, g2⟩
    | _ => obtain ⟨N', g1, g2⟩ := ih h; exact ⟨_ :: N', .left g1, g2⟩

/-! ### building a run -/

omit [FloatOps F] in
/-- no access, and not the beginning of a pass or the arrival of bytes. -/
theorem env_only {es : List (Ev F)} (h : acts es = []) (hn : noted es = es) : ∀ e ∈ es, e = .isr ∨ (∃ t, e = .clock t) ∨ ∃ f, e = .pins f := by
  intro e he
  have h2 : Noted e = true := (List.filter_eq_self.1 hn) e he
  have h1 := (List.filterMap_eq_nil_iff.1 h) e he
  cases e with
  | act a => cases h1
  | next => cases h2
  | arrive _ => cases h2
  | isr => exact .inl rfl
  | clock t => exact .inr (.inl ⟨t, rfl⟩)
  | pins f => exact .inr (.inr ⟨f, rfl⟩)

/-- a run that shows exactly `N`, in the world that results, with no bytes waiting. -/
def Shows (cfg : Cfg F) (w0 : World F) (junk : Nat → Byte) (N : List (Ev F)) (p : Prog F (FW F)) (tr : List (Act F)) : Prop :=
  ∃ evs, Sys.Run cfg w0 junk evs ⟨{ N.foldl eff w0 with rxq := [] }, p⟩ ∧ noted evs = N ∧ acts evs = tr

theorem shows_env {cfg : Cfg F} {w0 : World F} {junk : Nat → Byte} {N : List (Ev F)} {p : Prog F (FW F)} {tr : List (Act F)} (h : Shows cfg w0 junk N p tr) (es : List (Ev F))
    (he : ∀ e ∈ es, e = .isr ∨ (∃ t, e = .clock t) ∨ ∃ f, e = .pins f) (hf : Fits (N.foldl eff w0) es) : Shows cfg w0 junk (N ++ es) p tr := by
  induction es generalizing N with
  | nil => simpa using h
  | cons e es ih =>
    have : Shows cfg w0 junk (N ++ [e]) p tr := by
      obtain ⟨evs, h1, h2, h3⟩ := h
      refine ⟨evs ++ [e], ?_, ?_, ?_⟩
      · rw [List.foldl_append]
        rcases he e (by simp) with rfl | ⟨t, rfl⟩ | ⟨f, rfl⟩
        · exact .step h1 .isr
        · exact .step h1 (.clock t hf.1)
        · exact .step h1 (.pins f)
      · rw [noted_append, h2]
        rcases he e (by simp) with rfl | ⟨t, rfl⟩ | ⟨f, rfl⟩ <;> rfl
      · rw [acts_append, h3]
        rcases he e (by simp) with rfl | ⟨t, rfl⟩ | ⟨f, rfl⟩ <;> simp [acts]
    have := ih this (fun e' he' => he e' (by simp [he'])) (by rw [List.foldl_append]; exact hf.2)
    simpa using this

theorem shows_act {cfg : Cfg F} {w0 : World F} {junk : Nat → Byte} {N : List (Ev F)} {p q : Prog F (FW F)} {tr : List (Act F)} (h : Shows cfg w0 junk N p tr) {a : Act F}
    (hs : Prog.Step p a q) (ha : busyA a = true) (hf : Fit (N.foldl eff w0) (.act a)) : Shows cfg w0 junk (N ++ [.act a]) q (tr ++ [a]) := by
  obtain ⟨evs, h1, h2, h3⟩ := h
  by_cases hrx : ∃ b, a = .rx (some b)
  · obtain ⟨b, rfl⟩ := hrx
    cases hs with
    | rx k _ =>
      refine ⟨evs ++ [.arrive [b]] ++ [.act (.rx (some b))], ?_, ?_, ?_⟩
      · refine .step (.step h1 (.arrive [b])) ?_
        rw [List.foldl_append]
        exact .rxSome rfl
      · rw [noted_append, noted_append, h2]; simp [noted, Noted]
      · rw [acts_append, acts_append, h3]; simp [acts]
  · refine ⟨evs ++ [.act a], ?_, ?_, ?_⟩
    · refine .step h1 ?_
      rw [List.foldl_append]
      cases hs with
      | servo i k s => have : s = (N.foldl eff w0).servos i := hf; subst this; exact .servo
      | micro i m k => exact .micro
      | now k t => have : t = (N.foldl eff w0).now := hf; subst this; exact .now
      | pin p k b => have : b = (N.foldl eff w0).pins p := hf; subst this; exact .pin
      | rx k b => cases b with
        | none => cases ha
        | some b => exact absurd ⟨b, rfl⟩ hrx
      | eeRead k m => have : m = (N.foldl eff w0).ee := hf; subst this; exact .eeRead
      | eeWrite a b k => exact .eeWrite
      | out o k => exact .out
    · rw [noted_append, h2]
      congr 1
      cases a with
      | rx b => cases b with
        | none => cases ha
        | some b => exact absurd ⟨b, rfl⟩ hrx
      | _ => rfl
    · rw [acts_append, h3]; rfl

omit [FloatOps F] in
/-- the last access. -/
theorem split_last {N : List (Ev F)} {A : List (Act F)} {a : Act F} (h : acts N = A ++ [a]) : ∃ N1 es, N = N1 ++ [.act a] ++ es ∧ acts N1 = A ∧ acts es = [] := by
  induction N using List.reverseRecOn with
  | nil => simp [acts] at h
  | append_singleton N e ih =>
    rw [acts_append] at h
    by_cases he : ∃ b, e = .act b
    · obtain ⟨b, rfl⟩ := he
      obtain ⟨h1, h2⟩ := List.append_inj' h rfl
      injection h2 with h2
      subst h2
      exact ⟨N, [], by simp, h1, rfl⟩
    · have e0 : acts [e] = [] := by
        cases e with
        | act b => exact absurd ⟨b, rfl⟩ he
        | _ => rfl
      rw [e0, List.append_nil] at h
      obtain ⟨N1, es, rfl, g1, g2⟩ := ih h
      exact ⟨N1, es ++ [e], by simp, g1, by rw [acts_append, g2, e0]; rfl⟩

/-- **every history of the program, with events of the environment in between that fit, is one of the system.** -/
theorem realize {cfg : Cfg F} {w0 : World F} {junk : Nat → Byte} (h0 : w0.rxq = []) {tr : List (Act F)} {p : Prog F (FW F)} (h : Trace cfg junk tr p) :
    ∀ N : List (Ev F), noted N = N → acts N = busy tr → Fits w0 N → Shows cfg w0 junk N p tr := by
  induction h with
  | init =>
    intro N hn ha hf
    have : Shows cfg w0 junk [] (setup cfg junk) [] := ⟨[], by
      have : ({ w0 with rxq := [] } : World F) = w0 := by rw [← h0]
      show Sys.Run cfg w0 junk [] ⟨{ w0 with rxq := [] }, _⟩
      rw [this]; exact .init, rfl, rfl⟩
    simpa using shows_env this N (env_only ha hn) hf
  | next _ ih =>
    intro N hn ha hf
    obtain ⟨evs, h1, h2, h3⟩ := ih N hn ha hf
    exact ⟨evs ++ [.next], .step h1 .loop, by rw [noted_append, h2]; simp [noted, Noted], by rw [acts_append, h3]; simp [acts]⟩
  | @step tr p a q _ hs ih =>
    intro N hn ha hf
    cases hb : busyA a with
    | false =>
      have ea : a = .rx none := by
        cases a with
        | rx b => cases b with
          | none => rfl
          | some b => cases hb
        | _ => cases hb
      subst ea
      rw [busy_append, show busy [(.rx none : Act F)] = [] from rfl, List.append_nil] at ha
      obtain ⟨evs, h1, h2, h3⟩ := ih N hn ha hf
      cases hs with
      | rx k _ => exact ⟨evs ++ [.act (.rx none)], .step h1 (.rxNone rfl), by rw [noted_append, h2]; simp [noted, Noted], by rw [acts_append, h3]; rfl⟩
    | true =>
      rw [busy_append, show busy [a] = [a] by simp [busy, hb]] at ha
      obtain ⟨N1, es, rfl, g1, g2⟩ := split_last ha
      have hn' := List.filter_eq_self.1 hn
      have n1 : noted N1 = N1 := List.filter_eq_self.2 fun e he => hn' e (by simp [he])
      have n2 : noted es = es := List.filter_eq_self.2 fun e he => hn' e (by simp [he])
      rw [fits_append, fits_append] at hf
      obtain ⟨⟨f1, f2, _⟩, f3⟩ := hf
      exact shows_env (shows_act (ih N1 n1 g1 f1) hs hb f2) es (env_only g2 n2) f3

omit [FloatOps F] in
theorem idle_question {l : List Byte} (ha : OnlyAsksLine l) {a : List (Act F)} (g3 : Reaction l a) :
    ∀ e ∈ ((((l ++ [13]).map fun b => (.rx (some b) : Act F)) ++ a).map Ev.act), Idle e := by
  intro e he
  obtain ⟨x, hx, rfl⟩ := List.mem_map.1 he
  refine ⟨x, rfl, ?_⟩
  rcases List.mem_append.1 hx with hx | hx
  · obtain ⟨b, _, rfl⟩ := List.mem_map.1 hx
    exact .inl ⟨b, rfl⟩
  · cases g3 with
    | long _ => cases hx
    | empty _ _ => cases hx
    | free _ _ => rw [List.mem_singleton.1 hx]; exact .inr (.inr (.inl ⟨_, rfl⟩))
    | @now m a ho hf g3 =>
      rcases List.mem_cons.1 hx with rfl | hx
      · refine .inr (.inl ⟨m, rfl, ?_⟩)
        rcases ha.2 with h | h | h | ⟨m', h, h'⟩
        · rw [ho] at h; cases h
        · rw [hf] at h; cases h
        · rw [hf] at h; cases h
        · rw [hf] at h; injection h with h; exact h ▸ h'
      · exact .inr (.inr (.inr (g3.1 x hx)))

/-- **the whole system, with and without the question.** -/
theorem run_asif {cfg : Cfg F} {w0 : World F} {junk : Nat → Byte} {evs : List (Ev F)} {w : World F} {s : FW F} (h : Sys.Run cfg w0 junk evs ⟨w, .ret s⟩) {r1 l r2 : List Byte}
    (h1 : tail r1 = []) (ha : OnlyAsksLine l) (hu : rxBytes (acts evs) = r1 ++ (l ++ [13]) ++ r2) :
    ∃ evs' w' f' a, Sys.Run cfg { w0 with rxq := [] } junk evs' ⟨w', .ret { s with framer := f' }⟩ ∧ rxBytes (acts evs') = r1 ++ r2 ∧ Reaction l a ∧
      Merge (noted evs') ((((l ++ [13]).map fun b => .rx (some b)) ++ a).map .act) (noted evs) ∧
      w'.servos = w.servos ∧ w'.now = w.now ∧ w'.pins = w.pins ∧ w'.ee = w.ee := by
  obtain ⟨tr', a, f', g1, g2, g3, g4⟩ := trace_asif h1 ha h.trace hu
  rw [← acts_noted] at g4
  obtain ⟨N', k1, k2⟩ := merge_events _ g4
  obtain ⟨f1, f2⟩ := run_fits h
  have hidle := idle_question ha g3
  obtain ⟨f3, f4⟩ := merge_fits k1 hidle (w := w0) (w' := { w0 with rxq := [] }) ⟨rfl, rfl, rfl, rfl⟩ f1
  have hn : noted N' = N' := by
    refine List.filter_eq_self.2 fun e he => ?_
    have sub : ∀ {α : Type} {x y z : List α}, Merge x y z → ∀ e ∈ x, e ∈ z := by
      intro α x y z hm
      induction hm with
      | nil => exact fun _ h => h
      | left _ ih => intro e he; rcases List.mem_cons.1 he with rfl | he; exacts [by simp, by simp [ih e he]]
      | right _ ih => intro e he; simp [ih e he]
    exact (List.mem_filter.1 (sub k1 e he)).2
  obtain ⟨evs', r1', r2', r3⟩ := realize (w0 := { w0 with rxq := [] }) rfl g1 N' hn k2 f3
  refine ⟨evs', _, f', a, r1', by rw [r3, g2], g3, r2'.symm ▸ k1, ?_⟩
  exact ⟨f4.1.symm.trans f2.1, f4.2.1.symm.trans f2.2.1, f4.2.2.1.symm.trans f2.2.2.1, f4.2.2.2.symm.trans f2.2.2.2⟩

/-- leaving out in two steps. -/
theorem merge_trans {α : Type} {a v b u c : List α} (h : Merge a v b) (h' : Merge b u c) : ∃ x, Merge a x c ∧ ∀ e ∈ x, e ∈ v ∨ e ∈ u := by
  induction h' generalizing a v with
  | nil => cases h; exact ⟨[], .nil, by simp⟩
  | @left y b u c _ ih =>
    cases h with
    | left h => obtain ⟨x, g1, g2⟩ := ih h; exact ⟨x, .left g1, g2⟩
    | right h =>
      obtain ⟨x, g1, g2⟩ := ih h
      refine ⟨y :: x, .right g1, fun e he => ?_⟩
      rcases List.mem_cons.1 he with rfl | he
      · exact .inl (by simp)
      · rcases g2 e he with g | g
        · exact .inl (by simp [g])
        · exact .inr g
  | @right y b u c _ ih =>
    obtain ⟨x, g1, g2⟩ := ih h
    refine ⟨y :: x, .right g1, fun e he => ?_⟩
    rcases List.mem_cons.1 he with rfl | he
    · exact .inr (by simp)
    · rcases g2 e he with g | g
      · exact .inl g
      · exact .inr (by simp [g])

/-- any number of questions. -/
theorem run_without {cfg : Cfg F} {junk : Nat → Byte} {r r' : List Byte} (hw : Without r r') : ∀ {w0 : World F} {evs : List (Ev F)} {w : World F} {s : FW F},
    Sys.Run cfg w0 junk evs ⟨w, .ret s⟩ → rxBytes (acts evs) = r →
    ∃ w0' evs' w' f' v, w0' = { w0 with rxq := w0'.rxq } ∧ Sys.Run cfg w0' junk evs' ⟨w', .ret { s with framer := f' }⟩ ∧ rxBytes (acts evs') = r' ∧ (∀ e ∈ v, Idle e) ∧
      Merge (noted evs') v (noted evs) ∧ w'.servos = w.servos ∧ w'.now = w.now ∧ w'.pins = w.pins ∧ w'.ee = w.ee := by
  induction hw with
  | refl r => exact fun {w0 evs w s} h e => ⟨w0, evs, w, s.framer, [], rfl, h, e, by simp, merge_left _, rfl, rfl, rfl, rfl⟩
  | @drop r1 l r2 r' h1 ha _ ih =>
    intro w0 evs w s h e
    obtain ⟨evs1, w1, f1, a, g1, g2, g3, g4, g5, g6, g7, g8⟩ := run_asif h h1 ha e
    obtain ⟨w0', evs', w', f', v, k0, k1, k2, k3, k4, k5, k6, k7, k8⟩ := ih g1 g2
    obtain ⟨x, x1, x2⟩ := merge_trans k4 g4
    refine ⟨w0', evs', w', f', x, by rw [k0], k1, k2, ?_, x1, k5.trans g5, k6.trans g6, k7.trans g7, k8.trans g8⟩
    intro e he
    rcases x2 e he with he | he
    · exact k3 e he
    · exact idle_question ha g3 e he

end Mrc.Asking
