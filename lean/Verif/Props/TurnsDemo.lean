import Verif.Props.Turns
/-
C112: a host that waits for each report, running with the controller; all hypotheses of C112 hold.
-/
set_option maxRecDepth 100000
set_option linter.unusedSimpArgs false
namespace Mrc.Demo
open Mrc Mrc.Prog Mrc.Spec Mrc.Props

section
variable {F : Type} [FloatOps F]

/-- a report of completion. -/
def n1Ev : Ev F → Bool
  | .act (.out (.msg (.n1 _))) => true
  | _ => false

/-- controller and host: what the host still has to send; a report has just been received. -/
structure Talk (F : Type) [FloatOps F] where
  sys : Sys F × Bool
  todo : List (List Byte)
  due : Bool

/-- after every report of completion the host sends its next text (if there is one). -/
def talk (cfg : Cfg F) (x : Talk F) : Ev F × Talk F :=
  if x.due then (.arrive (x.todo.headD []), ⟨(⟨{ x.sys.1.w with rxq := x.sys.1.w.rxq ++ x.todo.headD [] }, x.sys.1.p⟩, x.sys.2), x.todo.tail, false⟩)
  else ((sched cfg x.sys).1, ⟨(sched cfg x.sys).2, x.todo, n1Ev (sched cfg x.sys).1⟩)

theorem talk_do (cfg : Cfg F) (x : Talk F) : Sys.Do cfg x.sys.1 (talk cfg x).1 (talk cfg x).2.sys.1 := by
  unfold talk
  split
  · exact .arrive _
  · exact sched_do cfg _

def talked (cfg : Cfg F) (x0 : Talk F) (n : ℕ) : Talk F := (fun x => (talk cfg x).2)^[n] x0
def talkS (cfg : Cfg F) (x0 : Talk F) (n : ℕ) : Sys F := (talked cfg x0 n).sys.1
def talkE (cfg : Cfg F) (x0 : Talk F) (n : ℕ) : Ev F := (talk cfg (talked cfg x0 n)).1

theorem talked_succ (cfg : Cfg F) (x0 : Talk F) (n : ℕ) : talked cfg x0 (n + 1) = (talk cfg (talked cfg x0 n)).2 := Function.iterate_succ_apply' _ _ _

/-- the host speaks, if it has to. -/
theorem talk_due (cfg : Cfg F) (w : World F) (p : Prog F (FW F)) (b : Bool) (td : List (List Byte)) (due : Bool) :
    ∃ k w' td', (fun x => (talk cfg x).2)^[k] ⟨(⟨w, p⟩, b), td, due⟩ = ⟨(⟨w', p⟩, b), td', false⟩ := by
  cases due with
  | false => exact ⟨0, w, td, rfl⟩
  | true => exact ⟨1, _, _, rfl⟩

/-- one step of the controller. -/
theorem talk_step (cfg : Cfg F) (x : Sys F × Bool) (td : List (List Byte)) : (talk cfg ⟨x, td, false⟩).2 = ⟨(sched cfg x).2, td, n1Ev (sched cfg x).1⟩ := rfl

theorem talk_ends (cfg : Cfg F) (p : Prog F (FW F)) : ∀ (w : World F) (b : Bool) (td : List (List Byte)) (due : Bool), (∀ s, p = .ret s → b = false) →
    ∃ k w' q td', (fun x => (talk cfg x).2)^[k] ⟨(⟨w, p⟩, b), td, due⟩ = ⟨(⟨w', q⟩, false), td', false⟩ ∧ ((∃ s, q = .ret s) ∨ ∃ f, q = .fault f) := by
  have first : ∀ (p : Prog F (FW F)) w b td due, (∀ w td, ∃ k w' q td', (fun x => (talk cfg x).2)^[k] ⟨(⟨w, p⟩, b), td, false⟩ = ⟨(⟨w', q⟩, false), td', false⟩ ∧
      ((∃ s, q = .ret s) ∨ ∃ f, q = .fault f)) → ∃ k w' q td', (fun x => (talk cfg x).2)^[k] ⟨(⟨w, p⟩, b), td, due⟩ = ⟨(⟨w', q⟩, false), td', false⟩ ∧ ((∃ s, q = .ret s) ∨ ∃ f, q = .fault f) := by
    intro p w b td due h
    obtain ⟨k1, w1, td1, e1⟩ := talk_due cfg w p b td due
    obtain ⟨k2, w2, q, td2, e2, h2⟩ := h w1 td1
    exact ⟨k2 + k1, w2, q, td2, by rw [Function.iterate_add_apply, e1, e2], h2⟩
  have one : ∀ (x : Sys F × Bool) (td : List (List Byte)), (∃ k w' q td', (fun x => (talk cfg x).2)^[k] ⟨(sched cfg x).2, td, n1Ev (sched cfg x).1⟩ = ⟨(⟨w', q⟩, false), td', false⟩ ∧
      ((∃ s, q = .ret s) ∨ ∃ f, q = .fault f)) → ∃ k w' q td', (fun x => (talk cfg x).2)^[k] ⟨x, td, false⟩ = ⟨(⟨w', q⟩, false), td', false⟩ ∧ ((∃ s, q = .ret s) ∨ ∃ f, q = .fault f) := by
    rintro x td ⟨k, w', q, td', e, h⟩
    exact ⟨k + 1, w', q, td', by rw [Function.iterate_succ_apply, talk_step]; exact e, h⟩
  induction p with
  | ret s => intro w b td due hb; obtain rfl := hb s rfl; exact first _ _ _ _ _ fun w td => ⟨0, w, _, td, rfl, .inl ⟨s, rfl⟩⟩
  | fault f => intro w b td due _; exact first _ _ _ _ _ fun w td => ⟨1, w.isr, .fault f, td, rfl, .inr ⟨f, rfl⟩⟩
  | servo i k ih => intro w b td due _; exact first _ _ _ _ _ fun w td => one _ _ (ih (w.servos i) w false td _ (fun _ _ => rfl))
  | micro i m k ih => intro w b td due _; exact first _ _ _ _ _ fun w td => one _ _ (ih (w.setServo i ((w.servos i).micro m)) false td _ (fun _ _ => rfl))
  | now k ih => intro w b td due _; exact first _ _ _ _ _ fun w td => one _ _ (ih w.now w false td _ (fun _ _ => rfl))
  | pin p k ih => intro w b td due _; exact first _ _ _ _ _ fun w td => one _ _ (ih (w.pins p) w false td _ (fun _ _ => rfl))
  | rx k ih =>
    intro w b td due _
    refine first _ _ _ _ _ fun w td => one _ _ ?_
    cases hr : w.rxq with
    | nil =>
      have e : sched cfg (⟨w, .rx k⟩, b) = (.act (.rx none), (⟨w, k none⟩, false)) := by simp [sched, mainEv, hr]
      rw [e]; exact ih none w false td _ (fun _ _ => rfl)
    | cons c bs =>
      have e : sched cfg (⟨w, .rx k⟩, b) = (.act (.rx (some c)), (⟨{ w with rxq := bs }, k (some c)⟩, false)) := by simp [sched, mainEv, hr]
      rw [e]; exact ih (some c) { w with rxq := bs } false td _ (fun _ _ => rfl)
  | eeRead k ih => intro w b td due _; exact first _ _ _ _ _ fun w td => one _ _ (ih w.ee w false td _ (fun _ _ => rfl))
  | eeWrite a c k ih => intro w b td due _; exact first _ _ _ _ _ fun w td => one _ _ (ih { w with ee := EE.write w.ee a c } false td _ (fun _ _ => rfl))
  | out o k ih => intro w b td due _; exact first _ _ _ _ _ fun w td => one _ _ (ih { w with outs := w.outs ++ [o] } false td _ (fun _ _ => rfl))

/-- power-up, with texts to be sent. -/
def talk0 (cfg : Cfg F) (w0 : World F) (junk : Nat → Byte) (td : List (List Byte)) : Talk F := ⟨(⟨w0, setup cfg junk⟩, false), td, false⟩

theorem talk_endless (cfg : Cfg F) (w0 : World F) (junk : Nat → Byte) (td : List (List Byte)) (hf : ∀ n f, (talkS cfg (talk0 cfg w0 junk td) n).p ≠ .fault f) :
    Endless cfg w0 junk (talkS cfg (talk0 cfg w0 junk td)) (talkE cfg (talk0 cfg w0 junk td)) := by
  set x0 := talk0 cfg w0 junk td with hx0
  have idle : ∀ n, ∃ m, n ≤ m ∧ ∃ w s td', talked cfg x0 m = ⟨(⟨w, .ret s⟩, false), td', false⟩ := by
    intro n
    have go : ∀ d w p b td' due, talked cfg x0 d = ⟨(⟨w, p⟩, b), td', due⟩ → n ≤ d → (∀ s, p = .ret s → b = false) → ∃ m, n ≤ m ∧ ∃ w s td', talked cfg x0 m = ⟨(⟨w, .ret s⟩, false), td', false⟩ := by
      intro d w p b td' due hd hnd hb
      obtain ⟨k, w', q, td2, h1, h2⟩ := talk_ends cfg p w b td' due hb
      have e : talked cfg x0 (d + k) = ⟨(⟨w', q⟩, false), td2, false⟩ := by
        rw [talked, Nat.add_comm, Function.iterate_add_apply]; exact (congrArg _ hd).trans h1
      rcases h2 with ⟨s, rfl⟩ | ⟨f, rfl⟩
      · exact ⟨d + k, by omega, w', s, td2, e⟩
      · exact absurd (by rw [talkS, e]) (hf (d + k) f)
    rcases hx : talked cfg x0 n with ⟨⟨⟨w, p⟩, b⟩, td', due⟩
    by_cases hb : ∀ s, p = .ret s → b = false
    · exact go n w p b td' due hx (Nat.le_refl _) hb
    · simp only [not_forall, Bool.not_eq_false] at hb
      obtain ⟨s, rfl, rfl⟩ := hb
      obtain ⟨k1, w1, td1, e1⟩ := talk_due cfg w (.ret s) true td' due
      have e2 : talked cfg x0 (n + k1) = ⟨(⟨w1, .ret s⟩, true), td1, false⟩ := by
        rw [talked, Nat.add_comm, Function.iterate_add_apply]; exact (congrArg _ hx).trans e1
      exact go (n + k1 + 1) w1 (loopBody cfg s) false td1 false (by rw [talked_succ, e2]; rfl) (by omega) (fun _ _ => rfl)
  refine ⟨rfl, fun n => ?_, fun n => ?_, fun n => ?_⟩
  · show Sys.Do cfg _ _ (talked cfg x0 (n + 1)).sys.1
    rw [talked_succ]; exact talk_do cfg _
  · obtain ⟨m, h1, w, s, td', e⟩ := idle n
    refine ⟨m + 1, by omega, ?_⟩
    show (talk cfg (talked cfg x0 (m + 1))).1 = _
    rw [talked_succ, e]; rfl
  · obtain ⟨m, h1, w, s, td', e⟩ := idle n
    refine ⟨m, h1, ?_⟩
    show (talk cfg (talked cfg x0 m)).1 = _
    rw [e]; rfl

theorem talk_run (cfg : Cfg F) (w0 : World F) (junk : Nat → Byte) (td : List (List Byte)) (n : ℕ) :
    Sys.Run cfg w0 junk (sofar (talkE cfg (talk0 cfg w0 junk td)) n) (talkS cfg (talk0 cfg w0 junk td) n) := by
  induction n with
  | zero => exact .init
  | succ n ih =>
    rw [sofar_succ]
    refine .step ih ?_
    show Sys.Do cfg _ _ (talked cfg _ (n + 1)).sys.1
    rw [talked_succ]; exact talk_do cfg _

/-- the clock stands still. -/
theorem talk_now (cfg : Cfg F) (x0 : Talk F) (n : ℕ) : (talkS cfg x0 n).w.now = x0.sys.1.w.now := by
  induction n with
  | zero => rfl
  | succ n ih =>
    rw [← ih]
    show (talked cfg x0 (n + 1)).sys.1.w.now = (talked cfg x0 n).sys.1.w.now
    rw [talked_succ, talk]
    split
    · rfl
    · rcases (talked cfg x0 n).sys with ⟨⟨w, p⟩, b⟩
      cases p with
      | ret s => cases b <;> rfl
      | rx k => simp only [sched, mainEv]; split <;> rfl
      | _ => rfl

/-- after an interrupt a pass begins. -/
theorem talk_isr_next (cfg : Cfg F) (x0 : Talk F) (n : ℕ) (hf : ∀ f, (talkS cfg x0 n).p ≠ .fault f) (h : talkE cfg x0 n = .isr) : talkE cfg x0 (n + 1) = .next := by
  simp only [talkE] at h ⊢
  rw [talked_succ]
  have hf : ∀ f, (talked cfg x0 n).sys.1.p ≠ .fault f := hf
  rcases hx : talked cfg x0 n with ⟨⟨⟨w, p⟩, b⟩, td, due⟩
  rw [hx] at h hf
  cases due with
  | true => simp [talk] at h
  | false =>
    cases p with
    | ret s =>
      cases b with
      | false => rfl
      | true => simp [talk, sched, mainEv] at h
    | fault f => exact absurd rfl (hf f)
    | rx k =>
      simp only [talk, sched, mainEv, Bool.false_eq_true, if_false] at h
      split at h <;> cases h
    | _ => simp [talk, sched, mainEv] at h

theorem talk_unbroken (cfg : Cfg F) (x0 : Talk F) (hf : ∀ n f, (talkS cfg x0 n).p ≠ .fault f) : Unbroken (talkE cfg x0) := by
  intro i s v t k m n h1 h2 _ _ e3 _ _ hn j g1 g2 e
  have := talk_isr_next cfg x0 j (hf j) e
  rcases Nat.eq_or_lt_of_le (show j + 1 ≤ n from g2) with rfl | g
  · rw [e3] at this; cases this
  · exact hn (j + 1) (by omega) g this

/-- what has been sent and what remains to be sent. -/
theorem talk_sent (cfg : Cfg F) (x0 : Talk F) (n : ℕ) : arrivals (sofar (talkE cfg x0) n) ++ (talked cfg x0 n).todo.flatten = x0.todo.flatten ∧ (talked cfg x0 n).todo <:+ x0.todo := by
  induction n with
  | zero => exact ⟨rfl, List.suffix_refl _⟩
  | succ n ih =>
    obtain ⟨i1, i2⟩ := ih
    rw [sofar_succ, arrivals_append, talked_succ]
    show arrivals _ ++ arrivals [(talk cfg (talked cfg x0 n)).1] ++ _ = _ ∧ _
    rw [talk]
    split
    · refine ⟨?_, (List.tail_suffix _).trans i2⟩
      show _ ++ arrivals [Ev.arrive _] ++ (talked cfg x0 n).todo.tail.flatten = _
      rw [← i1, List.append_assoc]
      congr 1
      cases (talked cfg x0 n).todo with
      | nil => rfl
      | cons b bs => simp [arrivals]
    · refine ⟨?_, i2⟩
      show _ ++ arrivals [(sched cfg (talked cfg x0 n).sys).1] ++ _ = _
      rw [sched_silent, List.append_nil]; exact i1

/-- never more than one frame ahead of the reports. -/
theorem talk_frames (cfg : Cfg F) (x0 : Talk F) (r0 : List Byte) (hd : x0.due = false) (h0 : (decode r0).length ≤ 1 ∧ tail r0 = []) (htd : ∀ t ∈ x0.todo, (decode t).length ≤ 1 ∧ tail t = []) (n : ℕ) :
    tail (sent r0 (sofar (talkE cfg x0) n)) = [] ∧
      (decode (sent r0 (sofar (talkE cfg x0) n))).length + (if (talked cfg x0 n).due then 1 else 0) ≤ 1 + finished (acts (sofar (talkE cfg x0) n)) := by
  induction n with
  | zero =>
    refine ⟨by simpa [sent, sofar, arrivals] using h0.2, ?_⟩
    show _ + (if x0.due then 1 else 0) ≤ _
    rw [hd]
    simp [sent, sofar, arrivals]; omega
  | succ n ih =>
    obtain ⟨i1, i2⟩ := ih
    have hs : sent r0 (sofar (talkE cfg x0) (n + 1)) = sent r0 (sofar (talkE cfg x0) n) ++ arrivals [talkE cfg x0 n] := by
      rw [sofar_succ, sent, arrivals_append, ← List.append_assoc]; rfl
    have ha : finished (acts (sofar (talkE cfg x0) (n + 1))) = finished (acts (sofar (talkE cfg x0) n)) + finished (acts [talkE cfg x0 n]) := by
      rw [sofar_succ, acts_append, Turns.finished_append]
    rw [hs, ha, decode_append, tail_append, i1, List.nil_append, List.length_append, talked_succ]
    cases hdue : (talked cfg x0 n).due
    · rw [hdue] at i2
      have e1 : talkE cfg x0 n = (sched cfg (talked cfg x0 n).sys).1 := by rw [talkE, talk, hdue]; rfl
      have e2 : (talk cfg (talked cfg x0 n)).2.due = n1Ev (sched cfg (talked cfg x0 n).sys).1 := by rw [talk, hdue]; rfl
      rw [e1, sched_silent, e2]
      refine ⟨by rfl, ?_⟩
      have : (if n1Ev (sched cfg (talked cfg x0 n).sys).1 = true then 1 else 0) ≤ finished (acts [(sched cfg (talked cfg x0 n).sys).1]) := by
        split
        · rename_i hn
          generalize (sched cfg (talked cfg x0 n).sys).1 = e at hn
          match e, hn with
          | .act (.out (.msg (.n1 m))), _ => exact Nat.le_refl _
        · exact Nat.zero_le _
      have h0' : (decode ([] : List Byte)).length = 0 := by rfl
      simp only [Bool.false_eq_true, if_false] at i2
      omega
    · rw [hdue] at i2
      have e1 : talkE cfg x0 n = .arrive ((talked cfg x0 n).todo.headD []) := by rw [talkE, talk, hdue]; rfl
      have e2 : (talk cfg (talked cfg x0 n)).2.due = false := by rw [talk, hdue]; rfl
      rw [e1, e2]
      have e3 : arrivals [(Ev.arrive ((talked cfg x0 n).todo.headD []) : Ev F)] = (talked cfg x0 n).todo.headD [] := by simp [arrivals]
      have e4 : finished (acts [(Ev.arrive ((talked cfg x0 n).todo.headD []) : Ev F)]) = 0 := rfl
      rw [e3, e4]
      have hh : (decode ((talked cfg x0 n).todo.headD [])).length ≤ 1 ∧ tail ((talked cfg x0 n).todo.headD []) = [] := by
        have hsub := (talk_sent cfg x0 n).2.subset
        cases ht : (talked cfg x0 n).todo with
        | nil => exact ⟨by show (decode []).length ≤ 1; exact Nat.zero_le _, rfl⟩
        | cons a l => rw [ht] at hsub; exact htd a (hsub (by simp))
      refine ⟨hh.2, ?_⟩
      simp only [Bool.false_eq_true, if_false, if_true] at i2 ⊢
      omega

theorem talk_turns (cfg : Cfg F) (x0 : Talk F) (r0 : List Byte) (hd : x0.due = false) (h0 : (decode r0).length ≤ 1 ∧ tail r0 = []) (htd : ∀ t ∈ x0.todo, (decode t).length ≤ 1 ∧ tail t = []) :
    TakesTurns r0 (talkE cfg x0) := by
  intro n ps p qs m e _
  have := (talk_frames cfg x0 r0 hd h0 htd n).2
  rw [e, List.length_append, List.length_cons] at this
  have h2 : instrs ps ≤ ps.length := List.countP_le_length
  omega

/-- after a report the next text is sent. -/
theorem talk_answers (cfg : Cfg F) (x0 : Talk F) {j : ℕ} {k : Int} (h : talkE cfg x0 j = .act (.out (.msg (.n1 k)))) :
    (talked cfg x0 (j + 2)).todo = (talked cfg x0 j).todo.tail := by
  have hd : (talked cfg x0 j).due = false := by
    cases hd : (talked cfg x0 j).due
    · rfl
    · rw [talkE, talk, hd] at h; cases h
  have e1 : talkE cfg x0 j = (sched cfg (talked cfg x0 j).sys).1 := by rw [talkE, talk, hd]; rfl
  have e2 : talked cfg x0 (j + 1) = ⟨(sched cfg (talked cfg x0 j).sys).2, (talked cfg x0 j).todo, true⟩ := by
    rw [talked_succ, talk, hd]
    rw [e1] at h
    simp [h, n1Ev]
  rw [talked_succ, e2]; rfl

end

end Mrc.Demo

namespace Mrc.Props
open Mrc Mrc.Prog Mrc.Spec Mrc.Demo Mrc.Rest

/-- N6M0R31 -/
def demoT : List Cmd := [⟨78, str "6"⟩, ⟨77, str "0"⟩, ⟨82, str "31"⟩]

/-- first E N6M0R31 (axis 3 to 1 degree), then, after N1 6, E M0V70N5R01... (six angles). -/
def turn1 : List Byte := str ":EN6M0R31\r"
def turn2 : List Byte := str ":EM0V70N5R01R12R23R34R45R56\r"

theorem turn1_decode : decode turn1 = [69 :: text demoT] := by decide +kernel
theorem turn2_decode : decode turn2 = [69 :: text demo1] := by decide +kernel
theorem turns_decode : decode (turn1 ++ turn2) = [69 :: text demoT, 69 :: text demo1] := by decide +kernel
theorem turn1_frame : frame (69 :: text demoT) = .now (text demoT) := by decide +kernel
theorem turn2_frame : frame (69 :: text demo1) = .now (text demo1) := by decide +kernel
theorem turn_tails : tail turn1 = [] ∧ tail turn2 = [] := by decide +kernel

theorem demoT_ok : ∀ c ∈ demoT, c.Ok := by
  intro c hc
  simp only [demoT, List.mem_cons, List.not_mem_nil, or_false] at hc
  rcases hc with rfl | rfl | rfl <;> exact ⟨by decide, by decide, by decide⟩

theorem demoT_numbered : Numbered (text demoT) 6 :=
  ⟨[], [⟨77, str "0"⟩], str "6", ⟨82, str "31"⟩, by decide +kernel, fun c hc => demoT_ok c hc, by decide +kernel, by unfold WriteCmd; decide +kernel, by decide +kernel, by decide⟩

theorem demoT_brisk : ∀ c ∈ demoT, Careful c ∧ Brisk c := by
  have e : demoT = [⟨78, str "6"⟩, ⟨77, str "0"⟩, ⟨82, [digitChar 3, digitChar 1]⟩] := by rfl
  intro c hc
  rw [e] at hc
  simp only [List.mem_cons, List.not_mem_nil, or_false] at hc
  rcases hc with rfl | rfl | rfl
  · exact ⟨careful_plain _ _ ⟨by decide, by decide, by decide⟩ (by decide), brisk_other _ (by decide)⟩
  · exact ⟨careful_plain _ _ ⟨by decide, by decide, by decide⟩ (by decide), brisk_other _ (by decide)⟩
  · exact ⟨careful_axis 3 (by decide) ⟨false, [1], none⟩ ⟨by decide, by decide, by decide⟩ (.inl (by decide)), brisk_other _ (by decide)⟩

theorem turn_frames {p : List Byte} (hp : p ∈ [69 :: text demoT, 69 :: text demo1]) : frame p = .now (text demoT) ∨ frame p = .now (text demo1) := by
  simp only [List.mem_cons, List.not_mem_nil, or_false] at hp
  rcases hp with rfl | rfl
  · exact .inl turn1_frame
  · exact .inr turn2_frame

theorem turn_sub {r : List Byte} (hr : r = turn1 ∨ r = turn1 ++ turn2) : ∀ p ∈ decode r, p ∈ [69 :: text demoT, 69 :: text demo1] := by
  rcases hr with rfl | rfl
  · rw [turn1_decode]; intro p hp; rw [List.mem_singleton.1 hp]; simp
  · rw [turns_decode]; exact fun p hp => hp

theorem turn_brisk {r : List Byte} (hr : r = turn1 ∨ r = turn1 ++ turn2) : BrisklySent r := by
  have hb : ∀ p ∈ decode r, BriskFrame (frame p) := by
    intro p hp
    rcases turn_frames (turn_sub hr p hp) with e | e <;> rw [e]
    · exact ⟨demoT, rfl, demoT_brisk, by decide +kernel⟩
    · exact ⟨demo1, rfl, demo1_brisk, by decide +kernel⟩
  refine ⟨⟨?_, ?_, fun p hp => careful_of_frame (hb p hp)⟩, hb⟩ <;> rcases hr with rfl | rfl <;> decide +kernel

theorem turn_quick {r : List Byte} (hr : r = turn1 ∨ r = turn1 ++ turn2) : NeverWaits r := by
  refine ⟨?_, ?_, ?_⟩
  · rcases hr with rfl | rfl <;> decide +kernel
  · rcases hr with rfl | rfl <;> decide +kernel
  · intro p hp
    rcases turn_frames (turn_sub hr p hp) with e | e <;> rw [e]
    · exact ⟨by decide +kernel, by decide +kernel⟩
    · exact ⟨by decide +kernel, by decide +kernel⟩

theorem turn_stores {r : List Byte} (hr : r = turn1 ∨ r = turn1 ++ turn2) : NeverStores r := by
  intro p hp m
  rcases turn_frames (turn_sub hr p hp) with e | e <;> rw [e] <;> simp

/-- what this host has sent at any time. -/
theorem turn_sent {F : Type} [FloatOps F] (cfg : Cfg F) (x0 : Talk F) (ht : x0.todo = [turn2]) (n : ℕ) :
    (turn1 ++ arrivals (sofar (talkE cfg x0) n) = turn1 ∧ (talked cfg x0 n).todo = [turn2]) ∨
      (turn1 ++ arrivals (sofar (talkE cfg x0) n) = turn1 ++ turn2 ∧ (talked cfg x0 n).todo = []) := by
  obtain ⟨h1, h2⟩ := talk_sent cfg x0 n
  rw [ht] at h1 h2
  rcases List.suffix_cons_iff.1 h2 with h2 | h2
  · left
    rw [h2] at h1 ⊢
    simp at h1
    exact ⟨by rw [h1, List.append_nil], rfl⟩
  · right
    have h2 := List.suffix_nil.1 h2
    rw [h2] at h1 ⊢
    simp at h1
    exact ⟨by rw [h1], rfl⟩

/-- C112: the kit in exact arithmetic and a host that waits for each report before it sends the next immediate instruction: all hypotheses hold; both instructions are executed and
reported, and after the second report the arm is where it was told to be. -/
theorem C112_demo : ∃ (w0 : World XR) (σ : ℕ → Sys XR) (ev : ℕ → Ev XR), w0.servos = Kit.servos ∧ Endless Kit.cfg w0 (fun _ => 0) σ ev ∧ Unbroken ev ∧ TakesTurns w0.rxq ev ∧
    (∃ t, sent w0.rxq (sofar ev t) = turn1 ++ turn2) ∧ (∃ k j, ev k = .act (.out (.ghost .immediate (text demoT))) ∧ k < j ∧ ev j = .act (.out (.msg (.n1 6)))) ∧
    ∃ k j, ev k = .act (.out (.ghost .immediate (text demo1))) ∧ k < j ∧ ev j = .act (.out (.msg (.n1 5))) ∧ (∀ i, k < i → i < j → ¬ Orders ev i) ∧
      ∀ l, j ≤ l → (∀ i : Fin 6, Untouched ev (armServo i) j l) → ∃ b, ArmAt (σ l).w b ∧ ∀ i, |kitLogical b i - radians (demoD i)| < 11 / 100000 := by
  let w0 : World XR := { servos := Kit.servos, now := 1, pins := fun _ => false, rxq := turn1, ee := fun _ => 0, outs := [] }
  let x0 : Talk XR := talk0 Kit.cfg w0 (fun _ => 0) [turn2]
  have hs : ∀ n, w0.rxq ++ arrivals (sofar (talkE Kit.cfg x0) n) = turn1 ∨ w0.rxq ++ arrivals (sofar (talkE Kit.cfg x0) n) = turn1 ++ turn2 := fun n =>
    (turn_sent Kit.cfg x0 rfl n).imp And.left And.left
  have hc : ∀ n, BrisklySent (w0.rxq ++ arrivals (sofar (talkE Kit.cfg x0) n)) := fun n => turn_brisk (hs n)
  have hf : ∀ n f, (talkS Kit.cfg x0 n).p ≠ .fault f := fun n => (C81_kit rfl (careful_empty _ rfl) (talk_run Kit.cfg w0 _ _ n) (hc n).well).1
  have he := talk_endless Kit.cfg w0 _ _ hf
  have hclk : ClockRuns (talkS Kit.cfg x0) (talkE Kit.cfg x0) := clockRuns_of he 0 fun n _ => by rw [talk_now]; exact Nat.one_pos
  have htt : TakesTurns w0.rxq (talkE Kit.cfg x0) := talk_turns Kit.cfg x0 turn1 rfl ⟨by rw [turn1_decode]; exact Nat.le_refl _, turn_tails.1⟩ fun t ht => by
    rw [List.mem_singleton.1 ht]; exact ⟨by rw [turn2_decode]; exact Nat.le_refl _, turn_tails.2⟩
  have hu := talk_unbroken Kit.cfg x0 hf
  obtain ⟨k1, j1, g1, -, g2, g3, -⟩ := C112_sent (t := 0) rfl he rfl hc (fun n => turn_quick (hs n)) (fun n => turn_stores (hs n)) htt hu hclk (m := text demoT) (n := 6) (by
    show text demoT ∈ nows (turn1 ++ [])
    rw [List.append_nil, nows, turn1_decode]; simp [turn1_frame]) demoT_numbered
  have hall : sent w0.rxq (sofar (talkE Kit.cfg x0) (j1 + 2)) = turn1 ++ turn2 := by
    rcases turn_sent Kit.cfg x0 rfl (j1 + 2) with ⟨_, h2⟩ | ⟨h1, _⟩
    · rw [talk_answers Kit.cfg x0 g3] at h2
      rcases turn_sent Kit.cfg x0 rfl j1 with ⟨_, h3⟩ | ⟨_, h3⟩ <;> rw [h3] at h2 <;> cases h2
    · exact h1
  refine ⟨w0, _, _, rfl, he, hu, htt, ⟨_, hall⟩, ⟨k1, j1, g1, g2, g3⟩, ?_⟩
  exact C112_told (t := j1 + 2) rfl he rfl hc (fun n => turn_quick (hs n)) (fun n => turn_stores (hs n)) htt hu hclk (by
    rw [hall, nows, turns_decode]; simp [turn1_frame, turn2_frame]) demo1_tells demo1_M0 demo1_numbered demo1_last demo1_kitFits

theorem demoT_text : AngleText (text demoT) ∧ BriskText (text demoT) ∧ SafeText 10 (text demoT) := by
  refine ⟨by decide +kernel, ?_, by decide +kernel⟩
  have e : (commands [] (codePart (text demoT))).1 = [str "N6", str "M0", str "R31"] := by decide +kernel
  intro t ht
  rw [e] at ht
  simp only [List.mem_cons, List.not_mem_nil, or_false] at ht
  rcases ht with rfl | rfl | rfl <;> intro h <;> exact absurd h (by decide)

/-- C112 in binary32, for every libm whose square roots are not negative: the same host. -/
theorem C112_demo_rounded [L : RX.Libm binary32] (hsq : SqrtNonneg binary32) : ∃ (w0 : World F32) (σ : ℕ → Sys F32) (ev : ℕ → Ev F32), w0.servos = Kit.servos ∧
    Endless Kit.cfg w0 (fun _ => 0) σ ev ∧ Unbroken ev ∧ TakesTurns w0.rxq ev ∧ (∃ t, sent w0.rxq (sofar ev t) = turn1 ++ turn2) ∧
    ∃ k j, ev k = .act (.out (.ghost .immediate (text demo1))) ∧ k < j ∧ ev j = .act (.out (.msg (.n1 5))) ∧ (∀ i, k < i → i < j → ¬ Orders ev i) ∧
      ∀ l, j ≤ l → (∀ i : Fin 6, Untouched ev (armServo i) j l) → ∃ b, ArmAt32 (σ l).w b ∧ ∀ i, |kitLogical b i - radians (demoD i)| < 13 / 100000 := by
  let w0 : World F32 := { servos := Kit.servos, now := 1, pins := fun _ => false, rxq := turn1, ee := fun _ => 0, outs := [] }
  let x0 : Talk F32 := talk0 Kit.cfg w0 (fun _ => 0) [turn2]
  have hs : ∀ n, w0.rxq ++ arrivals (sofar (talkE Kit.cfg x0) n) = turn1 ∨ w0.rxq ++ arrivals (sofar (talkE Kit.cfg x0) n) = turn1 ++ turn2 := fun n =>
    (turn_sent Kit.cfg x0 rfl n).imp And.left And.left
  have j1 : AngleText (text demo1) := by decide +kernel
  have s1 : SafeText 10 (text demo1) := by decide +kernel
  have hj : ∀ n, ∀ p ∈ decode (w0.rxq ++ arrivals (sofar (talkE Kit.cfg x0) n)), JointFrame (frame p) := fun n p hp => by
    rcases turn_frames (turn_sub (hs n) p hp) with e | e <;> rw [e]
    · exact ⟨demoT_text.1, demoT_text.2.1⟩
    · exact ⟨j1, brisk_demo1⟩
  have hc : ∀ n, LegiblySent (w0.rxq ++ arrivals (sofar (talkE Kit.cfg x0) n)) := fun n => by
    refine ⟨?_, ?_, fun p hp => ?_⟩
    · rcases hs n with e | e <;> rw [e] <;> decide +kernel
    · rcases hs n with e | e <;> rw [e] <;> decide +kernel
    · rcases turn_frames (turn_sub (hs n) p hp) with e | e <;> rw [e]
      · exact demoT_text.2.2
      · exact s1
  have hst : StoredProgram w0.ee [] := ⟨by simp, by decide, fun k b _ hk => by
    cases k with
    | zero => simp at hk; exact hk
    | succ k => simp at hk⟩
  have hmem : ∃ L, StoredProgram w0.ee L ∧ ∀ m ∈ L, SafeText 0 m ∧ JointText m := ⟨[], hst, by simp⟩
  have hf : ∀ n f, (talkS Kit.cfg x0 n).p ≠ .fault f := fun n =>
    (C104_numbers kitAngles rfl (joint_angle_mem hmem) (talk_run Kit.cfg w0 _ _ n) (hc n) fun p hp => joint_angle_frame (hj n p hp)).1
  have he := talk_endless Kit.cfg w0 _ _ hf
  have hclk : ClockRuns (talkS Kit.cfg x0) (talkE Kit.cfg x0) := clockRuns_of he 0 fun n _ => by rw [talk_now]; exact Nat.one_pos
  have htt : TakesTurns w0.rxq (talkE Kit.cfg x0) := talk_turns Kit.cfg x0 turn1 rfl ⟨by rw [turn1_decode]; exact Nat.le_refl _, turn_tails.1⟩ fun t ht => by
    rw [List.mem_singleton.1 ht]; exact ⟨by rw [turn2_decode]; exact Nat.le_refl _, turn_tails.2⟩
  have hu := talk_unbroken Kit.cfg x0 hf
  have hnw : ∀ n, NeverWaits (w0.rxq ++ arrivals (sofar (talkE Kit.cfg x0) n)) := fun n => turn_quick (hs n)
  have hns : ∀ n, NeverStores (sent w0.rxq (sofar (talkE Kit.cfg x0) n)) := fun n => turn_stores (hs n)
  obtain ⟨k1, g1⟩ := C112_started (t := 0) he (m := text demoT) (by
    show text demoT ∈ nows (turn1 ++ [])
    rw [List.append_nil, nows, turn1_decode]; simp [turn1_frame])
  obtain ⟨j1, g2, g3, -⟩ := C112_reported he (parts_RX one32 hsq) rfl hns htt (C106_ready he (quick_empty _ rfl) hnw hclk) g1 demoT_numbered
    fun n s _ hb i => joint_settles kitAngles rfl he hmem hc hj (undivided32_of hu) n s hb i
  have hall : sent w0.rxq (sofar (talkE Kit.cfg x0) (j1 + 2)) = turn1 ++ turn2 := by
    rcases turn_sent Kit.cfg x0 rfl (j1 + 2) with ⟨_, h2⟩ | ⟨h1, _⟩
    · rw [talk_answers Kit.cfg x0 g3] at h2
      rcases turn_sent Kit.cfg x0 rfl j1 with ⟨_, h3⟩ | ⟨_, h3⟩ <;> rw [h3] at h2 <;> cases h2
    · exact h1
  refine ⟨w0, _, _, rfl, he, hu, htt, ⟨_, hall⟩, ?_⟩
  exact C112_rounded (t := j1 + 2) kitAngles rfl he hsq rfl hc hj hu hnw hns htt hclk (by
    rw [hall, nows, turns_decode]; simp [turn1_frame, turn2_frame]) demo1_tells demo1_M0 demo1_numbered demo1_last demo1_fits

end Mrc.Props
