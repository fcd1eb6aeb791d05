import Verif.Props.ObligeKit
import Mathlib.Tactic.ByContra
/-
C127, C128: a run of the kit that satisfies all hypotheses: a move, then an instruction that waits for an input and for a time.
-/
set_option maxRecDepth 100000
set_option linter.unusedSectionVars false
namespace Mrc.Props
open Mrc Mrc.Prog Mrc.Spec Mrc.Demo Mrc.Rest

theorem sched_pins {F : Type} [FloatOps F] (cfg : Cfg F) (s0 : Sys F) (n : ℕ) : (hist cfg s0 n).w.pins = s0.w.pins := by
  induction n with
  | zero => rfl
  | succ n ih =>
    rw [← ih]
    show (after cfg s0 (n + 1)).1.w.pins = (after cfg s0 n).1.w.pins
    rw [after_succ]
    rcases after cfg s0 n with ⟨⟨w, p⟩, b⟩
    cases p with
    | ret s => cases b <;> rfl
    | rx k => simp only [sched, mainEv]; split <;> rfl
    | _ => rfl

/-- N6I11D5 -/
def awaitI : List Cmd := [⟨78, str "6"⟩, ⟨73, str "11"⟩, ⟨68, str "5"⟩]
def awaitRx : List Byte := takeRx ++ str ":QN6I11D5\r"

theorem awaitI_ok : PinsOk awaitI := by
  refine ⟨fun c hc => ?_, fun c hc e => ?_⟩
  · simp only [awaitI, List.mem_cons, List.not_mem_nil, or_false] at hc
    rcases hc with rfl | rfl | rfl <;> exact ⟨by decide, by decide, by decide⟩
  · simp only [awaitI, List.mem_cons, List.not_mem_nil, or_false] at hc
    rcases hc with rfl | rfl | rfl
    · rcases e with e | e <;> cases e
    · exact ⟨1, 1, [], by decide⟩
    · rcases e with e | e <;> cases e

theorem awaitI_brisk : ∀ c ∈ awaitI, Careful c ∧ Brisk c := by
  intro c hc
  have hp := awaitI_ok.pin c hc
  have hok := awaitI_ok.ok c hc
  have : ∀ c ∈ awaitI, c.letter ∉ str "XYZABCVR" := by decide +kernel
  have hl := this c hc
  refine ⟨⟨hok, fun e => ?_, fun e => ?_, fun e => ?_, fun e => ?_, hp⟩, brisk_other _ fun e => ?_⟩
  · rcases e with e | e | e <;> exact absurd (by rw [e]; decide) hl
  · rcases e with e | e | e <;> exact absurd (by rw [e]; decide) hl
  all_goals exact absurd (by rw [e]; decide) hl

theorem awaitI_delay : NamesDelay 5 (⟨68, str "5"⟩ : Cmd) := ⟨rfl, [5], by simp, by decide, rfl, by norm_num⟩
theorem awaitI_delays : Delays 5 awaitI := ⟨[⟨78, str "6"⟩, ⟨73, str "11"⟩], ⟨68, str "5"⟩, [], rfl, awaitI_delay, by simp⟩
theorem awaitI_awaits : Awaits Kit.pinMap awaitI [(11, true)] :=
  .other (by decide) (.input (p := 1) (b := true) ⟨rfl, [], by decide⟩ rfl (.other (by decide) .nil))

theorem awaitI_numbered : Numbered (text awaitI) 6 :=
  ⟨[], [⟨73, str "11"⟩], str "6", ⟨68, str "5"⟩, rfl, awaitI_ok.ok, by decide, ⟨by decide, by decide, by decide⟩, by decide +kernel, by decide⟩

theorem awaitI_clear : ClearWaits (text awaitI) := by
  refine ⟨awaitI, rfl, awaitI_ok, fun c hc e => ?_⟩
  simp only [awaitI, List.mem_cons, List.not_mem_nil, or_false] at hc
  rcases hc with rfl | rfl | rfl
  · cases e
  · cases e
  · exact ⟨5, awaitI_delay⟩

theorem takeI_plain : ∀ c ∈ takeI, c.letter ≠ 73 ∧ c.letter ≠ 68 := by decide +kernel
theorem takeI_clear : ClearWaits (text takeI) := ⟨takeI, rfl, takeI_pins, fun c hc e => absurd e (takeI_plain c hc).2⟩

theorem awaitRx_decode : decode awaitRx = [str "QN5M0V20X0Y17.75Z18.1A180B0C90", str "QN6I11D5"] := by decide +kernel
theorem awaitRx_frame : frame (str "QN6I11D5") = .put (text awaitI) := by decide +kernel

theorem awaitRx_frames {P : Frame → Prop} (h1 : P (.put (text takeI))) (h2 : P (.put (text awaitI))) : ∀ p ∈ decode awaitRx, P (frame p) := by
  rw [awaitRx_decode]
  intro p hp
  rcases List.mem_cons.1 hp with rfl | hp
  · rw [takeRx_frame]; exact h1
  · rw [List.mem_singleton.1 hp, awaitRx_frame]; exact h2

theorem awaitRx_sent : BrisklySent awaitRx := by
  have hb : ∀ p ∈ decode awaitRx, BriskFrame (frame p) := awaitRx_frames ⟨takeI, rfl, takeI_brisk, by decide +kernel⟩ ⟨awaitI, rfl, awaitI_brisk, by decide +kernel⟩
  exact ⟨⟨by decide +kernel, by decide +kernel, fun p hp => careful_of_frame (hb p hp)⟩, hb⟩

theorem awaitRx_queue : QueueOnly awaitRx := awaitRx_frames (P := fun f => f = .free ∨ f = .empty ∨ f = .erase ∨ (∃ m, f = .put m) ∨ ∃ m, f = .now m ∧ Asks m) (.inr (.inr (.inr (.inl ⟨_, rfl⟩)))) (.inr (.inr (.inr (.inl ⟨_, rfl⟩))))
theorem awaitRx_puts : puts awaitRx = [text takeI, text awaitI] := by
  rw [puts, awaitRx_decode]; simp [takeRx_frame, awaitRx_frame]
theorem awaitRx_nows : nows awaitRx = [] := by
  rw [nows, awaitRx_decode]; simp [takeRx_frame, awaitRx_frame]

theorem delays_five {first : List Cmd} (f1 : ∀ c ∈ first, c.Ok) (f2 : ∀ c ∈ first, c.letter ≠ 73 ∧ c.letter ≠ 68) {cs : List Cmd} {ms : ℕ} (hok : ∀ c ∈ cs, c.Ok) (hcs : text cs = text first ∨ text cs = text awaitI) (h : Delays ms cs) : ms = 5 := by
  obtain ⟨a, c, b, e, ⟨hl, ds, -, hd, hv, -⟩, -⟩ := h
  rcases hcs with hcs | hcs
  · have := text_inj hok f1 hcs
    subst this
    exact absurd hl (f2 c (by rw [e]; simp)).2
  · have := text_inj hok awaitI_ok.ok hcs
    subst this
    have hm : c ∈ awaitI := by rw [e]; simp
    simp only [awaitI, List.mem_cons, List.not_mem_nil, or_false] at hm
    rcases hm with rfl | rfl | rfl
    · cases hl
    · cases hl
    · have hlen := congrArg List.length hd
      match ds, hlen with
      | [d], _ =>
        have : ∀ d : Fin 10, str "5" = [d].map digitChar → natVal [d] = 5 := by decide
        rw [← hv]; exact this d hd

theorem awaits_nothing {map : List ℕ} {cs : List Cmd} {l : List (ℕ × Bool)} (h : Awaits map cs l) (hc : ∀ c ∈ cs, c.letter ≠ 73) : l = [] := by
  induction h with
  | nil => rfl
  | input h1 => exact absurd h1.1 (hc _ (by simp))
  | odd h1 => exact absurd h1.1 (hc _ (by simp))
  | other _ _ ih => exact ih fun c hc' => hc c (by simp [hc'])

theorem awaits_true {first : List Cmd} (f1 : ∀ c ∈ first, c.Ok) (f2 : ∀ c ∈ first, c.letter ≠ 73 ∧ c.letter ≠ 68) {cs : List Cmd} {l : List (ℕ × Bool)} (hok : ∀ c ∈ cs, c.Ok)
    (hcs : text cs = text first ∨ text cs = text awaitI) (h : Awaits Kit.pinMap cs l) : ∀ x ∈ l, x.2 = true := by
  rcases hcs with hcs | hcs
  · have := text_inj hok f1 hcs
    subst this
    simp [awaits_nothing h fun c hc => (f2 c hc).1]
  · have := text_inj hok awaitI_ok.ok hcs
    subst this
    rw [← awaits_levels (by decide) h, awaits_levels (by decide) awaitI_awaits]
    simp

/-- surroundings that oblige: every input is on, and the clock stands at its last millisecond; nothing but N6I11D5 waits. -/
theorem sched_obliging {F : Type} [FloatOps F] {cfg : Cfg F} {s0 : Sys F} {w0 : World F} {junk : Nat → Byte} (he : Endless cfg w0 junk (hist cfg s0) (evs cfg s0)) (hnow : s0.w.now = 4294967295)
    (hpin : s0.w.pins = fun _ => true)
    (hbeg : ∀ n src m, .out (.ghost src m) ∈ acts (sofar (evs cfg s0) n) → ∃ first : List Cmd, (∀ c ∈ first, c.Ok) ∧ (∀ c ∈ first, c.letter ≠ 73 ∧ c.letter ≠ 68) ∧ (m = text first ∨ m = text awaitI)) : Obliging Kit.pinMap (hist cfg s0) (evs cfg s0) := by
  intro n
  obtain ⟨a, h1, ha⟩ := he.loops n
  have hex : ∃ b, a < b ∧ evs cfg s0 b = .next := by
    obtain ⟨b, h2, hb⟩ := he.loops (a + 1)
    exact ⟨b, h2, hb⟩
  classical
  refine ⟨a, Nat.find hex, h1, (Nat.find_spec hex).1, ha, (Nat.find_spec hex).2, fun k k1 k2 e => Nat.find_min hex k2 ⟨k1, e⟩, fun k _ _ => ⟨?_, ?_, ?_⟩⟩
  · intro pre src cs mid l e hok _ _ hl x hx
    rw [sched_pins, hpin]
    obtain ⟨first, f1, f2, hm⟩ := hbeg a src (text cs) (by rw [e]; simp)
    exact (awaits_true f1 f2 hok hm hl x hx).symm
  · rw [sched_now, hnow]; norm_num
  · rintro T ⟨pre, src, cs, u, t, v, ms, e, hok, hd, -, -, rfl⟩
    obtain ⟨first, f1, f2, hm⟩ := hbeg a src (text cs) (by rw [e]; simp)
    have h5 := delays_five f1 f2 hok hm hd
    have ht : t = 4294967295 := by
      have hm : Act.now t ∈ acts (sofar (evs cfg s0) a) := by rw [e]; simp
      rw [sofar_span] at hm
      obtain ⟨i, -, -, ei⟩ := mem_span.1 (acts_mem.1 hm)
      have hst := he.step i
      rw [ei] at hst
      have hn := sched_now cfg s0 i
      generalize hist cfg s0 i = y at hst hn
      generalize hist cfg s0 (i + 1) = z at hst
      cases hst
      rw [hn, hnow]
    rw [sched_now, hnow, ht, h5]
    norm_num

/-- the run of C128_demo satisfies all hypotheses of C128 for the kit. -/
theorem await_run : ∃ (w0 : World XR) (σ : ℕ → Sys XR) (ev : ℕ → Ev XR), w0.servos = Kit.servos ∧ w0.rxq = awaitRx ∧ w0.ee 0 = 0 ∧ Endless Kit.cfg w0 (fun _ => 0) σ ev ∧ Obliging Kit.pinMap σ ev ∧
    Unbroken ev ∧ (∀ n, BrisklySent (w0.rxq ++ arrivals (sofar ev n))) ∧ (∀ n, CountingHost w0.rxq (sofar ev n)) ∧ (∀ n, QueueOnly (sent w0.rxq (sofar ev n))) ∧
    (∀ n, nows (sent w0.rxq (sofar ev n)) = []) ∧ (∀ n, puts (sent w0.rxq (sofar ev n)) = [text takeI, text awaitI]) ∧ ∀ n, ∀ m ∈ puts (sent w0.rxq (sofar ev n)), ClearWaits m := by
  let w0 : World XR := { servos := Kit.servos, now := 4294967295, pins := fun _ => true, rxq := awaitRx, ee := fun _ => 0, outs := [] }
  let s0 : Sys XR := ⟨w0, setup Kit.cfg fun _ => 0⟩
  have hs : ∀ n, w0.rxq ++ arrivals (sofar (evs Kit.cfg s0) n) = awaitRx := fun n => by
    rw [sched_hist_silent, List.append_nil]
  have hc : ∀ n, BrisklySent (w0.rxq ++ arrivals (sofar (evs Kit.cfg s0) n)) := fun n => by rw [hs]; exact awaitRx_sent
  have hf : ∀ n f, (hist Kit.cfg s0 n).p ≠ .fault f := fun n => (C81_kit rfl (careful_empty _ rfl) (sched_hist_run Kit.cfg w0 _ n) (hc n).well).1
  have he := endless Kit.cfg w0 _ hf
  have h0 : CountingHost (F := XR) awaitRx [] := by
    intro a b e
    obtain ⟨rfl, rfl⟩ := List.append_eq_nil_iff.1 e.symm
    show qSize ((puts (awaitRx ++ [])).drop (0 - _)) ≤ QUEUE
    rw [List.append_nil, awaitRx_puts, Nat.zero_sub]
    decide +kernel
  have hh : ∀ n, CountingHost w0.rxq (sofar (evs Kit.cfg s0) n) := fun n => by simpa using counting_quiet h0 (sched_hist_silent Kit.cfg s0 n)
  have hq : ∀ n, QueueOnly (sent w0.rxq (sofar (evs Kit.cfg s0) n)) := fun n => by rw [sent, hs]; exact awaitRx_queue
  have hput : ∀ n, puts (sent w0.rxq (sofar (evs Kit.cfg s0) n)) = [text takeI, text awaitI] := fun n => by rw [sent, hs, awaitRx_puts]
  have hbeg : ∀ n src m, .out (.ghost src m) ∈ acts (sofar (evs Kit.cfg s0) n) → m = text takeI ∨ m = text awaitI := by
    intro n src m hm
    obtain ⟨n1, n2⟩ := queue_alone he rfl hq (fun n => by rw [sent, hs]; exact awaitRx_nows) n
    cases src with
    | immediate => exact absurd hm (n2 m)
    | eeprom => exact absurd hm (n1 m)
    | queue =>
      have h1 : m ∈ (view (evs Kit.cfg s0) n).started := by rw [view_started]; exact List.mem_filterMap.2 ⟨_, hm, rfl⟩
      have h2 := (C89_started (he.run n) (hh n) fun p hp e => by
        rcases hq _ p hp with e' | e' | e' | ⟨m', e'⟩ | ⟨m', e', -⟩ <;> rw [e'] at e <;> cases e).subset h1
      rw [hput] at h2
      simpa using h2
  have ho : Obliging Kit.pinMap (hist Kit.cfg s0) (evs Kit.cfg s0) := sched_obliging he rfl rfl fun n src m hm => ⟨takeI, takeI_ok, takeI_plain, hbeg n src m hm⟩
  refine ⟨w0, _, _, rfl, rfl, rfl, he, ho, sched_unbroken _ _ hf, hc, hh, hq, fun n => by rw [sent, hs]; exact awaitRx_nows, hput, fun n m hm => ?_⟩
  rw [hput] at hm
  rcases List.mem_cons.1 hm with rfl | hm
  · exact takeI_clear
  · rw [List.mem_singleton.1 hm]; exact awaitI_clear

/-- C127, C128: the kit in exact arithmetic; a move, then N6I11D5, for the queue. The input has its level, and the clock stands at its last millisecond (so every time waited for is over, the sum being taken
in 32 bits): all hypotheses hold, and instruction 6 is reported, not before pin 11 was high. -/
theorem C128_demo : ∃ (w0 : World XR) (σ : ℕ → Sys XR) (ev : ℕ → Ev XR), w0.servos = Kit.servos ∧ w0.rxq = awaitRx ∧ Endless Kit.cfg w0 (fun _ => 0) σ ev ∧ Obliging Kit.pinMap σ ev ∧
    ∃ k j, k < j ∧ ev k = .act (.out (.ghost .queue (text awaitI))) ∧ ev j = .act (.out (.msg (.n1 6))) ∧ ∃ i, k < i ∧ i < j ∧ (σ i).w.pins 11 = true := by
  obtain ⟨w0, σ, ev, hw, hx, h0, he, ho, hu, hc, hh, hq, -, hput, hcl⟩ := await_run
  refine ⟨w0, σ, ev, hw, hx, he, ho, ?_⟩
  obtain ⟨k, j, g1, g2, g3, -, g4, -⟩ := C128_reported (t := 0) hw he h0 hc (undivided_of hu) hh hq hcl ho (cs := awaitI) (by rw [hput]; simp) (n := 6) awaitI_numbered awaitI_ok
  obtain ⟨i, i1, i2, i3⟩ := g4 _ awaitI_awaits (11, true) (by simp)
  exact ⟨k, j, g1, g2, g3, i, i1, i2, i3⟩

end Mrc.Props
