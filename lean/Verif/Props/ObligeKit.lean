import Verif.Props.Oblige
import Verif.Props.PinsDemo
/-
C128 for the kit: a host whose instructions wait is served, if its surroundings oblige; and a run that satisfies all hypotheses.
-/
set_option maxRecDepth 100000
set_option linter.unusedSectionVars false
namespace Mrc.Props
open Mrc Mrc.Prog Mrc.Spec Mrc.Demo Mrc.Rest

theorem asks_brief {m : List Byte} (h : Asks m) : WaitsNot m ∧ ClearWaits m := by
  obtain ⟨cs, h1, h2, rfl⟩ := h
  have hl : ∀ c ∈ cs, c.letter ≠ 73 ∧ c.letter ≠ 68 ∧ c.letter ≠ 79 := by
    intro c hc
    rcases h2 c hc with ⟨h, -⟩ | ⟨h, -⟩ | h
    · have : ∀ l : Byte, l ∈ str "XYZABCVM" → l ≠ 73 ∧ l ≠ 68 ∧ l ≠ 79 := by decide
      exact this _ h
    · rw [h]; decide
    · rw [h]; decide
  refine ⟨⟨cs, h1, rfl, fun c hc => ⟨(hl c hc).1, (hl c hc).2.1⟩⟩, cs, rfl, ⟨h1, fun c hc e => ?_⟩, fun c hc e => absurd e (hl c hc).2.1⟩
  rcases e with e | e
  · exact absurd e (hl c hc).1
  · exact absurd e (hl c hc).2.2

/-- the condition of C128, for every robot and arithmetic. -/
theorem obliging_fair {F : Type} [FloatOps F] {cfg : Cfg F} (hmap : 10 ≤ cfg.pinMap.length) {w0 : World F} {junk : Nat → Byte} {σ : ℕ → Sys F} {ev : ℕ → Ev F} (h : Endless cfg w0 junk σ ev) (h0 : w0.ee 0 = 0)
    (hh : ∀ n, CountingHost w0.rxq (sofar ev n)) (hq : ∀ n, QueueOnly (sent w0.rxq (sofar ev n))) (hcl : ∀ n, ∀ m ∈ puts (sent w0.rxq (sofar ev n)), ClearWaits m) (ho : Obliging cfg.pinMap σ ev) : Fair σ ev := by
  refine C128_ready hmap h (fun k src m e => ?_) (fun k m e => (asks_brief (queueOnly_noImmediate h hq k (Nat.zero_le _) m e)).1) ho
  have hin : .out (.ghost src m) ∈ acts (sofar ev (k + 1)) := by simp [sofar, List.range_succ, e, acts]
  cases src with
  | immediate => exact (asks_brief (queueOnly_noImmediate h hq k (Nat.zero_le _) m e)).2
  | eeprom =>
    refine absurd hin (Turns.no_storage h h0 (fun n p hp m e => ?_) (k + 1) m)
    rcases hq n p hp with e' | e' | e' | ⟨m', e'⟩ | ⟨m', e', -⟩ <;> rw [e'] at e <;> cases e
  | queue =>
    have h1 : m ∈ (view ev (k + 1)).started := by rw [view_started]; exact List.mem_filterMap.2 ⟨_, hin, rfl⟩
    refine hcl (k + 1) m ((C89_started (h.run (k + 1)) (hh (k + 1)) fun p hp e => ?_).subset h1)
    rcases hq _ p hp with e' | e' | e' | ⟨m', e'⟩ | ⟨m', e', -⟩ <;> rw [e'] at e <;> cases e

section
variable {w0 : World XR} (hw : w0.servos = Kit.servos) {junk : Nat → Byte} {σ : ℕ → Sys XR} {ev : ℕ → Ev XR} (h : Endless Kit.cfg w0 junk σ ev) (h0 : w0.ee 0 = 0)
  (hc : ∀ n, BrisklySent (w0.rxq ++ arrivals (sofar ev n))) (hu : Undivided ev) (hh : ∀ n, CountingHost w0.rxq (sofar ev n)) (hq : ∀ n, QueueOnly (sent w0.rxq (sofar ev n)))
  (hcl : ∀ n, ∀ m ∈ puts (sent w0.rxq (sofar ev n)), ClearWaits m) (ho : Obliging Kit.pinMap σ ev)

include hw h h0 hc hu hh hq hcl ho

/-- **C128** for the kit: the instructions of a counting host may wait for inputs and for times; in surroundings that oblige, everything it sends is executed. -/
theorem C128_executed (n : ℕ) : ∃ m, n ≤ m ∧ puts (sent w0.rxq (sofar ev n)) <+: (view ev m).started :=
  C100_executed hw h (brisk_empty w0.ee h0) hc hu (obliging_fair (cfg := Kit.cfg) (by decide) h h0 hh hq hcl ho) hh hq n

/-- **C128** for the kit: and every numbered instruction is reported as finished, but not before everything it waits for has happened (C127). -/
theorem C128_reported {t : ℕ} {cs : List Cmd} (hm : text cs ∈ puts (sent w0.rxq (sofar ev t))) {n : Int} (hn : Numbered (text cs) n) (hcs : PinsOk cs) :
    ∃ k j, k < j ∧ ev k = .act (.out (.ghost .queue (text cs))) ∧ ev j = .act (.out (.msg (.n1 n))) ∧ (∀ i, k < i → i < j → ¬ Orders ev i) ∧
      (∀ l, Awaits Kit.pinMap cs l → ∀ x ∈ l, ∃ i, k < i ∧ i < j ∧ (σ i).w.pins x.1 = x.2) ∧
      ∀ ms, Delays ms cs → (∀ i i', k ≤ i → i ≤ i' → i' ≤ j → (σ i).w.now ≤ (σ i').w.now) → (σ j).w.now + ms < 4294967296 → (σ k).w.now + ms < (σ j).w.now := by
  obtain ⟨t', -, hp⟩ := C128_executed hw h h0 hc hu hh hq hcl ho t
  obtain ⟨k, -, hk⟩ := started_event (hp.subset hm)
  have hi := queueOnly_noImmediate h hq
  obtain ⟨j, h1, h2, h3⟩ := C100_reported hw h (brisk_empty w0.ee h0) hc hu (obliging_fair (cfg := Kit.cfg) (by decide) h h0 hh hq hcl ho) hk (by decide) hn (fun i _ => hi i (Nat.zero_le _))
  obtain ⟨g1, g2⟩ := C127_time (cfg := Kit.cfg) (by decide) h (by decide) hcs hk h1 h2 trivial fun i s m i1 i2 e => by
    by_contra hne
    refine h3 i i1 i2 ⟨s, m, e, fun hs => hne ⟨hs.1, (asks_brief hs.2).1⟩⟩
  exact ⟨k, j, h1, hk, h2, h3, g1, g2⟩
end

end Mrc.Props
