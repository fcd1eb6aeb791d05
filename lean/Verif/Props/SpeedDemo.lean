import Verif.Props.Speed
import Verif.Props.RestDemo
/-
C121 for everything a counting host sends, and a run that satisfies all hypotheses.
-/
set_option maxRecDepth 100000
set_option linter.unusedSimpArgs false
namespace Mrc.Props
open Mrc Mrc.Prog Mrc.Spec Mrc.Demo Mrc.Rest

section
variable {w0 : World XR} (hw : w0.servos = Kit.servos) {junk : Nat → Byte} {σ : ℕ → Sys XR} {ev : ℕ → Ev XR} (h : Endless Kit.cfg w0 junk σ ev)
  (hmem : BriskStorage w0.ee) (hq0 : QuickStorage w0.ee) (hc : ∀ n, BrisklySent (w0.rxq ++ arrivals (sofar ev n))) (hnw : ∀ n, NeverWaits (w0.rxq ++ arrivals (sofar ev n)))
  (hu : Unbroken ev) (hclk : ClockRuns σ ev) (hh : ∀ n, CountingHost w0.rxq (sofar ev n)) (hq : ∀ n, QueueOnly (sent w0.rxq (sofar ev n)))
include hw h hmem hq0 hc hnw hu hclk hh hq

/-- **C121**, total correctness for the queue (C106): every numbered move to six angles (M0) with a speed that is sent is executed and reported, and the arm keeps the speed. -/
theorem C121_queue {t : ℕ} {cs : List Cmd} (hm : text cs ∈ puts (sent w0.rxq (sofar ev t))) (ht : TellsAngles cs) (hM : Chooses 48 cs) {n : Int} (hn : Numbered (text cs) n)
    {d : Fin 6 → Dec} (hd : ∀ i, Last NamesAngle cs i (d i)) {v : Dec} (hv : LastSpeed cs v) (hv0 : 0 < v.val) :
    ∃ k j, ev k = .act (.out (.ghost .queue (text cs))) ∧ k < j ∧ ev j = .act (.out (.msg (.n1 n))) ∧ (∀ i, k < i → i < j → ¬ Orders ev i) ∧
      ∀ e, j ≤ e → (∀ i : Fin 6, Untouched ev (armServo i) j e) → ∃ c, ArmAt (σ k).w c ∧ KeepsSpeed σ ev (radians v) c (fun i => radians (d i)) k j e := by
  obtain ⟨k, j, h1, h2, h3, h4⟩ := C106_sent hw h hmem hq0 hc hnw (undivided_of hu) hclk hh hq hm hn
  exact ⟨k, j, h1, h2, h3, h4, fun e hl hun => C121_told hw h hmem hc hu (calm_of_none (queueOnly_noImmediate h hq)) h1 (.inl (by simp)) ht hM hd hv hv0 h2 (.inl ⟨n, h3⟩) (undirected h4) hl hun⟩
end

section
variable {w0 : World XR} (hw : w0.servos = Kit.servos) {junk : Nat → Byte} {σ : ℕ → Sys XR} {ev : ℕ → Ev XR} (h : Endless Kit.cfg w0 junk σ ev) (h0 : w0.ee 0 = 0)
  (hc : ∀ n, BrisklySent (w0.rxq ++ arrivals (sofar ev n))) (hnw : ∀ n, NeverWaits (w0.rxq ++ arrivals (sofar ev n))) (hns : ∀ n, NeverStores (sent w0.rxq (sofar ev n)))
  (htt : TakesTurns w0.rxq ev) (hu : Unbroken ev) (hclk : ClockRuns σ ev)
include hw h h0 hc hnw hns htt hu hclk

/-- **C121**, total correctness for a host that takes turns (C112). -/
theorem C121_turns {t : ℕ} {cs : List Cmd} (hm : text cs ∈ nows (sent w0.rxq (sofar ev t))) (ht : TellsAngles cs) (hM : Chooses 48 cs) {n : Int} (hn : Numbered (text cs) n)
    {d : Fin 6 → Dec} (hd : ∀ i, Last NamesAngle cs i (d i)) {v : Dec} (hv : LastSpeed cs v) (hv0 : 0 < v.val) :
    ∃ k j, ev k = .act (.out (.ghost .immediate (text cs))) ∧ k < j ∧ ev j = .act (.out (.msg (.n1 n))) ∧ (∀ i, k < i → i < j → ¬ Orders ev i) ∧
      ∀ e, j ≤ e → (∀ i : Fin 6, Untouched ev (armServo i) j e) → ∃ c, ArmAt (σ k).w c ∧ KeepsSpeed σ ev (radians v) c (fun i => radians (d i)) k j e := by
  obtain ⟨k, j, h1, h2, h3, h4, h5⟩ := C112_sent hw h h0 hc hnw hns htt hu hclk hm hn
  exact ⟨k, j, h1, h3, h4, h5, fun e hl hun => C121_told hw h (brisk_empty _ h0) hc hu (Calm.immediates h (done_calm (C112_calm h h0 hns htt))) h1 (.inr (Calm.of_done h2)) ht hM hd hv hv0 h3
    (.inl ⟨n, h4⟩) (undirected h5) hl hun⟩
end

def demoV : Dec := ⟨false, [7, 0], none⟩
theorem demo1_speed : LastSpeed demo1 demoV := by
  refine ⟨by simp [Dec.Ok, demoV], demo1.take 1, demo1.drop 2, rfl, ?_⟩
  decide +kernel
theorem demoV_pos : 0 < demoV.val := by norm_num [Dec.val, demoV, natVal]

/-- C121: the kit in exact arithmetic, a move to six angles at 70 degrees per second on the line, one interrupt before every pass: all hypotheses hold, and the arm keeps the speed. -/
theorem C121_demo : ∃ (w0 : World XR) (σ : ℕ → Sys XR) (ev : ℕ → Ev XR), w0.servos = Kit.servos ∧ w0.rxq = jointRx ∧ Endless Kit.cfg w0 (fun _ => 0) σ ev ∧ Unbroken ev ∧
    ∃ k j, ev k = .act (.out (.ghost .queue (text demo1))) ∧ k < j ∧ ev j = .act (.out (.msg (.n1 5))) ∧ (∀ i, k < i → i < j → ¬ Orders ev i) ∧
      ∀ e, j ≤ e → (∀ i : Fin 6, Untouched ev (armServo i) j e) → ∃ c, ArmAt (σ k).w c ∧ KeepsSpeed σ ev (radians demoV) c (fun i => radians (demoD i)) k j e := by
  let w0 : World XR := { servos := Kit.servos, now := 1, pins := fun _ => false, rxq := jointRx, ee := fun _ => 0, outs := [] }
  let s0 : Sys XR := ⟨w0, setup Kit.cfg fun _ => 0⟩
  have hs : ∀ n, w0.rxq ++ arrivals (sofar (evs Kit.cfg s0) n) = jointRx := fun n => by
    rw [sched_hist_silent, List.append_nil]
  have hc : ∀ n, BrisklySent (w0.rxq ++ arrivals (sofar (evs Kit.cfg s0) n)) := fun n => by rw [hs]; exact jointRx_brisk
  have hf : ∀ n f, (hist Kit.cfg s0 n).p ≠ .fault f := fun n => (C81_kit rfl (careful_empty _ rfl) (sched_hist_run Kit.cfg w0 _ n) (hc n).well).1
  have he := endless Kit.cfg w0 _ hf
  have h0 : CountingHost (F := XR) jointRx [] := by
    intro a b e
    obtain ⟨rfl, rfl⟩ := List.append_eq_nil_iff.1 e.symm
    show qSize ((puts (jointRx ++ [])).drop (0 - _)) ≤ QUEUE
    rw [List.append_nil, jointRx_puts, Nat.zero_sub]
    decide +kernel
  have hq : ∀ n, QueueOnly (sent w0.rxq (sofar (evs Kit.cfg s0) n)) := fun n => by rw [sent, hs]; exact jointRx_queue
  refine ⟨w0, _, _, rfl, rfl, he, sched_unbroken _ _ hf, ?_⟩
  exact C121_queue (t := 0) rfl he (brisk_empty _ rfl) (quick_empty _ rfl) hc (fun n => by rw [hs]; exact jointRx_quick) (sched_unbroken _ _ hf)
    (clockRuns_of he 0 fun n _ => by rw [sched_now]; exact Nat.one_pos)
    (fun n => by simpa using counting_quiet h0 (sched_hist_silent Kit.cfg s0 n)) hq
    (by rw [sent, hs, jointRx_puts]; simp) demo1_tells demo1_M0 demo1_numbered demo1_last demo1_speed demoV_pos

end Mrc.Props
