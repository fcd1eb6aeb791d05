import Verif.Props.WayLine
import Verif.Props.RestDemo
import Verif.Props.AreaDemo
/-
C119 for everything a counting host sends, and runs that satisfy all hypotheses of C119 and C120.
-/
set_option maxRecDepth 100000
set_option linter.unusedSimpArgs false
namespace Mrc.Props
open Mrc Mrc.Prog Mrc.Spec Mrc.Demo Mrc.Rest

section
variable {w0 : World XR} (hw : w0.servos = Kit.servos) {junk : Nat → Byte} {σ : ℕ → Sys XR} {ev : ℕ → Ev XR} (h : Endless Kit.cfg w0 junk σ ev)
  (hmem : BriskStorage w0.ee) (hq0 : QuickStorage w0.ee) (hc : ∀ n, BrisklySent (w0.rxq ++ arrivals (sofar ev n))) (hnw : ∀ n, NeverWaits (w0.rxq ++ arrivals (sofar ev n)))
  (hu : Unbroken ev) (hclk : ClockRuns σ ev) (hh : ∀ n, CountingHost w0.rxq (sofar ev n)) (hq : ∀ n, QueueOnly (sent w0.rxq (sofar ev n)))
include hw h hmem hq0 hc hnw hu hclk hh hq

/-- **C119**, total correctness for the queue (C106): every numbered move to six angles (M0) that is sent is executed and reported, and from its beginning until a servo is commanded after the report
every servo is between where it was and where it is sent, to 1e-6 radians, and never goes away from where it is sent by more than 2e-6. -/
theorem C119_queue {t : ℕ} {cs : List Cmd} (hm : text cs ∈ puts (sent w0.rxq (sofar ev t))) (ht : TellsAngles cs) (hM : Chooses 48 cs) {n : Int} (hn : Numbered (text cs) n)
    {d : Fin 6 → Dec} (hd : ∀ i, Last NamesAngle cs i (d i)) :
    ∃ k j, ev k = .act (.out (.ghost .queue (text cs))) ∧ k < j ∧ ev j = .act (.out (.msg (.n1 n))) ∧ (∀ i, k < i → i < j → ¬ Orders ev i) ∧
      ∀ e, j ≤ e → (∀ i : Fin 6, Untouched ev (armServo i) j e) →
        (∃ c0, ArmAt (σ k).w c0 ∧ ∀ l, k ≤ l → l ≤ e → ArmAmid (σ l).w (1 / 1000000) c0 (kitServo fun i => radians (d i))) ∧
        ∀ l l', k ≤ l → l ≤ l' → l' ≤ e → ∃ b b', ArmAt (σ l).w b ∧ ArmAt (σ l').w b' ∧
          ∀ i, |b' i - kitServo (fun i => radians (d i)) i| ≤ |b i - kitServo (fun i => radians (d i)) i| + 2 / 1000000 := by
  obtain ⟨k, j, h1, h2, h3, h4⟩ := C106_sent hw h hmem hq0 hc hnw (undivided_of hu) hclk hh hq hm hn
  exact ⟨k, j, h1, h2, h3, h4, fun e hl hun => C119_told hw h hmem hc hu (calm_of_none (queueOnly_noImmediate h hq)) h1 (.inl (by simp)) ht hM hd h2 (.inl ⟨n, h3⟩) (undirected h4) hl hun⟩

/-- **C119**, total correctness for the queue (C106): every numbered straight move that is sent is executed and reported, and the arm goes the way of `LineWay`. -/
theorem C119_line_queue {t : ℕ} {cs : List Cmd} (hm : text cs ∈ puts (sent w0.rxq (sofar ev t))) (ht : TellsPose cs) (hM : Chooses 49 cs) {n : Int} (hn : Numbered (text cs) n)
    {d : Fin 6 → Dec} (hd : ∀ i, Last NamesPose cs i (d i)) :
    ∃ k j, ev k = .act (.out (.ghost .queue (text cs))) ∧ k < j ∧ ev j = .act (.out (.msg (.n1 n))) ∧ (∀ i, k < i → i < j → ¬ Orders ev i) ∧
      ∀ e, j ≤ e → (∀ i : Fin 6, Untouched ev (armServo i) j e) → LineWay kitG (poseOfDec d) σ k e := by
  obtain ⟨k, j, h1, h2, h3, h4⟩ := C106_sent hw h hmem hq0 hc hnw (undivided_of hu) hclk hh hq hm hn
  exact ⟨k, j, h1, h2, h3, h4, fun e hl hun => C119_line hw h hmem hc hu (calm_of_none (queueOnly_noImmediate h hq)) h1 (.inl (by simp)) ht hM hd h2 (.inl ⟨n, h3⟩) (undirected h4) hl hun⟩
end

section
variable {w0 : World XR} (hw : w0.servos = Kit.servos) {junk : Nat → Byte} {σ : ℕ → Sys XR} {ev : ℕ → Ev XR} (h : Endless Kit.cfg w0 junk σ ev) (h0 : w0.ee 0 = 0)
  (hc : ∀ n, BrisklySent (w0.rxq ++ arrivals (sofar ev n))) (hnw : ∀ n, NeverWaits (w0.rxq ++ arrivals (sofar ev n))) (hns : ∀ n, NeverStores (sent w0.rxq (sofar ev n)))
  (htt : TakesTurns w0.rxq ev) (hu : Unbroken ev) (hclk : ClockRuns σ ev)
include hw h h0 hc hnw hns htt hu hclk

/-- **C119**, total correctness for a host that takes turns (C112): every numbered immediate move to six angles (M0) that is sent is executed and reported, on a way as in C119_queue. -/
theorem C119_turns {t : ℕ} {cs : List Cmd} (hm : text cs ∈ nows (sent w0.rxq (sofar ev t))) (ht : TellsAngles cs) (hM : Chooses 48 cs) {n : Int} (hn : Numbered (text cs) n)
    {d : Fin 6 → Dec} (hd : ∀ i, Last NamesAngle cs i (d i)) :
    ∃ k j, ev k = .act (.out (.ghost .immediate (text cs))) ∧ k < j ∧ ev j = .act (.out (.msg (.n1 n))) ∧ (∀ i, k < i → i < j → ¬ Orders ev i) ∧
      ∀ e, j ≤ e → (∀ i : Fin 6, Untouched ev (armServo i) j e) →
        (∃ c0, ArmAt (σ k).w c0 ∧ ∀ l, k ≤ l → l ≤ e → ArmAmid (σ l).w (1 / 1000000) c0 (kitServo fun i => radians (d i))) ∧
        ∀ l l', k ≤ l → l ≤ l' → l' ≤ e → ∃ b b', ArmAt (σ l).w b ∧ ArmAt (σ l').w b' ∧
          ∀ i, |b' i - kitServo (fun i => radians (d i)) i| ≤ |b i - kitServo (fun i => radians (d i)) i| + 2 / 1000000 := by
  obtain ⟨k, j, h1, h2, h3, h4, h5⟩ := C112_sent hw h h0 hc hnw hns htt hu hclk hm hn
  exact ⟨k, j, h1, h3, h4, h5, fun e hl hun => C119_told hw h (brisk_empty _ h0) hc hu (Calm.immediates h (done_calm (C112_calm h h0 hns htt))) h1 (.inr (Calm.of_done h2)) ht hM hd h3
    (.inl ⟨n, h4⟩) (undirected h5) hl hun⟩

/-- **C119**, the same for straight moves. -/
theorem C119_line_turns {t : ℕ} {cs : List Cmd} (hm : text cs ∈ nows (sent w0.rxq (sofar ev t))) (ht : TellsPose cs) (hM : Chooses 49 cs) {n : Int} (hn : Numbered (text cs) n)
    {d : Fin 6 → Dec} (hd : ∀ i, Last NamesPose cs i (d i)) :
    ∃ k j, ev k = .act (.out (.ghost .immediate (text cs))) ∧ k < j ∧ ev j = .act (.out (.msg (.n1 n))) ∧ (∀ i, k < i → i < j → ¬ Orders ev i) ∧
      ∀ e, j ≤ e → (∀ i : Fin 6, Untouched ev (armServo i) j e) → LineWay kitG (poseOfDec d) σ k e := by
  obtain ⟨k, j, h1, h2, h3, h4, h5⟩ := C112_sent hw h h0 hc hnw hns htt hu hclk hm hn
  exact ⟨k, j, h1, h3, h4, h5, fun e hl hun => C119_line hw h (brisk_empty _ h0) hc hu (Calm.immediates h (done_calm (C112_calm h h0 hns htt))) h1 (.inr (Calm.of_done h2)) ht hM hd h3
    (.inl ⟨n, h4⟩) (undirected h5) hl hun⟩
end

/-- C119, C120: the kit in exact arithmetic, a move to six angles on the line, one interrupt before every pass: all hypotheses hold; the arm goes to these angles without overshoot, detour or turning
back, and without a jump. -/
theorem C119_demo : ∃ (w0 : World XR) (σ : ℕ → Sys XR) (ev : ℕ → Ev XR), w0.servos = Kit.servos ∧ w0.rxq = jointRx ∧ Endless Kit.cfg w0 (fun _ => 0) σ ev ∧ Unbroken ev ∧
    (∃ k j, ev k = .act (.out (.ghost .queue (text demo1))) ∧ k < j ∧ ev j = .act (.out (.msg (.n1 5))) ∧ (∀ i, k < i → i < j → ¬ Orders ev i) ∧
      ∀ e, j ≤ e → (∀ i : Fin 6, Untouched ev (armServo i) j e) →
        (∃ c0, ArmAt (σ k).w c0 ∧ ∀ l, k ≤ l → l ≤ e → ArmAmid (σ l).w (1 / 1000000) c0 (kitServo fun i => radians (demoD i))) ∧
        ∀ l l', k ≤ l → l ≤ l' → l' ≤ e → ∃ b b', ArmAt (σ l).w b ∧ ArmAt (σ l').w b' ∧
          ∀ i, |b' i - kitServo (fun i => radians (demoD i)) i| ≤ |b i - kitServo (fun i => radians (demoD i)) i| + 2 / 1000000) ∧
    ∀ n (i : Fin 6), ∃ c c' : ℝ, ((σ n).w.servos (armServo i)).cur = .fin c ∧ ((σ (n + 1)).w.servos (armServo i)).cur = .fin c' ∧
      (ev n ≠ .isr → c' = c) ∧ |c' - c| ≤ (Kit.velDeg (armServo i) : ℝ) * (Real.pi / 180) * (20 / 1000) := by
  let w0 : World XR := { servos := Kit.servos, now := 1, pins := fun _ => false, rxq := jointRx, ee := fun _ => 0, outs := [] }
  let s0 : Sys XR := ⟨w0, setup Kit.cfg fun _ => 0⟩
  have hs : ∀ n, w0.rxq ++ arrivals (sofar (evs Kit.cfg s0) n) = jointRx := fun n => by
    rw [sched_hist_silent, List.append_nil]
  have hc : ∀ n, BrisklySent (w0.rxq ++ arrivals (sofar (evs Kit.cfg s0) n)) := fun n => by rw [hs]; exact jointRx_brisk
  have hf : ∀ n f, (hist Kit.cfg s0 n).p ≠ .fault f := fun n => (C81_kit rfl (careful_empty _ rfl) (sched_hist_run Kit.cfg w0 _ n) (hc n).well).1
  have he := endless Kit.cfg w0 _ hf
  have h0 : CountingHost (F := XR) jointRx [] := by
    intro a b e
    obtain ⟨rfl, rfl⟩ := List.append_eq_nil_iff.1 e.symm
    show qSize ((puts (jointRx ++ [])).drop (0 - _)) ≤ QUEUE
    rw [List.append_nil, jointRx_puts, Nat.zero_sub]
    decide +kernel
  have hq : ∀ n, QueueOnly (sent w0.rxq (sofar (evs Kit.cfg s0) n)) := fun n => by rw [sent, hs]; exact jointRx_queue
  refine ⟨w0, _, _, rfl, rfl, he, sched_unbroken _ _ hf, ?_, fun n i => C120_smooth rfl he (brisk_empty _ rfl) hc (sched_unbroken _ _ hf) n i⟩
  exact C119_queue (t := 0) rfl he (brisk_empty _ rfl) (quick_empty _ rfl) hc (fun n => by rw [hs]; exact jointRx_quick) (sched_unbroken _ _ hf)
    (clockRuns_of he 0 fun n _ => by rw [sched_now]; exact Nat.one_pos)
    (fun n => by simpa using counting_quiet h0 (sched_hist_silent Kit.cfg s0 n)) hq
    (by rw [sent, hs, jointRx_puts]; simp) demo1_tells demo1_M0 demo1_numbered demo1_last

theorem areaI_straight : Chooses 49 (areaI true) := ⟨⟨_, List.mem_cons_of_mem _ List.mem_cons_self, rfl⟩, by decide⟩

/-- C119: a joint move and a straight move for the queue, one interrupt before every pass: all hypotheses hold, and the arm goes the straight way in the second. -/
theorem C119_line_demo : ∃ (w0 : World XR) (σ : ℕ → Sys XR) (ev : ℕ → Ev XR), w0.servos = Kit.servos ∧ w0.rxq = areaRx ∧ Endless Kit.cfg w0 (fun _ => 0) σ ev ∧ Unbroken ev ∧
    ∃ k j, ev k = .act (.out (.ghost .queue (text (areaI true)))) ∧ k < j ∧ ev j = .act (.out (.msg (.n1 6))) ∧ (∀ i, k < i → i < j → ¬ Orders ev i) ∧
      ∀ e, j ≤ e → (∀ i : Fin 6, Untouched ev (armServo i) j e) → LineWay kitG (poseOfDec (areaD true)) σ k e := by
  let w0 : World XR := { servos := Kit.servos, now := 1, pins := fun _ => false, rxq := areaRx, ee := fun _ => 0, outs := [] }
  let s0 : Sys XR := ⟨w0, setup Kit.cfg fun _ => 0⟩
  have hs : ∀ n, w0.rxq ++ arrivals (sofar (evs Kit.cfg s0) n) = areaRx := fun n => by
    rw [sched_hist_silent, List.append_nil]
  have hc : ∀ n, BrisklySent (w0.rxq ++ arrivals (sofar (evs Kit.cfg s0) n)) := fun n => by rw [hs]; exact areaRx_sent
  have hf : ∀ n f, (hist Kit.cfg s0 n).p ≠ .fault f := fun n => (C81_kit rfl (careful_empty _ rfl) (sched_hist_run Kit.cfg w0 _ n) (hc n).well).1
  have he := endless Kit.cfg w0 _ hf
  have h0 : CountingHost (F := XR) areaRx [] := by
    intro a b e
    obtain ⟨rfl, rfl⟩ := List.append_eq_nil_iff.1 e.symm
    show qSize ((puts (areaRx ++ [])).drop (0 - _)) ≤ QUEUE
    rw [List.append_nil, areaRx_puts, Nat.zero_sub]
    decide +kernel
  refine ⟨w0, _, _, rfl, rfl, he, sched_unbroken _ _ hf, ?_⟩
  exact C119_line_queue (t := 0) rfl he (brisk_empty _ rfl) (quick_empty _ rfl) hc (fun n => by rw [hs]; exact areaRx_quick) (sched_unbroken _ _ hf)
    (clockRuns_of he 0 fun n _ => by rw [sched_now]; exact Nat.one_pos)
    (fun n => by simpa using counting_quiet h0 (sched_hist_silent Kit.cfg s0 n)) (fun n => by rw [sent, hs]; exact areaRx_queue)
    (by rw [sent, hs, areaRx_puts]; simp) (areaI_tells true) areaI_straight (areaI_numbered true) (areaI_last true)

end Mrc.Props
