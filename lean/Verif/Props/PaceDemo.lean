import Verif.Props.Pace
import Verif.Props.WayDemo
import Verif.Props.SpeedDemo
/-
C122: the whole way, everything a counting host sends, and a run that satisfies all hypotheses.
-/
set_option maxRecDepth 100000
set_option linter.unusedSimpArgs false
namespace Mrc.Props
open Mrc Mrc.Prog Mrc.Spec Mrc.Demo Mrc.Rest

theorem interrupts_add {ev : ℕ → Ev XR} {a b c : ℕ} (h : a ≤ b) (h' : b ≤ c) : interrupts ev a c = interrupts ev a b + interrupts ev b c := by
  induction c, h' using Nat.le_induction with
  | base => rw [interrupts_self, Nat.add_zero]
  | succ c hc ih =>
    by_cases hb : ev c = .isr
    · rw [interrupts_isr (h.trans hc) hb, interrupts_isr hc hb]; omega
    · rw [interrupts_other fun _ => hb, interrupts_other fun _ => hb]; exact ih

/-- **C122**, the whole way: from where the tool was (`S`) to the last point it reached (all `m` points, or up to one that cannot be taken) it takes no less than the time that the way, less half a unit
of length, takes at the speed told, to 1%. -/
theorem C122_time {G : Fin 5 → Vec3} {V : ℝ} {P : Fin 6 → ℝ} {σ : ℕ → Sys XR} {ev : ℕ → Ev XR} {k0 k : ℕ} (hk : k0 < k) (h : KeepsPace G V P σ ev k0 k) (hV : 0 < V) :
    (∃ c, ArmAt (σ k0).w c ∧ ArmAbout (σ k).w (2 / 1000000) c) ∨ ∃ (b S A : Fin 6 → ℝ) (m j : ℕ), ArmAt (σ k0).w b ∧ len3 (toolOf G b - ![S 0, S 1, S 2]) ≤ 5 / 10000 ∧ 0 < j ∧ j ≤ m ∧
      PutsAt G A (onLine S P j m) ∧ ArmAbout (σ k).w (2 / 1000000) (kitServo A) ∧ (j = m ∨ Blocked G (onLine S P (j + 1) m)) ∧
      99 / 100 * (dist3 S P * (j / m) - 1 / 2) ≤ V * (20 / 1000 * interrupts ev k0 k) := by
  cases h with
  | stays c h1 h2 => exact .inl ⟨c, h1, h2 k hk.le (le_refl _)⟩
  | parts S m j B r h1 h2 h3 h4 h5 h6 h7 h8 h9 h10 h11 h12 h13 h14 =>
    right
    obtain ⟨A, a1, a2, a3⟩ := h8 j h3 (le_refl _)
    refine ⟨B 0, S, A, m, j, h6, h7, h3, h4, a1, by rw [← a3, ← h10]; exact h12 j (le_refl _), h5, ?_⟩
    have hm : (0 : ℝ) < m := by exact_mod_cast (show 0 < m by omega)
    have hj : (j : ℝ) ≤ m := by exact_mod_cast h4
    have hd : 0 ≤ dist3 S P := Real.sqrt_nonneg _
    have hI : (0 : ℝ) ≤ V * (20 / 1000 * interrupts ev k0 k) := by positivity
    have hL : dist3 S P / m < 1 / 2 := by rw [div_lt_iff₀ hm]; linarith
    have ej : dist3 S P * (j / m) = j * (dist3 S P / m) := by ring
    rw [ej]
    rcases Nat.lt_or_ge j 2 with g | g
    · have : j = 1 := by omega
      subst this
      push_cast
      linarith
    have hm2 : (2 : ℝ) ≤ m := by exact_mod_cast (show 2 ≤ m by omega)
    have hL1 : 1 / 10 ≤ dist3 S P / m := by
      rw [le_div_iff₀ hm]
      linarith
    have key : ∀ i, 1 ≤ i → i ≤ j → 99 / 100 * ((i - 1 : ℝ) * (dist3 S P / m)) ≤ V * (20 / 1000 * interrupts ev (r 1) (r i)) ∧ r 1 ≤ r i := by
      intro i hi
      induction i, hi using Nat.le_induction with
      | base => intro _; rw [interrupts_self]; simp
      | succ i hi ih =>
        intro hij
        obtain ⟨e1, e2⟩ := ih (by omega)
        have e3 := h14 hL1 i (by omega) (by omega)
        have e4 := h11 i (by omega)
        refine ⟨?_, by omega⟩
        rw [interrupts_add e2 e4.le]
        push_cast
        linarith
    obtain ⟨e1, e2⟩ := key j (by omega) (le_refl _)
    have e4 := h11 0 (by omega)
    have e5 : (interrupts ev (r 1) (r j) : ℝ) ≤ interrupts ev k0 k := by
      rw [← h9, ← h10, interrupts_add (show r 0 ≤ r 1 by simpa using e4.le) e2]
      push_cast
      have : (0 : ℝ) ≤ interrupts ev (r 0) (r 1) := by positivity
      linarith
    have e6 : V * (20 / 1000 * (interrupts ev (r 1) (r j) : ℝ)) ≤ V * (20 / 1000 * interrupts ev k0 k) := mul_le_mul_of_nonneg_left (by linarith) hV.le
    linarith

section
variable {w0 : World XR} (hw : w0.servos = Kit.servos) {junk : Nat → Byte} {σ : ℕ → Sys XR} {ev : ℕ → Ev XR} (h : Endless Kit.cfg w0 junk σ ev)
  (hmem : BriskStorage w0.ee) (hq0 : QuickStorage w0.ee) (hc : ∀ n, BrisklySent (w0.rxq ++ arrivals (sofar ev n))) (hnw : ∀ n, NeverWaits (w0.rxq ++ arrivals (sofar ev n)))
  (hu : Unbroken ev) (hclk : ClockRuns σ ev) (hh : ∀ n, CountingHost w0.rxq (sofar ev n)) (hq : ∀ n, QueueOnly (sent w0.rxq (sofar ev n)))
include hw h hmem hq0 hc hnw hu hclk hh hq

/-- **C122**, total correctness for the queue (C106): every numbered straight move with a speed that is sent is executed and reported, and the tool keeps the speed. -/
theorem C122_queue {t : ℕ} {cs : List Cmd} (hm : text cs ∈ puts (sent w0.rxq (sofar ev t))) (ht : TellsPose cs) (hM : Chooses 49 cs) {n : Int} (hn : Numbered (text cs) n)
    {d : Fin 6 → Dec} (hd : ∀ i, Last NamesPose cs i (d i)) {v : Dec} (hv : LastSpeed cs v) (hv0 : 0 < v.val) :
    ∃ k j, ev k = .act (.out (.ghost .queue (text cs))) ∧ k < j ∧ ev j = .act (.out (.msg (.n1 n))) ∧ (∀ i, k < i → i < j → ¬ Orders ev i) ∧
      KeepsPace kitG v.val (poseOfDec d) σ ev k j := by
  obtain ⟨k, j, h1, h2, h3, h4⟩ := C106_sent hw h hmem hq0 hc hnw (undivided_of hu) hclk hh hq hm hn
  exact ⟨k, j, h1, h2, h3, h4, C122_line hw h hmem hc hu (calm_of_none (queueOnly_noImmediate h hq)) h1 (.inl (by simp)) ht hM hd hv hv0 h2 (.inl ⟨n, h3⟩) (undirected h4)⟩
end

section
variable {w0 : World XR} (hw : w0.servos = Kit.servos) {junk : Nat → Byte} {σ : ℕ → Sys XR} {ev : ℕ → Ev XR} (h : Endless Kit.cfg w0 junk σ ev) (h0 : w0.ee 0 = 0)
  (hc : ∀ n, BrisklySent (w0.rxq ++ arrivals (sofar ev n))) (hnw : ∀ n, NeverWaits (w0.rxq ++ arrivals (sofar ev n))) (hns : ∀ n, NeverStores (sent w0.rxq (sofar ev n)))
  (htt : TakesTurns w0.rxq ev) (hu : Unbroken ev) (hclk : ClockRuns σ ev)
include hw h h0 hc hnw hns htt hu hclk

/-- **C122**, total correctness for a host that takes turns (C112). -/
theorem C122_turns {t : ℕ} {cs : List Cmd} (hm : text cs ∈ nows (sent w0.rxq (sofar ev t))) (ht : TellsPose cs) (hM : Chooses 49 cs) {n : Int} (hn : Numbered (text cs) n)
    {d : Fin 6 → Dec} (hd : ∀ i, Last NamesPose cs i (d i)) {v : Dec} (hv : LastSpeed cs v) (hv0 : 0 < v.val) :
    ∃ k j, ev k = .act (.out (.ghost .immediate (text cs))) ∧ k < j ∧ ev j = .act (.out (.msg (.n1 n))) ∧ (∀ i, k < i → i < j → ¬ Orders ev i) ∧
      KeepsPace kitG v.val (poseOfDec d) σ ev k j := by
  obtain ⟨k, j, h1, h2, h3, h4, h5⟩ := C112_sent hw h h0 hc hnw hns htt hu hclk hm hn
  exact ⟨k, j, h1, h3, h4, h5, C122_line hw h (brisk_empty _ h0) hc hu (Calm.immediates h (done_calm (C112_calm h h0 hns htt))) h1 (.inr (Calm.of_done h2)) ht hM hd hv hv0 h3
    (.inl ⟨n, h4⟩) (undirected h5)⟩
end

def areaV : Dec := ⟨false, [2, 0], none⟩
theorem areaI_speed : LastSpeed (areaI true) areaV := by
  refine ⟨by simp [Dec.Ok, areaV], (areaI true).take 2, (areaI true).drop 3, rfl, ?_⟩
  decide +kernel
theorem areaV_pos : 0 < areaV.val := by norm_num [Dec.val, areaV, natVal]

/-- C122: a joint move and a straight move at 20 cm/s for the queue, one interrupt before every pass: all hypotheses hold, and the tool keeps the speed in the second. -/
theorem C122_demo : ∃ (w0 : World XR) (σ : ℕ → Sys XR) (ev : ℕ → Ev XR), w0.servos = Kit.servos ∧ w0.rxq = areaRx ∧ Endless Kit.cfg w0 (fun _ => 0) σ ev ∧ Unbroken ev ∧
    ∃ k j, ev k = .act (.out (.ghost .queue (text (areaI true)))) ∧ k < j ∧ ev j = .act (.out (.msg (.n1 6))) ∧ (∀ i, k < i → i < j → ¬ Orders ev i) ∧
      KeepsPace kitG (areaV.val : ℝ) (poseOfDec (areaD true)) σ ev k j := by
  let w0 : World XR := { servos := Kit.servos, now := 1, pins := fun _ => false, rxq := areaRx, ee := fun _ => 0, outs := [] }
  let s0 : Sys XR := ⟨w0, setup Kit.cfg fun _ => 0⟩
  have hs : ∀ n, w0.rxq ++ arrivals (sofar (evs Kit.cfg s0) n) = areaRx := fun n => by
    rw [sched_hist_silent, List.append_nil]
  have hc : ∀ n, BrisklySent (w0.rxq ++ arrivals (sofar (evs Kit.cfg s0) n)) := fun n => by rw [hs]; exact areaRx_sent
  have hf : ∀ n f, (hist Kit.cfg s0 n).p ≠ .fault f := fun n => (C81_kit rfl (careful_empty _ rfl) (sched_hist_run Kit.cfg w0 _ n) (hc n).well).1
  have he := endless Kit.cfg w0 _ hf
  have h0 : CountingHost (F := XR) areaRx [] := by
    intro a b e
    obtain ⟨rfl, rfl⟩ := List.append_eq_nil_iff.1 e.symm
    show qSize ((puts (areaRx ++ [])).drop (0 - _)) ≤ QUEUE
    rw [List.append_nil, areaRx_puts, Nat.zero_sub]
    decide +kernel
  refine ⟨w0, _, _, rfl, rfl, he, sched_unbroken _ _ hf, ?_⟩
  exact C122_queue (t := 0) rfl he (brisk_empty _ rfl) (quick_empty _ rfl) hc (fun n => by rw [hs]; exact areaRx_quick) (sched_unbroken _ _ hf)
    (clockRuns_of he 0 fun n _ => by rw [sched_now]; exact Nat.one_pos)
    (fun n => by simpa using counting_quiet h0 (sched_hist_silent Kit.cfg s0 n)) (fun n => by rw [sent, hs]; exact areaRx_queue)
    (by rw [sent, hs, areaRx_puts]; simp) (areaI_tells true) areaI_straight (areaI_numbered true) (areaI_last true) areaI_speed areaV_pos

end Mrc.Props
