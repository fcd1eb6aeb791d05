import Verif.Props.ReadOff
import Verif.Props.ReadBackDemo
/-
C124: a run that satisfies all hypotheses.
-/
set_option maxRecDepth 100000
namespace Mrc.Props
open Mrc Mrc.Prog Mrc.Spec Mrc.Demo Mrc.Rest

/-- C124: a move to the pose (0, 17.75, 18.1) and then a question for X, Y, Z, R0, R5, sent for the queue; the host reads X, Y, Z within 0.017 of 0, 17.75 and 18.1 and R0, R5 within 0.012 of 90 and 0. -/
theorem C124_demo : ∃ (w0 : World XR) (σ : ℕ → Sys XR) (ev : ℕ → Ev XR), w0.servos = Kit.servos ∧ w0.rxq = askRx ∧ Endless Kit.cfg w0 (fun _ => 0) σ ev ∧ Unbroken ev ∧
    ∃ n num, ∃ X Y Z a b : ℚ, lastRead (received print2 ev n) = some (.answer num [(str "X", X), (str "Y", Y), (str "Z", Z), (str "R0", a), (str "R5", b)]) ∧
      |(X : ℝ)| < 17 / 1000 ∧ |(Y : ℝ) - 71 / 4| < 17 / 1000 ∧ |(Z : ℝ) - 181 / 10| < 17 / 1000 ∧ |(a : ℝ) - 90| < 12 / 1000 ∧ |(b : ℝ)| < 12 / 1000 := by
  let w0 : World XR := { servos := Kit.servos, now := 1, pins := fun _ => false, rxq := askRx, ee := fun _ => 0, outs := [] }
  let s0 : Sys XR := ⟨w0, setup Kit.cfg fun _ => 0⟩
  have hs : ∀ n, w0.rxq ++ arrivals (sofar (evs Kit.cfg s0) n) = askRx := fun n => by
    rw [sched_hist_silent, List.append_nil]
  have hc : ∀ n, BrisklySent (w0.rxq ++ arrivals (sofar (evs Kit.cfg s0) n)) := fun n => by rw [hs]; exact askRx_sent
  have hf : ∀ n f, (hist Kit.cfg s0 n).p ≠ .fault f := fun n => (C81_kit rfl (careful_empty _ rfl) (sched_hist_run Kit.cfg w0 _ n) (hc n).well).1
  have he := endless Kit.cfg w0 _ hf
  have h0 : CountingHost (F := XR) askRx [] := by
    intro a b e
    obtain ⟨rfl, rfl⟩ := List.append_eq_nil_iff.1 e.symm
    show qSize ((puts (askRx ++ [])).drop (0 - _)) ≤ QUEUE
    rw [List.append_nil, askRx_puts, Nat.zero_sub]
    decide +kernel
  refine ⟨w0, _, _, rfl, rfl, he, sched_unbroken _ _ hf, ?_⟩
  obtain ⟨mk, n, num, vs, h1, h2, h3, h4⟩ := C124_queue_pose (t := 0) (x := []) (y := []) (cs := takeI) (qs := askQ) rfl he rfl hc (fun n => by rw [hs]; exact askRx_quick) (sched_unbroken _ _ hf)
    (clockRuns_of he 0 fun n _ => by rw [sched_now]; exact Nat.one_pos)
    (fun n => by simpa using counting_quiet h0 (sched_hist_silent Kit.cfg s0 n)) (fun n => by rw [sent, hs]; exact askRx_queue)
    (fun n m hm => by
      rw [sent, hs, askRx_puts, askRx_nows] at hm
      replace hm := hm.resolve_right (by simp)
      rcases List.mem_cons.1 hm with rfl | hm
      · exact ⟨_, takeI_simple, rfl⟩
      · rw [List.mem_singleton.1 hm]; exact ⟨_, askQ_simple, rfl⟩) print2_good
    (by rw [sent, hs, askRx_puts]; rfl) takeI_tells takeI_M0 takeI_last takeI_takes askQ_simple askQ_noPlace ⟨_, rfl, .inr ⟨rfl, rfl⟩⟩
  have ht : (Spec.asked mk askQ).map Prod.fst = [str "X", str "Y", str "Z", str "R0", str "R5"] := rfl
  rw [ht] at h2
  have hlen : vs.length = 5 := by rw [← List.length_map (f := Prod.fst), h2]; rfl
  obtain ⟨⟨n1, X⟩, ⟨n2, Y⟩, ⟨n3, Z⟩, ⟨n4, a⟩, ⟨n5, b⟩, rfl⟩ : ∃ p1 p2 p3 p4 p5, vs = [p1, p2, p3, p4, p5] := by
    rcases vs with _ | ⟨p1, _ | ⟨p2, _ | ⟨p3, _ | ⟨p4, _ | ⟨p5, _ | ⟨p6, l⟩⟩⟩⟩⟩⟩ <;> simp at hlen
    exact ⟨p1, p2, p3, p4, p5, rfl⟩
  simp only [List.map_cons, List.map_nil, List.cons.injEq, and_true] at h2
  obtain ⟨rfl, rfl, rfl, rfl, rfl⟩ := h2
  have s1 := h4 0 X (.head _)
  have s2 := h4 1 Y (.tail _ (.head _))
  have s3 := h4 2 Z (.tail _ (.tail _ (.head _)))
  have s4 := h3 0 a (.tail _ (.tail _ (.tail _ (.head _))))
  have s5 := h3 5 b (.tail _ (.tail _ (.tail _ (.tail _ (.head _)))))
  have v : ∀ i : Fin 6, (takeD i).val = (![0, 71/4, 181/10, 180, 0, 90] : Fin 6 → ℚ) i := by decide +kernel
  have hpi : Real.pi / 2 * (180 / Real.pi) = 90 := by field_simp; norm_num
  refine ⟨n, num, X, Y, Z, a, b, h1, ?_, ?_, ?_, ?_, ?_⟩
  · simpa [v] using s1
  · simpa [v] using s2
  · simpa [v] using s3
  · simpa [takeA, hpi] using s4
  · simpa [takeA] using s5

end Mrc.Props
