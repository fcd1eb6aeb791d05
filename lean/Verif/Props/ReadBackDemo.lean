import Verif.Props.ReadBack
import Verif.Props.AccuracyDemo
/-
A run that satisfies all hypotheses of C117.
-/
set_option maxRecDepth 100000
set_option linter.unusedSimpArgs false
namespace Mrc.Props
open Mrc Mrc.Prog Mrc.Spec Mrc.Demo Mrc.Rest

/-- N7XYZR0R5: where is the tool, where are the first and the last axis? -/
def askQ : List Cmd := [⟨78, str "7"⟩, ⟨88, []⟩, ⟨89, []⟩, ⟨90, []⟩, ⟨82, str "0"⟩, ⟨82, str "5"⟩]
def askRx : List Byte := takeRx ++ str ":QN7XYZR0R5\r"

theorem askQ_ok : ∀ c ∈ askQ, c.Ok := by
  intro c hc
  simp only [askQ, List.mem_cons, List.not_mem_nil, or_false] at hc
  rcases hc with rfl | rfl | rfl | rfl | rfl | rfl <;> exact ⟨by decide, by decide, by decide⟩

theorem askQ_simple : Simple askQ := by
  refine ⟨askQ_ok, fun c hc e => ?_, fun c hc e => ?_⟩
  · simp only [askQ, List.mem_cons, List.not_mem_nil, or_false] at hc
    rcases hc with rfl | rfl | rfl | rfl | rfl | rfl
    · cases e
    · cases e
    · cases e
    · cases e
    · exact ⟨0, [], rfl⟩
    · exact ⟨5, [], rfl⟩
  · have : ∀ c ∈ askQ, c.letter ≠ 77 := by decide
    exact absurd e (this c hc)

theorem askQ_noPlace : ∀ c ∈ askQ, NamesNoPlace c := by
  intro c hc
  simp only [askQ, List.mem_cons, List.not_mem_nil, or_false] at hc
  rcases hc with rfl | rfl | rfl | rfl | rfl | rfl
  · exact ⟨fun h => absurd h (by decide), fun h => absurd h (by decide)⟩
  · exact ⟨fun _ => rfl, fun h => absurd h (by decide)⟩
  · exact ⟨fun _ => rfl, fun h => absurd h (by decide)⟩
  · exact ⟨fun _ => rfl, fun h => absurd h (by decide)⟩
  · exact ⟨fun h => absurd h (by decide), fun _ => .inl rfl⟩
  · exact ⟨fun h => absurd h (by decide), fun _ => .inl rfl⟩

theorem careful_bare (l : Byte) (hl : l = 88 ∨ l = 89 ∨ l = 90) : Careful ⟨l, []⟩ := by
  refine ⟨?_, fun _ => .inl rfl, fun _ => .inl rfl, fun _ => .inl rfl, fun e => ?_, fun e => ?_⟩
  · rcases hl with rfl | rfl | rfl <;> exact ⟨by decide, by decide, by decide⟩
  · simp only at e; subst e; exact absurd hl (by decide)
  · simp only at e; rcases e with rfl | rfl <;> exact absurd hl (by decide)

theorem careful_axisQ (o : Fin 10) (ho : o.val < 8) : Careful ⟨82, [digitChar o]⟩ := by
  have hd : ∀ o : Fin 10, argChar (digitChar o) = true := by decide
  refine ⟨⟨?_, by simpa using hd o, by simp⟩, ?_, ?_, ?_, fun _ => ⟨o, [], ho, rfl, .inl rfl⟩, ?_⟩
  · show (65 : ℕ) ≤ 82 ∧ 82 ≤ 90; omega
  all_goals (intro e; simp only at e; exfalso; revert e; decide)

theorem askQ_brisk : ∀ c ∈ askQ, Careful c ∧ Brisk c := by
  intro c hc
  have h86 : ∀ c ∈ askQ, c.letter ≠ 86 := by decide
  refine ⟨?_, brisk_other _ (h86 c hc)⟩
  simp only [askQ, List.mem_cons, List.not_mem_nil, or_false] at hc
  rcases hc with rfl | rfl | rfl | rfl | rfl | rfl
  · exact careful_plain _ _ ⟨by decide, by decide, by decide⟩ (by decide)
  · exact careful_bare _ (by decide)
  · exact careful_bare _ (by decide)
  · exact careful_bare _ (by decide)
  · exact careful_axisQ 0 (by decide)
  · exact careful_axisQ 5 (by decide)

theorem takeI_simple : Simple takeI := by
  refine ⟨takeI_ok, fun c hc e => ?_, fun c hc e => ?_⟩
  · have : ∀ c ∈ takeI, c.letter ≠ 82 := by decide
    exact absurd e (this c hc)
  · have : ∀ c ∈ takeI, c.letter = 77 → c.arg = str "0" := by decide
    exact .inr ⟨0, this c hc e⟩

theorem askRx_decode : decode askRx = [str "QN5M0V20X0Y17.75Z18.1A180B0C90", str "QN7XYZR0R5"] := by decide +kernel
theorem askRx_frame : frame (str "QN7XYZR0R5") = .put (text askQ) := by decide +kernel

theorem askRx_frames {P : Frame → Prop} (h1 : P (.put (text takeI))) (h2 : P (.put (text askQ))) : ∀ p ∈ decode askRx, P (frame p) := by
  rw [askRx_decode]
  intro p hp
  rcases List.mem_cons.1 hp with rfl | hp
  · rw [takeRx_frame]; exact h1
  · rw [List.mem_singleton.1 hp, askRx_frame]; exact h2

theorem askRx_sent : BrisklySent askRx := by
  have hb : ∀ p ∈ decode askRx, BriskFrame (frame p) := askRx_frames ⟨takeI, rfl, takeI_brisk, by decide +kernel⟩ ⟨askQ, rfl, askQ_brisk, by decide +kernel⟩
  exact ⟨⟨by decide +kernel, by decide +kernel, fun p hp => careful_of_frame (hb p hp)⟩, hb⟩

theorem askRx_quick : NeverWaits askRx := by
  refine ⟨by decide +kernel, by decide +kernel, ?_⟩
  rw [askRx_decode]
  intro p hp
  rcases List.mem_cons.1 hp with rfl | hp
  · rw [takeRx_frame]; exact ⟨by decide +kernel, by decide +kernel⟩
  · rw [List.mem_singleton.1 hp, askRx_frame]; exact ⟨by decide +kernel, by decide +kernel⟩

theorem askRx_queue : QueueOnly askRx := askRx_frames (P := fun f => f = .free ∨ f = .empty ∨ f = .erase ∨ (∃ m, f = .put m) ∨ ∃ m, f = .now m ∧ Asks m) (.inr (.inr (.inr (.inl ⟨_, rfl⟩)))) (.inr (.inr (.inr (.inl ⟨_, rfl⟩))))

theorem askRx_puts : puts askRx = [text takeI, text askQ] := by
  rw [puts, askRx_decode]; simp [takeRx_frame, askRx_frame]

theorem askRx_nows : nows askRx = [] := by
  rw [nows, askRx_decode]; simp [takeRx_frame, askRx_frame]

theorem tag_pose {p : Part XR} {s : Byte} (h : Part.tag p = ([s], none)) (hs : s ≠ 86) : ∃ v, p = .pose s v := by
  cases p with
  | method c => simp [Part.tag] at h
  | velocity v => simp [Part.tag] at h; exact absurd h.symm hs
  | pose s' v => simp [Part.tag] at h; exact ⟨v, by rw [h]⟩
  | angle o v => simp [Part.tag] at h

theorem tag_angle {p : Part XR} {c : Byte} (h : Part.tag p = ([82, c], none)) : ∃ o v, p = .angle o v ∧ UInt8.ofNat (48 + o) = c := by
  cases p with
  | method c => simp [Part.tag] at h
  | velocity v => simp [Part.tag] at h
  | pose s' v => simp [Part.tag] at h
  | angle o v => exact ⟨o, v, rfl, by simpa [Part.tag] using h⟩

/-- C117: the kit in exact arithmetic is sent a move to a pose and then a question, both for the queue; one interrupt before every pass. All hypotheses hold, and the answer is X, Y, Z within
0.012 of 0, 17.75 and 18.1 and R0, R5 within 0.007 of 90 and 0. -/
theorem C117_demo : ∃ (w0 : World XR) (σ : ℕ → Sys XR) (ev : ℕ → Ev XR), w0.servos = Kit.servos ∧ w0.rxq = askRx ∧ Endless Kit.cfg w0 (fun _ => 0) σ ev ∧ Unbroken ev ∧
    ∃ j num X Y Z a b, ev j = .act (.out (.msg (.reply num [.pose 88 (.fin X), .pose 89 (.fin Y), .pose 90 (.fin Z), .angle 0 (.fin a), .angle 5 (.fin b)]))) ∧
      |X| < 12 / 1000 ∧ |Y - 71 / 4| < 12 / 1000 ∧ |Z - 181 / 10| < 12 / 1000 ∧ |a - 90| < 7 / 1000 ∧ |b| < 7 / 1000 := by
  let w0 : World XR := { servos := Kit.servos, now := 1, pins := fun _ => false, rxq := askRx, ee := fun _ => 0, outs := [] }
  let s0 : Sys XR := ⟨w0, setup Kit.cfg fun _ => 0⟩
  have hs : ∀ n, w0.rxq ++ arrivals (sofar (evs Kit.cfg s0) n) = askRx := fun n => by
    rw [sched_hist_silent, List.append_nil]
  have hc : ∀ n, BrisklySent (w0.rxq ++ arrivals (sofar (evs Kit.cfg s0) n)) := fun n => by rw [hs]; exact askRx_sent
  have hf : ∀ n f, (hist Kit.cfg s0 n).p ≠ .fault f := fun n => (C81_kit rfl (careful_empty _ rfl) (sched_hist_run Kit.cfg w0 _ n) (hc n).well).1
  have he := endless Kit.cfg w0 _ hf
  have h0 : CountingHost (F := XR) askRx [] := by
    intro a b e
    obtain ⟨rfl, rfl⟩ := List.append_eq_nil_iff.1 e.symm
    show qSize ((puts (askRx ++ [])).drop (0 - _)) ≤ QUEUE
    rw [List.append_nil, askRx_puts, Nat.zero_sub]
    decide +kernel
  refine ⟨w0, _, _, rfl, rfl, he, sched_unbroken _ _ hf, ?_⟩
  obtain ⟨mk, q, j, num, ps, _, _, h3, _, h5, h6⟩ := C117_queue_pose (t := 0) (x := []) (y := []) (cs := takeI) (qs := askQ) rfl he rfl hc (fun n => by rw [hs]; exact askRx_quick) (sched_unbroken _ _ hf)
    (clockRuns_of he 0 fun n _ => by rw [sched_now]; exact Nat.one_pos)
    (fun n => by simpa using counting_quiet h0 (sched_hist_silent Kit.cfg s0 n)) (fun n => by rw [sent, hs]; exact askRx_queue)
    (fun n m hm => by
      rw [sent, hs, askRx_puts, askRx_nows] at hm
      replace hm := hm.resolve_right (by simp)
      rcases List.mem_cons.1 hm with rfl | hm
      · exact ⟨_, takeI_simple, rfl⟩
      · rw [List.mem_singleton.1 hm]; exact ⟨_, askQ_simple, rfl⟩)
    (by rw [sent, hs, askRx_puts]; rfl) takeI_tells takeI_M0 takeI_last takeI_takes askQ_simple askQ_noPlace ⟨_, rfl, .inr ⟨rfl, rfl⟩⟩
  have ht : Spec.asked mk askQ = [([88], none), ([89], none), ([90], none), ([82, 48], none), ([82, 53], none)] := rfl
  rw [ht] at h5
  have hlen : ps.length = 5 := by rw [← List.length_map (f := Part.tag), h5]; rfl
  obtain ⟨p1, p2, p3, p4, p5, rfl⟩ : ∃ p1 p2 p3 p4 p5, ps = [p1, p2, p3, p4, p5] := by
    rcases ps with _ | ⟨p1, _ | ⟨p2, _ | ⟨p3, _ | ⟨p4, _ | ⟨p5, _ | ⟨p6, l⟩⟩⟩⟩⟩⟩ <;> simp at hlen
    exact ⟨p1, p2, p3, p4, p5, rfl⟩
  · simp only [List.map_cons, List.map_nil, List.cons.injEq, and_true] at h5
    obtain ⟨t1, t2, t3, t4, t5⟩ := h5
    obtain ⟨v1, rfl⟩ := tag_pose t1 (by decide)
    obtain ⟨v2, rfl⟩ := tag_pose t2 (by decide)
    obtain ⟨v3, rfl⟩ := tag_pose t3 (by decide)
    obtain ⟨o4, v4, rfl, e4⟩ := tag_angle t4
    obtain ⟨o5, v5, rfl, e5⟩ := tag_angle t5
    have s1 := h6 (.pose 88 v1) (by simp)
    have s2 := h6 (.pose 89 v2) (by simp)
    have s3 := h6 (.pose 90 v3) (by simp)
    have s4 := h6 (.angle o4 v4) (by simp)
    have s5 := h6 (.angle o5 v5) (by simp)
    obtain rfl : o4 = 0 := by have := s4.1; revert e4; interval_cases o4 <;> decide
    obtain rfl : o5 = 5 := by have := s5.1; revert e5; interval_cases o5 <;> decide
    obtain ⟨X, rfl, hX⟩ := s1 0 rfl
    obtain ⟨Y, rfl, hY⟩ := s2 1 rfl
    obtain ⟨Z, rfl, hZ⟩ := s3 2 rfl
    obtain ⟨a, rfl, ha⟩ := s4.2 0 rfl
    obtain ⟨b, rfl, hb⟩ := s5.2 5 rfl
    have v : ∀ i : Fin 6, (takeD i).val = (![0, 71/4, 181/10, 180, 0, 90] : Fin 6 → ℚ) i := by decide +kernel
    have hpi : Real.pi / 2 * (180 / Real.pi) = 90 := by field_simp; norm_num
    refine ⟨j, num, X, Y, Z, a, b, h3, ?_, ?_, ?_, ?_, ?_⟩
    · simpa [v] using hX
    · simpa [v] using hY
    · simpa [v] using hZ
    · simpa [takeA, hpi] using ha
    · simpa [takeA] using hb

end Mrc.Props
