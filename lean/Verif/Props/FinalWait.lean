import Verif.Props.Same
import Verif.Props.ObligeDemo
import Verif.Props.AccuracyDemo
/-
C138: waiting does not matter for where the arm ends.
-/
set_option maxRecDepth 100000
set_option linter.unusedSimpArgs false
set_option linter.unusedSectionVars false
namespace Mrc.Props
open Mrc Mrc.Prog Mrc.Spec Mrc.Demo Mrc.Rest

section
variable {w0 : World XR} (hw : w0.servos = Kit.servos) {junk : Nat → Byte} {σ : ℕ → Sys XR} {ev : ℕ → Ev XR} (h : Endless Kit.cfg w0 junk σ ev) (h0 : w0.ee 0 = 0)
  (hc : ∀ n, BrisklySent (w0.rxq ++ arrivals (sofar ev n))) (hu : Unbroken ev)
  (hh : ∀ n, CountingHost w0.rxq (sofar ev n)) (hq : ∀ n, QueueOnly (sent w0.rxq (sofar ev n))) (hno : ∀ n, nows (sent w0.rxq (sofar ev n)) = [])
  (hcl : ∀ n, ∀ m ∈ puts (sent w0.rxq (sofar ev n)), ClearWaits m) (ho : Obliging Kit.pinMap σ ev)
include hw h h0 hc hu hh hq hno hcl ho

theorem left_alone_waiting {t : ℕ} {ps qs : List (List Cmd)} {cs : List Cmd} (hp : ∀ n, t ≤ n → puts (sent w0.rxq (sofar ev n)) = (ps ++ cs :: qs).map text)
    (hN : ∀ x ∈ ps, Named x) (hr : qs ≠ [] ∨ ∃ n, Numbered (text cs) n) (hs : ∀ x ∈ qs, (∀ c ∈ x, c.Ok) ∧ ∀ c ∈ x, NamesNoPlace c) :
    ∃ k0 k, ev k0 = .act (.out (.ghost .queue (text cs))) ∧ k0 < k ∧ ReportsAt ev k ∧ (∀ i, k0 < i → i < k → ¬ Directs ev i) ∧
      InForce (acts (sofar ev k0)) (ps.flatten.foldl chosenBy 1) (ps.flatten.foldl spokenBy none) ∧ ∀ n, ∀ i : Fin 6, Untouched ev (armServo i) k n :=
  left_alone h h0 hh hq hno hp (C128_executed hw h h0 hc (undivided_of hu) hh hq hcl ho t)
    (fun hk hn => C100_reported hw h (brisk_empty _ h0) hc (undivided_of hu) (obliging_fair (cfg := Kit.cfg) (by decide) h h0 hh hq hcl ho) hk (by simp) hn fun i _ => queueOnly_noImmediate h hq i (by omega)) hN hr hs

/-- **C138**, angles: the kit with empty storage at power-up; a counting host sends a program for the queue, whose instructions may wait for inputs and for times, in surroundings that oblige (C128). `cs` tells
six angles within the ranges, with M0 and a speed in force; what follows names no place. From some time on, for ever, the arm is at these angles. -/
theorem C138_angles {t : ℕ} {ps qs : List (List Cmd)} {cs : List Cmd} (hp : ∀ n, t ≤ n → puts (sent w0.rxq (sofar ev n)) = (ps ++ cs :: qs).map text)
    (hN : ∀ x ∈ ps, Named x) (hr : qs ≠ [] ∨ ∃ n, Numbered (text cs) n) (hs : ∀ x ∈ qs, (∀ c ∈ x, c.Ok) ∧ ∀ c ∈ x, NamesNoPlace c)
    (ht : TellsAngles cs) (hC : ClearM cs) (hM : (ps.flatten ++ cs).foldl chosenBy 1 = 0) {V : ℚ} (hV : SaysSpeed ((ps.flatten ++ cs).foldl spokenBy none) V) (hV0 : 0 < V)
    {d : Fin 6 → Dec} (hd : ∀ i, Last NamesAngle cs i (d i)) (hfit : KitFits fun i => radians (d i)) :
    ∃ N, ∀ n, N ≤ n → ∃ b, ArmAt (σ n).w b ∧ ∀ i, |kitLogical b i - radians (d i)| < 11 / 100000 := by
  obtain ⟨k0, k, h1, h2, h3, h4, h5, h6⟩ := left_alone_waiting hw h h0 hc hu hh hq hno hcl ho hp hN hr hs
  rw [List.foldl_append] at hM hV
  exact ⟨k, fun n hn => (C123_told hw h (brisk_empty _ h0) hc hu (calm_of_none (queueOnly_noImmediate h hq)) h1 (.inl (by simp)) ht hC h5 hM hV hV0 hd h2 h3 h4 hn (h6 n)).2 hfit⟩

/-- **C138**, a pose that the kit can take, with M0 in force. -/
theorem C138_pose {t : ℕ} {ps qs : List (List Cmd)} {cs : List Cmd} (hp : ∀ n, t ≤ n → puts (sent w0.rxq (sofar ev n)) = (ps ++ cs :: qs).map text)
    (hN : ∀ x ∈ ps, Named x) (hr : qs ≠ [] ∨ ∃ n, Numbered (text cs) n) (hs : ∀ x ∈ qs, (∀ c ∈ x, c.Ok) ∧ ∀ c ∈ x, NamesNoPlace c)
    (ht : TellsPose cs) (hC : ClearM cs) (hM : (ps.flatten ++ cs).foldl chosenBy 1 = 0)
    {d : Fin 6 → Dec} (hd : ∀ i, Last NamesPose cs i (d i)) {A : Fin 6 → ℝ} (hA : KitTakes kitG (poseOfDec d) A) :
    ∃ N, ∀ n, N ≤ n → ∃ b, ArmAt (σ n).w b ∧ ∀ i, |kitLogical b i - A i| < 11 / 100000 := by
  obtain ⟨k0, k, h1, h2, h3, h4, h5, h6⟩ := left_alone_waiting hw h h0 hc hu hh hq hno hcl ho hp hN hr hs
  rw [List.foldl_append] at hM
  obtain ⟨y, h7, h8⟩ := reportsAt_iff.1 h3
  have hi := calm_of_none (queueOnly_noImmediate h hq)
  obtain ⟨⟨P, g1, g2⟩, -⟩ := C123_poses (h.run (k + 1)).trace (kit_limits hw (h.run (k + 1))) ht hC h5 hM (.inl (by simp)) (acts_between h2 h1 h7) (quiet_mid hw h (brisk_empty _ h0) hc hu hi h4) h8
  have : P = finS (poseOfDec d) := funext fun i => (g1 i _ (hd i)).trans (coordinate_fin (last_ok (fun _ _ _ h => h.1) (hd i)))
  subst this
  rcases g2 with g2 | ⟨t, g2, g5⟩
  · rw [kit_inverse_takes hA] at g2; cases g2
  · rw [kit_inverse_takes hA] at g2; cases g2
    have rb := rest_begin hw h (brisk_empty _ h0) hc hu hi h1 (.inl (by simp))
    exact ⟨k, fun n hn => kit_now hw h (brisk_empty _ h0) hc hu hi h2 h1 (by simp) (fun i => (rb i).2) (fun i => (rb i).1) h3 hA.fits g5 hn (h6 n)⟩

/-- **C138**, a pose with M1 in force: the end of the straight way. -/
theorem C138_line {t : ℕ} {ps qs : List (List Cmd)} {cs : List Cmd} (hp : ∀ n, t ≤ n → puts (sent w0.rxq (sofar ev n)) = (ps ++ cs :: qs).map text)
    (hN : ∀ x ∈ ps, Named x) (hr : qs ≠ [] ∨ ∃ n, Numbered (text cs) n) (hs : ∀ x ∈ qs, (∀ c ∈ x, c.Ok) ∧ ∀ c ∈ x, NamesNoPlace c)
    (ht : TellsPose cs) (hC : ClearM cs) (hM : (ps.flatten ++ cs).foldl chosenBy 1 = 1) {V : ℚ} (hV : SaysSpeed ((ps.flatten ++ cs).foldl spokenBy none) V) (hV0 : 0 < V)
    {d : Fin 6 → Dec} (hd : ∀ i, Last NamesPose cs i (d i)) :
    ∃ k0 N, ev k0 = .act (.out (.ghost .queue (text cs))) ∧ k0 < N ∧ ∀ n, N ≤ n → LineWay kitG (poseOfDec d) σ k0 n := by
  obtain ⟨k0, k, h1, h2, h3, h4, h5, h6⟩ := left_alone_waiting hw h h0 hc hu hh hq hno hcl ho hp hN hr hs
  rw [List.foldl_append] at hM hV
  exact ⟨k0, k, h1, h2, fun n hn => (C123_line hw h (brisk_empty _ h0) hc hu (calm_of_none (queueOnly_noImmediate h hq)) h1 (.inl (by simp)) ht hC h5 hM hV hV0 hd h2 h3 h4 hn (h6 n)).1⟩
end

/-- **C138**: waiting does not matter for where the arm ends. Two histories of the kit: in one a program is sent whose instructions wait for inputs and times (in surroundings that oblige), in the other a program
that waits for nothing. The programs need not have anything else in common but the last instruction that names a place, with M0 in force. In the end every axis of the arm is at the same angle in both. -/
theorem C138_pauses {w0 w1 : World XR} (hw0 : w0.servos = Kit.servos) (hw1 : w1.servos = Kit.servos) {junk junk' : Nat → Byte} {σ σ' : ℕ → Sys XR} {ev ev' : ℕ → Ev XR}
    (h : Endless Kit.cfg w0 junk σ ev) (h' : Endless Kit.cfg w1 junk' σ' ev') (h0 : w0.ee 0 = 0) (h1 : w1.ee 0 = 0)
    (hc : ∀ n, BrisklySent (w0.rxq ++ arrivals (sofar ev n))) (hc' : ∀ n, BrisklySent (w1.rxq ++ arrivals (sofar ev' n)))
    (hcl : ∀ n, ∀ m ∈ puts (sent w0.rxq (sofar ev n)), ClearWaits m) (ho : Obliging Kit.pinMap σ ev)
    (hnw' : ∀ n, NeverWaits (w1.rxq ++ arrivals (sofar ev' n))) (hclk' : ClockRuns σ' ev') (hu : Unbroken ev) (hu' : Unbroken ev')
    (hh : ∀ n, CountingHost w0.rxq (sofar ev n)) (hh' : ∀ n, CountingHost w1.rxq (sofar ev' n))
    (hq : ∀ n, QueueOnly (sent w0.rxq (sofar ev n))) (hq' : ∀ n, QueueOnly (sent w1.rxq (sofar ev' n)))
    (hno : ∀ n, nows (sent w0.rxq (sofar ev n)) = []) (hno' : ∀ n, nows (sent w1.rxq (sofar ev' n)) = [])
    {t : ℕ} {ps qs ps' qs' : List (List Cmd)} {cs : List Cmd} (hp : ∀ n, t ≤ n → puts (sent w0.rxq (sofar ev n)) = (ps ++ cs :: qs).map text)
    (hp' : ∀ n, t ≤ n → puts (sent w1.rxq (sofar ev' n)) = (ps' ++ cs :: qs').map text) (hn : ∃ n, Numbered (text cs) n)
    (hN : ∀ x ∈ ps, Named x) (hN' : ∀ x ∈ ps', Named x) (hs : ∀ x ∈ qs, (∀ c ∈ x, c.Ok) ∧ ∀ c ∈ x, NamesNoPlace c) (hs' : ∀ x ∈ qs', (∀ c ∈ x, c.Ok) ∧ ∀ c ∈ x, NamesNoPlace c)
    (ht : TellsPose cs) (hC : ClearM cs) (hM : (ps.flatten ++ cs).foldl chosenBy 1 = 0) (hM' : (ps'.flatten ++ cs).foldl chosenBy 1 = 0)
    {d : Fin 6 → Dec} (hd : ∀ i, Last NamesPose cs i (d i)) {A : Fin 6 → ℝ} (hA : KitTakes kitG (poseOfDec d) A) :
    ∃ N, ∀ n n', N ≤ n → N ≤ n' → ∃ b b', ArmAt (σ n).w b ∧ ArmAt (σ' n').w b' ∧ ∀ i, |kitLogical b i - kitLogical b' i| < 22 / 100000 := by
  obtain ⟨n1, e1⟩ := C138_pose hw0 h h0 hc hu hh hq hno hcl ho hp hN (.inr hn) hs ht hC hM hd hA
  obtain ⟨n2, e2⟩ := C136_pose hw1 h' h1 hc' hnw' hu' hclk' hh' hq' hno' hp' hN' (.inr hn) hs' ht hC hM' hd hA
  refine ⟨max n1 n2, fun n n' hn hn' => ?_⟩
  obtain ⟨b, g1, g2⟩ := e1 n (by omega)
  obtain ⟨b', g3, g4⟩ := e2 n' (by omega)
  refine ⟨b, b', g1, g3, fun i => ?_⟩
  have a1 := abs_lt.1 (g2 i)
  have a2 := abs_lt.1 (g4 i)
  rw [abs_lt]
  constructor <;> linarith [a1.1, a1.2, a2.1, a2.2]

theorem awaitI_simple : Simple awaitI := by
  refine ⟨awaitI_ok.ok, fun c hc e => ?_, fun c hc e => ?_⟩
  · have : ∀ c ∈ awaitI, c.letter ≠ 82 := by decide
    exact absurd e (this c hc)
  · have : ∀ c ∈ awaitI, c.letter ≠ 77 := by decide
    exact absurd e (this c hc)

theorem awaitI_noPlace : ∀ c ∈ awaitI, NamesNoPlace c := by
  have : ∀ c ∈ awaitI, c.letter ∉ str "XYZABC" ∧ c.letter ≠ 82 := by decide
  exact fun c hc => ⟨fun e => absurd e (this c hc).1, fun e => absurd e (this c hc).2⟩

/-- what takeI and awaitI say: pin 11 of the board is made an input. -/
theorem awaitI_told : PinsTold Kit.pinMap ([] ++ takeI :: [awaitI]).flatten [.mode 11 .input_pulldown] := by
  have h1 : PinsTold Kit.pinMap takeI [] := pinsTold_none (by decide +kernel)
  have h2 : PinsTold Kit.pinMap awaitI [.mode 11 .input_pulldown] :=
    .cons (a := []) (.none (by decide) (by decide)) (.cons (a := [.mode 11 .input_pulldown]) (b := []) (.input (p := 1) (s := 1) ⟨rfl, [], by decide⟩ rfl)
      (.cons (a := []) (b := []) (.none (by decide) (by decide)) .nil))
  have := pinsTold_append h1 (pinsTold_append h2 (b := []) .nil)
  simpa using this

/-- C138: the kit is sent a move (N5) to a pose, then N6I11D5: all hypotheses hold. In the end both are reported, pin 11 is an input, and the arm is at the pose for ever. -/
theorem C138_demo : ∃ (w0 : World XR) (σ : ℕ → Sys XR) (ev : ℕ → Ev XR), w0.servos = Kit.servos ∧ w0.rxq = awaitRx ∧ Endless Kit.cfg w0 (fun _ => 0) σ ev ∧ Obliging Kit.pinMap σ ev ∧ Unbroken ev ∧
    Ends ev [takeI, awaitI] [.mode 11 .input_pulldown] ∧ talk 1 [takeI, awaitI] = [.begun 5, .finished 5, .begun 6, .finished 6] ∧
    ∃ N, ∀ n, N ≤ n → ∃ b, ArmAt (σ n).w b ∧ ∀ i, |kitLogical b i - takeA i| < 11 / 100000 := by
  obtain ⟨w0, σ, ev, hw, hx, h0, he, ho, hu, hc, hh, hq, hno, hput, hcl⟩ := await_run
  have hp : ∀ n, 0 ≤ n → puts (sent w0.rxq (sofar ev n)) = (([] : List (List Cmd)) ++ takeI :: [awaitI]).map text := fun n _ => hput n
  have hok : ∀ x ∈ ([] : List (List Cmd)) ++ takeI :: [awaitI], Simple x ∧ OneNumber x := by
    simpa using ⟨⟨takeI_simple, (by unfold OneNumber; decide +kernel)⟩, awaitI_simple, (by unfold OneNumber; decide +kernel)⟩
  have hpin : ∀ x ∈ ([] : List (List Cmd)) ++ takeI :: [awaitI], PinsOk x := by simpa using ⟨takeI_pins, awaitI_ok⟩
  refine ⟨w0, σ, ev, hw, hx, he, ho, hu, ?_, by decide +kernel, ?_⟩
  · exact C137_waiting hw he h0 hc (undivided_of hu) hh hq hno hcl ho hp hok hpin awaitI_told
  · exact C138_pose hw he h0 hc hu hh hq hno hcl ho hp (by simp) (.inl (by simp)) (by simpa using ⟨awaitI_ok.ok, awaitI_noPlace⟩) takeI_tells (by unfold ClearM; decide) (by decide) takeI_last takeI_takes

end Mrc.Props
