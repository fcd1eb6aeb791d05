import Verif.Props.InForceDemo
import Verif.Props.TalkKit
/-
C136: where the arm is in the end depends on the program sent, not on timing.
-/
set_option maxRecDepth 100000
set_option linter.unusedSimpArgs false
set_option linter.unusedSectionVars false
namespace Mrc.Props
open Mrc Mrc.Prog Mrc.Spec Mrc.Demo Mrc.Rest

section
variable {F : Type} [FloatOps F]
theorem span_add {ev : ℕ → Ev F} (a b c : ℕ) : span ev a (b + c) = span ev a b ++ span ev (a + b) c := by
  induction c with
  | zero => simp [span]
  | succ c ih => rw [← Nat.add_assoc, span_succ, ih, span_succ, List.append_assoc, Nat.add_assoc]

theorem begun_mono {ev : ℕ → Ev F} {a b : ℕ} (h : a ≤ b) : begunTexts (acts (sofar ev a)) <+: begunTexts (acts (sofar ev b)) := by
  obtain ⟨c, rfl⟩ := Nat.exists_eq_add_of_le h
  rw [sofar_span, sofar_span, span_add, acts_append, begunTexts, begunTexts, List.filterMap_append]
  exact List.prefix_append _ _
end

/-! #### any robot and arithmetic, only the queue in use -/

section
variable {F : Type} [FloatOps F] {cfg : Cfg F} {w0 : World F} {junk : Nat → Byte} {σ : ℕ → Sys F} {ev : ℕ → Ev F} (h : Endless cfg w0 junk σ ev) (h0 : w0.ee 0 = 0)
  (hh : ∀ n, CountingHost w0.rxq (sofar ev n)) (hq : ∀ n, QueueOnly (sent w0.rxq (sofar ev n))) (hno : ∀ n, nows (sent w0.rxq (sofar ev n)) = [])
include h h0 hq hno

include hh

/-- what was begun is a part of what was sent. -/
theorem begun_sent {t : ℕ} {l : List (List Byte)} (hp : ∀ n, t ≤ n → puts (sent w0.rxq (sofar ev n)) = l) (n : ℕ) : begunTexts (acts (sofar ev n)) <+: l := by
  refine (begun_mono (Nat.le_add_right n t)).trans ?_
  rw [begun_started h h0 hq hno, ← hp (n + t) (by omega)]
  refine C89_started (h.run (n + t)) (hh (n + t)) fun p hp e => ?_
  rcases hq (n + t) p hp with e' | e' | e' | ⟨m', e'⟩ | ⟨m', e', -⟩ <;> rw [e'] at e <;> cases e

/-- the instruction `cs` is begun and reported as finished, or followed by the next one, and from then on only what was sent after it begins. -/
theorem last_place {t : ℕ} {ps qs : List (List Cmd)} {cs : List Cmd} (hp : ∀ n, t ≤ n → puts (sent w0.rxq (sofar ev n)) = (ps ++ cs :: qs).map text)
    (hex : ∃ m, t ≤ m ∧ puts (sent w0.rxq (sofar ev t)) <+: (view ev m).started)
    (hrep : ∀ {k m n}, ev k = .act (.out (.ghost .queue m)) → Numbered m n → ∃ j, k < j ∧ ev j = .act (.out (.msg (.n1 n))) ∧ ∀ i, k < i → i < j → ¬ Orders ev i)
    (hN : ∀ x ∈ ps, Named x) (hr : qs ≠ [] ∨ ∃ n, Numbered (text cs) n) :
    ∃ k0 k, ev k0 = .act (.out (.ghost .queue (text cs))) ∧ k0 < k ∧ ReportsAt ev k ∧ (∀ i, k0 < i → i < k → ¬ Orders ev i) ∧
      InForce (acts (sofar ev k0)) (ps.flatten.foldl chosenBy 1) (ps.flatten.foldl spokenBy none) ∧
      ∀ i, k0 < i → ∀ src m, ev i = .act (.out (.ghost src m)) → ∃ x ∈ qs, m = text x := by
  obtain ⟨t', -, y, hy⟩ := hex
  rw [hp t le_rfl, List.map_append, List.map_cons, List.append_assoc, List.cons_append] at hy
  obtain ⟨k0, -, hk, hv⟩ := started_when hy.symm
  have hbt : begunTexts (acts (sofar ev (k0 + 1))) = (ps ++ [cs]).map text := by
    rw [begunTexts_act hk, begun_started h h0 hq hno, hv]; simp
  have later : ∀ i, k0 < i → ∀ src m, ev i = .act (.out (.ghost src m)) → ∃ x ∈ qs, m = text x := by
    intro i hi src m e
    have hpre := begun_sent h h0 hh hq hno hp (i + 1)
    have e2 : sofar ev (i + 1) = sofar ev (k0 + 1) ++ span ev (k0 + 1) (i - k0) := by
      rw [sofar_span, sofar_span, show i + 1 = k0 + 1 + (i - k0) by omega, span_add, Nat.zero_add]
    rw [e2, acts_append, begunTexts, List.filterMap_append, ← begunTexts, ← begunTexts, hbt, show ps ++ cs :: qs = (ps ++ [cs]) ++ qs by simp, List.map_append (l₁ := ps ++ [cs]), List.prefix_append_right_inj] at hpre
    have hm : m ∈ begunTexts (acts (span ev (k0 + 1) (i - k0))) := by
      rw [begunTexts, List.mem_filterMap]
      exact ⟨.out (.ghost src m), acts_mem.2 (mem_span.2 ⟨i, by omega, by omega, e⟩), rfl⟩
    obtain ⟨x, hx, rfl⟩ := List.mem_map.1 (hpre.subset hm)
    exact ⟨x, hx, rfl⟩
  have hin : InForce (acts (sofar ev k0)) (ps.flatten.foldl chosenBy 1) (ps.flatten.foldl spokenBy none) :=
    inForce_queue (queue_alone h h0 hq hno k0).1 (queue_alone h h0 hq hno k0).2 hv hN
  rcases hr with hr | ⟨n, hn⟩
  · obtain ⟨x, qs', rfl⟩ := List.exists_cons_of_ne_nil hr
    obtain ⟨k, -, g1, g2⟩ := started_when (ev := ev) (n := t') (ps := (ps ++ [cs]).map text) (m := text x) (rest := qs'.map text ++ y) (by rw [← hy]; simp)
    have l0 : (begunTexts (acts (sofar ev k0))).length = ps.length := by rw [begun_started h h0 hq hno, hv]; simp
    have l1 : (begunTexts (acts (sofar ev k))).length = ps.length + 1 := by rw [begun_started h h0 hq hno, g2]; simp
    have l2 : (begunTexts (acts (sofar ev (k0 + 1)))).length = ps.length + 1 := by rw [hbt]; simp
    have hlt : k0 < k := by
      by_contra hle
      have := (begun_mono (ev := ev) (show k ≤ k0 by omega)).length_le
      omega
    refine ⟨k0, k, hk, hlt, .inr ⟨_, _, by simp, g1⟩, ?_, hin, later⟩
    rintro i i1 i2 ⟨src, m, e, -⟩
    have a1 := (begun_mono (ev := ev) (show k0 + 1 ≤ i by omega)).length_le
    have a2 := (begun_mono (ev := ev) (show i + 1 ≤ k by omega)).length_le
    rw [begunTexts_act e, List.length_append, List.length_singleton] at a2
    omega
  · obtain ⟨j, h2, h3, h4⟩ := hrep hk hn
    exact ⟨k0, j, hk, h2, .inl ⟨n, h3⟩, h4, hin, later⟩

/-- from the report on nobody touches the arm, if what was sent after it names no place. -/
theorem left_alone {t : ℕ} {ps qs : List (List Cmd)} {cs : List Cmd} (hp : ∀ n, t ≤ n → puts (sent w0.rxq (sofar ev n)) = (ps ++ cs :: qs).map text)
    (hex : ∃ m, t ≤ m ∧ puts (sent w0.rxq (sofar ev t)) <+: (view ev m).started)
    (hrep : ∀ {k m n}, ev k = .act (.out (.ghost .queue m)) → Numbered m n → ∃ j, k < j ∧ ev j = .act (.out (.msg (.n1 n))) ∧ ∀ i, k < i → i < j → ¬ Orders ev i)
    (hN : ∀ x ∈ ps, Named x) (hr : qs ≠ [] ∨ ∃ n, Numbered (text cs) n) (hs : ∀ x ∈ qs, (∀ c ∈ x, c.Ok) ∧ ∀ c ∈ x, NamesNoPlace c) :
    ∃ k0 k, ev k0 = .act (.out (.ghost .queue (text cs))) ∧ k0 < k ∧ ReportsAt ev k ∧ (∀ i, k0 < i → i < k → ¬ Directs ev i) ∧
      InForce (acts (sofar ev k0)) (ps.flatten.foldl chosenBy 1) (ps.flatten.foldl spokenBy none) ∧ ∀ n, ∀ i : Fin 6, Untouched ev (armServo i) k n := by
  obtain ⟨k0, k, h1, h2, h3, h4, h5, h6⟩ := last_place h h0 hh hq hno hp hex hrep hN hr
  refine ⟨k0, k, h1, h2, h3, undirected h4, h5, fun n i => C117_untouched h h3 (fun j g1 _ src m e => ?_) i⟩
  obtain ⟨x, hx, rfl⟩ := h6 j (by omega) src m e
  exact ⟨x, (hs x hx).1, (hs x hx).2, rfl⟩

end

/-! #### the kit -/

section
variable {w0 : World XR} (hw : w0.servos = Kit.servos) {junk : Nat → Byte} {σ : ℕ → Sys XR} {ev : ℕ → Ev XR} (h : Endless Kit.cfg w0 junk σ ev) (h0 : w0.ee 0 = 0)
  (hc : ∀ n, BrisklySent (w0.rxq ++ arrivals (sofar ev n))) (hnw : ∀ n, NeverWaits (w0.rxq ++ arrivals (sofar ev n)))
  (hu : Unbroken ev) (hclk : ClockRuns σ ev) (hh : ∀ n, CountingHost w0.rxq (sofar ev n)) (hq : ∀ n, QueueOnly (sent w0.rxq (sofar ev n))) (hno : ∀ n, nows (sent w0.rxq (sofar ev n)) = [])
include hw h h0 hc hnw hu hclk hh hq hno

theorem left_alone_kit {t : ℕ} {ps qs : List (List Cmd)} {cs : List Cmd} (hp : ∀ n, t ≤ n → puts (sent w0.rxq (sofar ev n)) = (ps ++ cs :: qs).map text)
    (hN : ∀ x ∈ ps, Named x) (hr : qs ≠ [] ∨ ∃ n, Numbered (text cs) n) (hs : ∀ x ∈ qs, (∀ c ∈ x, c.Ok) ∧ ∀ c ∈ x, NamesNoPlace c) :
    ∃ k0 k, ev k0 = .act (.out (.ghost .queue (text cs))) ∧ k0 < k ∧ ReportsAt ev k ∧ (∀ i, k0 < i → i < k → ¬ Directs ev i) ∧
      InForce (acts (sofar ev k0)) (ps.flatten.foldl chosenBy 1) (ps.flatten.foldl spokenBy none) ∧ ∀ n, ∀ i : Fin 6, Untouched ev (armServo i) k n :=
  left_alone h h0 hh hq hno hp (C106_executed hw h (brisk_empty _ h0) (quick_empty _ h0) hc hnw (undivided_of hu) hclk hh hq t)
    (fun hk hn => C106_reported hw h (brisk_empty _ h0) (quick_empty _ h0) hc hnw (undivided_of hu) hclk hk (by simp) hn fun i _ => queueOnly_noImmediate h hq i (by omega)) hN hr hs

/-- **C136**, angles: the kit with empty storage at power-up, a counting host that sends the program `ps`, `cs`, `qs` for the queue, and nothing else. `cs` tells six angles within the ranges, with M0 and a
speed in force; what follows (`qs`) names no place; `cs` has a number, or something follows. From some time on, for ever, the arm is at these angles. -/
theorem C136_angles {t : ℕ} {ps qs : List (List Cmd)} {cs : List Cmd} (hp : ∀ n, t ≤ n → puts (sent w0.rxq (sofar ev n)) = (ps ++ cs :: qs).map text)
    (hN : ∀ x ∈ ps, Named x) (hr : qs ≠ [] ∨ ∃ n, Numbered (text cs) n) (hs : ∀ x ∈ qs, (∀ c ∈ x, c.Ok) ∧ ∀ c ∈ x, NamesNoPlace c)
    (ht : TellsAngles cs) (hC : ClearM cs) (hM : (ps.flatten ++ cs).foldl chosenBy 1 = 0) {V : ℚ} (hV : SaysSpeed ((ps.flatten ++ cs).foldl spokenBy none) V) (hV0 : 0 < V)
    {d : Fin 6 → Dec} (hd : ∀ i, Last NamesAngle cs i (d i)) (hfit : KitFits fun i => radians (d i)) :
    ∃ N, ∀ n, N ≤ n → ∃ b, ArmAt (σ n).w b ∧ ∀ i, |kitLogical b i - radians (d i)| < 11 / 100000 := by
  obtain ⟨k0, k, h1, h2, h3, h4, h5, h6⟩ := left_alone_kit hw h h0 hc hnw hu hclk hh hq hno hp hN hr hs
  rw [List.foldl_append] at hM hV
  exact ⟨k, fun n hn => (C123_told hw h (brisk_empty _ h0) hc hu (calm_of_none (queueOnly_noImmediate h hq)) h1 (.inl (by simp)) ht hC h5 hM hV hV0 hd h2 h3 h4 hn (h6 n)).2 hfit⟩

/-- **C136**, a pose that the kit can take, with M0 in force: from some time on, for ever, the arm is at the angles for it. -/
theorem C136_pose {t : ℕ} {ps qs : List (List Cmd)} {cs : List Cmd} (hp : ∀ n, t ≤ n → puts (sent w0.rxq (sofar ev n)) = (ps ++ cs :: qs).map text)
    (hN : ∀ x ∈ ps, Named x) (hr : qs ≠ [] ∨ ∃ n, Numbered (text cs) n) (hs : ∀ x ∈ qs, (∀ c ∈ x, c.Ok) ∧ ∀ c ∈ x, NamesNoPlace c)
    (ht : TellsPose cs) (hC : ClearM cs) (hM : (ps.flatten ++ cs).foldl chosenBy 1 = 0)
    {d : Fin 6 → Dec} (hd : ∀ i, Last NamesPose cs i (d i)) {A : Fin 6 → ℝ} (hA : KitTakes kitG (poseOfDec d) A) :
    ∃ N, ∀ n, N ≤ n → ∃ b, ArmAt (σ n).w b ∧ ∀ i, |kitLogical b i - A i| < 11 / 100000 := by
  obtain ⟨k0, k, h1, h2, h3, h4, h5, h6⟩ := left_alone_kit hw h h0 hc hnw hu hclk hh hq hno hp hN hr hs
  rw [List.foldl_append] at hM
  obtain ⟨y, h7, h8⟩ := reportsAt_iff.1 h3
  have hi := calm_of_none (queueOnly_noImmediate h hq)
  obtain ⟨⟨P, g1, g2⟩, -⟩ := C123_poses (h.run (k + 1)).trace (kit_limits hw (h.run (k + 1))) ht hC h5 hM (.inl (by simp)) (acts_between h2 h1 h7) (quiet_mid hw h (brisk_empty _ h0) hc hu hi h4) h8
  have : P = finS (poseOfDec d) := funext fun i => (g1 i _ (hd i)).trans (coordinate_fin (last_ok (fun _ _ _ h => h.1) (hd i)))
  subst this
  rcases g2 with g2 | ⟨t, g2, g5⟩
  · rw [kit_inverse_takes hA] at g2; cases g2
  · rw [kit_inverse_takes hA] at g2; cases g2
    have rb := rest_begin hw h (brisk_empty _ h0) hc hu hi h1 (.inl (by simp))
    exact ⟨k, fun n hn => kit_now hw h (brisk_empty _ h0) hc hu hi h2 h1 (by simp) (fun i => (rb i).2) (fun i => (rb i).1) h3 hA.fits g5 hn (h6 n)⟩

/-- **C136**, a pose with M1 in force: from some time on, for ever, the arm is at the end of the straight way. -/
theorem C136_line {t : ℕ} {ps qs : List (List Cmd)} {cs : List Cmd} (hp : ∀ n, t ≤ n → puts (sent w0.rxq (sofar ev n)) = (ps ++ cs :: qs).map text)
    (hN : ∀ x ∈ ps, Named x) (hr : qs ≠ [] ∨ ∃ n, Numbered (text cs) n) (hs : ∀ x ∈ qs, (∀ c ∈ x, c.Ok) ∧ ∀ c ∈ x, NamesNoPlace c)
    (ht : TellsPose cs) (hC : ClearM cs) (hM : (ps.flatten ++ cs).foldl chosenBy 1 = 1) {V : ℚ} (hV : SaysSpeed ((ps.flatten ++ cs).foldl spokenBy none) V) (hV0 : 0 < V)
    {d : Fin 6 → Dec} (hd : ∀ i, Last NamesPose cs i (d i)) :
    ∃ k0 N, ev k0 = .act (.out (.ghost .queue (text cs))) ∧ k0 < N ∧ ∀ n, N ≤ n → LineWay kitG (poseOfDec d) σ k0 n := by
  obtain ⟨k0, k, h1, h2, h3, h4, h5, h6⟩ := left_alone_kit hw h h0 hc hnw hu hclk hh hq hno hp hN hr hs
  rw [List.foldl_append] at hM hV
  exact ⟨k0, k, h1, h2, fun n hn => (C123_line hw h (brisk_empty _ h0) hc hu (calm_of_none (queueOnly_noImmediate h hq)) h1 (.inl (by simp)) ht hC h5 hM hV hV0 hd h2 h3 h4 hn (h6 n)).1⟩
end

/-- **C136**: timing does not matter for where the arm ends. Two histories of the kit, with different interrupts, clocks, arrival times and inputs, in which the same program is sent (C136_angles): in the end
every axis of the arm is at the same angle in both, to 2.2e-4 radians, for ever. -/
theorem C136_timing {w0 w1 : World XR} (hw0 : w0.servos = Kit.servos) (hw1 : w1.servos = Kit.servos) {junk junk' : Nat → Byte} {σ σ' : ℕ → Sys XR} {ev ev' : ℕ → Ev XR}
    (h : Endless Kit.cfg w0 junk σ ev) (h' : Endless Kit.cfg w1 junk' σ' ev') (h0 : w0.ee 0 = 0) (h1 : w1.ee 0 = 0)
    (hc : ∀ n, BrisklySent (w0.rxq ++ arrivals (sofar ev n))) (hc' : ∀ n, BrisklySent (w1.rxq ++ arrivals (sofar ev' n)))
    (hnw : ∀ n, NeverWaits (w0.rxq ++ arrivals (sofar ev n))) (hnw' : ∀ n, NeverWaits (w1.rxq ++ arrivals (sofar ev' n)))
    (hu : Unbroken ev) (hu' : Unbroken ev') (hclk : ClockRuns σ ev) (hclk' : ClockRuns σ' ev')
    (hh : ∀ n, CountingHost w0.rxq (sofar ev n)) (hh' : ∀ n, CountingHost w1.rxq (sofar ev' n))
    (hq : ∀ n, QueueOnly (sent w0.rxq (sofar ev n))) (hq' : ∀ n, QueueOnly (sent w1.rxq (sofar ev' n)))
    (hno : ∀ n, nows (sent w0.rxq (sofar ev n)) = []) (hno' : ∀ n, nows (sent w1.rxq (sofar ev' n)) = [])
    {t : ℕ} {ps qs : List (List Cmd)} {cs : List Cmd} (hp : ∀ n, t ≤ n → puts (sent w0.rxq (sofar ev n)) = (ps ++ cs :: qs).map text)
    (hp' : ∀ n, t ≤ n → puts (sent w1.rxq (sofar ev' n)) = (ps ++ cs :: qs).map text)
    (hN : ∀ x ∈ ps, Named x) (hr : qs ≠ [] ∨ ∃ n, Numbered (text cs) n) (hs : ∀ x ∈ qs, (∀ c ∈ x, c.Ok) ∧ ∀ c ∈ x, NamesNoPlace c)
    (ht : TellsAngles cs) (hC : ClearM cs) (hM : (ps.flatten ++ cs).foldl chosenBy 1 = 0) {V : ℚ} (hV : SaysSpeed ((ps.flatten ++ cs).foldl spokenBy none) V) (hV0 : 0 < V)
    {d : Fin 6 → Dec} (hd : ∀ i, Last NamesAngle cs i (d i)) (hfit : KitFits fun i => radians (d i)) :
    ∃ N, ∀ n n', N ≤ n → N ≤ n' → ∃ b b', ArmAt (σ n).w b ∧ ArmAt (σ' n').w b' ∧ ∀ i, |kitLogical b i - kitLogical b' i| < 22 / 100000 := by
  obtain ⟨n1, e1⟩ := C136_angles hw0 h h0 hc hnw hu hclk hh hq hno hp hN hr hs ht hC hM hV hV0 hd hfit
  obtain ⟨n2, e2⟩ := C136_angles hw1 h' h1 hc' hnw' hu' hclk' hh' hq' hno' hp' hN hr hs ht hC hM hV hV0 hd hfit
  refine ⟨max n1 n2, fun n n' hn hn' => ?_⟩
  obtain ⟨b, g1, g2⟩ := e1 n (by omega)
  obtain ⟨b', g3, g4⟩ := e2 n' (by omega)
  refine ⟨b, b', g1, g3, fun i => ?_⟩
  have a1 := abs_lt.1 (g2 i)
  have a2 := abs_lt.1 (g4 i)
  rw [abs_lt]
  constructor <;> linarith [a1.1, a1.2, a2.1, a2.2]

/-- C136: the kit is sent a move to six angles, once with a clock that starts at `c` and inputs at the level `p`, and once with others: all hypotheses hold, and the arm ends at the same angles. -/
theorem C136_demo (c c' : ℕ) (hc : 0 < c) (hc' : 0 < c') (p p' : Bool) : ∃ (w0 w1 : World XR) (σ σ' : ℕ → Sys XR) (ev ev' : ℕ → Ev XR),
    w0.servos = Kit.servos ∧ w1.servos = Kit.servos ∧ w0.rxq = jointRx ∧ w1.rxq = jointRx ∧ w0.now = c ∧ w1.now = c' ∧ w0.pins = (fun _ => p) ∧ w1.pins = (fun _ => p') ∧
    Endless Kit.cfg w0 (fun _ => 0) σ ev ∧ Endless Kit.cfg w1 (fun _ => 0) σ' ev' ∧ Unbroken ev ∧ Unbroken ev' ∧
    (∃ N, ∀ n, N ≤ n → ∃ b, ArmAt (σ n).w b ∧ ∀ i, |kitLogical b i - radians (demoD i)| < 11 / 100000) ∧
    ∃ N, ∀ n n', N ≤ n → N ≤ n' → ∃ b b', ArmAt (σ n).w b ∧ ArmAt (σ' n').w b' ∧ ∀ i, |kitLogical b i - kitLogical b' i| < 22 / 100000 := by
  let w (c : ℕ) (p : Bool) : World XR := { servos := Kit.servos, now := c, pins := fun _ => p, rxq := jointRx, ee := fun _ => 0, outs := [] }
  let s (c : ℕ) (p : Bool) : Sys XR := ⟨w c p, setup Kit.cfg fun _ => 0⟩
  have hs : ∀ c p n, (w c p).rxq ++ arrivals (sofar (evs Kit.cfg (s c p)) n) = jointRx := fun c p n => by
    rw [sched_hist_silent, List.append_nil]
  have hb : ∀ c p n, BrisklySent ((w c p).rxq ++ arrivals (sofar (evs Kit.cfg (s c p)) n)) := fun c p n => by rw [hs]; exact jointRx_brisk
  have hf : ∀ c p n f, (hist Kit.cfg (s c p) n).p ≠ .fault f := fun c p n => (C81_kit rfl (careful_empty _ rfl) (sched_hist_run Kit.cfg (w c p) _ n) (hb c p n).well).1
  have he := fun c p => endless Kit.cfg (w c p) _ (hf c p)
  have h0 : CountingHost (F := XR) jointRx [] := by
    intro a b e
    obtain ⟨rfl, rfl⟩ := List.append_eq_nil_iff.1 e.symm
    show qSize ((puts (jointRx ++ [])).drop (0 - _)) ≤ QUEUE
    rw [List.append_nil, jointRx_puts, Nat.zero_sub]
    decide +kernel
  have hu := fun c p => sched_unbroken _ _ (hf c p)
  have hn : ∀ c p n, NeverWaits ((w c p).rxq ++ arrivals (sofar (evs Kit.cfg (s c p)) n)) := fun c p n => by rw [hs]; exact jointRx_quick
  have hk : ∀ c p, 0 < c → ClockRuns _ (evs Kit.cfg (s c p)) := fun c p hc => clockRuns_of (he c p) 0 fun n _ => by rw [sched_now]; exact hc
  have hh : ∀ c p n, CountingHost (w c p).rxq (sofar (evs Kit.cfg (s c p)) n) := fun c p n => by simpa using counting_quiet h0 (sched_hist_silent Kit.cfg (s c p) n)
  have hq : ∀ c p n, QueueOnly (sent (w c p).rxq (sofar (evs Kit.cfg (s c p)) n)) := fun c p n => by rw [sent, hs]; exact jointRx_queue
  have hno : ∀ c p n, nows (sent (w c p).rxq (sofar (evs Kit.cfg (s c p)) n)) = [] := fun c p n => by rw [sent, hs, nows, jointRx_decode]; simp [jointRx_frame]
  have hp : ∀ c p n, 0 ≤ n → puts (sent (w c p).rxq (sofar (evs Kit.cfg (s c p)) n)) = (([] : List (List Cmd)) ++ demo1 :: []).map text := fun c p n _ => by rw [sent, hs, jointRx_puts]; rfl
  have hC : ClearM demo1 := by unfold ClearM; decide
  have hM : (([] : List (List Cmd)).flatten ++ demo1).foldl chosenBy 1 = 0 := by decide
  have hV : SaysSpeed ((([] : List (List Cmd)).flatten ++ demo1).foldl spokenBy none) 70 := ⟨⟨false, [7, 0], none⟩, .inl (by decide), by decide +kernel, by decide +kernel⟩
  refine ⟨w c p, w c' p', _, _, _, _, rfl, rfl, rfl, rfl, rfl, rfl, rfl, rfl, he c p, he c' p', hu c p, hu c' p', ?_, ?_⟩
  · exact C136_angles rfl (he c p) rfl (hb c p) (hn c p) (hu c p) (hk c p hc) (hh c p) (hq c p) (hno c p) (hp c p) (by simp) (.inr ⟨5, demo1_numbered⟩) (by simp)
      demo1_tells hC hM hV (by norm_num) demo1_last demo1_kitFits
  · exact C136_timing rfl rfl (he c p) (he c' p') rfl rfl (hb c p) (hb c' p') (hn c p) (hn c' p') (hu c p) (hu c' p') (hk c p hc) (hk c' p' hc') (hh c p) (hh c' p') (hq c p) (hq c' p')
      (hno c p) (hno c' p') (hp c p) (hp c' p') (by simp) (.inr ⟨5, demo1_numbered⟩) (by simp) demo1_tells hC hM hV (by norm_num) demo1_last demo1_kitFits

/-! #### in binary32 -/

/-- **C136** in binary32 (any libm whose square roots are not negative): a counting host that moves the kit by joint angles sends a program for the queue (C109_sent_rounded). Its last instruction naming a place
tells six angles within the ranges, with M0 in the same instruction. From some time on, for ever, the arm is at these angles, to 1.3e-4 radians: although every computation is rounded. -/
theorem C136_rounded [RX.Libm binary32] {cfg : Cfg F32} {w0 : World F32} {junk : Nat → Byte} {σ : ℕ → Sys F32} {ev : ℕ → Ev F32} (hk : KitAngles cfg) (hw : w0.servos = Kit.servos) (hrun : Endless cfg w0 junk σ ev)
    (hsq : SqrtNonneg binary32) (h0 : w0.ee 0 = 0) (hc : ∀ n, LegiblySent (w0.rxq ++ arrivals (sofar ev n)))
    (hj : ∀ n, ∀ p ∈ decode (w0.rxq ++ arrivals (sofar ev n)), JointFrame (frame p)) (hu : Unbroken ev) (hnw : ∀ n, NeverWaits (w0.rxq ++ arrivals (sofar ev n)))
    (hclk : ClockRuns σ ev) (hh : ∀ n, CountingHost w0.rxq (sofar ev n)) (hq : ∀ n, QueueOnly (sent w0.rxq (sofar ev n))) (hno : ∀ n, nows (sent w0.rxq (sofar ev n)) = [])
    {t : ℕ} {ps qs : List (List Cmd)} {cs : List Cmd} (hp : ∀ n, t ≤ n → puts (sent w0.rxq (sofar ev n)) = (ps ++ cs :: qs).map text)
    (hN : ∀ x ∈ ps, Named x) (hr : qs ≠ [] ∨ ∃ n, Numbered (text cs) n) (hs : ∀ x ∈ qs, (∀ c ∈ x, c.Ok) ∧ ∀ c ∈ x, NamesNoPlace c)
    (ht : TellsAngles cs) (hM : Chooses 48 cs) {d : Fin 6 → Dec} (hd : ∀ i, Last NamesAngle cs i (d i)) (hfit : KitFitsBy (1 / 100000) fun i => radians (d i)) :
    ∃ N, ∀ n, N ≤ n → ∃ b, ArmAt32 (σ n).w b ∧ ∀ i, |kitLogical b i - radians (d i)| < 13 / 100000 := by
  have hst : StoredProgram w0.ee [] := ⟨by simp, by decide, fun k b _ hk => by
    cases k with
    | zero => simp at hk; rw [← hk]; exact h0
    | succ k => simp at hk⟩
  have hmem : ∃ L, StoredProgram w0.ee L ∧ ∀ m ∈ L, SafeText 0 m ∧ JointText m := ⟨[], hst, by simp⟩
  have hf := C106_ready hrun (quick_empty _ h0) hnw hclk
  obtain ⟨k0, k, h1, h2, h3, h4, -, h6⟩ := left_alone hrun h0 hh hq hno hp (C107_executed hk hw hrun hsq hmem hc hj (undivided32_of hu) hf hh hq t)
    (fun hb hn => C107_reported hk hw hrun hsq hmem hc hj (undivided32_of hu) hf hb (by simp) hn fun i _ => queueOnly_noImmediate hrun hq i (by omega)) hN hr hs
  exact ⟨k, fun n hn => C109_rounded hk hw hrun hmem hc hj hu (calm_of_none (queueOnly_noImmediate hrun hq)) h1 (by simp) ht hM hd hfit h2 h3 h4 hn (h6 n)⟩

/-- C136_rounded: the move on the line; all hypotheses hold for every libm whose square roots are not negative. -/
theorem C136_demo_rounded [L : RX.Libm binary32] (hsq : SqrtNonneg binary32) : ∃ (w0 : World F32) (σ : ℕ → Sys F32) (ev : ℕ → Ev F32), w0.servos = Kit.servos ∧ w0.rxq = jointRx ∧
    Endless Kit.cfg w0 (fun _ => 0) σ ev ∧ Unbroken ev ∧ ∃ N, ∀ n, N ≤ n → ∃ b, ArmAt32 (σ n).w b ∧ ∀ i, |kitLogical b i - radians (demoD i)| < 13 / 100000 := by
  let w0 : World F32 := { servos := Kit.servos, now := 1, pins := fun _ => false, rxq := jointRx, ee := fun _ => 0, outs := [] }
  let s0 : Sys F32 := ⟨w0, setup Kit.cfg fun _ => 0⟩
  have hs : ∀ n, w0.rxq ++ arrivals (sofar (evs Kit.cfg s0) n) = jointRx := fun n => by
    rw [sched_hist_silent, List.append_nil]
  have hc : ∀ n, LegiblySent (w0.rxq ++ arrivals (sofar (evs Kit.cfg s0) n)) := fun n => by rw [hs]; exact jointRx_sent
  have hj : ∀ n, ∀ p ∈ decode (w0.rxq ++ arrivals (sofar (evs Kit.cfg s0) n)), JointFrame (frame p) := fun n => by rw [hs]; exact jointRx_frames
  have hst : StoredProgram w0.ee [] := ⟨by simp, by decide, fun k b _ hk => by
    cases k with
    | zero => simp at hk; exact hk
    | succ k => simp at hk⟩
  have hmem : ∃ L, StoredProgram w0.ee L ∧ ∀ m ∈ L, SafeText 0 m ∧ JointText m := ⟨[], hst, by simp⟩
  have hf : ∀ n f, (hist Kit.cfg s0 n).p ≠ .fault f := fun n =>
    (C104_numbers kitAngles rfl (joint_angle_mem hmem) (sched_hist_run Kit.cfg w0 _ n) (hc n) fun p hp => joint_angle_frame (hj n p hp)).1
  have he := endless Kit.cfg w0 _ hf
  have h0 : CountingHost (F := F32) jointRx [] := by
    intro a b e
    obtain ⟨rfl, rfl⟩ := List.append_eq_nil_iff.1 e.symm
    show qSize ((puts (jointRx ++ [])).drop (0 - _)) ≤ QUEUE
    rw [List.append_nil, jointRx_puts, Nat.zero_sub]
    decide +kernel
  refine ⟨w0, _, _, rfl, rfl, he, sched_unbroken _ _ hf, ?_⟩
  exact C136_rounded (t := 0) (ps := []) (qs := []) (cs := demo1) kitAngles rfl he hsq rfl hc hj (sched_unbroken _ _ hf) (fun n => by rw [hs]; exact jointRx_quick)
    (clockRuns_of he 0 fun n _ => by rw [sched_now]; exact Nat.one_pos)
    (fun n => by simpa using counting_quiet h0 (sched_hist_silent Kit.cfg s0 n)) (fun n => by rw [sent, hs]; exact jointRx_queue)
    (fun n => by rw [sent, hs, nows, jointRx_decode]; simp [jointRx_frame])
    (fun n _ => by rw [sent, hs, jointRx_puts]; rfl) (by simp) (.inr ⟨5, demo1_numbered⟩) (by simp) demo1_tells demo1_M0 demo1_last demo1_fits
end Mrc.Props
