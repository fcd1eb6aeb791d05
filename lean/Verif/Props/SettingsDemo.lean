import Verif.Props.Settings
import Verif.Props.InForceDemo
import Verif.Props.ReadBackDemo
/-
C125 for everything a counting host sends, and a run that satisfies all hypotheses.
-/
set_option maxRecDepth 100000
set_option linter.unusedSectionVars false
namespace Mrc.Props
open Mrc Mrc.Prog Mrc.Spec Mrc.Demo Mrc.Rest

section
variable {w0 : World XR} (hw : w0.servos = Kit.servos) {junk : Nat → Byte} {σ : ℕ → Sys XR} {ev : ℕ → Ev XR} (h : Endless Kit.cfg w0 junk σ ev) (h0 : w0.ee 0 = 0)
  (hc : ∀ n, BrisklySent (w0.rxq ++ arrivals (sofar ev n))) (hnw : ∀ n, NeverWaits (w0.rxq ++ arrivals (sofar ev n)))
  (hu : Unbroken ev) (hclk : ClockRuns σ ev) (hh : ∀ n, CountingHost w0.rxq (sofar ev n)) (hq : ∀ n, QueueOnly (sent w0.rxq (sofar ev n))) (hno : ∀ n, nows (sent w0.rxq (sofar ev n)) = [])
  {fl : XR → List Byte} (hfl : TwoDecimals fl)
include hw h h0 hc hnw hu hclk hh hq hno hfl

/-- **C125**, total correctness for the queue (C106): from the bytes sent to the bytes received. A counting host sends the instructions `ps` and then `qs`, which ends with a question; the host reads what
it asked for, with the movement method and the speed it named last (or those of power-up). -/
theorem C125_queue {t : ℕ} {ps : List (List Cmd)} {qs : List Cmd} {rest : List (List Byte)} (hp : puts (sent w0.rxq (sofar ev t)) = ps.map text ++ text qs :: rest)
    (hN : ∀ x ∈ ps, Named x ∧ Simple x) (hs : Simple qs) (hNq : Named qs) (hl : ∃ c, qs.getLast? = some c ∧ Question c) :
    ∃ q n num vs, ev q = .act (.out (.ghost .queue (text qs))) ∧ q < n ∧ lastRead (received fl ev n) = some (.answer num vs) ∧
      vs.map Prod.fst = (Spec.asked (ps.flatten.foldl chosenBy 1) qs).map Prod.fst ∧
      List.Forall₂ ReadAs (settings (ps.flatten.foldl chosenBy 1) (ps.flatten.foldl spokenBy none) qs) (named vs) := by
  have hmem := brisk_empty w0.ee h0
  have hq0 := quick_empty w0.ee h0
  obtain ⟨t', -, y, hy⟩ := C106_executed hw h hmem hq0 hc hnw (undivided_of hu) hclk hh hq t
  rw [hp, List.append_assoc] at hy
  obtain ⟨k, -, hk, hv⟩ := started_when hy.symm
  have n1 : ∀ m, .out (.ghost .eeprom m) ∉ acts (sofar ev k) := by
    refine Turns.no_storage h h0 (fun n p hp m e => ?_) k
    rcases hq n p hp with e' | e' | e' | ⟨m', e'⟩ | ⟨m', e', -⟩ <;> rw [e'] at e <;> cases e
  have n2 : ∀ m, .out (.ghost .immediate m) ∉ acts (sofar ev k) := by
    intro m hm
    obtain ⟨a, b, e⟩ := List.append_of_mem hm
    have h5 := (C91_at_once (h.run k).trace e rfl).1 m rfl
    have h6 : m ∈ nows (rxBytes a) := by rw [h5]; simp
    have h7 := hno k
    rw [sent, (h.run k).fifo, e, rxBytes_append, List.append_assoc, nows, decode_append, List.filterMap_append, List.append_eq_nil_iff] at h7
    rw [nows, h7.1] at h6; cases h6
  have hf := inForce_queue n1 n2 hv fun x hx => (hN x hx).1
  have hsim : ∀ src m, .out (.ghost src m) ∈ acts (sofar ev k) → ∃ cs, Simple cs ∧ m = text cs := by
    intro src m hm
    cases src with
    | immediate => exact absurd hm (n2 m)
    | eeprom => exact absurd hm (n1 m)
    | queue =>
      have : m ∈ (view ev k).started := by
        rw [view_started]
        exact List.mem_filterMap.2 ⟨_, hm, rfl⟩
      rw [hv] at this
      obtain ⟨cs, h1, rfl⟩ := List.mem_map.1 this
      exact ⟨cs, (hN cs h1).2, rfl⟩
  obtain ⟨j, num, vs, g1, -, g2, g3, g4⟩ := C125_read hw h (careful_of_briskStorage hmem) (fun n => (hc n).well) hfl hk hs hNq hl hsim hf
  exact ⟨k, j + 1, num, vs, hk, by omega, g2, g3, g4⟩
end

/-- N7VXM -/
def settingsQ : List Cmd := [⟨78, str "7"⟩, ⟨86, []⟩, ⟨88, []⟩, ⟨77, []⟩]
def settingsRx : List Byte := takeRx ++ str ":QN7VXM\r"

theorem settingsQ_ok : ∀ c ∈ settingsQ, c.Ok := by
  intro c hc
  simp only [settingsQ, List.mem_cons, List.not_mem_nil, or_false] at hc
  rcases hc with rfl | rfl | rfl | rfl <;> exact ⟨by decide, by decide, by decide⟩

theorem settingsQ_simple : Simple settingsQ := by
  refine ⟨settingsQ_ok, fun c hc e => ?_, fun c hc e => ?_⟩
  · have : ∀ c ∈ settingsQ, c.letter ≠ 82 := by decide
    exact absurd e (this c hc)
  · have : ∀ c ∈ settingsQ, c.letter = 77 → c.arg = [] := by decide
    exact .inl (this c hc e)

theorem settingsQ_brisk : ∀ c ∈ settingsQ, Careful c ∧ Brisk c := by
  intro c hc
  simp only [settingsQ, List.mem_cons, List.not_mem_nil, or_false] at hc
  rcases hc with rfl | rfl | rfl | rfl
  · exact ⟨careful_plain _ _ ⟨by decide, by decide, by decide⟩ (by decide), brisk_other _ (by decide)⟩
  · refine ⟨⟨⟨by decide, by decide, by decide⟩, fun _ => .inl rfl, fun _ => .inl rfl, fun _ => .inl rfl, fun e => absurd e (by decide), fun e => absurd e (by decide)⟩, fun _ => .inl rfl⟩
  · exact ⟨careful_bare _ (by decide), brisk_other _ (by decide)⟩
  · refine ⟨⟨⟨by decide, by decide, by decide⟩, fun _ => .inl rfl, fun _ => .inl rfl, fun _ => .inl rfl, fun e => absurd e (by decide), fun e => absurd e (by decide)⟩, brisk_other _ (by decide)⟩

theorem settingsRx_decode : decode settingsRx = [str "QN5M0V20X0Y17.75Z18.1A180B0C90", str "QN7VXM"] := by decide +kernel
theorem settingsRx_frame : frame (str "QN7VXM") = .put (text settingsQ) := by decide +kernel

theorem settingsRx_frames {P : Frame → Prop} (h1 : P (.put (text takeI))) (h2 : P (.put (text settingsQ))) : ∀ p ∈ decode settingsRx, P (frame p) := by
  rw [settingsRx_decode]
  intro p hp
  rcases List.mem_cons.1 hp with rfl | hp
  · rw [takeRx_frame]; exact h1
  · rw [List.mem_singleton.1 hp, settingsRx_frame]; exact h2

theorem settingsRx_sent : BrisklySent settingsRx := by
  have hb : ∀ p ∈ decode settingsRx, BriskFrame (frame p) := settingsRx_frames ⟨takeI, rfl, takeI_brisk, by decide +kernel⟩ ⟨settingsQ, rfl, settingsQ_brisk, by decide +kernel⟩
  exact ⟨⟨by decide +kernel, by decide +kernel, fun p hp => careful_of_frame (hb p hp)⟩, hb⟩

theorem settingsRx_quick : NeverWaits settingsRx := by
  refine ⟨by decide +kernel, by decide +kernel, ?_⟩
  rw [settingsRx_decode]
  intro p hp
  rcases List.mem_cons.1 hp with rfl | hp
  · rw [takeRx_frame]; exact ⟨by decide +kernel, by decide +kernel⟩
  · rw [List.mem_singleton.1 hp, settingsRx_frame]; exact ⟨by decide +kernel, by decide +kernel⟩

theorem settingsRx_queue : QueueOnly settingsRx := settingsRx_frames (P := fun f => f = .free ∨ f = .empty ∨ f = .erase ∨ (∃ m, f = .put m) ∨ ∃ m, f = .now m ∧ Asks m) (.inr (.inr (.inr (.inl ⟨_, rfl⟩)))) (.inr (.inr (.inr (.inl ⟨_, rfl⟩))))
theorem settingsRx_puts : puts settingsRx = [text takeI, text settingsQ] := by
  rw [puts, settingsRx_decode]; simp [takeRx_frame, settingsRx_frame]
theorem settingsRx_nows : nows settingsRx = [] := by
  rw [nows, settingsRx_decode]; simp [takeRx_frame, settingsRx_frame]

/-- C125: a move with M0 and V20, then a question for V, X and M, for the queue: all hypotheses hold; the host reads a speed of 20, to half of the second decimal, and the movement method 0. -/
theorem C125_demo : ∃ (w0 : World XR) (σ : ℕ → Sys XR) (ev : ℕ → Ev XR), w0.servos = Kit.servos ∧ w0.rxq = settingsRx ∧ Endless Kit.cfg w0 (fun _ => 0) σ ev ∧ Unbroken ev ∧
    ∃ n num, ∃ V X : ℚ, lastRead (received print2 ev n) = some (.answer num [(str "V", V), (str "X", X), (str "M", 0)]) ∧ |(V : ℝ) - 20| ≤ 1 / 200 := by
  let w0 : World XR := { servos := Kit.servos, now := 1, pins := fun _ => false, rxq := settingsRx, ee := fun _ => 0, outs := [] }
  let s0 : Sys XR := ⟨w0, setup Kit.cfg fun _ => 0⟩
  have hs : ∀ n, w0.rxq ++ arrivals (sofar (evs Kit.cfg s0) n) = settingsRx := fun n => by
    rw [sched_hist_silent, List.append_nil]
  have hc : ∀ n, BrisklySent (w0.rxq ++ arrivals (sofar (evs Kit.cfg s0) n)) := fun n => by rw [hs]; exact settingsRx_sent
  have hf : ∀ n f, (hist Kit.cfg s0 n).p ≠ .fault f := fun n => (C81_kit rfl (careful_empty _ rfl) (sched_hist_run Kit.cfg w0 _ n) (hc n).well).1
  have he := endless Kit.cfg w0 _ hf
  have h0 : CountingHost (F := XR) settingsRx [] := by
    intro a b e
    obtain ⟨rfl, rfl⟩ := List.append_eq_nil_iff.1 e.symm
    show qSize ((puts (settingsRx ++ [])).drop (0 - _)) ≤ QUEUE
    rw [List.append_nil, settingsRx_puts, Nat.zero_sub]
    decide +kernel
  refine ⟨w0, _, _, rfl, rfl, he, sched_unbroken _ _ hf, ?_⟩
  obtain ⟨q, n, num, vs, -, -, h1, h2, h3⟩ := C125_queue (t := 0) (ps := [takeI]) (qs := settingsQ) (rest := []) rfl he rfl hc (fun n => by rw [hs]; exact settingsRx_quick) (sched_unbroken _ _ hf)
    (clockRuns_of he 0 fun n _ => by rw [sched_now]; exact Nat.one_pos)
    (fun n => by simpa using counting_quiet h0 (sched_hist_silent Kit.cfg s0 n)) (fun n => by rw [sent, hs]; exact settingsRx_queue) (fun n => by rw [sent, hs]; exact settingsRx_nows) print2_good
    (by rw [sent, hs, settingsRx_puts]; rfl) (by simpa using ⟨⟨takeI_ok, by simp [takeI], by unfold ClearM; decide⟩, takeI_simple⟩) settingsQ_simple
    ⟨settingsQ_ok, by simp [settingsQ], by unfold ClearM; decide⟩ ⟨_, rfl, .inl ⟨by decide, rfl⟩⟩
  have hk : [takeI].flatten.foldl chosenBy 1 = 0 := by decide +kernel
  have hv : [takeI].flatten.foldl spokenBy none = some (str "20") := by decide +kernel
  rw [hk, hv] at h3
  rw [hk] at h2
  have ht : (Spec.asked 0 settingsQ).map Prod.fst = [str "V", str "X", str "M"] := rfl
  rw [ht] at h2
  have hlen : vs.length = 3 := by rw [← List.length_map (f := Prod.fst), h2]; rfl
  obtain ⟨⟨n1, V⟩, ⟨n2, X⟩, ⟨n3, M⟩, rfl⟩ : ∃ p1 p2 p3, vs = [p1, p2, p3] := by
    rcases vs with _ | ⟨p1, _ | ⟨p2, _ | ⟨p3, _ | ⟨p4, l⟩⟩⟩⟩ <;> simp at hlen
    exact ⟨p1, p2, p3, rfl⟩
  simp only [List.map_cons, List.map_nil, List.cons.injEq, and_true] at h2
  obtain ⟨rfl, rfl, rfl⟩ := h2
  have e1 : named [(str "V", V), (str "X", X), (str "M", M)] = [(str "V", V), (str "M", M)] := by
    simp [named, List.filter_cons, show str "V" = [86] from rfl, show str "X" = [88] from rfl, show str "M" = [77] from rfl]
  have e2 : settings 0 (some (str "20")) settingsQ = [.speed (some (str "20")), .method 0] := rfl
  rw [e1, e2] at h3
  cases h3 with
  | cons a1 h3 =>
    cases h3 with
    | cons a2 h3 =>
      have e3 : M = 0 := by
        have := (Prod.mk.inj (show (str "M", M) = ([77], ((0 : ℕ) : ℚ)) from a2)).2
        simpa using this
      subst e3
      refine ⟨n, num, V, X, h1, ?_⟩
      have := a1.2 20 ⟨⟨false, [2, 0], none⟩, .inl (by decide), by decide +kernel, by decide +kernel⟩
      simpa using this

end Mrc.Props
