import Verif.Spec.Everything
import Verif.Props.FinalWait
import Verif.Props.GripperKit
/-
C139: everything about the machine is in the end what the program says.
-/
set_option maxRecDepth 100000
set_option linter.unusedSectionVars false
namespace Mrc.Props
open Mrc Mrc.Prog Mrc.Spec Mrc.Demo Mrc.Rest XR

/-- in the state `s`, after the actions `tr`: exactly the conversation about `P` was said, exactly `ops` was done to the pins, every joint of the arm is at the angle for the pose, and the additional axes are
where they were sent. -/
structure AllDone (P : List (List Cmd)) (ops : List PinOp) (A : Fin 6 → ℝ) (g : Fin 2 → Option Dec) (tr : List (Act XR)) (s : Sys XR) : Prop where
  said : words tr = talk 1 P
  pins : pinOps tr = ops
  arm : ∃ b, ArmAt s.w b ∧ ∀ i, |kitLogical b i - A i| < 11 / 100000
  axes : ∀ j d, g j = some d → (s.w.servos (axisNo j)).cur = fin ((d.val : ℝ) / 180 * Real.pi)

section
variable {w0 : World XR} (hw : w0.servos = Kit.servos) {junk : Nat → Byte} {σ : ℕ → Sys XR} {ev : ℕ → Ev XR} (h : Endless Kit.cfg w0 junk σ ev) (h0 : w0.ee 0 = 0)
    (hc : ∀ n, BrisklySent (w0.rxq ++ arrivals (sofar ev n))) (hu : Unbroken ev)
    (hh : ∀ n, CountingHost w0.rxq (sofar ev n)) (hq : ∀ n, QueueOnly (sent w0.rxq (sofar ev n))) (hno : ∀ n, nows (sent w0.rxq (sofar ev n)) = [])
    (hcl : ∀ n, ∀ m ∈ puts (sent w0.rxq (sofar ev n)), ClearWaits m) (ho : Obliging Kit.pinMap σ ev)
include hw h h0 hc hu hh hq hno hcl ho

theorem all_done {t : ℕ} {P : List (List Cmd)} (hp : ∀ n, t ≤ n → puts (sent w0.rxq (sofar ev n)) = P.map text)
    (hok : ∀ x ∈ P, Simple x ∧ OneNumber x ∧ PinsOk x ∧ ∀ c ∈ x, AxisFine c) {ops : List PinOp} (hops : PinsTold Kit.pinMap P.flatten ops)
    {A : Fin 6 → ℝ} (hA : ∃ N, ∀ n, N ≤ n → ∃ b, ArmAt (σ n).w b ∧ ∀ i, |kitLogical b i - A i| < 11 / 100000)
    {g : Fin 2 → Option Dec} (hg : ∀ j d, g j = some d → LastAxis P j d) : ∃ N, ∀ n, N ≤ n → AllDone P ops A g (acts (sofar ev n)) (σ n) := by
  obtain ⟨n1, e1⟩ := C137_waiting hw h h0 hc (undivided_of hu) hh hq hno hcl ho hp (fun x hx => ⟨(hok x hx).1, (hok x hx).2.1⟩) (fun x hx => (hok x hx).2.2.1) hops
  obtain ⟨n2, e2⟩ := hA
  have ax : ∀ j, ∃ N, ∀ n, N ≤ n → ∀ d, g j = some d → ((σ n).w.servos (axisNo j)).cur = fin ((d.val : ℝ) / 180 * Real.pi) := by
    intro j
    cases hj : g j with
    | none => exact ⟨0, fun n _ d e => by cases e⟩
    | some d =>
      obtain ⟨xs, before, c, after, ys, e, k1, k2, k3⟩ := hg j d hj
      obtain ⟨N, g1, -⟩ := axis_arrives hw h h0 hh hq hno (C128_executed hw h h0 hc (undivided_of hu) hh hq hcl ho) (t := t) (x := xs.map text) (before := before) (after := after) (c := c) (j := j) (d := d)
        (fun n hn => ⟨ys.map text, by rw [hp n hn, e, List.map_append, List.map_cons], fun m hm => by
          obtain ⟨y, hy, rfl⟩ := List.mem_map.1 hm
          exact ⟨y, rfl, fun c hc => ⟨(hok y (by rw [e]; simp [hy])).2.2.2 c hc, k3 y hy c hc⟩⟩⟩)
        (fun m hm => by
          obtain ⟨y, hy, rfl⟩ := List.mem_map.1 hm
          exact ⟨y, rfl, (hok y (by rw [e]; simp [hy])).2.2.2⟩)
        (hok _ (by rw [e]; simp)).2.2.2 k1 k2
      exact ⟨N, fun n hn d' e' => by cases e'; exact g1 n hn⟩
  obtain ⟨n3, e3⟩ := ax 0
  obtain ⟨n4, e4⟩ := ax 1
  refine ⟨max (max n1 n2) (max n3 n4), fun n hn => ⟨(e1 n (by omega)).1, (e1 n (by omega)).2, e2 n (by omega), fun j d hj => ?_⟩⟩
  match j with
  | 0 => exact e3 n (by omega) d hj
  | 1 => exact e4 n (by omega) d hj

/-- **C139**: the kit with empty storage at power-up; a counting host sends the program `ps`, `cs`, `qs` for the queue, and nothing else; the instructions may wait, the surroundings oblige (C128). `cs` tells a pose
that the kit can take, with M0 in force, and what follows names no place; `g` are the angles to which the additional axes are sent last. From some time on, for ever, all is as the program says: what was said, what
was done to the pins, where the arm is, and where the additional axes are. -/
theorem C139_everything {t : ℕ} {ps qs : List (List Cmd)} {cs : List Cmd} (hp : ∀ n, t ≤ n → puts (sent w0.rxq (sofar ev n)) = (ps ++ cs :: qs).map text)
    (hok : ∀ x ∈ ps ++ cs :: qs, Simple x ∧ OneNumber x ∧ PinsOk x ∧ ∀ c ∈ x, AxisFine c) {ops : List PinOp} (hops : PinsTold Kit.pinMap (ps ++ cs :: qs).flatten ops)
    (hN : ∀ x ∈ ps, Named x) (hr : qs ≠ [] ∨ ∃ n, Numbered (text cs) n) (hs : ∀ x ∈ qs, ∀ c ∈ x, NamesNoPlace c)
    (ht : TellsPose cs) (hC : ClearM cs) (hM : (ps.flatten ++ cs).foldl chosenBy 1 = 0)
    {d : Fin 6 → Dec} (hd : ∀ i, Last NamesPose cs i (d i)) {A : Fin 6 → ℝ} (hA : KitTakes kitG (poseOfDec d) A)
    {g : Fin 2 → Option Dec} (hg : ∀ j d, g j = some d → LastAxis (ps ++ cs :: qs) j d) :
    ∃ N, ∀ n, N ≤ n → AllDone (ps ++ cs :: qs) ops A g (acts (sofar ev n)) (σ n) :=
  all_done hw h h0 hc hu hh hq hno hcl ho hp hok hops
    (C138_pose hw h h0 hc hu hh hq hno hcl ho hp hN hr (fun x hx => ⟨(hok x (by simp [hx])).1.ok, hs x hx⟩) ht hC hM hd hA) hg

/-- **C139**, when the last place is told by six angles within the ranges. -/
theorem C139_angles {t : ℕ} {ps qs : List (List Cmd)} {cs : List Cmd} (hp : ∀ n, t ≤ n → puts (sent w0.rxq (sofar ev n)) = (ps ++ cs :: qs).map text)
    (hok : ∀ x ∈ ps ++ cs :: qs, Simple x ∧ OneNumber x ∧ PinsOk x ∧ ∀ c ∈ x, AxisFine c) {ops : List PinOp} (hops : PinsTold Kit.pinMap (ps ++ cs :: qs).flatten ops)
    (hN : ∀ x ∈ ps, Named x) (hr : qs ≠ [] ∨ ∃ n, Numbered (text cs) n) (hs : ∀ x ∈ qs, ∀ c ∈ x, NamesNoPlace c)
    (ht : TellsAngles cs) (hC : ClearM cs) (hM : (ps.flatten ++ cs).foldl chosenBy 1 = 0) {V : ℚ} (hV : SaysSpeed ((ps.flatten ++ cs).foldl spokenBy none) V) (hV0 : 0 < V)
    {d : Fin 6 → Dec} (hd : ∀ i, Last NamesAngle cs i (d i)) (hfit : KitFits fun i => radians (d i))
    {g : Fin 2 → Option Dec} (hg : ∀ j d, g j = some d → LastAxis (ps ++ cs :: qs) j d) :
    ∃ N, ∀ n, N ≤ n → AllDone (ps ++ cs :: qs) ops (fun i => radians (d i)) g (acts (sofar ev n)) (σ n) :=
  all_done hw h h0 hc hu hh hq hno hcl ho hp hok hops
    (C138_angles hw h h0 hc hu hh hq hno hcl ho hp hN hr (fun x hx => ⟨(hok x (by simp [hx])).1.ok, hs x hx⟩) ht hC hM hV hV0 hd hfit) hg
end

/-- **C139**: two machines in which all is done of the same program, whatever happened to them on the way, have said the same, have done the same to the pins, and stand in the same place. -/
theorem C139_same {P : List (List Cmd)} {ops : List PinOp} {A : Fin 6 → ℝ} {g : Fin 2 → Option Dec} {tr tr' : List (Act XR)} {s s' : Sys XR} (h : AllDone P ops A g tr s) (h' : AllDone P ops A g tr' s') :
    words tr = words tr' ∧ pinOps tr = pinOps tr' ∧ (∃ b b', ArmAt s.w b ∧ ArmAt s'.w b' ∧ ∀ i, |kitLogical b i - kitLogical b' i| < 22 / 100000) ∧
      ∀ j d, g j = some d → (s.w.servos (axisNo j)).cur = (s'.w.servos (axisNo j)).cur := by
  obtain ⟨b, g1, g2⟩ := h.arm
  obtain ⟨b', g3, g4⟩ := h'.arm
  refine ⟨h.said.trans h'.said.symm, h.pins.trans h'.pins.symm, ⟨b, b', g1, g3, fun i => ?_⟩, fun j d e => (h.axes j d e).trans (h'.axes j d e).symm⟩
  have a1 := abs_lt.1 (g2 i)
  have a2 := abs_lt.1 (g4 i)
  rw [abs_lt]
  constructor <;> linarith [a1.1, a1.2, a2.1, a2.2]

/-! #### a run that satisfies all hypotheses -/

/-- a move to a pose (N5), the gripper to one degree (N6), then N6I11D5. -/
def allRx : List Byte := takeRx ++ str ":QN6R61\r" ++ str ":QN6I11D5\r"

theorem allRx_decode : decode allRx = [str "QN5M0V20X0Y17.75Z18.1A180B0C90", str "QN6R61", str "QN6I11D5"] := by decide +kernel

theorem allRx_frames {P : Frame → Prop} (h1 : P (.put (text takeI))) (h2 : P (.put (text gripI))) (h3 : P (.put (text awaitI))) : ∀ p ∈ decode allRx, P (frame p) := by
  rw [allRx_decode]
  intro p hp
  simp only [List.mem_cons, List.not_mem_nil, or_false] at hp
  rcases hp with rfl | rfl | rfl
  · rw [takeRx_frame]; exact h1
  · rw [gripRx_frame]; exact h2
  · rw [awaitRx_frame]; exact h3

theorem allRx_sent : BrisklySent allRx := by
  have hb : ∀ p ∈ decode allRx, BriskFrame (frame p) := allRx_frames ⟨takeI, rfl, takeI_brisk, by decide +kernel⟩ ⟨gripI, rfl, gripI_brisk, by decide +kernel⟩ ⟨awaitI, rfl, awaitI_brisk, by decide +kernel⟩
  exact ⟨⟨by decide +kernel, by decide +kernel, fun p hp => careful_of_frame (hb p hp)⟩, hb⟩

theorem allRx_queue : QueueOnly allRx := allRx_frames (P := fun f => f = .free ∨ f = .empty ∨ f = .erase ∨ (∃ m, f = .put m) ∨ ∃ m, f = .now m ∧ Asks m)
  (.inr (.inr (.inr (.inl ⟨_, rfl⟩)))) (.inr (.inr (.inr (.inl ⟨_, rfl⟩)))) (.inr (.inr (.inr (.inl ⟨_, rfl⟩))))
theorem allRx_puts : puts allRx = [text takeI, text gripI, text awaitI] := by
  rw [puts, allRx_decode]; simp [takeRx_frame, gripRx_frame, awaitRx_frame]
theorem allRx_nows : nows allRx = [] := by
  rw [nows, allRx_decode]; simp [takeRx_frame, gripRx_frame, awaitRx_frame]

theorem gripI_simple : Simple gripI := by
  refine ⟨fun c hc => (gripI_brisk c hc).1.ok, fun c hc e => ?_, fun c hc e => ?_⟩
  · simp only [gripI, List.mem_cons, List.not_mem_nil, or_false] at hc
    rcases hc with rfl | rfl
    · cases e
    · exact ⟨6, Dec.text ⟨false, [1], none⟩, rfl⟩
  · have : ∀ c ∈ gripI, c.letter ≠ 77 := by decide
    exact absurd e (this c hc)

theorem gripI_plain : ∀ c ∈ gripI, c.letter ≠ 73 ∧ c.letter ≠ 79 ∧ c.letter ≠ 68 := by decide
theorem gripI_pins : PinsOk gripI := ⟨gripI_simple.ok, fun c hc e => by
  rcases e with e | e
  · exact absurd e (gripI_plain c hc).1
  · exact absurd e (gripI_plain c hc).2.1⟩

theorem gripI_noPlace : ∀ c ∈ gripI, NamesNoPlace c := by
  intro c hc
  simp only [gripI, List.mem_cons, List.not_mem_nil, or_false] at hc
  rcases hc with rfl | rfl
  · exact ⟨fun e => absurd e (by decide), fun e => by cases e⟩
  · exact ⟨fun e => absurd e (by decide), fun _ => .inr ⟨6, Dec.text ⟨false, [1], none⟩, by decide, rfl⟩⟩

theorem awaitI_axis : ∀ c ∈ awaitI, AxisFine c := by
  have : ∀ c ∈ awaitI, c.letter ≠ 82 ∧ c.letter ≠ 86 := by decide
  exact fun c hc => ⟨awaitI_ok.ok c hc, fun _ _ e => absurd e (this c hc).1, fun e => absurd e (this c hc).2⟩

theorem all_told : PinsTold Kit.pinMap ([] ++ takeI :: [gripI, awaitI]).flatten [.mode 11 .input_pulldown] := by
  have h1 : PinsTold Kit.pinMap takeI [] := pinsTold_none (by decide +kernel)
  have h2 : PinsTold Kit.pinMap gripI [] := pinsTold_none fun c hc => ⟨(gripI_plain c hc).1, (gripI_plain c hc).2.1⟩
  have h3 : PinsTold Kit.pinMap awaitI [.mode 11 .input_pulldown] :=
    .cons (a := []) (.none (by decide) (by decide)) (.cons (a := [.mode 11 .input_pulldown]) (b := []) (.input (p := 1) (s := 1) ⟨rfl, [], by decide⟩ rfl)
      (.cons (a := []) (b := []) (.none (by decide) (by decide)) .nil))
  have := pinsTold_append h1 (pinsTold_append h2 (pinsTold_append h3 (b := []) .nil))
  simpa using this

/-- the gripper is sent to one degree, R7 nowhere. -/
def allG : Fin 2 → Option Dec := ![some ⟨false, [1], none⟩, none]

theorem all_axis : ∀ j d, allG j = some d → LastAxis ([] ++ takeI :: [gripI, awaitI]) j d := by
  intro j d e
  match j with
  | 0 =>
    cases e
    refine ⟨[takeI], [⟨78, str "6"⟩], ⟨82, axisDigit 0 :: Dec.text ⟨false, [1], none⟩⟩, [], [awaitI], rfl, ⟨rfl, rfl, .inl (by decide)⟩, by simp, ?_⟩
    rintro m hm x hx ⟨e, -⟩
    rw [List.mem_singleton.1 hm] at hx
    have : ∀ c ∈ awaitI, c.letter ≠ 82 := by decide
    exact this x hx e
  | 1 => cases e

/-- C139: a move to a pose, the gripper to one degree, then N6I11D5: all hypotheses hold. -/
theorem C139_demo : ∃ (w0 : World XR) (σ : ℕ → Sys XR) (ev : ℕ → Ev XR), w0.servos = Kit.servos ∧ w0.rxq = allRx ∧ Endless Kit.cfg w0 (fun _ => 0) σ ev ∧ Obliging Kit.pinMap σ ev ∧ Unbroken ev ∧
    talk 1 [takeI, gripI, awaitI] = [.begun 5, .finished 5, .begun 6, .finished 6, .begun 6, .finished 6] ∧
    ∃ N, ∀ n, N ≤ n → AllDone [takeI, gripI, awaitI] [.mode 11 .input_pulldown] takeA allG (acts (sofar ev n)) (σ n) := by
  let w0 : World XR := { servos := Kit.servos, now := 4294967295, pins := fun _ => true, rxq := allRx, ee := fun _ => 0, outs := [] }
  let s0 : Sys XR := ⟨w0, setup Kit.cfg fun _ => 0⟩
  have hs : ∀ n, w0.rxq ++ arrivals (sofar (evs Kit.cfg s0) n) = allRx := fun n => by
    rw [sched_hist_silent, List.append_nil]
  have hc : ∀ n, BrisklySent (w0.rxq ++ arrivals (sofar (evs Kit.cfg s0) n)) := fun n => by rw [hs]; exact allRx_sent
  have hf : ∀ n f, (hist Kit.cfg s0 n).p ≠ .fault f := fun n => (C81_kit rfl (careful_empty _ rfl) (sched_hist_run Kit.cfg w0 _ n) (hc n).well).1
  have he := endless Kit.cfg w0 _ hf
  have h0 : CountingHost (F := XR) allRx [] := by
    intro a b e
    obtain ⟨rfl, rfl⟩ := List.append_eq_nil_iff.1 e.symm
    show qSize ((puts (allRx ++ [])).drop (0 - _)) ≤ QUEUE
    rw [List.append_nil, allRx_puts, Nat.zero_sub]
    decide +kernel
  have hh : ∀ n, CountingHost w0.rxq (sofar (evs Kit.cfg s0) n) := fun n => by simpa using counting_quiet h0 (sched_hist_silent Kit.cfg s0 n)
  have hq : ∀ n, QueueOnly (sent w0.rxq (sofar (evs Kit.cfg s0) n)) := fun n => by rw [sent, hs]; exact allRx_queue
  have hno : ∀ n, nows (sent w0.rxq (sofar (evs Kit.cfg s0) n)) = [] := fun n => by rw [sent, hs]; exact allRx_nows
  have hput : ∀ n, puts (sent w0.rxq (sofar (evs Kit.cfg s0) n)) = [text takeI, text gripI, text awaitI] := fun n => by rw [sent, hs, allRx_puts]
  have hp : ∀ n, 0 ≤ n → puts (sent w0.rxq (sofar (evs Kit.cfg s0) n)) = (([] : List (List Cmd)) ++ takeI :: [gripI, awaitI]).map text := fun n _ => hput n
  have ho : Obliging Kit.pinMap (hist Kit.cfg s0) (evs Kit.cfg s0) := by
    refine sched_obliging he rfl rfl fun n src m hm => ?_
    obtain ⟨n1, n2⟩ := queue_alone he rfl hq hno n
    cases src with
    | immediate => exact absurd hm (n2 m)
    | eeprom => exact absurd hm (n1 m)
    | queue =>
      have h1 := (begun_sent he rfl hh hq hno hp n).subset (List.mem_filterMap.2 ⟨_, hm, rfl⟩)
      simp only [List.nil_append, List.map_cons, List.map_nil, List.mem_cons, List.not_mem_nil, or_false] at h1
      rcases h1 with rfl | rfl | rfl
      · exact ⟨takeI, takeI_ok, takeI_plain, .inl rfl⟩
      · exact ⟨gripI, gripI_simple.ok, fun c hc => ⟨(gripI_plain c hc).1, (gripI_plain c hc).2.2⟩, .inl rfl⟩
      · exact ⟨takeI, takeI_ok, takeI_plain, .inr rfl⟩
  have hcl : ∀ n, ∀ m ∈ puts (sent w0.rxq (sofar (evs Kit.cfg s0) n)), ClearWaits m := fun n m hm => by
    rw [hput] at hm
    simp only [List.mem_cons, List.not_mem_nil, or_false] at hm
    rcases hm with rfl | rfl | rfl
    · exact takeI_clear
    · exact ⟨gripI, rfl, gripI_pins, fun c hc e => absurd e (gripI_plain c hc).2.2⟩
    · exact awaitI_clear
  refine ⟨w0, _, _, rfl, rfl, he, ho, sched_unbroken _ _ hf, by decide +kernel, ?_⟩
  exact C139_everything rfl he rfl hc (sched_unbroken _ _ hf) hh hq hno hcl ho hp
    (by simpa using ⟨⟨takeI_simple, (by unfold OneNumber; decide +kernel), takeI_pins, takeI_axis⟩, ⟨gripI_simple, (by unfold OneNumber; decide +kernel), gripI_pins, gripI_axis⟩,
      awaitI_simple, (by unfold OneNumber; decide +kernel), awaitI_ok, awaitI_axis⟩)
    all_told (by simp) (.inl (by simp)) (by simpa using ⟨gripI_noPlace, awaitI_noPlace⟩) takeI_tells (by unfold ClearM; decide) (by decide) takeI_last takeI_takes all_axis

end Mrc.Props
