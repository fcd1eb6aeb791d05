import Verif.Props.Gripper
import Verif.Props.PinsDemo
/-
C129: what is answered when an additional axis is asked for; the kit and its queue; a run that satisfies all hypotheses.
-/
set_option maxRecDepth 100000
set_option linter.unusedSectionVars false
namespace Mrc.Props
open Mrc Mrc.Prog Mrc.Spec Mrc.Demo Mrc.Rest XR

theorem axis_deg (q : ℚ) : FloatOps.mul (fin ((q : ℝ) / 180 * Real.pi)) (radToDeg : XR) = fin (q : ℝ) := by
  rw [XR.radToDeg_eq]
  simp only [ops_mul, fin_mul]
  congr 1
  have := Real.pi_ne_zero
  field_simp

/-- **C129**: and who asks for it later, as long as no other instruction moves it, is answered exactly `d` degrees. -/
theorem C129_read {cfg : Cfg XR} {w0 : World XR} {junk : Nat → Byte} {σ : ℕ → Sys XR} {ev : ℕ → Ev XR} (h : Endless cfg w0 junk σ ev) (hb : ∀ k src m, ev k = .act (.out (.ghost src m)) → AxisInstr m)
    {j : Fin 2} {pin : Int} {maxVel home lo hi : ℝ} {f1 f2 : ℕ} (h0 : w0.servos (axisNo j) = Servo.new pin (fin maxVel) f1 f2 (fin lo) (fin hi) (fin home)) (hm : 1/1000 ≤ maxVel) (hh : |home| ≤ 7)
    {k : ℕ} {src : Src} {before after : List Cmd} {c : Cmd} {d : Dec} (hk : ev k = .act (.out (.ghost src (text (before ++ c :: after))))) (hok : ∀ x ∈ before ++ c :: after, x.Ok)
    (hc : SendsAxis j d c) (ha : ∀ x ∈ after, ¬ MovesAxis j x) :
    ∃ e, k < e ∧ ∀ q r num ps v, e ≤ q → q < r → Begins ev q → ev r = .act (.out (.msg (.reply num ps))) → (∀ i s m, k < i → i < r → ev i = .act (.out (.ghost s m)) → LeavesAxis j m) →
      .angle (6 + j.val) v ∈ ps → v = fin (d.val : ℝ) := by
  obtain ⟨e, he, hcur⟩ := C129_goes h hb h0 hm hh hk hok hc ha
  refine ⟨e, he, fun q r num ps v h1 h2 hq hr hl hp => ?_⟩
  have e0 : acts (sofar ev (r + 1)) = acts (sofar ev r) ++ .out (.msg (.reply num ps)) :: [] := by
    simp [sofar, List.range_succ, hr, acts]
  obtain ⟨a0, src', m', mid, e1, hmid, hon⟩ := C98_true (h.run (r + 1)).trace e0
  have hon := hon _ hp
  rw [sofar_span] at e1
  obtain ⟨b, _, hr2, hr3, hr4⟩ := span_at e1
  simp only [Nat.zero_add] at hr2 hr4
  have hqb : q ≤ b := by
    by_contra hlt
    obtain ⟨s, m'', hq⟩ := hq
    exact hmid (.out (.ghost s m'')) (by rw [← hr4]; exact acts_mem.2 (mem_span.2 ⟨q, by omega, by omega, hq⟩)) ⟨_, _, rfl⟩
  rcases hon with ⟨i, s, a, b, -, e3, -⟩ | ⟨i, s, hs, e3, e4⟩
  · omega
  have : i = j := Fin.ext (by omega)
  subst this
  rw [← hr4] at hs
  obtain ⟨l, g1, g2, g3⟩ := mem_span.1 (acts_mem.1 hs)
  have es := h.read g3
  have := hcur l (by omega) fun i s m i1 i2 i3 => hl i s m i1 (by omega) i3
  rw [e4, es, show ((⟨6 + i.val, by omega⟩ : Fin 8)) = axisNo i from rfl, this, axis_deg]

theorem kit_axis (j : Fin 2) : ∃ (pin : Int) (maxVel lo hi : ℝ) (f1 f2 : ℕ), (Kit.servos : Fin 8 → Servo XR) (axisNo j) = Servo.new pin (fin maxVel) f1 f2 (fin lo) (fin hi) (fin 0) ∧ 1/1000 ≤ maxVel := by
  refine ⟨Kit.pin (axisNo j), (Kit.velDeg (axisNo j) : ℝ) * (Real.pi / 180), (Kit.minDeg (axisNo j) : ℝ) * (Real.pi / 180), (Kit.maxDeg (axisNo j) : ℝ) * (Real.pi / 180), (Kit.freq (axisNo j)).1, (Kit.freq (axisNo j)).2, ?_, ?_⟩
  · have e0 : (lit 0 : XR) = fin 0 := by simp [lit, ops_lit]
    simp only [Kit.servos, deg_fin, e0]
  · have : Kit.velDeg (axisNo j) = 160 := by fin_cases j <;> rfl
    rw [this]
    have := Real.pi_gt_three
    push_cast
    linarith

/-- where axis `j` was sent, and what is answered. -/
def AxisArrives (σ : ℕ → Sys XR) (ev : ℕ → Ev XR) (j : Fin 2) (v : ℚ) (e : ℕ) : Prop :=
  (∀ n, e ≤ n → ((σ n).w.servos (axisNo j)).cur = fin ((v : ℝ) / 180 * Real.pi)) ∧
  ∀ q r num ps x, e ≤ q → q < r → Begins ev q → ev r = .act (.out (.msg (.reply num ps))) → .angle (6 + j.val) x ∈ ps → x = fin (v : ℝ)

section
variable {w0 : World XR} (hw : w0.servos = Kit.servos) {junk : Nat → Byte} {σ : ℕ → Sys XR} {ev : ℕ → Ev XR} (h : Endless Kit.cfg w0 junk σ ev) (h0 : w0.ee 0 = 0)
  (hc : ∀ n, BrisklySent (w0.rxq ++ arrivals (sofar ev n))) (hnw : ∀ n, NeverWaits (w0.rxq ++ arrivals (sofar ev n)))
  (hu : Unbroken ev) (hclk : ClockRuns σ ev) (hh : ∀ n, CountingHost w0.rxq (sofar ev n)) (hq : ∀ n, QueueOnly (sent w0.rxq (sofar ev n))) (hno : ∀ n, nows (sent w0.rxq (sofar ev n)) = [])
include hw h h0 hh hq hno in
/-- the axis gets where it was sent, if what is sent is executed. -/
theorem axis_arrives (hex : ∀ n, ∃ m, n ≤ m ∧ puts (sent w0.rxq (sofar ev n)) <+: (view ev m).started) {t : ℕ} {x : List (List Byte)} {before after : List Cmd} {c : Cmd} {j : Fin 2} {d : Dec}
    (hp : ∀ n, t ≤ n → ∃ y, puts (sent w0.rxq (sofar ev n)) = x ++ text (before ++ c :: after) :: y ∧ ∀ m ∈ y, LeavesAxis j m) (hx : ∀ m ∈ x, AxisInstr m) (hi : ∀ c' ∈ before ++ c :: after, AxisFine c')
    (hs : SendsAxis j d c) (ha : ∀ c' ∈ after, ¬ MovesAxis j c') : ∃ e, AxisArrives σ ev j d.val e := by
  have hst : ∀ n, (view ev n).started <+: puts (sent w0.rxq (sofar ev n)) := fun n => C89_started (h.run n) (hh n) fun p hp e => by
    rcases hq n p hp with e' | e' | e' | ⟨m', e'⟩ | ⟨m', e', -⟩ <;> rw [e'] at e <;> cases e
  -- everything that is begun comes from the queue
  have src : ∀ i s m, ev i = .act (.out (.ghost s m)) → s = .queue := by
    intro i s m e
    obtain ⟨n1, n2⟩ := queue_alone h h0 hq hno (i + 1)
    have hin : Act.out (Out.ghost s m) ∈ acts (sofar ev (i + 1)) := by simp [sofar, List.range_succ, e, acts]
    cases s with
    | immediate => exact absurd hin (n2 m)
    | eeprom => exact absurd hin (n1 m)
    | queue => rfl
  have hbegin : ∀ i s m, ev i = .act (.out (.ghost s m)) → ∀ n, i < n → m ∈ (view ev n).started := by
    intro i s m e n hn
    obtain rfl := src i s m e
    rw [view_started]
    refine List.mem_filterMap.2 ⟨.out (.ghost .queue m), acts_mem.2 ?_, rfl⟩
    rw [sofar_span]; exact mem_span.2 ⟨i, by omega, by omega, e⟩
  have hb : ∀ k src m, ev k = .act (.out (.ghost src m)) → AxisInstr m := by
    intro i s m e
    obtain ⟨y, hy, hl⟩ := hp (max (i + 1) t) (le_max_right _ _)
    have := (hst (max (i + 1) t)).subset (hbegin i s m e _ (by have := le_max_left (i + 1) t; omega))
    rw [hy] at this
    simp only [List.mem_append, List.mem_cons] at this
    rcases this with g | g | g
    · exact hx m g
    · exact ⟨_, g, hi⟩
    · obtain ⟨cs, rfl, g2⟩ := hl m g
      exact ⟨cs, rfl, fun c hc => (g2 c hc).1⟩
  -- the instruction begins
  obtain ⟨y, hy, -⟩ := hp t le_rfl
  obtain ⟨t', -, y', hy'⟩ := hex t
  rw [hy, List.append_assoc] at hy'
  obtain ⟨k, -, hk, hv⟩ := started_when hy'.symm
  -- what begins later leaves the axis alone
  have later : ∀ i s m, k < i → ev i = .act (.out (.ghost s m)) → LeavesAxis j m := by
    intro i s m hki e
    obtain rfl := src i s m e
    obtain ⟨y, hy, hl⟩ := hp (max (i + 1) t) (le_max_right _ _)
    have hn : i + 1 ≤ max (i + 1) t := le_max_left _ _
    generalize max (i + 1) t = n at hy hl hn
    refine hl m ?_
    have split : acts (sofar ev n) = acts (sofar ev k) ++ .out (.ghost .queue (text (before ++ c :: after))) :: acts (span ev (k + 1) (n - (k + 1))) := by
      rw [sofar_span, span_split (c := k) (Nat.zero_le _) (by omega) hk]
      simp [sofar_span]
    have e' : fromQueue (Act.out (Out.ghost Src.queue (text (before ++ c :: after))) : Act XR) = some (text (before ++ c :: after)) := rfl
    have hpre := hst n
    rw [view_started] at hv
    rw [view_started, split, List.filterMap_append, hv, List.filterMap_cons, e', hy, List.prefix_append_right_inj] at hpre
    have hpre := (List.cons_prefix_cons.1 hpre).2
    exact hpre.subset (List.mem_filterMap.2 ⟨_, acts_mem.2 (mem_span.2 ⟨i, by omega, by omega, e⟩), rfl⟩)
  obtain ⟨pin, mv, lo, hiR, f1, f2, es, hmv⟩ := kit_axis j
  have hok : ∀ c' ∈ before ++ c :: after, c'.Ok := fun c' hc' => (hi c' hc').ok
  obtain ⟨e1, -, g1⟩ := C129_goes h hb (j := j) (home := 0) (by rw [hw, es]) hmv (by simp) hk hok hs ha
  obtain ⟨e2, -, g2⟩ := C129_read h hb (j := j) (home := 0) (by rw [hw, es]) hmv (by simp) hk hok hs ha
  refine ⟨max e1 e2, fun n hn => g1 n (le_trans (le_max_left _ _) hn) fun i s m i1 _ i3 => later i s m i1 i3, fun q r num ps v hq => ?_⟩
  intro h2 h3 h4 h5
  exact g2 q r num ps v (le_trans (le_max_right _ _) hq) h2 h3 h4 (fun i s m i1 _ i3 => later i s m i1 i3) h5

include hw h h0 hc hnw hu hclk hh hq hno

/-- **C129**, total correctness for the queue (C106): from the bytes sent to the gripper. A counting host sends instructions for the queue, among them one that sends axis `j` of the kit to `d` degrees, and none of what follows
moves this axis. Then from some time on it stands exactly there for ever, and whoever asks is told so. -/
theorem C129_queue {t : ℕ} {x : List (List Byte)} {before after : List Cmd} {c : Cmd} {j : Fin 2} {d : Dec}
    (hp : ∀ n, t ≤ n → ∃ y, puts (sent w0.rxq (sofar ev n)) = x ++ text (before ++ c :: after) :: y ∧ ∀ m ∈ y, LeavesAxis j m) (hx : ∀ m ∈ x, AxisInstr m) (hi : ∀ c' ∈ before ++ c :: after, AxisFine c')
    (hs : SendsAxis j d c) (ha : ∀ c' ∈ after, ¬ MovesAxis j c') : ∃ e, AxisArrives σ ev j d.val e :=
  axis_arrives hw h h0 hh hq hno (C106_executed hw h (brisk_empty w0.ee h0) (quick_empty w0.ee h0) hc hnw (undivided_of hu) hclk hh hq) hp hx hi hs ha
end

/-- N6R61 -/
def gripI : List Cmd := [⟨78, str "6"⟩, ⟨82, axisDigit 0 :: Dec.text ⟨false, [1], none⟩⟩]
def gripRx : List Byte := takeRx ++ str ":QN6R61\r"

theorem takeI_axis : ∀ c ∈ takeI, AxisFine c := by
  intro c hc
  have h1 : ∀ c ∈ takeI, c.letter ≠ 82 := by decide +kernel
  refine ⟨takeI_ok c hc, fun j rest e => absurd e (h1 c hc), fun e => ?_⟩
  have : ∀ c ∈ takeI, c.letter = 86 → c.arg = Dec.text ⟨false, [2, 0], none⟩ := by decide +kernel
  exact .inr ⟨⟨false, [2, 0], none⟩, .inl (by decide), this c hc e, .inr (by decide +kernel)⟩

theorem gripI_brisk : ∀ c ∈ gripI, Careful c ∧ Brisk c := by
  intro c hc
  simp only [gripI, List.mem_cons, List.not_mem_nil, or_false] at hc
  rcases hc with rfl | rfl
  · exact ⟨careful_plain _ _ ⟨by decide, by decide, by decide⟩ (by decide), brisk_other _ (by decide)⟩
  · exact ⟨careful_axis ⟨6, by omega⟩ (by decide) _ ⟨by decide, by decide, by decide⟩ (.inl (by decide)), brisk_other _ (by decide)⟩

theorem gripI_axis : ∀ c ∈ gripI, AxisFine c := by
  intro c hc
  have hok := (gripI_brisk c hc).1.ok
  simp only [gripI, List.mem_cons, List.not_mem_nil, or_false] at hc
  rcases hc with rfl | rfl
  · exact ⟨hok, fun _ _ e => (by cases e), fun e => (by cases e)⟩
  · refine ⟨hok, fun j rest _ e => ?_, fun e => (by cases e)⟩
    injection e with _ e
    subst e
    exact .inr ⟨_, .inl (by decide), rfl, by decide +kernel⟩

theorem gripRx_decode : decode gripRx = [str "QN5M0V20X0Y17.75Z18.1A180B0C90", str "QN6R61"] := by decide +kernel
theorem gripRx_frame : frame (str "QN6R61") = .put (text gripI) := by decide +kernel

theorem gripRx_frames {P : Frame → Prop} (h1 : P (.put (text takeI))) (h2 : P (.put (text gripI))) : ∀ p ∈ decode gripRx, P (frame p) := by
  rw [gripRx_decode]
  intro p hp
  rcases List.mem_cons.1 hp with rfl | hp
  · rw [takeRx_frame]; exact h1
  · rw [List.mem_singleton.1 hp, gripRx_frame]; exact h2

theorem gripRx_sent : BrisklySent gripRx := by
  have hb : ∀ p ∈ decode gripRx, BriskFrame (frame p) := gripRx_frames ⟨takeI, rfl, takeI_brisk, by decide +kernel⟩ ⟨gripI, rfl, gripI_brisk, by decide +kernel⟩
  exact ⟨⟨by decide +kernel, by decide +kernel, fun p hp => careful_of_frame (hb p hp)⟩, hb⟩

theorem gripRx_quick : NeverWaits gripRx := by
  refine ⟨by decide +kernel, by decide +kernel, ?_⟩
  rw [gripRx_decode]
  intro p hp
  rcases List.mem_cons.1 hp with rfl | hp
  · rw [takeRx_frame]; exact ⟨by decide +kernel, by decide +kernel⟩
  · rw [List.mem_singleton.1 hp, gripRx_frame]; exact ⟨by decide +kernel, by decide +kernel⟩

theorem gripRx_queue : QueueOnly gripRx := gripRx_frames (P := fun f => f = .free ∨ f = .empty ∨ f = .erase ∨ (∃ m, f = .put m) ∨ ∃ m, f = .now m ∧ Asks m) (.inr (.inr (.inr (.inl ⟨_, rfl⟩)))) (.inr (.inr (.inr (.inl ⟨_, rfl⟩))))
theorem gripRx_puts : puts gripRx = [text takeI, text gripI] := by
  rw [puts, gripRx_decode]; simp [takeRx_frame, gripRx_frame]
theorem gripRx_nows : nows gripRx = [] := by
  rw [nows, gripRx_decode]; simp [takeRx_frame, gripRx_frame]

/-- C129: a move, then N6R61, for the queue: all hypotheses hold, and from some time on the gripper stands at one degree. -/
theorem C129_demo : ∃ (w0 : World XR) (σ : ℕ → Sys XR) (ev : ℕ → Ev XR), w0.servos = Kit.servos ∧ w0.rxq = gripRx ∧ Endless Kit.cfg w0 (fun _ => 0) σ ev ∧ Unbroken ev ∧
    ∃ e, ∀ n, e ≤ n → ((σ n).w.servos 6).cur = fin (1 / 180 * Real.pi) := by
  let w0 : World XR := { servos := Kit.servos, now := 1, pins := fun _ => false, rxq := gripRx, ee := fun _ => 0, outs := [] }
  let s0 : Sys XR := ⟨w0, setup Kit.cfg fun _ => 0⟩
  have hs : ∀ n, w0.rxq ++ arrivals (sofar (evs Kit.cfg s0) n) = gripRx := fun n => by
    rw [sched_hist_silent, List.append_nil]
  have hc : ∀ n, BrisklySent (w0.rxq ++ arrivals (sofar (evs Kit.cfg s0) n)) := fun n => by rw [hs]; exact gripRx_sent
  have hf : ∀ n f, (hist Kit.cfg s0 n).p ≠ .fault f := fun n => (C81_kit rfl (careful_empty _ rfl) (sched_hist_run Kit.cfg w0 _ n) (hc n).well).1
  have he := endless Kit.cfg w0 _ hf
  have h0 : CountingHost (F := XR) gripRx [] := by
    intro a b e
    obtain ⟨rfl, rfl⟩ := List.append_eq_nil_iff.1 e.symm
    show qSize ((puts (gripRx ++ [])).drop (0 - _)) ≤ QUEUE
    rw [List.append_nil, gripRx_puts, Nat.zero_sub]
    decide +kernel
  refine ⟨w0, _, _, rfl, rfl, he, sched_unbroken _ _ hf, ?_⟩
  obtain ⟨e, g, -⟩ := C129_queue (t := 0) (x := [text takeI]) (before := [⟨78, str "6"⟩]) (after := []) (c := ⟨82, axisDigit 0 :: Dec.text ⟨false, [1], none⟩⟩) (j := 0) (d := ⟨false, [1], none⟩) rfl he rfl hc
    (fun n => by rw [hs]; exact gripRx_quick) (sched_unbroken _ _ hf) (clockRuns_of he 0 fun n _ => by rw [sched_now]; exact Nat.one_pos)
    (fun n => by simpa using counting_quiet h0 (sched_hist_silent Kit.cfg s0 n)) (fun n => by rw [sent, hs]; exact gripRx_queue) (fun n => by rw [sent, hs]; exact gripRx_nows)
    (fun n _ => ⟨[], by rw [sent, hs, gripRx_puts]; rfl, by simp⟩) (fun m hm => by rw [List.mem_singleton.1 hm]; exact ⟨_, rfl, takeI_axis⟩) gripI_axis ⟨rfl, rfl, .inl (by decide)⟩ (by simp)
  refine ⟨e, fun n hn => ?_⟩
  have hv : (⟨false, [1], none⟩ : Dec).val = 1 := by decide +kernel
  have := g n hn
  rw [hv, Rat.cast_one] at this
  exact this

end Mrc.Props
