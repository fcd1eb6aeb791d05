import Verif.Props.Pins
import Verif.Props.InForceDemo
import Verif.Props.ReadBackDemo
/-
C126 for everything a counting host sends, and a run that satisfies all hypotheses.
-/
set_option maxRecDepth 100000
set_option linter.unusedSectionVars false
namespace Mrc.Props
open Mrc Mrc.Prog Mrc.Spec Mrc.Demo Mrc.Rest

section
variable {F : Type} [FloatOps F]

/-- while only the queue is served: when the next instruction begins, exactly that was done which the instructions begun so far say. -/
theorem pins_queue {cfg : Cfg F} {w0 : World F} {junk : Nat → Byte} {σ : ℕ → Sys F} {ev : ℕ → Ev F} (h : Endless cfg w0 junk σ ev) {src : Src} {m : List Byte} : ∀ (ps : List (List Cmd)) {k : ℕ} (_ : ev k = .act (.out (.ghost src m)))
    (_ : ∀ m, .out (.ghost .eeprom m) ∉ acts (sofar ev k)) (_ : ∀ m, .out (.ghost .immediate m) ∉ acts (sofar ev k)) (_ : (view ev k).started = ps.map text) (_ : ∀ x ∈ ps, PinsOk x) {ops : List PinOp} (_ : PinsTold cfg.pinMap ps.flatten ops),
    pinOps (acts (sofar ev k)) = ops := by
  intro ps
  induction ps using List.reverseRecOn generalizing src m with
  | nil =>
    intro k _ n1 n2 hv _ ops ht
    cases ht
    refine C126_before (h.run k).trace (post := []) (List.append_nil _).symm ?_
    rintro a ha ⟨s, m, rfl⟩
    cases s with
    | immediate => exact n2 m ha
    | eeprom => exact n1 m ha
    | queue =>
      rw [view_started] at hv
      have : m ∈ (acts (sofar ev k)).filterMap fromQueue := List.mem_filterMap.2 ⟨_, ha, rfl⟩
      rw [hv] at this; simp at this
  | append_singleton ps cs ih =>
    intro k hk n1 n2 hv hok ops ht
    rw [List.flatten_append, List.flatten_singleton] at ht
    obtain ⟨x, y, rfl, hx, hy⟩ := pinsTold_split ht
    rw [List.map_append] at hv
    obtain ⟨k', g1, g2, g3⟩ := started_when (rest := []) hv
    have split : acts (sofar ev k) = acts (sofar ev k') ++ .out (.ghost .queue (text cs)) :: acts (span ev (k' + 1) (k - (k' + 1))) := by
      rw [sofar_span, span_split (c := k') (Nat.zero_le _) (by omega) g2]
      simp [sofar_span]
    have sub : ∀ a, a ∈ acts (sofar ev k') → a ∈ acts (sofar ev k) := fun a ha => by rw [split]; simp [ha]
    have e1 := ih g2 (fun m hm => n1 m (sub _ hm)) (fun m hm => n2 m (sub _ hm)) g3 (fun c hc => hok c (by simp [hc])) hx
    have hmid : ∀ a ∈ acts (span ev (k' + 1) (k - (k' + 1))), ¬ BeginsI a := by
      rintro a ha ⟨s, m, rfl⟩
      have hin : Act.out (Out.ghost s m) ∈ acts (sofar ev k) := by rw [split]; simp [ha]
      cases s with
      | immediate => exact n2 m hin
      | eeprom => exact n1 m hin
      | queue =>
        rw [view_started] at hv g3
        rw [split, List.filterMap_append, g3, List.filterMap_cons] at hv
        have : (acts (span ev (k' + 1) (k - (k' + 1)))).filterMap fromQueue = [] := by simpa [fromQueue] using hv
        have hm : m ∈ (acts (span ev (k' + 1) (k - (k' + 1)))).filterMap fromQueue := List.mem_filterMap.2 ⟨_, ha, rfl⟩
        rw [this] at hm; cases hm
    have htr : acts (sofar ev (k + 1)) = acts (sofar ev k') ++ .out (.ghost .queue (text cs)) :: acts (span ev (k' + 1) (k - (k' + 1))) ++ .out (.ghost src m) :: [] := by
      rw [← split]; simp [sofar, List.range_succ, hk, acts]
    have e2 := C126_exact (h.run (k + 1)).trace htr hmid (hok cs (by simp)) hy
    rw [split, pinOps_append, pinOps_cons, e1, show opOf (Act.out (Out.ghost Src.queue (text cs)) : Act F) = none from rfl, e2]
    rfl
end

section
variable {F : Type} [FloatOps F] {cfg : Cfg F} {w0 : World F} {junk : Nat → Byte} {σ : ℕ → Sys F} {ev : ℕ → Ev F} (h : Endless cfg w0 junk σ ev) (h0 : w0.ee 0 = 0)
  (hh : ∀ n, CountingHost w0.rxq (sofar ev n)) (hq : ∀ n, QueueOnly (sent w0.rxq (sofar ev n))) (hno : ∀ n, nows (sent w0.rxq (sofar ev n)) = [])
  (hex : ∀ t, ∃ m, t ≤ m ∧ puts (sent w0.rxq (sofar ev t)) <+: (view ev m).started)

include h h0 hq hno in
/-- with only the queue in use nothing begins from elsewhere. -/
theorem queue_alone (k : ℕ) : (∀ m, .out (.ghost .eeprom m) ∉ acts (sofar ev k)) ∧ ∀ m, .out (.ghost .immediate m) ∉ acts (sofar ev k) := by
  refine ⟨Turns.no_storage h h0 (fun n p hp m e => ?_) k, fun m hm => ?_⟩
  · rcases hq n p hp with e' | e' | e' | ⟨m', e'⟩ | ⟨m', e', -⟩ <;> rw [e'] at e <;> cases e
  · obtain ⟨a, b, e⟩ := List.append_of_mem hm
    have h5 := (C91_at_once (h.run k).trace e rfl).1 m rfl
    have h6 : m ∈ nows (rxBytes a) := by rw [h5]; simp
    have h7 := hno k
    rw [sent, (h.run k).fifo, e, rxBytes_append, List.append_assoc, nows, decode_append, List.filterMap_append, List.append_eq_nil_iff] at h7
    rw [nows, h7.1] at h6; cases h6

include h h0 hq hno hex

theorem pins_last {t : ℕ} {ps : List (List Cmd)} {cs : List Cmd} {rest : List (List Byte)} (hp : puts (sent w0.rxq (sofar ev t)) = ps.map text ++ text cs :: rest) (hok : ∀ x ∈ ps, PinsOk x) {ops : List PinOp}
    (ht : PinsTold cfg.pinMap ps.flatten ops) : ∃ k, ev k = .act (.out (.ghost .queue (text cs))) ∧ (view ev k).started = ps.map text ∧ pinOps (acts (sofar ev k)) = ops := by
  obtain ⟨t', -, y', hy'⟩ := hex t
  rw [hp, List.append_assoc] at hy'
  obtain ⟨k, -, hk, hv⟩ := started_when hy'.symm
  obtain ⟨n1, n2⟩ := queue_alone h h0 hq hno k
  exact ⟨k, hk, hv, pins_queue h ps hk n1 n2 hv hok ht⟩

/-- C126_queue for every robot and arithmetic, if everything sent is executed. -/
theorem pins_of {t : ℕ} {ps : List (List Cmd)} {rest : List (List Byte)} (hp : puts (sent w0.rxq (sofar ev t)) = ps.map text ++ rest) (hok : ∀ x ∈ ps, PinsOk x) {ops : List PinOp}
    (ht : PinsTold cfg.pinMap ps.flatten ops) : ∃ n, pinOps (acts (sofar ev n)) = ops := by
  rcases List.eq_nil_or_concat ps with rfl | ⟨ps', cs, rfl⟩
  · cases ht; exact ⟨0, rfl⟩
  rw [List.concat_eq_append] at *
  rw [List.flatten_append, List.flatten_singleton] at ht
  obtain ⟨x, y, rfl, hx, hy⟩ := pinsTold_split ht
  rw [List.map_append, List.append_assoc] at hp
  obtain ⟨k, hk, -, e1⟩ := pins_last h h0 hq hno hex hp (fun c hc => hok c (by simp [hc])) hx
  obtain ⟨e, -, -, e2⟩ := C126_done h hk (hok cs (by simp)) hy
  exact ⟨e, by rw [e2, e1]⟩

include hh in
/-- C126_queue_rest, likewise. -/
theorem pins_rest_of {t : ℕ} {ps : List (List Cmd)} (hp : ∀ n, t ≤ n → puts (sent w0.rxq (sofar ev n)) = ps.map text) (hok : ∀ x ∈ ps, PinsOk x) {ops : List PinOp}
    (ht : PinsTold cfg.pinMap ps.flatten ops) : ∃ n, ∀ n', n ≤ n' → pinOps (acts (sofar ev n')) = ops := by
  have hst : ∀ n, t ≤ n → (acts (sofar ev n)).filterMap fromQueue <+: ps.map text := by
    intro n hn
    rw [← view_started, ← hp n hn]
    refine C89_started (h.run n) (hh n) fun p hp e => ?_
    rcases hq n p hp with e' | e' | e' | ⟨m', e'⟩ | ⟨m', e', -⟩ <;> rw [e'] at e <;> cases e
  rcases List.eq_nil_or_concat ps with rfl | ⟨ps', cs, rfl⟩
  · cases ht
    refine ⟨t, fun n hn => C126_before (h.run n).trace (post := []) (List.append_nil _).symm ?_⟩
    obtain ⟨n1, n2⟩ := queue_alone h h0 hq hno n
    rintro a ha ⟨s, m, rfl⟩
    cases s with
    | immediate => exact n2 m ha
    | eeprom => exact n1 m ha
    | queue =>
      have : m ∈ (acts (sofar ev n)).filterMap fromQueue := List.mem_filterMap.2 ⟨_, ha, rfl⟩
      exact absurd ((hst n hn).subset this) (by simp)
  rw [List.concat_eq_append] at *
  rw [List.flatten_append, List.flatten_singleton] at ht
  obtain ⟨x, y, rfl, hx, hy⟩ := pinsTold_split ht
  have hpt := hp t le_rfl
  rw [List.map_append] at hpt
  obtain ⟨k, hk, hv, e1⟩ := pins_last (rest := []) h h0 hq hno hex hpt (fun c hc => hok c (by simp [hc])) hx
  obtain ⟨e, e3, -, e2⟩ := C126_done h hk (hok cs (by simp)) hy
  refine ⟨max e t, fun n hn => ?_⟩
  have hen : e ≤ n := le_trans (le_max_left _ _) hn
  have split : ∀ n, k < n → acts (sofar ev n) = acts (sofar ev k) ++ .out (.ghost .queue (text cs)) :: acts (span ev (k + 1) (n - (k + 1))) := fun n hkn => by
    rw [sofar_span, span_split (c := k) (Nat.zero_le _) (by omega) hk]
    simp [sofar_span]
  have hmid : ∀ a ∈ acts (span ev (k + 1) (n - (k + 1))), ¬ BeginsI a := by
    obtain ⟨n1, n2⟩ := queue_alone h h0 hq hno n
    rintro a ha ⟨s, m, rfl⟩
    have hin : Act.out (Out.ghost s m) ∈ acts (sofar ev n) := by rw [split n (by omega)]; simp [ha]
    cases s with
    | immediate => exact n2 m hin
    | eeprom => exact n1 m hin
    | queue =>
      have hl := (hst n (le_trans (le_max_right _ _) hn)).length_le
      rw [view_started] at hv
      rw [split n (by omega), List.filterMap_append, hv, List.filterMap_cons] at hl
      have hm : m ∈ (acts (span ev (k + 1) (n - (k + 1)))).filterMap fromQueue := List.mem_filterMap.2 ⟨_, ha, rfl⟩
      have := List.length_pos_of_mem hm
      have e' : fromQueue (Act.out (Out.ghost Src.queue (text cs)) : Act F) = some (text cs) := rfl
      rw [e'] at hl
      simp only [List.length_append, List.length_map, List.length_cons, List.length_nil] at hl
      omega
  obtain ⟨T, hT⟩ : ∃ T, pinOps (acts (sofar ev n)) = pinOps (acts (sofar ev e)) ++ T := by
    obtain ⟨d, rfl⟩ := Nat.exists_eq_add_of_le hen
    clear hn hen hmid
    induction d with
    | zero => exact ⟨[], by simp⟩
    | succ d ih =>
      obtain ⟨T, hT⟩ := ih
      refine ⟨T ++ pinOps (acts [ev (e + d)]), ?_⟩
      rw [sofar_span, ← Nat.add_assoc, span_succ, acts_append, pinOps_append, ← sofar_span, hT]
      simp
  have g1 := (C126_only (h.run n).trace (post := []) (by rw [split n (by omega), List.append_nil]) hmid (hok cs (by simp)) hy).length_le
  have g2 := congrArg List.length hT
  rw [e2, e1, split n (by omega), pinOps_append, pinOps_cons, e1] at g2
  simp [opOf] at g2
  have : T = [] := List.eq_nil_of_length_eq_zero (by omega)
  rw [hT, e2, e1, this, List.append_nil]
end

section
variable {w0 : World XR} (hw : w0.servos = Kit.servos) {junk : Nat → Byte} {σ : ℕ → Sys XR} {ev : ℕ → Ev XR} (h : Endless Kit.cfg w0 junk σ ev) (h0 : w0.ee 0 = 0)
  (hc : ∀ n, BrisklySent (w0.rxq ++ arrivals (sofar ev n))) (hnw : ∀ n, NeverWaits (w0.rxq ++ arrivals (sofar ev n)))
  (hu : Unbroken ev) (hclk : ClockRuns σ ev) (hh : ∀ n, CountingHost w0.rxq (sofar ev n)) (hq : ∀ n, QueueOnly (sent w0.rxq (sofar ev n))) (hno : ∀ n, nows (sent w0.rxq (sofar ev n)) = [])
include hw h h0 hc hnw hu hclk hh hq hno

/-- **C126**, total correctness for the queue (C106): from the bytes sent to the pins. When a counting host has sent the instructions `ps` for the queue, there is a moment at which exactly that was done to
the pins, since power-up, which the commands of these instructions say, in their order. -/
theorem C126_queue {t : ℕ} {ps : List (List Cmd)} {rest : List (List Byte)} (hp : puts (sent w0.rxq (sofar ev t)) = ps.map text ++ rest) (hok : ∀ x ∈ ps, PinsOk x) {ops : List PinOp}
    (ht : PinsTold Kit.pinMap ps.flatten ops) : ∃ n, pinOps (acts (sofar ev n)) = ops :=
  pins_of h h0 hq hno (fun t => C106_executed hw h (brisk_empty w0.ee h0) (quick_empty w0.ee h0) hc hnw (undivided_of hu) hclk hh hq t) hp hok ht

/-- **C126**: and when the host sends nothing more for the queue, it stays so for ever. -/
theorem C126_queue_rest {t : ℕ} {ps : List (List Cmd)} (hp : ∀ n, t ≤ n → puts (sent w0.rxq (sofar ev n)) = ps.map text) (hok : ∀ x ∈ ps, PinsOk x) {ops : List PinOp}
    (ht : PinsTold Kit.pinMap ps.flatten ops) : ∃ n, ∀ n', n ≤ n' → pinOps (acts (sofar ev n')) = ops :=
  pins_rest_of h h0 hh hq hno (fun t => C106_executed hw h (brisk_empty w0.ee h0) (quick_empty w0.ee h0) hc hnw (undivided_of hu) hclk hh hq t) hp hok ht
end

/-- N6O11O20 -/
def pinsI : List Cmd := [⟨78, str "6"⟩, ⟨79, str "11"⟩, ⟨79, str "20"⟩]
def pinsRx : List Byte := takeRx ++ str ":QN6O11O20\r"

theorem pinsI_ok : PinsOk pinsI := by
  refine ⟨fun c hc => ?_, fun c hc e => ?_⟩
  · simp only [pinsI, List.mem_cons, List.not_mem_nil, or_false] at hc
    rcases hc with rfl | rfl | rfl <;> exact ⟨by decide, by decide, by decide⟩
  · simp only [pinsI, List.mem_cons, List.not_mem_nil, or_false] at hc
    rcases hc with rfl | rfl | rfl
    · rcases e with e | e <;> cases e
    · exact ⟨1, 1, [], by decide⟩
    · exact ⟨2, 0, [], by decide⟩

theorem takeI_pins : PinsOk takeI := ⟨takeI_ok, fun c hc e => by
  have : ∀ c ∈ takeI, c.letter ≠ 73 ∧ c.letter ≠ 79 := by decide +kernel
  rcases e with e | e
  · exact absurd e (this c hc).1
  · exact absurd e (this c hc).2⟩

theorem pinsI_brisk : ∀ c ∈ pinsI, Careful c ∧ Brisk c := by
  intro c hc
  have hp := pinsI_ok.pin c hc
  have hok := pinsI_ok.ok c hc
  have : ∀ c ∈ pinsI, c.letter ∉ str "XYZABCVR" := by decide +kernel
  have hl := this c hc
  refine ⟨⟨hok, fun e => ?_, fun e => ?_, fun e => ?_, fun e => ?_, hp⟩, brisk_other _ fun e => ?_⟩
  · rcases e with e | e | e <;> exact absurd (by rw [e]; decide) hl
  · rcases e with e | e | e <;> exact absurd (by rw [e]; decide) hl
  all_goals exact absurd (by rw [e]; decide) hl

theorem pinsRx_decode : decode pinsRx = [str "QN5M0V20X0Y17.75Z18.1A180B0C90", str "QN6O11O20"] := by decide +kernel
theorem pinsRx_frame : frame (str "QN6O11O20") = .put (text pinsI) := by decide +kernel

theorem pinsRx_frames {P : Frame → Prop} (h1 : P (.put (text takeI))) (h2 : P (.put (text pinsI))) : ∀ p ∈ decode pinsRx, P (frame p) := by
  rw [pinsRx_decode]
  intro p hp
  rcases List.mem_cons.1 hp with rfl | hp
  · rw [takeRx_frame]; exact h1
  · rw [List.mem_singleton.1 hp, pinsRx_frame]; exact h2

theorem pinsRx_sent : BrisklySent pinsRx := by
  have hb : ∀ p ∈ decode pinsRx, BriskFrame (frame p) := pinsRx_frames ⟨takeI, rfl, takeI_brisk, by decide +kernel⟩ ⟨pinsI, rfl, pinsI_brisk, by decide +kernel⟩
  exact ⟨⟨by decide +kernel, by decide +kernel, fun p hp => careful_of_frame (hb p hp)⟩, hb⟩

theorem pinsRx_quick : NeverWaits pinsRx := by
  refine ⟨by decide +kernel, by decide +kernel, ?_⟩
  rw [pinsRx_decode]
  intro p hp
  rcases List.mem_cons.1 hp with rfl | hp
  · rw [takeRx_frame]; exact ⟨by decide +kernel, by decide +kernel⟩
  · rw [List.mem_singleton.1 hp, pinsRx_frame]; exact ⟨by decide +kernel, by decide +kernel⟩

theorem pinsRx_queue : QueueOnly pinsRx := pinsRx_frames (P := fun f => f = .free ∨ f = .empty ∨ f = .erase ∨ (∃ m, f = .put m) ∨ ∃ m, f = .now m ∧ Asks m) (.inr (.inr (.inr (.inl ⟨_, rfl⟩)))) (.inr (.inr (.inr (.inl ⟨_, rfl⟩))))
theorem pinsRx_puts : puts pinsRx = [text takeI, text pinsI] := by
  rw [puts, pinsRx_decode]; simp [takeRx_frame, pinsRx_frame]
theorem pinsRx_nows : nows pinsRx = [] := by
  rw [nows, pinsRx_decode]; simp [takeRx_frame, pinsRx_frame]

theorem pinsTold_none {map : List ℕ} {cs : List Cmd} (h : ∀ c ∈ cs, c.letter ≠ 73 ∧ c.letter ≠ 79) : PinsTold map cs [] := by
  induction cs with
  | nil => exact .nil
  | cons c cs ih => exact .cons (a := []) (b := []) (.none (h c (by simp)).1 (h c (by simp)).2) (ih fun d hd => h d (by simp [hd]))

theorem pinsTold_append {map : List ℕ} {a b : List Cmd} {x y : List PinOp} (h : PinsTold map a x) (h' : PinsTold map b y) : PinsTold map (a ++ b) (x ++ y) := by
  induction h with
  | nil => exact h'
  | cons h1 _ ih => rw [List.append_assoc]; exact .cons h1 ih

/-- what takeI and pinsI say: pin 11 of the board is switched on, pin 12 off. -/
theorem pinsI_told : PinsTold Kit.pinMap ([takeI, pinsI].flatten) [.mode 11 .output, .write 11 true, .mode 12 .output, .write 12 false] := by
  have h1 : PinsTold Kit.pinMap takeI [] := pinsTold_none (by decide +kernel)
  have h2 : PinsTold Kit.pinMap pinsI [.mode 11 .output, .write 11 true, .mode 12 .output, .write 12 false] := by
    refine .cons (a := []) (.none (by decide) (by decide)) (.cons (a := [.mode 11 .output, .write 11 true]) (.on (p := 1) ⟨rfl, [], by decide⟩ rfl)
      (.cons (a := [.mode 12 .output, .write 12 false]) (b := []) (.off (p := 2) ⟨rfl, [], by decide⟩ rfl) .nil))
  have := pinsTold_append h1 (pinsTold_append h2 (b := []) .nil)
  simpa using this

/-- C126: a move, then N6O11O20, for the queue: all hypotheses hold; pin 11 is switched on and pin 12 off, and nothing else ever happens to a pin. -/
theorem C126_demo : ∃ (w0 : World XR) (σ : ℕ → Sys XR) (ev : ℕ → Ev XR), w0.servos = Kit.servos ∧ w0.rxq = pinsRx ∧ Endless Kit.cfg w0 (fun _ => 0) σ ev ∧ Unbroken ev ∧
    ∃ n, ∀ n', n ≤ n' → pinOps (acts (sofar ev n')) = [.mode 11 .output, .write 11 true, .mode 12 .output, .write 12 false] := by
  let w0 : World XR := { servos := Kit.servos, now := 1, pins := fun _ => false, rxq := pinsRx, ee := fun _ => 0, outs := [] }
  let s0 : Sys XR := ⟨w0, setup Kit.cfg fun _ => 0⟩
  have hs : ∀ n, w0.rxq ++ arrivals (sofar (evs Kit.cfg s0) n) = pinsRx := fun n => by
    rw [sched_hist_silent, List.append_nil]
  have hc : ∀ n, BrisklySent (w0.rxq ++ arrivals (sofar (evs Kit.cfg s0) n)) := fun n => by rw [hs]; exact pinsRx_sent
  have hf : ∀ n f, (hist Kit.cfg s0 n).p ≠ .fault f := fun n => (C81_kit rfl (careful_empty _ rfl) (sched_hist_run Kit.cfg w0 _ n) (hc n).well).1
  have he := endless Kit.cfg w0 _ hf
  have h0 : CountingHost (F := XR) pinsRx [] := by
    intro a b e
    obtain ⟨rfl, rfl⟩ := List.append_eq_nil_iff.1 e.symm
    show qSize ((puts (pinsRx ++ [])).drop (0 - _)) ≤ QUEUE
    rw [List.append_nil, pinsRx_puts, Nat.zero_sub]
    decide +kernel
  refine ⟨w0, _, _, rfl, rfl, he, sched_unbroken _ _ hf, ?_⟩
  exact C126_queue_rest (t := 0) (ps := [takeI, pinsI]) rfl he rfl hc (fun n => by rw [hs]; exact pinsRx_quick) (sched_unbroken _ _ hf)
    (clockRuns_of he 0 fun n _ => by rw [sched_now]; exact Nat.one_pos)
    (fun n => by simpa using counting_quiet h0 (sched_hist_silent Kit.cfg s0 n)) (fun n => by rw [sent, hs]; exact pinsRx_queue) (fun n => by rw [sent, hs]; exact pinsRx_nows)
    (fun n _ => by rw [sent, hs, pinsRx_puts]; rfl) (by simpa using ⟨takeI_pins, pinsI_ok⟩) pinsI_told

end Mrc.Props
