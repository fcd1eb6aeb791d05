import Verif.Props.WatchKit
import Verif.Props.Final
/-
C137: rounding, robot and timing do not matter for what is said and done to the pins.
-/
set_option maxRecDepth 100000
set_option linter.unusedSectionVars false
namespace Mrc.Props
open Mrc Mrc.Prog Mrc.Spec Mrc.Demo Mrc.Rest

/-- from some time on, for ever, exactly the conversation about `ps` was said, and exactly `ops` was done to the pins. -/
def Ends {F : Type} [FloatOps F] (ev : ℕ → Ev F) (ps : List (List Cmd)) (ops : List PinOp) : Prop :=
  ∃ N, ∀ n, N ≤ n → words (acts (sofar ev n)) = talk 1 ps ∧ pinOps (acts (sofar ev n)) = ops

section
variable {F : Type} [FloatOps F] {cfg : Cfg F} {w0 : World F} {junk : Nat → Byte} {σ : ℕ → Sys F} {ev : ℕ → Ev F} (h : Endless cfg w0 junk σ ev) (h0 : w0.ee 0 = 0)
  (hh : ∀ n, CountingHost w0.rxq (sofar ev n)) (hq : ∀ n, QueueOnly (sent w0.rxq (sofar ev n))) (hno : ∀ n, nows (sent w0.rxq (sofar ev n)) = [])
include h h0 hh hq hno

/-- **C137**: every robot and arithmetic, provided that servos left alone arrive, and again and again there is a pass in which everything waited for is there. A counting host sends the instructions `ps` for
the queue and nothing else. From some time on, for ever, exactly the conversation about `ps` was said, and exactly that was done to the pins which the commands of `ps` say. -/
theorem C137_ends (hP : Parts F) (hf : Fair σ ev) (hs : ∀ n s, Between σ n s → ∀ i, Settles ((σ n).w.servos (armServo i)))
    {t : ℕ} {ps : List (List Cmd)} (hp : ∀ n, t ≤ n → puts (sent w0.rxq (sofar ev n)) = ps.map text) (hok : ∀ x ∈ ps, Simple x ∧ OneNumber x) (hpin : ∀ x ∈ ps, PinsOk x)
    {ops : List PinOp} (ht : PinsTold cfg.pinMap ps.flatten ops) : Ends ev ps ops := by
  have hex := C90_executed h hP hf hh hq hs
  obtain ⟨n1, e1⟩ := talk_rest_of h h0 hh hq hno hex (fun hk hm => by
    obtain ⟨j, h1, h2, -⟩ := C80_reported h hP hk (by simp) hm (fun i _ => queueOnly_noImmediate h hq i (Nat.zero_le _)) hf fun n s _ hb i => hs n s hb i
    exact ⟨j, h1, h2⟩) hp hok
  obtain ⟨n2, e2⟩ := pins_rest_of h h0 hh hq hno hex hp hpin ht
  exact ⟨max n1 n2, fun n hn => ⟨e1 n (by omega), e2 n (by omega)⟩⟩
end

/-- **C137** for the kit over the exact numbers, with a host whose instructions may wait for inputs and for times, and surroundings that oblige (C128). -/
theorem C137_waiting {w0 : World XR} (hw : w0.servos = Kit.servos) {junk : Nat → Byte} {σ : ℕ → Sys XR} {ev : ℕ → Ev XR} (h : Endless Kit.cfg w0 junk σ ev) (h0 : w0.ee 0 = 0)
    (hc : ∀ n, BrisklySent (w0.rxq ++ arrivals (sofar ev n))) (hu : Undivided ev) (hh : ∀ n, CountingHost w0.rxq (sofar ev n)) (hq : ∀ n, QueueOnly (sent w0.rxq (sofar ev n)))
    (hno : ∀ n, nows (sent w0.rxq (sofar ev n)) = []) (hcl : ∀ n, ∀ m ∈ puts (sent w0.rxq (sofar ev n)), ClearWaits m) (ho : Obliging Kit.pinMap σ ev)
    {t : ℕ} {ps : List (List Cmd)} (hp : ∀ n, t ≤ n → puts (sent w0.rxq (sofar ev n)) = ps.map text) (hok : ∀ x ∈ ps, Simple x ∧ OneNumber x) (hpin : ∀ x ∈ ps, PinsOk x)
    {ops : List PinOp} (ht : PinsTold Kit.pinMap ps.flatten ops) : Ends ev ps ops :=
  C137_ends h h0 hh hq hno parts_XR (obliging_fair (cfg := Kit.cfg) (by decide) h h0 hh hq hcl ho) (fun n s hb i => brisk_settles hw h (brisk_empty w0.ee h0) hc hu n s hb i) hp hok hpin ht

section
open Ang Brisk32 XR
/-- **C137** in single precision (C107): the kit, with a host that moves it by joint angles. -/
theorem C137_rounded [RX.Libm binary32] {cfg : Cfg F32} {w0 : World F32} {junk : Nat → Byte} {σ : ℕ → Sys F32} {ev : ℕ → Ev F32} (hk : KitAngles cfg) (hw : w0.servos = Kit.servos)
    (hrun : Endless cfg w0 junk σ ev) (hsq : SqrtNonneg binary32) (h0 : w0.ee 0 = 0) (hc : ∀ n, LegiblySent (w0.rxq ++ arrivals (sofar ev n)))
    (hj : ∀ n, ∀ p ∈ decode (w0.rxq ++ arrivals (sofar ev n)), JointFrame (frame p)) (hu : Undivided32 ev) (hnw : ∀ n, NeverWaits (w0.rxq ++ arrivals (sofar ev n)))
    (hclk : ClockRuns σ ev) (hh : ∀ n, CountingHost w0.rxq (sofar ev n)) (hq : ∀ n, QueueOnly (sent w0.rxq (sofar ev n))) (hno : ∀ n, nows (sent w0.rxq (sofar ev n)) = [])
    {t : ℕ} {ps : List (List Cmd)} (hp : ∀ n, t ≤ n → puts (sent w0.rxq (sofar ev n)) = ps.map text) (hok : ∀ x ∈ ps, Simple x ∧ OneNumber x) (hpin : ∀ x ∈ ps, PinsOk x)
    {ops : List PinOp} (ht : PinsTold cfg.pinMap ps.flatten ops) : Ends ev ps ops :=
  C137_ends hrun h0 hh hq hno (parts_RX one32 hsq) (C106_ready hrun (quick_empty w0.ee h0) hnw hclk)
    (fun n s hb i => joint_settles hk hw hrun ⟨[], stored_none w0.ee h0, by simp⟩ hc hj hu n s hb i) hp hok hpin ht

/-- **C137**: rounding does not matter. The kit computing in single precision and the kit computing exactly, sent the same program by joint angles, with different interrupts, clocks, arrival times, inputs:
in the end both have said the same, both have done the same to the pins, and every axis of the arm is at the same angle, to 2.4e-4 radians, for ever. -/
theorem C137_same [RX.Libm binary32] (hsq : SqrtNonneg binary32) {w0 : World XR} {w1 : World F32} (hw0 : w0.servos = Kit.servos) (hw1 : w1.servos = Kit.servos) {junk junk' : Nat → Byte}
    {σ : ℕ → Sys XR} {ev : ℕ → Ev XR} {σ' : ℕ → Sys F32} {ev' : ℕ → Ev F32} (h : Endless Kit.cfg w0 junk σ ev) (h' : Endless Kit.cfg w1 junk' σ' ev') (h0 : w0.ee 0 = 0) (h1 : w1.ee 0 = 0)
    (hc : ∀ n, BrisklySent (w0.rxq ++ arrivals (sofar ev n))) (hc' : ∀ n, LegiblySent (w1.rxq ++ arrivals (sofar ev' n)))
    (hj' : ∀ n, ∀ p ∈ decode (w1.rxq ++ arrivals (sofar ev' n)), JointFrame (frame p))
    (hnw : ∀ n, NeverWaits (w0.rxq ++ arrivals (sofar ev n))) (hnw' : ∀ n, NeverWaits (w1.rxq ++ arrivals (sofar ev' n)))
    (hu : Unbroken ev) (hu' : Unbroken ev') (hclk : ClockRuns σ ev) (hclk' : ClockRuns σ' ev')
    (hh : ∀ n, CountingHost w0.rxq (sofar ev n)) (hh' : ∀ n, CountingHost w1.rxq (sofar ev' n))
    (hq : ∀ n, QueueOnly (sent w0.rxq (sofar ev n))) (hq' : ∀ n, QueueOnly (sent w1.rxq (sofar ev' n)))
    (hno : ∀ n, nows (sent w0.rxq (sofar ev n)) = []) (hno' : ∀ n, nows (sent w1.rxq (sofar ev' n)) = [])
    {t : ℕ} {ps qs : List (List Cmd)} {cs : List Cmd} (hp : ∀ n, t ≤ n → puts (sent w0.rxq (sofar ev n)) = (ps ++ cs :: qs).map text)
    (hp' : ∀ n, t ≤ n → puts (sent w1.rxq (sofar ev' n)) = (ps ++ cs :: qs).map text)
    (hok : ∀ x ∈ ps ++ cs :: qs, Simple x ∧ OneNumber x) (hpin : ∀ x ∈ ps ++ cs :: qs, PinsOk x) {ops : List PinOp} (hops : PinsTold Kit.pinMap (ps ++ cs :: qs).flatten ops)
    (hN : ∀ x ∈ ps, Named x) (hr : qs ≠ [] ∨ ∃ n, Numbered (text cs) n) (hs : ∀ x ∈ qs, (∀ c ∈ x, c.Ok) ∧ ∀ c ∈ x, NamesNoPlace c)
    (ht : TellsAngles cs) (hC : ClearM cs) (hM : Chooses 48 cs) (hM' : (ps.flatten ++ cs).foldl chosenBy 1 = 0)
    {V : ℚ} (hV : SaysSpeed ((ps.flatten ++ cs).foldl spokenBy none) V) (hV0 : 0 < V)
    {d : Fin 6 → Dec} (hd : ∀ i, Last NamesAngle cs i (d i)) (hfit : KitFitsBy (1 / 100000) fun i => radians (d i)) :
    ∃ N, ∀ n n', N ≤ n → N ≤ n' → words (acts (sofar ev n)) = words (acts (sofar ev' n')) ∧ pinOps (acts (sofar ev n)) = pinOps (acts (sofar ev' n')) ∧
      ∃ b b', ArmAt (σ n).w b ∧ ArmAt32 (σ' n').w b' ∧ ∀ i, |kitLogical b i - kitLogical b' i| < 24 / 100000 := by
  have hfit' : KitFits fun i => radians (d i) := by
    obtain ⟨f1, f2⟩ := hfit
    exact ⟨fun i => ⟨by linarith [(f1 i).1], by linarith [(f1 i).2]⟩, by linarith [f2.1], by linarith [f2.2]⟩
  obtain ⟨n1, e1⟩ := C137_ends h h0 hh hq hno parts_XR (C106_ready h (quick_empty w0.ee h0) hnw hclk) (fun n s hb i => brisk_settles hw0 h (brisk_empty w0.ee h0) hc (undivided_of hu) n s hb i) hp hok hpin hops
  obtain ⟨n2, e2⟩ := C137_rounded kitAngles hw1 h' hsq h1 hc' hj' (undivided32_of hu') hnw' hclk' hh' hq' hno' hp' hok hpin hops
  obtain ⟨n3, e3⟩ := C136_angles hw0 h h0 hc hnw hu hclk hh hq hno hp hN hr hs ht hC hM' hV hV0 hd hfit'
  obtain ⟨n4, e4⟩ := C136_rounded kitAngles hw1 h' hsq h1 hc' hj' hu' hnw' hclk' hh' hq' hno' hp' hN hr hs ht hM hd hfit
  refine ⟨max (max n1 n2) (max n3 n4), fun n n' hn hn' => ?_⟩
  obtain ⟨a1, a2⟩ := e1 n (by omega)
  obtain ⟨a3, a4⟩ := e2 n' (by omega)
  obtain ⟨b, g1, g2⟩ := e3 n (by omega)
  obtain ⟨b', g3, g4⟩ := e4 n' (by omega)
  refine ⟨by rw [a1, a3], by rw [a2, a4], b, b', g1, g3, fun i => ?_⟩
  have a1 := abs_lt.1 (g2 i)
  have a2 := abs_lt.1 (g4 i)
  rw [abs_lt]
  constructor <;> linarith [a1.1, a1.2, a2.1, a2.2]
end

section
open Ang Brisk32 XR
/-- C137: the kit over the exact numbers and the kit in single precision are sent a move (N5) to six angles, with clocks starting at `c` and `c'` and inputs at the levels `p` and `p'`: all hypotheses hold. In the end
both have said N0 5 and N1 5, and the arm is at the same angles. -/
theorem C137_demo [RX.Libm binary32] (hsq : SqrtNonneg binary32) (c c' : ℕ) (hc : 0 < c) (hc' : 0 < c') (p p' : Bool) :
    ∃ (w0 : World XR) (w1 : World F32) (σ : ℕ → Sys XR) (ev : ℕ → Ev XR) (σ' : ℕ → Sys F32) (ev' : ℕ → Ev F32),
    w0.servos = Kit.servos ∧ w1.servos = Kit.servos ∧ w0.rxq = jointRx ∧ w1.rxq = jointRx ∧ w0.now = c ∧ w1.now = c' ∧ w0.pins = (fun _ => p) ∧ w1.pins = (fun _ => p') ∧
    Endless Kit.cfg w0 (fun _ => 0) σ ev ∧ Endless Kit.cfg w1 (fun _ => 0) σ' ev' ∧ Ends ev [demo1] [] ∧ Ends ev' [demo1] [] ∧ talk 1 [demo1] = [.begun 5, .finished 5] ∧
    ∃ N, ∀ n n', N ≤ n → N ≤ n' → words (acts (sofar ev n)) = words (acts (sofar ev' n')) ∧ pinOps (acts (sofar ev n)) = pinOps (acts (sofar ev' n')) ∧
      ∃ b b', ArmAt (σ n).w b ∧ ArmAt32 (σ' n').w b' ∧ ∀ i, |kitLogical b i - kitLogical b' i| < 24 / 100000 := by
  let w0 : World XR := { servos := Kit.servos, now := c, pins := fun _ => p, rxq := jointRx, ee := fun _ => 0, outs := [] }
  let w1 : World F32 := { servos := Kit.servos, now := c', pins := fun _ => p', rxq := jointRx, ee := fun _ => 0, outs := [] }
  let s0 : Sys XR := ⟨w0, setup Kit.cfg fun _ => 0⟩
  let s1 : Sys F32 := ⟨w1, setup Kit.cfg fun _ => 0⟩
  have hs : ∀ n, w0.rxq ++ arrivals (sofar (evs Kit.cfg s0) n) = jointRx := fun n => by rw [sched_hist_silent, List.append_nil]
  have hs' : ∀ n, w1.rxq ++ arrivals (sofar (evs Kit.cfg s1) n) = jointRx := fun n => by rw [sched_hist_silent, List.append_nil]
  have hb : ∀ n, BrisklySent (w0.rxq ++ arrivals (sofar (evs Kit.cfg s0) n)) := fun n => by rw [hs]; exact jointRx_brisk
  have hb' : ∀ n, LegiblySent (w1.rxq ++ arrivals (sofar (evs Kit.cfg s1) n)) := fun n => by rw [hs']; exact jointRx_sent
  have hj : ∀ n, ∀ p ∈ decode (w1.rxq ++ arrivals (sofar (evs Kit.cfg s1) n)), JointFrame (frame p) := fun n => by rw [hs']; exact jointRx_frames
  have hmem : ∃ L, StoredProgram w1.ee L ∧ ∀ m ∈ L, SafeText 0 m ∧ JointText m := ⟨[], stored_none _ rfl, by simp⟩
  have hf : ∀ n f, (hist Kit.cfg s0 n).p ≠ .fault f := fun n => (C81_kit rfl (careful_empty _ rfl) (sched_hist_run Kit.cfg w0 _ n) (hb n).well).1
  have hf' : ∀ n f, (hist Kit.cfg s1 n).p ≠ .fault f := fun n =>
    (C104_numbers kitAngles rfl (joint_angle_mem hmem) (sched_hist_run Kit.cfg w1 _ n) (hb' n) fun p hp => joint_angle_frame (hj n p hp)).1
  have he := endless Kit.cfg w0 _ hf
  have he' := endless Kit.cfg w1 _ hf'
  have h0 : CountingHost (F := XR) jointRx [] := by
    intro a b e
    obtain ⟨rfl, rfl⟩ := List.append_eq_nil_iff.1 e.symm
    show qSize ((puts (jointRx ++ [])).drop (0 - _)) ≤ QUEUE
    rw [List.append_nil, jointRx_puts, Nat.zero_sub]
    decide +kernel
  have h1 : CountingHost (F := F32) jointRx [] := by
    intro a b e
    obtain ⟨rfl, rfl⟩ := List.append_eq_nil_iff.1 e.symm
    show qSize ((puts (jointRx ++ [])).drop (0 - _)) ≤ QUEUE
    rw [List.append_nil, jointRx_puts, Nat.zero_sub]
    decide +kernel
  have hu := sched_unbroken _ _ hf
  have hu' := sched_unbroken _ _ hf'
  have hn : ∀ n, NeverWaits (w0.rxq ++ arrivals (sofar (evs Kit.cfg s0) n)) := fun n => by rw [hs]; exact jointRx_quick
  have hn' : ∀ n, NeverWaits (w1.rxq ++ arrivals (sofar (evs Kit.cfg s1) n)) := fun n => by rw [hs']; exact jointRx_quick
  have hk : ClockRuns _ (evs Kit.cfg s0) := clockRuns_of he 0 fun n _ => by rw [sched_now]; exact hc
  have hk' : ClockRuns _ (evs Kit.cfg s1) := clockRuns_of he' 0 fun n _ => by rw [sched_now]; exact hc'
  have hh : ∀ n, CountingHost w0.rxq (sofar (evs Kit.cfg s0) n) := fun n => by simpa using counting_quiet h0 (sched_hist_silent Kit.cfg s0 n)
  have hh' : ∀ n, CountingHost w1.rxq (sofar (evs Kit.cfg s1) n) := fun n => by simpa using counting_quiet h1 (sched_hist_silent Kit.cfg s1 n)
  have hq : ∀ n, QueueOnly (sent w0.rxq (sofar (evs Kit.cfg s0) n)) := fun n => by rw [sent, hs]; exact jointRx_queue
  have hq' : ∀ n, QueueOnly (sent w1.rxq (sofar (evs Kit.cfg s1) n)) := fun n => by rw [sent, hs']; exact jointRx_queue
  have hno : ∀ n, nows (sent w0.rxq (sofar (evs Kit.cfg s0) n)) = [] := fun n => by rw [sent, hs, nows, jointRx_decode]; simp [jointRx_frame]
  have hno' : ∀ n, nows (sent w1.rxq (sofar (evs Kit.cfg s1) n)) = [] := fun n => by rw [sent, hs', nows, jointRx_decode]; simp [jointRx_frame]
  have hp : ∀ n, 0 ≤ n → puts (sent w0.rxq (sofar (evs Kit.cfg s0) n)) = (([] : List (List Cmd)) ++ demo1 :: []).map text := fun n _ => by rw [sent, hs, jointRx_puts]; rfl
  have hp' : ∀ n, 0 ≤ n → puts (sent w1.rxq (sofar (evs Kit.cfg s1) n)) = (([] : List (List Cmd)) ++ demo1 :: []).map text := fun n _ => by rw [sent, hs', jointRx_puts]; rfl
  have hC : ClearM demo1 := by unfold ClearM; decide
  have hM : (([] : List (List Cmd)).flatten ++ demo1).foldl chosenBy 1 = 0 := by decide
  have hV : SaysSpeed ((([] : List (List Cmd)).flatten ++ demo1).foldl spokenBy none) 70 := ⟨⟨false, [7, 0], none⟩, .inl (by decide), by decide +kernel, by decide +kernel⟩
  have hok : ∀ x ∈ ([] : List (List Cmd)) ++ demo1 :: [], Simple x ∧ OneNumber x := by simpa using ⟨demo1_plain, (by unfold OneNumber; decide +kernel)⟩
  have hnp : ∀ c ∈ demo1, c.letter ≠ 73 ∧ c.letter ≠ 79 := by decide
  have hpin : ∀ x ∈ ([] : List (List Cmd)) ++ demo1 :: [], PinsOk x := by
    simpa using (⟨demo1_plain.ok, fun c hc h => by rcases h with h | h; exacts [absurd h (hnp c hc).1, absurd h (hnp c hc).2]⟩ : PinsOk demo1)
  have hops : PinsTold Kit.pinMap (([] : List (List Cmd)) ++ demo1 :: []).flatten [] := pinsTold_none (by simpa using hnp)
  refine ⟨w0, w1, _, _, _, _, rfl, rfl, rfl, rfl, rfl, rfl, rfl, rfl, he, he', ?_, ?_, by decide +kernel, ?_⟩
  · exact C137_ends he rfl hh hq hno parts_XR (C106_ready he (quick_empty w0.ee rfl) hn hk) (fun n s hb' i => brisk_settles rfl he (brisk_empty w0.ee rfl) hb (undivided_of hu) n s hb' i) hp hok hpin hops
  · exact C137_rounded kitAngles rfl he' hsq rfl hb' hj (undivided32_of hu') hn' hk' hh' hq' hno' hp' hok hpin hops
  · exact C137_same hsq rfl rfl he he' rfl rfl hb hb' hj hn hn' hu hu' hk hk' hh hh' hq hq' hno hno' hp hp' hok hpin hops (by simp) (.inr ⟨5, demo1_numbered⟩) (by simp)
      demo1_tells hC demo1_M0 hM hV (by norm_num) demo1_last demo1_fits
end

end Mrc.Props
