import Verif.Props.FinalWait
/-
C138 in single precision.
-/
set_option maxRecDepth 100000
set_option linter.unusedSectionVars false
namespace Mrc.Props
open Mrc Mrc.Prog Mrc.Spec Mrc.Demo Mrc.Rest Ang Brisk32 XR

/-- **C138** in binary32 (any libm whose square roots are not negative): a counting host that moves the kit by joint angles, whose instructions may wait, in surroundings that oblige. In the end exactly the
conversation about the program was said, exactly what its commands say was done to the pins, and, for ever, the arm is at the six angles told last, to 1.3e-4 radians. -/
theorem C138_rounded [RX.Libm binary32] {cfg : Cfg F32} (hmap : 10 ≤ cfg.pinMap.length) {w0 : World F32} {junk : Nat → Byte} {σ : ℕ → Sys F32} {ev : ℕ → Ev F32} (hk : KitAngles cfg) (hw : w0.servos = Kit.servos)
    (hrun : Endless cfg w0 junk σ ev) (hsq : SqrtNonneg binary32) (h0 : w0.ee 0 = 0) (hc : ∀ n, LegiblySent (w0.rxq ++ arrivals (sofar ev n)))
    (hj : ∀ n, ∀ p ∈ decode (w0.rxq ++ arrivals (sofar ev n)), JointFrame (frame p)) (hu : Unbroken ev)
    (hh : ∀ n, CountingHost w0.rxq (sofar ev n)) (hq : ∀ n, QueueOnly (sent w0.rxq (sofar ev n))) (hno : ∀ n, nows (sent w0.rxq (sofar ev n)) = [])
    (hcl : ∀ n, ∀ m ∈ puts (sent w0.rxq (sofar ev n)), ClearWaits m) (ho : Obliging cfg.pinMap σ ev)
    {t : ℕ} {ps qs : List (List Cmd)} {cs : List Cmd} (hp : ∀ n, t ≤ n → puts (sent w0.rxq (sofar ev n)) = (ps ++ cs :: qs).map text)
    (hok : ∀ x ∈ ps ++ cs :: qs, Simple x ∧ OneNumber x) (hpin : ∀ x ∈ ps ++ cs :: qs, PinsOk x) {ops : List PinOp} (hops : PinsTold cfg.pinMap (ps ++ cs :: qs).flatten ops)
    (hN : ∀ x ∈ ps, Named x) (hr : qs ≠ [] ∨ ∃ n, Numbered (text cs) n) (hs : ∀ x ∈ qs, (∀ c ∈ x, c.Ok) ∧ ∀ c ∈ x, NamesNoPlace c)
    (ht : TellsAngles cs) (hM : Chooses 48 cs) {d : Fin 6 → Dec} (hd : ∀ i, Last NamesAngle cs i (d i)) (hfit : KitFitsBy (1 / 100000) fun i => radians (d i)) :
    Ends ev (ps ++ cs :: qs) ops ∧ ∃ N, ∀ n, N ≤ n → ∃ b, ArmAt32 (σ n).w b ∧ ∀ i, |kitLogical b i - radians (d i)| < 13 / 100000 := by
  have hmem : ∃ L, StoredProgram w0.ee L ∧ ∀ m ∈ L, SafeText 0 m ∧ JointText m := ⟨[], stored_none w0.ee h0, by simp⟩
  have hf := obliging_fair hmap hrun h0 hh hq hcl ho
  refine ⟨C137_ends hrun h0 hh hq hno (parts_RX one32 hsq) hf (fun n s hb i => joint_settles hk hw hrun hmem hc hj (undivided32_of hu) n s hb i) hp hok hpin hops, ?_⟩
  obtain ⟨k0, k, h1, h2, h3, h4, -, h6⟩ := left_alone hrun h0 hh hq hno hp (C107_executed hk hw hrun hsq hmem hc hj (undivided32_of hu) hf hh hq t)
    (fun hb hn => C107_reported hk hw hrun hsq hmem hc hj (undivided32_of hu) hf hb (by simp) hn fun i _ => queueOnly_noImmediate hrun hq i (by omega)) hN hr hs
  exact ⟨k, fun n hn => C109_rounded hk hw hrun hmem hc hj hu (calm_of_none (queueOnly_noImmediate hrun hq)) h1 (by simp) ht hM hd hfit h2 h3 h4 hn (h6 n)⟩

/-! #### a run that satisfies all hypotheses -/

/-- a move to six angles (N5), then N6I11D5. -/
def jointWaitRx : List Byte := jointRx ++ str ":QN6I11D5\r"

theorem jointWaitRx_decode : decode jointWaitRx = [81 :: text demo1, str "QN6I11D5"] := by decide +kernel

theorem jointWaitRx_frames {P : Frame → Prop} (h1 : P (.put (text demo1))) (h2 : P (.put (text awaitI))) : ∀ p ∈ decode jointWaitRx, P (frame p) := by
  rw [jointWaitRx_decode]
  intro p hp
  rcases List.mem_cons.1 hp with rfl | hp
  · rw [jointRx_frame]; exact h1
  · rw [List.mem_singleton.1 hp, awaitRx_frame]; exact h2

theorem jointWaitRx_sent : LegiblySent jointWaitRx := by
  have h1 : SafeText 0 (text demo1) := by decide +kernel
  have h2 : SafeText 0 (text awaitI) := by decide +kernel
  refine ⟨by decide +kernel, by decide +kernel, ?_⟩
  rw [jointWaitRx_decode]
  intro p hp
  rcases List.mem_cons.1 hp with rfl | hp
  · rw [jointRx_frame]; exact h1
  · rw [List.mem_singleton.1 hp, awaitRx_frame]; exact h2

theorem awaitI_joint : JointText (text awaitI) := by
  have j1 : AngleText (text awaitI) := by decide +kernel
  refine ⟨j1, fun t ht h => ?_⟩
  have e : (commands [] (codePart (text awaitI))).1 = [str "N6", str "I11", str "D5"] := by decide +kernel
  rw [e] at ht
  simp only [List.mem_cons, List.not_mem_nil, or_false] at ht
  rcases ht with rfl | rfl | rfl <;> exact absurd h (by decide)

theorem demo1_joint : JointText (text demo1) := ⟨by decide +kernel, brisk_demo1⟩

theorem jointWaitRx_queue : QueueOnly jointWaitRx :=
  jointWaitRx_frames (P := fun f => f = .free ∨ f = .empty ∨ f = .erase ∨ (∃ m, f = .put m) ∨ ∃ m, f = .now m ∧ Asks m) (.inr (.inr (.inr (.inl ⟨_, rfl⟩)))) (.inr (.inr (.inr (.inl ⟨_, rfl⟩))))
theorem jointWaitRx_puts : puts jointWaitRx = [text demo1, text awaitI] := by
  rw [puts, jointWaitRx_decode]; simp [jointRx_frame, awaitRx_frame]
theorem jointWaitRx_nows : nows jointWaitRx = [] := by
  rw [nows, jointWaitRx_decode]; simp [jointRx_frame, awaitRx_frame]

theorem demo1_quiet : ∀ c ∈ demo1, c.letter ≠ 73 ∧ c.letter ≠ 68 := by decide +kernel
theorem demo1_noPins : ∀ c ∈ demo1, c.letter ≠ 73 ∧ c.letter ≠ 79 := by decide
theorem demo1_pins : PinsOk demo1 := ⟨demo1_plain.ok, fun c hc h => by rcases h with h | h; exacts [absurd h (demo1_noPins c hc).1, absurd h (demo1_noPins c hc).2]⟩

theorem jointWait_told : PinsTold Kit.pinMap ([] ++ demo1 :: [awaitI]).flatten [.mode 11 .input_pulldown] := by
  have h1 : PinsTold Kit.pinMap demo1 [] := pinsTold_none demo1_noPins
  have h2 : PinsTold Kit.pinMap awaitI [.mode 11 .input_pulldown] :=
    .cons (a := []) (.none (by decide) (by decide)) (.cons (a := [.mode 11 .input_pulldown]) (b := []) (.input (p := 1) (s := 1) ⟨rfl, [], by decide⟩ rfl)
      (.cons (a := []) (b := []) (.none (by decide) (by decide)) .nil))
  have := pinsTold_append h1 (pinsTold_append h2 (b := []) .nil)
  simpa using this

/-- C138_rounded: the kit in single precision is sent a move to six angles (N5), then N6I11D5: all hypotheses hold for every libm whose square roots are not negative. -/
theorem C138_demo_rounded [RX.Libm binary32] (hsq : SqrtNonneg binary32) : ∃ (w0 : World F32) (σ : ℕ → Sys F32) (ev : ℕ → Ev F32), w0.servos = Kit.servos ∧ w0.rxq = jointWaitRx ∧
    Endless Kit.cfg w0 (fun _ => 0) σ ev ∧ Obliging Kit.pinMap σ ev ∧ Unbroken ev ∧ Ends ev [demo1, awaitI] [.mode 11 .input_pulldown] ∧
    talk 1 [demo1, awaitI] = [.begun 5, .finished 5, .begun 6, .finished 6] ∧ ∃ N, ∀ n, N ≤ n → ∃ b, ArmAt32 (σ n).w b ∧ ∀ i, |kitLogical b i - radians (demoD i)| < 13 / 100000 := by
  let w0 : World F32 := { servos := Kit.servos, now := 4294967295, pins := fun _ => true, rxq := jointWaitRx, ee := fun _ => 0, outs := [] }
  let s0 : Sys F32 := ⟨w0, setup Kit.cfg fun _ => 0⟩
  have hs : ∀ n, w0.rxq ++ arrivals (sofar (evs Kit.cfg s0) n) = jointWaitRx := fun n => by
    rw [sched_hist_silent, List.append_nil]
  have hc : ∀ n, LegiblySent (w0.rxq ++ arrivals (sofar (evs Kit.cfg s0) n)) := fun n => by rw [hs]; exact jointWaitRx_sent
  have hj : ∀ n, ∀ p ∈ decode (w0.rxq ++ arrivals (sofar (evs Kit.cfg s0) n)), JointFrame (frame p) := fun n => by rw [hs]; exact jointWaitRx_frames demo1_joint awaitI_joint
  have hmem : ∃ L, StoredProgram w0.ee L ∧ ∀ m ∈ L, SafeText 0 m ∧ JointText m := ⟨[], stored_none _ rfl, by simp⟩
  have hf : ∀ n f, (hist Kit.cfg s0 n).p ≠ .fault f := fun n =>
    (C104_numbers kitAngles rfl (joint_angle_mem hmem) (sched_hist_run Kit.cfg w0 _ n) (hc n) fun p hp => joint_angle_frame (hj n p hp)).1
  have he := endless Kit.cfg w0 _ hf
  have h0 : CountingHost (F := F32) jointWaitRx [] := by
    intro a b e
    obtain ⟨rfl, rfl⟩ := List.append_eq_nil_iff.1 e.symm
    show qSize ((puts (jointWaitRx ++ [])).drop (0 - _)) ≤ QUEUE
    rw [List.append_nil, jointWaitRx_puts, Nat.zero_sub]
    decide +kernel
  have hh : ∀ n, CountingHost w0.rxq (sofar (evs Kit.cfg s0) n) := fun n => by simpa using counting_quiet h0 (sched_hist_silent Kit.cfg s0 n)
  have hq : ∀ n, QueueOnly (sent w0.rxq (sofar (evs Kit.cfg s0) n)) := fun n => by rw [sent, hs]; exact jointWaitRx_queue
  have hno : ∀ n, nows (sent w0.rxq (sofar (evs Kit.cfg s0) n)) = [] := fun n => by rw [sent, hs]; exact jointWaitRx_nows
  have hput : ∀ n, puts (sent w0.rxq (sofar (evs Kit.cfg s0) n)) = [text demo1, text awaitI] := fun n => by rw [sent, hs, jointWaitRx_puts]
  have hp : ∀ n, 0 ≤ n → puts (sent w0.rxq (sofar (evs Kit.cfg s0) n)) = (([] : List (List Cmd)) ++ demo1 :: [awaitI]).map text := fun n _ => hput n
  have hbeg : ∀ n src m, .out (.ghost src m) ∈ acts (sofar (evs Kit.cfg s0) n) → m = text demo1 ∨ m = text awaitI := by
    intro n src m hm
    obtain ⟨n1, n2⟩ := queue_alone he rfl hq hno n
    cases src with
    | immediate => exact absurd hm (n2 m)
    | eeprom => exact absurd hm (n1 m)
    | queue =>
      have h1 := (begun_sent he rfl hh hq hno hp n).subset (List.mem_filterMap.2 ⟨_, hm, rfl⟩)
      simpa using h1
  have ho := sched_obliging he rfl rfl fun n src m hm => ⟨demo1, demo1_plain.ok, demo1_quiet, hbeg n src m hm⟩
  have hcl : ∀ n, ∀ m ∈ puts (sent w0.rxq (sofar (evs Kit.cfg s0) n)), ClearWaits m := fun n m hm => by
    rw [hput] at hm
    rcases List.mem_cons.1 hm with rfl | hm
    · exact ⟨demo1, rfl, demo1_pins, fun c hc e => absurd e (demo1_quiet c hc).2⟩
    · rw [List.mem_singleton.1 hm]; exact awaitI_clear
  have hu := sched_unbroken _ _ hf
  have hok : ∀ x ∈ ([] : List (List Cmd)) ++ demo1 :: [awaitI], Simple x ∧ OneNumber x := by
    simpa using ⟨⟨demo1_plain, (by unfold OneNumber; decide +kernel)⟩, awaitI_simple, (by unfold OneNumber; decide +kernel)⟩
  have hpin : ∀ x ∈ ([] : List (List Cmd)) ++ demo1 :: [awaitI], PinsOk x := by simpa using ⟨demo1_pins, awaitI_ok⟩
  have key := C138_rounded (cfg := Kit.cfg) (show 10 ≤ Kit.pinMap.length by decide) kitAngles rfl he hsq rfl hc hj hu hh hq hno hcl ho hp hok hpin jointWait_told (by simp) (.inl (by simp)) (by simpa using ⟨awaitI_ok.ok, awaitI_noPlace⟩)
    demo1_tells demo1_M0 demo1_last demo1_fits
  exact ⟨w0, _, _, rfl, rfl, he, ho, hu, key.1, by decide +kernel, key.2⟩

end Mrc.Props
