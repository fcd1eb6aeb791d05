import Verif.Props.Rest
import Verif.Props.Rest32
import Verif.Props.Waiting
import Verif.Props.WaitingDemo
import Verif.Props.Joint32Demo
/-
C109 for everything a counting host sends, and a run that satisfies all its hypotheses.
-/
set_option maxRecDepth 100000
set_option linter.unusedSimpArgs false
namespace Mrc.Props
open Mrc Mrc.Prog Mrc.Spec Mrc.Demo Mrc.Rest

theorem calm_of_none {F : Type} [FloatOps F] {ev : ℕ → Ev F} (h : OnlyAsksNow ev 0) : CalmImmediates ev := fun k m e hm => absurd (Asd.NoPlace.of_aside (Asd.aside_of_asks (h k (Nat.zero_le _) m e))) hm

/-- **C109**, total correctness: the kit over the exact numbers, a careful host that asks for no crawling speed, uses the queue only, counts the free space and never makes the device
wait; interrupts that do not fall into the command of a servo; a clock that runs. Every numbered move to six angles within the ranges that is sent is executed and reported as finished,
and from the report on the arm is at these angles until a servo is commanded again. -/
theorem C109_sent {w0 : World XR} (hw : w0.servos = Kit.servos) {junk : Nat → Byte} {σ : ℕ → Sys XR} {ev : ℕ → Ev XR} (h : Endless Kit.cfg w0 junk σ ev)
    (hmem : BriskStorage w0.ee) (hq0 : QuickStorage w0.ee) (hc : ∀ n, BrisklySent (w0.rxq ++ arrivals (sofar ev n))) (hnw : ∀ n, NeverWaits (w0.rxq ++ arrivals (sofar ev n)))
    (hu : Unbroken ev) (hclk : ClockRuns σ ev) (hh : ∀ n, CountingHost w0.rxq (sofar ev n)) (hq : ∀ n, QueueOnly (sent w0.rxq (sofar ev n)))
    {t : ℕ} {cs : List Cmd} (hm : text cs ∈ puts (sent w0.rxq (sofar ev t))) (ht : TellsAngles cs) (hM : Chooses 48 cs) {n : Int} (hn : Numbered (text cs) n)
    {d : Fin 6 → Dec} (hd : ∀ i, Last NamesAngle cs i (d i)) (hfit : KitFits fun i => radians (d i)) :
    ∃ k j, ev k = .act (.out (.ghost .queue (text cs))) ∧ k < j ∧ ev j = .act (.out (.msg (.n1 n))) ∧ (∀ i, k < i → i < j → ¬ Orders ev i) ∧
      ∀ l, j ≤ l → (∀ i : Fin 6, Untouched ev (armServo i) j l) → ∃ b, ArmAt (σ l).w b ∧ ∀ i, |kitLogical b i - radians (d i)| < 11 / 100000 := by
  obtain ⟨k, j, h1, h2, h3, h4, _⟩ := C106_sent_angles hw h hmem hq0 hc hnw (undivided_of hu) hclk hh hq hm ht hM hn hd hfit
  exact ⟨k, j, h1, h2, h3, h4, fun l hl hun => C109_told hw h hmem hc hu (calm_of_none (queueOnly_noImmediate h hq)) h1 (by simp) ht hM hd hfit h2 (.inl ⟨n, h3⟩) (undirected h4) hl hun⟩

theorem sched_unbroken {F : Type} [FloatOps F] (cfg : Cfg F) (s0 : Sys F) (hf : ∀ n f, (hist cfg s0 n).p ≠ .fault f) : Unbroken (evs cfg s0) := by
  intro i s v t k m n h1 h2 _ _ e3 _ _ hn j g1 g2 e
  have := sched_isr_next cfg s0 j (hf j) e
  rcases Nat.eq_or_lt_of_le (show j + 1 ≤ n from g2) with rfl | g
  · rw [e3] at this; cases this
  · exact hn (j + 1) (by omega) g this

theorem demo1_brisk : ∀ c ∈ demo1, Careful c ∧ Brisk c := by
  have e : demo1 = ⟨77, str "0"⟩ :: ⟨86, str "70"⟩ :: ⟨78, str "5"⟩ :: (List.finRange 6).map fun i : Fin 6 => ⟨82, [digitChar ⟨i.val, by omega⟩, digitChar ⟨i.val + 1, by omega⟩]⟩ := by rfl
  have hr : ∀ (i : Fin 10) (x : Fin 10), i.val < 8 → (⟨82, [digitChar i, digitChar x]⟩ : Cmd).Ok := fun i x h => ⟨(by decide : 65 ≤ (82 : Byte).toNat ∧ (82 : Byte).toNat ≤ 90), by revert i x; decide +kernel, by simp⟩
  intro c hc
  rw [e] at hc
  simp only [List.mem_cons, List.mem_map] at hc
  rcases hc with rfl | rfl | rfl | ⟨i, _, rfl⟩
  · exact ⟨careful_plain _ _ ⟨by decide, by decide, by decide⟩ (by decide), brisk_other _ (by decide)⟩
  · exact ⟨careful_number 86 ⟨false, [7, 0], none⟩ ⟨by decide, by decide, by decide⟩ (.inl (by decide)) (by decide) (by decide +kernel), fun _ => .inr ⟨⟨false, [7, 0], none⟩, .inl (by decide), by decide +kernel, by decide +kernel⟩⟩
  · exact ⟨careful_plain _ _ ⟨by decide, by decide, by decide⟩ (by decide), brisk_other _ (by decide)⟩
  · exact ⟨careful_axis ⟨i.val, by omega⟩ (by show i.val < 8; omega) ⟨false, [⟨i.val + 1, by omega⟩], none⟩ (hr _ _ (by show i.val < 8; omega)) (.inl (by simp)), brisk_other _ (by simp)⟩

theorem jointRx_brisk : BrisklySent jointRx := by
  have hb : ∀ p ∈ decode jointRx, BriskFrame (frame p) := by
    rw [jointRx_decode]; intro p hp; rw [List.mem_singleton.1 hp, jointRx_frame]
    exact ⟨demo1, rfl, demo1_brisk, by decide +kernel⟩
  exact ⟨⟨by decide +kernel, by decide +kernel, fun p hp => careful_of_frame (hb p hp)⟩, hb⟩

theorem demo1_kitFits : KitFits fun i => radians (demoD i) := by
  obtain ⟨h1, h2⟩ := demo1_fits
  exact ⟨fun i => ⟨by linarith [(h1 i).1], by linarith [(h1 i).2]⟩, by linarith [h2.1], by linarith [h2.2]⟩

/-- C109: the kit in exact arithmetic, a move to six angles on the line, one interrupt before every pass: all hypotheses hold, and the arm gets to these angles and stays there. -/
theorem C109_demo : ∃ (w0 : World XR) (σ : ℕ → Sys XR) (ev : ℕ → Ev XR), w0.servos = Kit.servos ∧ w0.rxq = jointRx ∧ Endless Kit.cfg w0 (fun _ => 0) σ ev ∧ Unbroken ev ∧ CalmImmediates ev ∧
    ∃ k j, ev k = .act (.out (.ghost .queue (text demo1))) ∧ k < j ∧ ev j = .act (.out (.msg (.n1 5))) ∧ (∀ i, k < i → i < j → ¬ Orders ev i) ∧
      ∀ l, j ≤ l → (∀ i : Fin 6, Untouched ev (armServo i) j l) → ∃ b, ArmAt (σ l).w b ∧ ∀ i, |kitLogical b i - radians (demoD i)| < 11 / 100000 := by
  let w0 : World XR := { servos := Kit.servos, now := 1, pins := fun _ => false, rxq := jointRx, ee := fun _ => 0, outs := [] }
  let s0 : Sys XR := ⟨w0, setup Kit.cfg fun _ => 0⟩
  have hs : ∀ n, w0.rxq ++ arrivals (sofar (evs Kit.cfg s0) n) = jointRx := fun n => by
    rw [sched_hist_silent, List.append_nil]
  have hc : ∀ n, BrisklySent (w0.rxq ++ arrivals (sofar (evs Kit.cfg s0) n)) := fun n => by rw [hs]; exact jointRx_brisk
  have hf : ∀ n f, (hist Kit.cfg s0 n).p ≠ .fault f := fun n => (C81_kit rfl (careful_empty _ rfl) (sched_hist_run Kit.cfg w0 _ n) (hc n).well).1
  have he := endless Kit.cfg w0 _ hf
  have h0 : CountingHost (F := XR) jointRx [] := by
    intro a b e
    obtain ⟨rfl, rfl⟩ := List.append_eq_nil_iff.1 e.symm
    show qSize ((puts (jointRx ++ [])).drop (0 - _)) ≤ QUEUE
    rw [List.append_nil, jointRx_puts, Nat.zero_sub]
    decide +kernel
  have hq : ∀ n, QueueOnly (sent w0.rxq (sofar (evs Kit.cfg s0) n)) := fun n => by rw [sent, hs]; exact jointRx_queue
  refine ⟨w0, _, _, rfl, rfl, he, sched_unbroken _ _ hf, calm_of_none (queueOnly_noImmediate he hq), ?_⟩
  exact C109_sent (t := 0) rfl he (brisk_empty _ rfl) (quick_empty _ rfl) hc (fun n => by rw [hs]; exact jointRx_quick) (sched_unbroken _ _ hf)
    (clockRuns_of he 0 fun n _ => by rw [sched_now]; exact Nat.one_pos)
    (fun n => by simpa using counting_quiet h0 (sched_hist_silent Kit.cfg s0 n)) hq
    (by rw [sent, hs, jointRx_puts]; simp) demo1_tells demo1_M0 demo1_numbered demo1_last demo1_kitFits

/-- C109 in binary32: the same move on the line; all hypotheses hold for every libm whose square roots are not negative. -/
theorem C109_demo_rounded [L : RX.Libm binary32] (hsq : SqrtNonneg binary32) : ∃ (w0 : World F32) (σ : ℕ → Sys F32) (ev : ℕ → Ev F32), w0.servos = Kit.servos ∧ w0.rxq = jointRx ∧
    Endless Kit.cfg w0 (fun _ => 0) σ ev ∧ Unbroken ev ∧ CalmImmediates ev ∧
    ∃ k j, ev k = .act (.out (.ghost .queue (text demo1))) ∧ k < j ∧ ev j = .act (.out (.msg (.n1 5))) ∧ (∀ i, k < i → i < j → ¬ Orders ev i) ∧
      ∀ l, j ≤ l → (∀ i : Fin 6, Untouched ev (armServo i) j l) → ∃ b, ArmAt32 (σ l).w b ∧ ∀ i, |kitLogical b i - radians (demoD i)| < 13 / 100000 := by
  let w0 : World F32 := { servos := Kit.servos, now := 1, pins := fun _ => false, rxq := jointRx, ee := fun _ => 0, outs := [] }
  let s0 : Sys F32 := ⟨w0, setup Kit.cfg fun _ => 0⟩
  have hs : ∀ n, w0.rxq ++ arrivals (sofar (evs Kit.cfg s0) n) = jointRx := fun n => by
    rw [sched_hist_silent, List.append_nil]
  have hc : ∀ n, LegiblySent (w0.rxq ++ arrivals (sofar (evs Kit.cfg s0) n)) := fun n => by rw [hs]; exact jointRx_sent
  have hj : ∀ n, ∀ p ∈ decode (w0.rxq ++ arrivals (sofar (evs Kit.cfg s0) n)), JointFrame (frame p) := fun n => by rw [hs]; exact jointRx_frames
  have hst : StoredProgram w0.ee [] := ⟨by simp, by decide, fun k b _ hk => by
    cases k with
    | zero => simp at hk; exact hk
    | succ k => simp at hk⟩
  have hmem : ∃ L, StoredProgram w0.ee L ∧ ∀ m ∈ L, SafeText 0 m ∧ JointText m := ⟨[], hst, by simp⟩
  have hf : ∀ n f, (hist Kit.cfg s0 n).p ≠ .fault f := fun n =>
    (C104_numbers kitAngles rfl (joint_angle_mem hmem) (sched_hist_run Kit.cfg w0 _ n) (hc n) fun p hp => joint_angle_frame (hj n p hp)).1
  have he := endless Kit.cfg w0 _ hf
  have h0 : CountingHost (F := F32) jointRx [] := by
    intro a b e
    obtain ⟨rfl, rfl⟩ := List.append_eq_nil_iff.1 e.symm
    show qSize ((puts (jointRx ++ [])).drop (0 - _)) ≤ QUEUE
    rw [List.append_nil, jointRx_puts, Nat.zero_sub]
    decide +kernel
  have hq : ∀ n, QueueOnly (sent w0.rxq (sofar (evs Kit.cfg s0) n)) := fun n => by rw [sent, hs]; exact jointRx_queue
  refine ⟨w0, _, _, rfl, rfl, he, sched_unbroken _ _ hf, calm_of_none (queueOnly_noImmediate he hq), ?_⟩
  exact C109_sent_rounded (t := 0) kitAngles rfl he hsq hmem hc hj (sched_unbroken _ _ hf) (quick_empty _ rfl) (fun n => by rw [hs]; exact jointRx_quick)
    (clockRuns_of he 0 fun n _ => by rw [sched_now]; exact Nat.one_pos)
    (fun n => by simpa using counting_quiet h0 (sched_hist_silent Kit.cfg s0 n)) hq
    (by rw [sent, hs, jointRx_puts]; simp) demo1_tells demo1_M0 demo1_numbered demo1_last demo1_fits

end Mrc.Props
