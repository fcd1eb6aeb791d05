import Verif.Props.Joint32
import Verif.Props.Told32Demo
import Verif.Props.WaitingDemo
/-
A run that satisfies all hypotheses of C107.
-/
set_option maxRecDepth 100000
set_option linter.unusedSimpArgs false
namespace Mrc.Props
open Mrc Mrc.Prog Mrc.Spec Mrc.Demo

def jointRx : List Byte := str ":QM0V70N5R01R12R23R34R45R56\r"

theorem jointRx_decode : decode jointRx = [81 :: text demo1] := by decide +kernel
theorem jointRx_frame : frame (81 :: text demo1) = .put (text demo1) := by decide +kernel

theorem jointRx_sent : LegiblySent jointRx := by
  have h1 : SafeText 0 (text demo1) := by decide +kernel
  refine ⟨by decide +kernel, by decide +kernel, ?_⟩
  rw [jointRx_decode]; intro p hp; rw [List.mem_singleton.1 hp, jointRx_frame]; exact h1

theorem brisk_demo1 : BriskText (text demo1) := by
  have e : (commands [] (codePart (text demo1))).1 = [str "M0", str "V70", str "N5", str "R01", str "R12", str "R23", str "R34", str "R45", str "R56"] := by decide +kernel
  intro t ht
  rw [e] at ht
  simp only [List.mem_cons, List.not_mem_nil, or_false] at ht
  rcases ht with rfl | rfl | rfl | rfl | rfl | rfl | rfl | rfl | rfl <;> intro h
  · exact absurd h (by decide)
  · exact .inr ⟨⟨false, [7, 0], none⟩, .inl (by decide), by decide +kernel, by decide +kernel⟩
  all_goals exact absurd h (by decide)

theorem jointRx_frames : ∀ p ∈ decode jointRx, JointFrame (frame p) := by
  have j1 : AngleText (text demo1) := by decide +kernel
  rw [jointRx_decode]; intro p hp; rw [List.mem_singleton.1 hp, jointRx_frame]; exact ⟨j1, brisk_demo1⟩

/-- too slow a speed. -/
example : ¬ BriskText (str "M0V0.0001R010") := by
  intro h
  rcases h (str "V0.0001") (by decide +kernel) rfl with h1 | ⟨d, hd, e, hv⟩
  · exact absurd h1 (by decide)
  · have e1 := C27_decimal (F := XR) d hd
    have e2 := C27_decimal (F := XR) ⟨false, [0], some [0, 0, 0, 1]⟩ (.inl (by decide))
    have e3 : Dec.text ⟨false, [0], some [0, 0, 0, 1]⟩ = (str "V0.0001").tail := by decide +kernel
    rw [e3, e, e1] at e2
    have e4 : (d.val : ℝ) = (((⟨false, [0], some [0, 0, 0, 1]⟩ : Dec).val : ℚ) : ℝ) := by
      have : XR.fin (d.val : ℝ) = XR.fin _ := e2
      injection this
    have e5 : d.val = (⟨false, [0], some [0, 0, 0, 1]⟩ : Dec).val := by exact_mod_cast e4
    rw [e5] at hv
    revert hv
    decide +kernel

theorem jointRx_quick : NeverWaits jointRx := by
  refine ⟨by decide +kernel, by decide +kernel, ?_⟩
  rw [jointRx_decode]
  intro p hp
  rw [List.mem_singleton.1 hp, jointRx_frame]
  exact ⟨by decide +kernel, by decide +kernel⟩

theorem jointRx_queue : QueueOnly jointRx := by
  rw [QueueOnly, jointRx_decode]
  intro p hp
  rw [List.mem_singleton.1 hp, jointRx_frame]
  exact .inr (.inr (.inr (.inl ⟨_, rfl⟩)))

theorem jointRx_puts : puts jointRx = [text demo1] := by
  rw [puts, jointRx_decode]; simp [jointRx_frame]

theorem demo1_numbered : Numbered (text demo1) 5 :=
  ⟨demo1.take 2, (demo1.drop 3).take 5, str "5", ⟨82, str "56"⟩, by decide +kernel, demo1_tells.ok, by decide +kernel, by unfold WriteCmd; decide +kernel, by decide +kernel, by decide⟩

variable [L : RX.Libm binary32]

theorem sched_undivided32 (cfg : Cfg F32) (s0 : Sys F32) (hf : ∀ n f, (hist cfg s0 n).p ≠ .fault f) : Undivided32 (evs cfg s0) := by
  intro i s v x t k m n h1 h2 _ _ _ _ _ e3 _ _ hn j g1 g2 e
  have := sched_isr_next cfg s0 j (hf j) e
  rcases Nat.eq_or_lt_of_le (show j + 1 ≤ n from g2) with rfl | g
  · rw [e3] at this; cases this
  · exact hn (j + 1) (by omega) g this

/-- C107: the kit in binary32 with a move to six angles on the line and one interrupt before every pass: all hypotheses hold (for every libm whose square roots are not
negative), so the move is executed, the arm gets to the angles, and the number is reported. -/
theorem C107_demo (hsq : SqrtNonneg binary32) : ∃ (w0 : World F32) (σ : ℕ → Sys F32) (ev : ℕ → Ev F32), w0.servos = Kit.servos ∧ w0.rxq = jointRx ∧ Endless Kit.cfg w0 (fun _ => 0) σ ev ∧
    ∃ k j, ev k = .act (.out (.ghost .queue (text demo1))) ∧ k < j ∧ ev j = .act (.out (.msg (.n1 5))) ∧ (∀ i, k < i → i < j → ¬ Orders ev i) ∧
      ∃ b, SeenAt32 (acts ((sofar ev j).drop (k + 1))) b ∧ ∀ i, |kitLogical b i - radians (demoD i)| < 11 / 100000 := by
  let w0 : World F32 := { servos := Kit.servos, now := 1, pins := fun _ => false, rxq := jointRx, ee := fun _ => 0, outs := [] }
  let s0 : Sys F32 := ⟨w0, setup Kit.cfg fun _ => 0⟩
  have hs : ∀ n, w0.rxq ++ arrivals (sofar (evs Kit.cfg s0) n) = jointRx := fun n => by
    rw [sched_hist_silent, List.append_nil]
  have hc : ∀ n, LegiblySent (w0.rxq ++ arrivals (sofar (evs Kit.cfg s0) n)) := fun n => by rw [hs]; exact jointRx_sent
  have hj : ∀ n, ∀ p ∈ decode (w0.rxq ++ arrivals (sofar (evs Kit.cfg s0) n)), JointFrame (frame p) := fun n => by rw [hs]; exact jointRx_frames
  have hst : StoredProgram w0.ee [] := ⟨by simp, by decide, fun k b _ hk => by
    cases k with
    | zero => simp at hk; exact hk
    | succ k => simp at hk⟩
  have hmem : ∃ L, StoredProgram w0.ee L ∧ ∀ m ∈ L, SafeText 0 m ∧ JointText m := ⟨[], hst, by simp⟩
  have hf : ∀ n f, (hist Kit.cfg s0 n).p ≠ .fault f := fun n =>
    (C104_numbers kitAngles rfl (joint_angle_mem hmem) (sched_hist_run Kit.cfg w0 _ n) (hc n) fun p hp => joint_angle_frame (hj n p hp)).1
  have he := endless Kit.cfg w0 _ hf
  have h0 : CountingHost (F := F32) jointRx [] := by
    intro a b e
    obtain ⟨rfl, rfl⟩ := List.append_eq_nil_iff.1 e.symm
    show qSize ((puts (jointRx ++ [])).drop (0 - _)) ≤ QUEUE
    rw [List.append_nil, jointRx_puts, Nat.zero_sub]
    decide +kernel
  refine ⟨w0, _, _, rfl, rfl, he, ?_⟩
  exact C107_sent_angles (t := 0) kitAngles rfl he hsq hmem hc hj (sched_undivided32 _ _ hf) (quick_empty _ rfl) (fun n => by rw [hs]; exact jointRx_quick)
    (clockRuns_of he 0 fun n _ => by rw [sched_now]; exact Nat.one_pos)
    (fun n => by simpa using counting_quiet h0 (sched_hist_silent Kit.cfg s0 n)) (fun n => by rw [sent, hs]; exact jointRx_queue)
    (by rw [sent, hs, jointRx_puts]; simp) demo1_tells demo1_M0 demo1_numbered demo1_last demo1_fits

end Mrc.Props
