import Verif.Props.Accuracy
import Verif.Props.WaitingDemo
/-
A run that satisfies all hypotheses of C113.
-/
set_option maxRecDepth 100000
set_option linter.unusedSimpArgs false
namespace Mrc.Props
open Mrc Mrc.Prog Mrc.Spec Mrc.Demo Matrix

/-- the numbers of the pose. -/
def takeD : Fin 6 → Dec := ![⟨false, [0], none⟩, ⟨false, [1, 7], some [7, 5]⟩, ⟨false, [1, 8], some [1]⟩, ⟨false, [1, 8, 0], none⟩, ⟨false, [0], none⟩, ⟨false, [9, 0], none⟩]
/-- a coordinate of the pose. -/
def takeC (i : Fin 6) : Cmd := ⟨poseLetter i, (takeD i).text⟩
/-- N5M0V20X0Y17.75Z18.1A180B0C90: the home position turned by 90 degrees. -/
def takeI : List Cmd := [⟨78, str "5"⟩, ⟨77, str "0"⟩, ⟨86, Dec.text ⟨false, [2, 0], none⟩⟩, takeC 0, takeC 1, takeC 2, takeC 3, takeC 4, takeC 5]
def takeRx : List Byte := str ":QN5M0V20X0Y17.75Z18.1A180B0C90\r"

theorem takeD_ok (i : Fin 6) : (takeD i).Ok := by fin_cases i <;> exact .inl (by decide)
theorem takeD_val : ∀ i : Fin 6, -100000000 ≤ (takeD i).val ∧ (takeD i).val ≤ 100000000 := by decide +kernel
theorem takeC_ok (i : Fin 6) : (takeC i).Ok := by fin_cases i <;> exact ⟨by decide, by decide, by decide⟩
theorem takeC_letter : ∀ i : Fin 6, (takeC i).letter ∈ str "XYZABC" := by decide
theorem takeI_cases {c : Cmd} (hc : c ∈ takeI) : c = ⟨78, str "5"⟩ ∨ c = ⟨77, str "0"⟩ ∨ c = ⟨86, Dec.text ⟨false, [2, 0], none⟩⟩ ∨ ∃ i, c = takeC i := by
  simp only [takeI, List.mem_cons, List.not_mem_nil, or_false] at hc
  rcases hc with h | h | h | h | h | h | h | h | h
  · exact .inl h
  · exact .inr (.inl h)
  · exact .inr (.inr (.inl h))
  all_goals exact .inr (.inr (.inr ⟨_, h⟩))

theorem takeC_careful (i : Fin 6) : Careful (takeC i) := by
  have hl := takeC_letter i
  refine ⟨takeC_ok i, fun _ => .inr ⟨takeD i, takeD_ok i, rfl, takeD_val i⟩, fun _ => .inr ⟨takeD i, takeD_ok i, rfl, trivial⟩, fun e => ?_, fun e => ?_, fun e => ?_⟩
  · rw [e] at hl; exact absurd hl (by decide)
  · rw [e] at hl; exact absurd hl (by decide)
  · rcases e with e | e <;> rw [e] at hl <;> exact absurd hl (by decide)

theorem takeI_brisk : ∀ c ∈ takeI, Careful c ∧ Brisk c := by
  intro c hc
  rcases takeI_cases hc with rfl | rfl | rfl | ⟨i, rfl⟩
  · exact ⟨careful_plain _ _ ⟨by decide, by decide, by decide⟩ (by decide), brisk_other _ (by decide)⟩
  · exact ⟨careful_plain _ _ ⟨by decide, by decide, by decide⟩ (by decide), brisk_other _ (by decide)⟩
  · exact ⟨careful_number _ _ ⟨by decide, by decide, by decide⟩ (.inl (by decide)) (by decide) (by decide +kernel), fun _ => .inr ⟨_, .inl (by decide), rfl, by decide +kernel⟩⟩
  · refine ⟨takeC_careful i, brisk_other _ fun e => ?_⟩
    have hl := takeC_letter i
    rw [e] at hl; exact absurd hl (by decide)

theorem takeI_ok : ∀ c ∈ takeI, c.Ok := fun c hc => (takeI_brisk c hc).1.ok

theorem takeRx_decode : decode takeRx = [str "QN5M0V20X0Y17.75Z18.1A180B0C90"] := by decide +kernel
theorem takeRx_frame : frame (str "QN5M0V20X0Y17.75Z18.1A180B0C90") = .put (text takeI) := by decide +kernel

theorem takeRx_sent : BrisklySent takeRx := by
  have hb : ∀ p ∈ decode takeRx, BriskFrame (frame p) := by
    rw [takeRx_decode]
    intro p hp
    rw [List.mem_singleton.1 hp, takeRx_frame]
    exact ⟨takeI, rfl, takeI_brisk, by decide +kernel⟩
  exact ⟨⟨by decide +kernel, by decide +kernel, fun p hp => careful_of_frame (hb p hp)⟩, hb⟩

theorem takeRx_quick : NeverWaits takeRx := by
  refine ⟨by decide +kernel, by decide +kernel, ?_⟩
  rw [takeRx_decode]
  intro p hp
  rw [List.mem_singleton.1 hp, takeRx_frame]
  exact ⟨by decide +kernel, by decide +kernel⟩

theorem takeRx_queue : QueueOnly takeRx := by
  rw [QueueOnly, takeRx_decode]
  intro p hp
  rw [List.mem_singleton.1 hp, takeRx_frame]
  exact .inr (.inr (.inr (.inl ⟨_, rfl⟩)))

theorem takeRx_puts : puts takeRx = [text takeI] := by
  rw [puts, takeRx_decode]; simp [takeRx_frame]

theorem takeI_tells : TellsPose takeI := by
  refine { ok := takeI_ok, axis := ?_, pose := ?_, some := ⟨takeC 0, by simp [takeI], 0, _, takeD_ok 0, rfl⟩, noAngle := ?_ }
  · intro c hc e
    rcases takeI_cases hc with rfl | rfl | rfl | ⟨i, rfl⟩
    · cases e
    · cases e
    · cases e
    · have hl := takeC_letter i
      rw [e] at hl; exact absurd hl (by decide)
  · intro c hc j e
    have hj : ∀ j, poseLetter j ∈ str "XYZABC" := by decide
    have hj := hj j
    rw [← e] at hj
    rcases takeI_cases hc with rfl | rfl | rfl | ⟨i, rfl⟩
    · exact absurd hj (by decide)
    · exact absurd hj (by decide)
    · exact absurd hj (by decide)
    · exact .inr ⟨takeD i, takeD_ok i, rfl, trivial⟩
  · rintro c hc i d ⟨_, rfl⟩
    have : ∀ c ∈ takeI, c.letter ≠ 82 := by decide
    exact this _ hc rfl

theorem takeI_M0 : Chooses 48 takeI := ⟨⟨_, List.mem_cons_of_mem _ List.mem_cons_self, rfl⟩, by decide⟩

theorem takeI_last (i : Fin 6) : Last NamesPose takeI i (takeD i) := by
  have key : ∀ i : Fin 6, ∀ c ∈ takeI.drop (4 + i.val), c.letter ≠ poseLetter i := by decide
  have hc : ∀ i : Fin 6, takeI = takeI.take (3 + i.val) ++ takeC i :: takeI.drop (4 + i.val) := by
    intro i; fin_cases i <;> rfl
  refine ⟨_, _, _, hc i, ⟨takeD_ok i, rfl⟩, ?_⟩
  rintro c' hc' d' ⟨_, rfl⟩
  exact key i _ hc' rfl

theorem takeI_numbered : Numbered (text takeI) 5 :=
  ⟨[], [⟨77, str "0"⟩, ⟨86, Dec.text ⟨false, [2, 0], none⟩⟩, takeC 0, takeC 1, takeC 2, takeC 3, takeC 4], str "5", takeC 5, rfl, takeI_ok, by decide,
    ⟨by decide, by decide, by decide⟩, by decide +kernel, by decide⟩

/-- the kit takes the pose with the base turned by 90 degrees and all other joints at 0. -/
noncomputable def takeA : Fin 6 → ℝ := ![Real.pi / 2, 0, 0, 0, 0, 0]

theorem takeI_takes : KitTakes kitG (poseOfDec takeD) takeA := by
  have v : ∀ i : Fin 6, (takeD i).val = (![0, 71/4, 181/10, 180, 0, 90] : Fin 6 → ℚ) i := by decide +kernel
  have e : poseOfDec takeD = ![0, 71/4, 181/10, Real.pi, 0, Real.pi / 2] := by
    funext i
    fin_cases i <;> simp [poseOfDec, radians, v] <;> ring
  have pi := Real.pi_gt_three
  refine ⟨⟨fun i => ?_, ?_⟩, ?_, ?_, ?_, ?_, ?_, ?_, ?_⟩
  · fin_cases i <;> simp [takeA, armServo, Kit.minDeg, Kit.maxDeg] <;> (try constructor) <;> linarith
  · simp [takeA, Kit.minDeg, Kit.maxDeg]; linarith
  · rw [e]
    ext i
    fin_cases i <;> simp [jointPos, linkFrame, jointRot, takeA, kitG, rotX, rotY, rotZ, Fin.sum_univ_succ, Matrix.mul_apply, Matrix.mulVec, dotProduct] <;> norm_num
  · rw [e]
    ext i j
    fin_cases i <;> fin_cases j <;> simp [toolFrame, orientOf, orient, linkFrame, jointRot, takeA, rotX, rotY, rotZ, Fin.sum_univ_succ, Matrix.mul_apply]
  · simp [takeA]; linarith
  · simp [takeA]; linarith
  · simp [takeA]; linarith
  · simp [takeA]
  · simp [jointPos, linkFrame, jointRot, takeA, kitG, rotX, rotY, rotZ, Fin.sum_univ_succ, Matrix.mul_apply, Matrix.mulVec, dotProduct]; norm_num

/-- C113: the kit in exact arithmetic, a move to a pose on the line, one interrupt before every pass: all hypotheses hold, and the tool gets to (0, 17.75, 18.1) and stays there. -/
theorem C113_demo : ∃ (w0 : World XR) (σ : ℕ → Sys XR) (ev : ℕ → Ev XR), w0.servos = Kit.servos ∧ w0.rxq = takeRx ∧ Endless Kit.cfg w0 (fun _ => 0) σ ev ∧ Unbroken ev ∧
    ∃ k j, ev k = .act (.out (.ghost .queue (text takeI))) ∧ k < j ∧ ev j = .act (.out (.msg (.n1 5))) ∧ (∀ i, k < i → i < j → ¬ Orders ev i) ∧
      ∀ l, j ≤ l → (∀ i : Fin 6, Untouched ev (armServo i) j l) → ∃ b, ArmAt (σ l).w b ∧ ToolAt kitG (113 / 10000) (7 / 10000) (kitLogical b) (poseOfDec takeD) := by
  let w0 : World XR := { servos := Kit.servos, now := 1, pins := fun _ => false, rxq := takeRx, ee := fun _ => 0, outs := [] }
  let s0 : Sys XR := ⟨w0, setup Kit.cfg fun _ => 0⟩
  have hs : ∀ n, w0.rxq ++ arrivals (sofar (evs Kit.cfg s0) n) = takeRx := fun n => by
    rw [sched_hist_silent, List.append_nil]
  have hc : ∀ n, BrisklySent (w0.rxq ++ arrivals (sofar (evs Kit.cfg s0) n)) := fun n => by rw [hs]; exact takeRx_sent
  have hf : ∀ n f, (hist Kit.cfg s0 n).p ≠ .fault f := fun n => (C81_kit rfl (careful_empty _ rfl) (sched_hist_run Kit.cfg w0 _ n) (hc n).well).1
  have he := endless Kit.cfg w0 _ hf
  have h0 : CountingHost (F := XR) takeRx [] := by
    intro a b e
    obtain ⟨rfl, rfl⟩ := List.append_eq_nil_iff.1 e.symm
    show qSize ((puts (takeRx ++ [])).drop (0 - _)) ≤ QUEUE
    rw [List.append_nil, takeRx_puts, Nat.zero_sub]
    decide +kernel
  refine ⟨w0, _, _, rfl, rfl, he, sched_unbroken _ _ hf, ?_⟩
  exact C113_queue (t := 0) rfl he (brisk_empty _ rfl) (quick_empty _ rfl) hc (fun n => by rw [hs]; exact takeRx_quick) (sched_unbroken _ _ hf)
    (clockRuns_of he 0 fun n _ => by rw [sched_now]; exact Nat.one_pos)
    (fun n => by simpa using counting_quiet h0 (sched_hist_silent Kit.cfg s0 n)) (fun n => by rw [sent, hs]; exact takeRx_queue)
    (by rw [sent, hs, takeRx_puts]; simp) takeI_tells takeI_M0 takeI_numbered takeI_last takeI_takes

end Mrc.Props
