import Verif.Props.Waiting
import Verif.Props.BriskDemo
import Verif.Props.FlowDemo
/-
A run that satisfies all hypotheses of C106 (and C86_kit, C88_pose, C88_line).
-/
set_option maxRecDepth 100000
set_option linter.unusedSimpArgs false
namespace Mrc.Props
open Mrc Mrc.Prog Mrc.Spec Mrc.Demo

/-- the numbers of the pose. -/
def lineD : Fin 6 → Dec := ![⟨false, [1, 8], none⟩, ⟨false, [0], none⟩, ⟨false, [8], none⟩, ⟨false, [0], none⟩, ⟨false, [0], none⟩, ⟨false, [0], none⟩]
/-- a coordinate of the pose. -/
def lineC (i : Fin 6) : Cmd := ⟨poseLetter i, (lineD i).text⟩
/-- N5M1V20X18Y0Z8A0B0C0: the straight way to (18, 0, 8), hand down, at 20 length units per second. -/
def lineI : List Cmd := [⟨78, str "5"⟩, ⟨77, str "1"⟩, ⟨86, Dec.text ⟨false, [2, 0], none⟩⟩, lineC 0, lineC 1, lineC 2, lineC 3, lineC 4, lineC 5]
def lineRx : List Byte := str ":QN5M1V20X18Y0Z8A0B0C0\r"

theorem lineD_ok (i : Fin 6) : (lineD i).Ok := by fin_cases i <;> exact .inl (by decide)
theorem lineD_val : ∀ i : Fin 6, -100000000 ≤ (lineD i).val ∧ (lineD i).val ≤ 100000000 := by decide +kernel
theorem lineC_ok (i : Fin 6) : (lineC i).Ok := by fin_cases i <;> exact ⟨by decide, by decide, by decide⟩
theorem lineC_letter : ∀ i : Fin 6, (lineC i).letter ∈ str "XYZABC" := by decide
theorem lineI_cases {c : Cmd} (hc : c ∈ lineI) : c = ⟨78, str "5"⟩ ∨ c = ⟨77, str "1"⟩ ∨ c = ⟨86, Dec.text ⟨false, [2, 0], none⟩⟩ ∨ ∃ i, c = lineC i := by
  simp only [lineI, List.mem_cons, List.not_mem_nil, or_false] at hc
  rcases hc with h | h | h | h | h | h | h | h | h
  · exact .inl h
  · exact .inr (.inl h)
  · exact .inr (.inr (.inl h))
  all_goals exact .inr (.inr (.inr ⟨_, h⟩))

theorem lineC_careful (i : Fin 6) : Careful (lineC i) := by
  have hl := lineC_letter i
  refine ⟨lineC_ok i, fun _ => .inr ⟨lineD i, lineD_ok i, rfl, lineD_val i⟩, fun _ => .inr ⟨lineD i, lineD_ok i, rfl, trivial⟩, fun e => ?_, fun e => ?_, fun e => ?_⟩
  · rw [e] at hl; exact absurd hl (by decide)
  · rw [e] at hl; exact absurd hl (by decide)
  · rcases e with e | e <;> rw [e] at hl <;> exact absurd hl (by decide)

theorem lineI_brisk : ∀ c ∈ lineI, Careful c ∧ Brisk c := by
  intro c hc
  rcases lineI_cases hc with rfl | rfl | rfl | ⟨i, rfl⟩
  · exact ⟨careful_plain _ _ ⟨by decide, by decide, by decide⟩ (by decide), brisk_other _ (by decide)⟩
  · exact ⟨careful_plain _ _ ⟨by decide, by decide, by decide⟩ (by decide), brisk_other _ (by decide)⟩
  · exact ⟨careful_number _ _ ⟨by decide, by decide, by decide⟩ (.inl (by decide)) (by decide) (by decide +kernel), fun _ => .inr ⟨_, .inl (by decide), rfl, by decide +kernel⟩⟩
  · refine ⟨lineC_careful i, brisk_other _ fun e => ?_⟩
    have hl := lineC_letter i
    rw [e] at hl; exact absurd hl (by decide)

theorem lineI_ok : ∀ c ∈ lineI, c.Ok := fun c hc => (lineI_brisk c hc).1.ok

theorem lineRx_decode : decode lineRx = [str "QN5M1V20X18Y0Z8A0B0C0"] := by decide +kernel
theorem lineRx_frame : frame (str "QN5M1V20X18Y0Z8A0B0C0") = .put (text lineI) := by decide +kernel

theorem lineRx_sent : BrisklySent lineRx := by
  have hb : ∀ p ∈ decode lineRx, BriskFrame (frame p) := by
    rw [lineRx_decode]
    intro p hp
    rw [List.mem_singleton.1 hp, lineRx_frame]
    exact ⟨lineI, rfl, lineI_brisk, by decide +kernel⟩
  exact ⟨⟨by decide +kernel, by decide +kernel, fun p hp => careful_of_frame (hb p hp)⟩, hb⟩

theorem lineRx_quick : NeverWaits lineRx := by
  refine ⟨by decide +kernel, by decide +kernel, ?_⟩
  rw [lineRx_decode]
  intro p hp
  rw [List.mem_singleton.1 hp, lineRx_frame]
  exact ⟨by decide +kernel, by decide +kernel⟩

theorem lineRx_queue : QueueOnly lineRx := by
  rw [QueueOnly, lineRx_decode]
  intro p hp
  rw [List.mem_singleton.1 hp, lineRx_frame]
  exact .inr (.inr (.inr (.inl ⟨_, rfl⟩)))

theorem lineRx_puts : puts lineRx = [text lineI] := by
  rw [puts, lineRx_decode]; simp [lineRx_frame]

theorem lineI_tells : TellsPose lineI := by
  refine { ok := lineI_ok, axis := ?_, pose := ?_, some := ⟨lineC 0, by simp [lineI], 0, _, lineD_ok 0, rfl⟩, noAngle := ?_ }
  · intro c hc e
    rcases lineI_cases hc with rfl | rfl | rfl | ⟨i, rfl⟩
    · cases e
    · cases e
    · cases e
    · have hl := lineC_letter i
      rw [e] at hl; exact absurd hl (by decide)
  · intro c hc j e
    have hj : ∀ j, poseLetter j ∈ str "XYZABC" := by decide
    have hj := hj j
    rw [← e] at hj
    rcases lineI_cases hc with rfl | rfl | rfl | ⟨i, rfl⟩
    · exact absurd hj (by decide)
    · exact absurd hj (by decide)
    · exact absurd hj (by decide)
    · exact .inr ⟨lineD i, lineD_ok i, rfl, trivial⟩
  · rintro c hc i d ⟨_, rfl⟩
    have : ∀ c ∈ lineI, c.letter ≠ 82 := by decide
    exact this _ hc rfl

theorem lineI_M1 : Chooses 49 lineI := ⟨⟨_, List.mem_cons_of_mem _ List.mem_cons_self, rfl⟩, by decide⟩

theorem lineI_last (i : Fin 6) : Last NamesPose lineI i (lineD i) := by
  have key : ∀ i : Fin 6, ∀ c ∈ lineI.drop (4 + i.val), c.letter ≠ poseLetter i := by decide
  have hc : ∀ i : Fin 6, lineI = lineI.take (3 + i.val) ++ lineC i :: lineI.drop (4 + i.val) := by
    intro i; fin_cases i <;> rfl
  refine ⟨_, _, _, hc i, ⟨lineD_ok i, rfl⟩, ?_⟩
  rintro c' hc' d' ⟨_, rfl⟩
  exact key i _ hc' rfl

theorem lineI_numbered : Numbered (text lineI) 5 :=
  ⟨[], [⟨77, str "1"⟩, ⟨86, Dec.text ⟨false, [2, 0], none⟩⟩, lineC 0, lineC 1, lineC 2, lineC 3, lineC 4], str "5", lineC 5, rfl, lineI_ok, by decide,
    ⟨by decide, by decide, by decide⟩, by decide +kernel, by decide⟩

/-- the pose is within reach. -/
theorem lineI_reach : InReach kitG (poseOfDec lineD) := by
  have v : ∀ i : Fin 6, (lineD i).val = (![18, 0, 8, 0, 0, 0] : Fin 6 → ℚ) i := by decide +kernel
  have e : poseOfDec lineD = ![18, 0, 8, 0, 0, 0] := by
    funext i
    fin_cases i <;> simp [poseOfDec, radians, v]
  have hw : wristOf kitG (poseOfDec lineD) = ![18, 0, 5] := by
    have h3 : len3 (kitG 4) = 3 := by
      have : len3 (kitG 4) = Real.sqrt (3 ^ 2) := by unfold len3; congr 1; simp [kitG]
      rw [this, Real.sqrt_sq (by norm_num)]
    rw [wristOf, h3, e]
    ext i; fin_cases i <;> simp [orientOf, orient, rotX, rotY, rotZ, Matrix.mulVec, dotProduct, Fin.sum_univ_three, Matrix.mul_apply] <;> norm_num
  have ha : axisDist kitG (poseOfDec lineD) = 18 := by
    have : axisDist kitG (poseOfDec lineD) = Real.sqrt (18 ^ 2) := by unfold axisDist; congr 1; rw [hw]; simp
    rw [this, Real.sqrt_sq (by norm_num)]
  have hr : reach kitG (poseOfDec lineD) ^ 2 = (18 - 46 / 10) ^ 2 + (5 - 79 / 10) ^ 2 := by
    rw [reach, Real.sq_sqrt (by positivity), ha, kitG_offset, hw]
    have : Real.sqrt ((18:ℝ) ^ 2 - 0 ^ 2) = 18 := by rw [show (18:ℝ) ^ 2 - 0 ^ 2 = 18 ^ 2 by norm_num, Real.sqrt_sq (by norm_num)]
    rw [this]; simp [kitG]
  have hr0 : 0 ≤ reach kitG (poseOfDec lineD) := Real.sqrt_nonneg _
  have hf := kitG_fore
  have hf2 := kitG_fore2
  refine ⟨by rw [ha]; norm_num, by rw [ha, kitG_offset]; norm_num, by nlinarith, ?_, ?_⟩
  · rw [kitG_upper, abs_le]; constructor <;> nlinarith
  · rw [kitG_upper]; nlinarith

theorem quick_empty (mem : Nat → Byte) (h : mem 0 = 0) : QuickStorage mem := by
  refine ⟨[], ⟨by simp, by decide, fun k b _ hk => ?_⟩, by simp⟩
  cases k with
  | zero => simp at hk; rw [h, hk]
  | succ k => simp at hk

theorem sched_now {F : Type} [FloatOps F] (cfg : Cfg F) (s0 : Sys F) (n : ℕ) : (hist cfg s0 n).w.now = s0.w.now := by
  induction n with
  | zero => rfl
  | succ n ih =>
    rw [← ih]
    show (after cfg s0 (n + 1)).1.w.now = (after cfg s0 n).1.w.now
    rw [after_succ]
    rcases after cfg s0 n with ⟨⟨w, p⟩, b⟩
    cases p with
    | ret s => cases b <;> rfl
    | rx k => simp only [sched, mainEv]; split <;> rfl
    | _ => rfl

/-- C106: the kit in exact arithmetic, the straight move on the line, one interrupt before every pass: all hypotheses hold; so the move is executed and reported, and the arm goes the
straight way to the point (18, 0, 8), which is within reach. -/
theorem C106_demo : ∃ (w0 : World XR) (σ : ℕ → Sys XR) (ev : ℕ → Ev XR), w0.servos = Kit.servos ∧ w0.rxq = lineRx ∧ Endless Kit.cfg w0 (fun _ => 0) σ ev ∧
    InReach kitG (poseOfDec lineD) ∧
    ∃ k j, ev k = .act (.out (.ghost .queue (text lineI))) ∧ k < j ∧ ev j = .act (.out (.msg (.n1 5))) ∧ (∀ i, k < i → i < j → ¬ Orders ev i) ∧
      KitLineMoved kitG (poseOfDec lineD) (acts ((sofar ev j).drop (k + 1))) := by
  let w0 : World XR := { servos := Kit.servos, now := 1, pins := fun _ => false, rxq := lineRx, ee := fun _ => 0, outs := [] }
  let s0 : Sys XR := ⟨w0, setup Kit.cfg fun _ => 0⟩
  have hs : ∀ n, w0.rxq ++ arrivals (sofar (evs Kit.cfg s0) n) = lineRx := fun n => by
    rw [sched_hist_silent, List.append_nil]
  have hc : ∀ n, BrisklySent (w0.rxq ++ arrivals (sofar (evs Kit.cfg s0) n)) := fun n => by rw [hs]; exact lineRx_sent
  have hf : ∀ n f, (hist Kit.cfg s0 n).p ≠ .fault f := fun n => (C81_kit rfl (careful_empty _ rfl) (sched_hist_run Kit.cfg w0 _ n) (hc n).well).1
  have he := endless Kit.cfg w0 _ hf
  have h0 : CountingHost (F := XR) lineRx [] := by
    intro a b e
    obtain ⟨rfl, rfl⟩ := List.append_eq_nil_iff.1 e.symm
    show qSize ((puts (lineRx ++ [])).drop (0 - _)) ≤ QUEUE
    rw [List.append_nil, lineRx_puts, Nat.zero_sub]
    decide +kernel
  refine ⟨w0, _, _, rfl, rfl, he, lineI_reach, ?_⟩
  exact C106_sent_line (t := 0) rfl he (brisk_empty _ rfl) (quick_empty _ rfl) hc (fun n => by rw [hs]; exact lineRx_quick) (sched_undivided _ _ hf)
    (clockRuns_of he 0 fun n _ => by rw [sched_now]; exact Nat.one_pos)
    (fun n => by simpa using counting_quiet h0 (sched_hist_silent Kit.cfg s0 n)) (fun n => by rw [sent, hs]; exact lineRx_queue)
    (by rw [sent, hs, lineRx_puts]; simp) lineI_tells lineI_M1 lineI_numbered lineI_last

end Mrc.Props
