import Verif.Props.Area
import Verif.Props.TurnsDemo
import Verif.Props.WaitingDemo
/-
Runs that satisfy all hypotheses of C115: two moves in the working area, a joint move and a straight one, through the queue and at once.
-/
set_option maxRecDepth 100000
set_option linter.unusedSimpArgs false
namespace Mrc.Props
open Mrc Mrc.Prog Mrc.Spec Mrc.Demo Mrc.Rest

/-- the numbers of the two poses: (15, 2, 10) and (13, -3, 8.5), tool down, the second turned by 10 degrees. -/
def areaD : Bool → Fin 6 → Dec
  | false => ![⟨false, [1, 5], none⟩, ⟨false, [2], none⟩, ⟨false, [1, 0], none⟩, ⟨false, [1, 8, 0], none⟩, ⟨false, [0], none⟩, ⟨false, [1, 8, 0], none⟩]
  | true => ![⟨false, [1, 3], none⟩, ⟨true, [3], none⟩, ⟨false, [8], some [5]⟩, ⟨false, [1, 8, 0], none⟩, ⟨false, [0], none⟩, ⟨false, [1, 7, 0], none⟩]
def areaC (x : Bool) (i : Fin 6) : Cmd := ⟨poseLetter i, (areaD x i).text⟩
/-- N5M0V20X15Y2Z10A180B0C180 and N6M1V20X13Y-3Z8.5A180B0C170 -/
def areaI (x : Bool) : List Cmd :=
  [⟨78, if x then str "6" else str "5"⟩, ⟨77, if x then str "1" else str "0"⟩, ⟨86, Dec.text ⟨false, [2, 0], none⟩⟩, areaC x 0, areaC x 1, areaC x 2, areaC x 3, areaC x 4, areaC x 5]

theorem areaD_ok (x : Bool) (i : Fin 6) : (areaD x i).Ok := by cases x <;> fin_cases i <;> exact .inl (by decide)
theorem areaD_val : ∀ x, ∀ i : Fin 6, -100000000 ≤ (areaD x i).val ∧ (areaD x i).val ≤ 100000000 := by decide +kernel
theorem areaC_ok (x : Bool) (i : Fin 6) : (areaC x i).Ok := by cases x <;> fin_cases i <;> exact ⟨by decide, by decide, by decide⟩
theorem areaC_letter : ∀ x, ∀ i : Fin 6, (areaC x i).letter ∈ str "XYZABC" := by decide
theorem areaI_cases {x : Bool} {c : Cmd} (hc : c ∈ areaI x) :
    c = ⟨78, if x then str "6" else str "5"⟩ ∨ c = ⟨77, if x then str "1" else str "0"⟩ ∨ c = ⟨86, Dec.text ⟨false, [2, 0], none⟩⟩ ∨ ∃ i, c = areaC x i := by
  simp only [areaI, List.mem_cons, List.not_mem_nil, or_false] at hc
  rcases hc with h | h | h | h | h | h | h | h | h
  · exact .inl h
  · exact .inr (.inl h)
  · exact .inr (.inr (.inl h))
  all_goals exact .inr (.inr (.inr ⟨_, h⟩))

theorem areaC_careful (x : Bool) (i : Fin 6) : Careful (areaC x i) := by
  have hl := areaC_letter x i
  refine ⟨areaC_ok x i, fun _ => .inr ⟨areaD x i, areaD_ok x i, rfl, areaD_val x i⟩, fun _ => .inr ⟨areaD x i, areaD_ok x i, rfl, trivial⟩, fun e => ?_, fun e => ?_, fun e => ?_⟩
  · rw [e] at hl; exact absurd hl (by decide)
  · rw [e] at hl; exact absurd hl (by decide)
  · rcases e with e | e <;> rw [e] at hl <;> exact absurd hl (by decide)

theorem areaI_brisk (x : Bool) : ∀ c ∈ areaI x, Careful c ∧ Brisk c := by
  intro c hc
  rcases areaI_cases hc with rfl | rfl | rfl | ⟨i, rfl⟩
  · exact ⟨careful_plain _ _ (by cases x <;> exact ⟨by decide, by decide, by decide⟩) (by cases x <;> decide), brisk_other _ (by cases x <;> decide)⟩
  · exact ⟨careful_plain _ _ (by cases x <;> exact ⟨by decide, by decide, by decide⟩) (by cases x <;> decide), brisk_other _ (by cases x <;> decide)⟩
  · exact ⟨careful_number _ _ ⟨by decide, by decide, by decide⟩ (.inl (by decide)) (by decide) (by decide +kernel), fun _ => .inr ⟨_, .inl (by decide), rfl, by decide +kernel⟩⟩
  · refine ⟨areaC_careful x i, brisk_other _ fun e => ?_⟩
    have hl := areaC_letter x i
    rw [e] at hl; exact absurd hl (by decide)

theorem areaI_ok (x : Bool) : ∀ c ∈ areaI x, c.Ok := fun c hc => (areaI_brisk x c hc).1.ok

theorem areaI_tells (x : Bool) : TellsPose (areaI x) := by
  refine { ok := areaI_ok x, axis := ?_, pose := ?_, some := ⟨areaC x 0, by simp [areaI], 0, _, areaD_ok x 0, rfl⟩, noAngle := ?_ }
  · intro c hc e
    rcases areaI_cases hc with rfl | rfl | rfl | ⟨i, rfl⟩
    · cases e
    · cases e
    · cases e
    · have hl := areaC_letter x i
      rw [e] at hl; exact absurd hl (by decide)
  · intro c hc j e
    have hj : ∀ j, poseLetter j ∈ str "XYZABC" := by decide
    have hj := hj j
    rw [← e] at hj
    rcases areaI_cases hc with rfl | rfl | rfl | ⟨i, rfl⟩
    · cases x <;> exact absurd hj (by decide)
    · cases x <;> exact absurd hj (by decide)
    · exact absurd hj (by decide)
    · exact .inr ⟨areaD x i, areaD_ok x i, rfl, trivial⟩
  · rintro c hc i d ⟨_, rfl⟩
    have : ∀ x, ∀ c ∈ areaI x, c.letter ≠ 82 := by decide
    exact this x _ hc rfl

theorem areaI_last (x : Bool) (i : Fin 6) : Last NamesPose (areaI x) i (areaD x i) := by
  have key : ∀ x, ∀ i : Fin 6, ∀ c ∈ (areaI x).drop (4 + i.val), c.letter ≠ poseLetter i := by decide
  have hc : ∀ i : Fin 6, areaI x = (areaI x).take (3 + i.val) ++ areaC x i :: (areaI x).drop (4 + i.val) := by
    intro i; fin_cases i <;> rfl
  refine ⟨_, _, _, hc i, ⟨areaD_ok x i, rfl⟩, ?_⟩
  rintro c' hc' d' ⟨_, rfl⟩
  exact key x i _ hc' rfl

theorem areaI_mode (x : Bool) : Chooses 48 (areaI x) ∨ Chooses 49 (areaI x) := by
  cases x
  · exact .inl ⟨⟨_, List.mem_cons_of_mem _ List.mem_cons_self, rfl⟩, by decide⟩
  · exact .inr ⟨⟨_, List.mem_cons_of_mem _ List.mem_cons_self, rfl⟩, by decide⟩

theorem areaI_numbered (x : Bool) : Numbered (text (areaI x)) (if x then 6 else 5) := by
  cases x <;>
  exact ⟨[], [⟨77, _⟩, ⟨86, Dec.text ⟨false, [2, 0], none⟩⟩, areaC _ 0, areaC _ 1, areaC _ 2, areaC _ 3, areaC _ 4], _, areaC _ 5, rfl, areaI_ok _, by decide,
    ⟨by decide, by decide, by decide⟩, by decide +kernel, by decide⟩

theorem areaI_move (x : Bool) : AreaMove (areaI x) (areaD x) := by
  have v : ∀ x, ∀ i : Fin 6, (areaD x i).val = (if x then (![13, -3, 17/2, 180, 0, 170] : Fin 6 → ℚ) else ![15, 2, 10, 180, 0, 180]) i := by decide +kernel
  have pi := Real.pi_pos
  refine ⟨areaI_tells x, areaI_mode x, areaI_last x, ?_, ?_⟩
  · cases x <;> constructor <;> simp [poseOfDec, v] <;> norm_num
  · cases x
    · refine ⟨?_, ?_, ?_, ?_⟩ <;> simp [poseOfDec, radians, v] <;> linarith
    · refine ⟨?_, ?_, ?_, ?_⟩ <;> simp [poseOfDec, radians, v] <;> linarith

/-! through the queue -/

def areaRx : List Byte := str ":QN5M0V20X15Y2Z10A180B0C180\r:QN6M1V20X13Y-3Z8.5A180B0C170\r"
theorem areaRx_decode : decode areaRx = [81 :: text (areaI false), 81 :: text (areaI true)] := by decide +kernel
theorem areaRx_frame : ∀ x, frame (81 :: text (areaI x)) = .put (text (areaI x)) := by decide +kernel
theorem areaRx_mem {p : List Byte} (hp : p ∈ decode areaRx) : ∃ x, frame p = .put (text (areaI x)) := by
  rw [areaRx_decode] at hp
  simp only [List.mem_cons, List.not_mem_nil, or_false] at hp
  rcases hp with rfl | rfl
  · exact ⟨false, areaRx_frame false⟩
  · exact ⟨true, areaRx_frame true⟩

theorem areaRx_sent : BrisklySent areaRx := by
  have hb : ∀ p ∈ decode areaRx, BriskFrame (frame p) := by
    intro p hp
    obtain ⟨x, e⟩ := areaRx_mem hp
    rw [e]
    exact ⟨areaI x, rfl, areaI_brisk x, by cases x <;> decide +kernel⟩
  exact ⟨⟨by decide +kernel, by decide +kernel, fun p hp => careful_of_frame (hb p hp)⟩, hb⟩

theorem areaRx_quick : NeverWaits areaRx := by
  refine ⟨by decide +kernel, by decide +kernel, ?_⟩
  intro p hp
  obtain ⟨x, e⟩ := areaRx_mem hp
  rw [e]
  cases x <;> exact ⟨by decide +kernel, by decide +kernel⟩

theorem areaRx_queue : QueueOnly areaRx := by
  intro p hp
  obtain ⟨x, e⟩ := areaRx_mem hp
  exact .inr (.inr (.inr (.inl ⟨_, e⟩)))

theorem areaRx_only : AreaOnly areaRx := by
  constructor
  · intro p hp m hm
    obtain ⟨x, e⟩ := areaRx_mem hp
    rw [e] at hm
    rcases hm with hm | hm
    · injection hm with hm; exact .inr ⟨areaI x, areaD x, hm.symm, areaI_move x⟩
    · cases hm
  · intro p hp m hm
    obtain ⟨x, e⟩ := areaRx_mem hp
    rw [e] at hm; cases hm

theorem areaRx_puts : puts areaRx = [text (areaI false), text (areaI true)] := by
  rw [puts, areaRx_decode]; simp [areaRx_frame]

/-- C115: two moves on the line for the queue, one interrupt before every pass: all hypotheses hold, and after each report the tool is at the pose told. -/
theorem C115_demo : ∃ (w0 : World XR) (σ : ℕ → Sys XR) (ev : ℕ → Ev XR), w0.servos = Kit.servos ∧ w0.rxq = areaRx ∧ Endless Kit.cfg w0 (fun _ => 0) σ ev ∧ Unbroken ev ∧
    ∀ x, ∃ k j, ev k = .act (.out (.ghost .queue (text (areaI x)))) ∧ k < j ∧ ev j = .act (.out (.msg (.n1 (if x then 6 else 5)))) ∧ (∀ i, k < i → i < j → ¬ Orders ev i) ∧
      ∀ l, j ≤ l → (∀ i : Fin 6, Untouched ev (armServo i) j l) → ∃ b, ArmAt (σ l).w b ∧ ToolAt kitG (113 / 10000) (7 / 10000) (kitLogical b) (poseOfDec (areaD x)) := by
  let w0 : World XR := { servos := Kit.servos, now := 1, pins := fun _ => false, rxq := areaRx, ee := fun _ => 0, outs := [] }
  let s0 : Sys XR := ⟨w0, setup Kit.cfg fun _ => 0⟩
  have hs : ∀ n, w0.rxq ++ arrivals (sofar (evs Kit.cfg s0) n) = areaRx := fun n => by
    rw [sched_hist_silent, List.append_nil]
  have hc : ∀ n, BrisklySent (w0.rxq ++ arrivals (sofar (evs Kit.cfg s0) n)) := fun n => by rw [hs]; exact areaRx_sent
  have hf : ∀ n f, (hist Kit.cfg s0 n).p ≠ .fault f := fun n => (C81_kit rfl (careful_empty _ rfl) (sched_hist_run Kit.cfg w0 _ n) (hc n).well).1
  have he := endless Kit.cfg w0 _ hf
  have h0 : CountingHost (F := XR) areaRx [] := by
    intro a b e
    obtain ⟨rfl, rfl⟩ := List.append_eq_nil_iff.1 e.symm
    show qSize ((puts (areaRx ++ [])).drop (0 - _)) ≤ QUEUE
    rw [List.append_nil, areaRx_puts, Nat.zero_sub]
    decide +kernel
  refine ⟨w0, _, _, rfl, rfl, he, sched_unbroken _ _ hf, fun x => ?_⟩
  exact C115_queue (t := 0) rfl he rfl hc (fun n => by rw [hs]; exact areaRx_quick) (sched_unbroken _ _ hf)
    (clockRuns_of he 0 fun n _ => by rw [sched_now]; exact Nat.one_pos) (fun n => by rw [sent, hs]; exact areaRx_only)
    (fun n => by simpa using counting_quiet h0 (sched_hist_silent Kit.cfg s0 n)) (fun n => by rw [sent, hs]; exact areaRx_queue)
    (by rw [sent, hs, areaRx_puts]; cases x <;> simp) (areaI_move x) (areaI_numbered x)

/-! at once -/

def areaNow : Bool → List Byte
  | false => str ":EN5M0V20X15Y2Z10A180B0C180\r"
  | true => str ":EN6M1V20X13Y-3Z8.5A180B0C170\r"
theorem areaNow_decode : ∀ x, decode (areaNow x) = [69 :: text (areaI x)] := by decide +kernel
theorem areaNow_frame : ∀ x, frame (69 :: text (areaI x)) = .now (text (areaI x)) := by decide +kernel
theorem areaNow_tail : ∀ x, tail (areaNow x) = [] := by decide +kernel
theorem areaNows_decode : decode (areaNow false ++ areaNow true) = [69 :: text (areaI false), 69 :: text (areaI true)] := by decide +kernel

theorem areaNow_mem {r : List Byte} (hr : r = areaNow false ∨ r = areaNow false ++ areaNow true) {p : List Byte} (hp : p ∈ decode r) : ∃ x, frame p = .now (text (areaI x)) := by
  have : p = 69 :: text (areaI false) ∨ p = 69 :: text (areaI true) := by
    rcases hr with rfl | rfl
    · rw [areaNow_decode] at hp; exact .inl (List.mem_singleton.1 hp)
    · rw [areaNows_decode] at hp; simpa using hp
  rcases this with rfl | rfl
  · exact ⟨false, areaNow_frame false⟩
  · exact ⟨true, areaNow_frame true⟩

theorem areaNow_brisk {r : List Byte} (hr : r = areaNow false ∨ r = areaNow false ++ areaNow true) : BrisklySent r := by
  have hb : ∀ p ∈ decode r, BriskFrame (frame p) := by
    intro p hp
    obtain ⟨x, e⟩ := areaNow_mem hr hp
    rw [e]
    exact ⟨areaI x, rfl, areaI_brisk x, by cases x <;> decide +kernel⟩
  refine ⟨⟨?_, ?_, fun p hp => careful_of_frame (hb p hp)⟩, hb⟩ <;> rcases hr with rfl | rfl <;> decide +kernel

theorem areaNow_quick {r : List Byte} (hr : r = areaNow false ∨ r = areaNow false ++ areaNow true) : NeverWaits r := by
  refine ⟨?_, ?_, ?_⟩
  · rcases hr with rfl | rfl <;> decide +kernel
  · rcases hr with rfl | rfl <;> decide +kernel
  · intro p hp
    obtain ⟨x, e⟩ := areaNow_mem hr hp
    rw [e]
    cases x <;> exact ⟨by decide +kernel, by decide +kernel⟩

theorem areaNow_only {r : List Byte} (hr : r = areaNow false ∨ r = areaNow false ++ areaNow true) : AreaOnly r := by
  constructor
  · intro p hp m hm
    obtain ⟨x, e⟩ := areaNow_mem hr hp
    rw [e] at hm
    rcases hm with hm | hm
    · cases hm
    · injection hm with hm; exact .inr ⟨areaI x, areaD x, hm.symm, areaI_move x⟩
  · intro p hp m hm
    obtain ⟨x, e⟩ := areaNow_mem hr hp
    rw [e] at hm; cases hm

/-- what this host has sent at any time. -/
theorem areaNow_sent {F : Type} [FloatOps F] (cfg : Cfg F) (x0 : Talk F) (ht : x0.todo = [areaNow true]) (n : ℕ) :
    (areaNow false ++ arrivals (sofar (talkE cfg x0) n) = areaNow false ∧ (talked cfg x0 n).todo = [areaNow true]) ∨
      (areaNow false ++ arrivals (sofar (talkE cfg x0) n) = areaNow false ++ areaNow true ∧ (talked cfg x0 n).todo = []) := by
  obtain ⟨h1, h2⟩ := talk_sent cfg x0 n
  rw [ht] at h1 h2
  rcases List.suffix_cons_iff.1 h2 with h2 | h2
  · left
    rw [h2] at h1 ⊢
    simp at h1
    exact ⟨by rw [h1, List.append_nil], rfl⟩
  · right
    have h2 := List.suffix_nil.1 h2
    rw [h2] at h1 ⊢
    simp at h1
    exact ⟨by rw [h1], rfl⟩

/-- C115: a host that waits for the report of the joint move before it sends the straight move: all hypotheses hold, and after each report the tool is at the pose told. -/
theorem C115_demo_now : ∃ (w0 : World XR) (σ : ℕ → Sys XR) (ev : ℕ → Ev XR), w0.servos = Kit.servos ∧ Endless Kit.cfg w0 (fun _ => 0) σ ev ∧ Unbroken ev ∧ TakesTurns w0.rxq ev ∧
    (∃ t, sent w0.rxq (sofar ev t) = areaNow false ++ areaNow true) ∧
    ∀ x, ∃ k j, ev k = .act (.out (.ghost .immediate (text (areaI x)))) ∧ k < j ∧ ev j = .act (.out (.msg (.n1 (if x then 6 else 5)))) ∧ (∀ i, k < i → i < j → ¬ Orders ev i) ∧
      ∀ l, j ≤ l → (∀ i : Fin 6, Untouched ev (armServo i) j l) → ∃ b, ArmAt (σ l).w b ∧ ToolAt kitG (113 / 10000) (7 / 10000) (kitLogical b) (poseOfDec (areaD x)) := by
  let w0 : World XR := { servos := Kit.servos, now := 1, pins := fun _ => false, rxq := areaNow false, ee := fun _ => 0, outs := [] }
  let x0 : Talk XR := talk0 Kit.cfg w0 (fun _ => 0) [areaNow true]
  have hs : ∀ n, w0.rxq ++ arrivals (sofar (talkE Kit.cfg x0) n) = areaNow false ∨ w0.rxq ++ arrivals (sofar (talkE Kit.cfg x0) n) = areaNow false ++ areaNow true := fun n =>
    (areaNow_sent Kit.cfg x0 rfl n).imp And.left And.left
  have hc : ∀ n, BrisklySent (w0.rxq ++ arrivals (sofar (talkE Kit.cfg x0) n)) := fun n => areaNow_brisk (hs n)
  have hf : ∀ n f, (talkS Kit.cfg x0 n).p ≠ .fault f := fun n => (C81_kit rfl (careful_empty _ rfl) (talk_run Kit.cfg w0 _ _ n) (hc n).well).1
  have he := talk_endless Kit.cfg w0 _ _ hf
  have hclk : ClockRuns (talkS Kit.cfg x0) (talkE Kit.cfg x0) := clockRuns_of he 0 fun n _ => by rw [talk_now]; exact Nat.one_pos
  have htt : TakesTurns w0.rxq (talkE Kit.cfg x0) := talk_turns Kit.cfg x0 (areaNow false) rfl ⟨by rw [areaNow_decode]; exact Nat.le_refl _, areaNow_tail _⟩ fun t ht => by
    rw [List.mem_singleton.1 ht]; exact ⟨by rw [areaNow_decode]; exact Nat.le_refl _, areaNow_tail _⟩
  have hu := talk_unbroken Kit.cfg x0 hf
  have go := fun (x : Bool) (t : ℕ) hm => C115_sent (t := t) rfl he rfl hc (fun n => areaNow_quick (hs n)) hu hclk (fun n => areaNow_only (hs n)) htt (cs := areaI x) hm (areaI_move x) (areaI_numbered x)
  have first := go false 0 (by
    show text (areaI false) ∈ nows (areaNow false ++ [])
    rw [List.append_nil, nows, areaNow_decode]; simp [areaNow_frame])
  obtain ⟨k1, j1, -, -, g3, -⟩ := first
  have hall : sent w0.rxq (sofar (talkE Kit.cfg x0) (j1 + 2)) = areaNow false ++ areaNow true := by
    rcases areaNow_sent Kit.cfg x0 rfl (j1 + 2) with ⟨_, h2⟩ | ⟨h1, _⟩
    · rw [talk_answers Kit.cfg x0 g3] at h2
      rcases areaNow_sent Kit.cfg x0 rfl j1 with ⟨_, h3⟩ | ⟨_, h3⟩ <;> rw [h3] at h2 <;> cases h2
    · exact h1
  refine ⟨w0, _, _, rfl, he, hu, htt, ⟨_, hall⟩, fun x => go x (j1 + 2) ?_⟩
  rw [hall, nows, areaNows_decode]; cases x <;> simp [areaNow_frame]

end Mrc.Props
