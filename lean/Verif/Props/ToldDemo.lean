import Verif.Props.ToldKit
import Verif.Proof.Demo
/-
C84-C88: runs that meet the hypotheses.
-/
set_option linter.unusedSectionVars false
set_option linter.unusedSimpArgs false
namespace Mrc.Props
open Mrc Mrc.Prog Mrc.Spec Mrc.Told Mrc.Demo

/-- is it the start of an instruction? -/
private def isG : Act Rat → Bool
  | .out (.ghost _ _) => true
  | _ => false
/-- is it N1? -/
private def isN : Act Rat → Bool
  | .out (.msg (.n1 _)) => true
  | _ => false

/-- the first access with `f`, what comes before it and after it. -/
private def cutAt (f : Act Rat → Bool) (l : List (Act Rat)) : List (Act Rat) × Option (Act Rat) × List (Act Rat) :=
  (l.takeWhile fun a => !f a, (l.dropWhile fun a => !f a).head?, (l.dropWhile fun a => !f a).tail)
private theorem cutAt_eq {f : Act Rat → Bool} {l : List (Act Rat)} {a : Act Rat} (h : (cutAt f l).2.1 = some a) : l = (cutAt f l).1 ++ a :: (cutAt f l).2.2 := by
  have h1 := (List.takeWhile_append_dropWhile (p := fun a => !f a) (l := l)).symm
  simp only [cutAt] at h ⊢
  generalize l.dropWhile (fun a => !f a) = d at h h1 ⊢
  cases d with
  | nil => simp at h
  | cons x d => simp at h; subst h; exact h1
private theorem cutAt_pre {f : Act Rat → Bool} {l : List (Act Rat)} {x : Act Rat} (h : x ∈ (cutAt f l).1) : f x = false := by
  have h : x ∈ l.takeWhile fun a => !f a := h
  clear * - h
  induction l with
  | nil => simp at h
  | cons y l ih =>
    rw [List.takeWhile_cons] at h
    split at h
    · rename_i hy
      rcases List.mem_cons.1 h with rfl | h
      · simpa using hy
      · exact ih h
    · cases h

private theorem isG_iff {x : Act Rat} : isG x = true ↔ BeginsI x := by
  constructor
  · intro h
    match x, h with
    | .out (.ghost s m), _ => exact ⟨s, m, rfl⟩
  · rintro ⟨s, m, rfl⟩; rfl

/-- what a command says about an axis, as text. -/
private def angleText (c : Cmd) (i : Fin 6) : Option (List Byte) :=
  if c.letter = 82 then match c.arg with | a :: r => if a = digitChar ⟨i.val, by omega⟩ then some r else none | [] => none else none
private theorem angleText_of {c : Cmd} {i : Fin 6} {d : Dec} (h : NamesAngle c i d) : angleText c i = some d.text := by
  obtain ⟨_, rfl⟩ := h
  simp [angleText]

private theorem posed {c : Cmd} {i : Fin 6} {d : Dec} (h : NamesPose c i d) : c.letter ∈ str "XYZABC" := by
  obtain ⟨_, rfl⟩ := h
  have : ∀ i, poseLetter i ∈ str "XYZABC" := by decide
  exact this i

/-- a plain angle command. -/
private def rc (o : Fin 6) (d : Fin 10) : Cmd := ⟨82, [digitChar ⟨o.val, by omega⟩, digitChar d]⟩
private theorem digits_ok (d : Fin 10) : (⟨false, [d], none⟩ : Dec).Ok := .inl (by simp)
private theorem rc_names (o : Fin 6) (d : Fin 10) : NamesAngle (rc o d) o ⟨false, [d], none⟩ := ⟨digits_ok d, rfl⟩

private theorem rc_ok : ∀ (o : Fin 6) (d : Fin 10), ∀ b ∈ (rc o d).arg, argChar b = true := by decide

/-- M0V70N5R01R12R23R34R45R56 -/
def demo1 : List Cmd := [⟨77, str "0"⟩, ⟨86, str "70"⟩, ⟨78, str "5"⟩, rc 0 1, rc 1 2, rc 2 3, rc 3 4, rc 4 5, rc 5 6]
/-- N6R31 -/
def demo2 : List Cmd := [⟨78, str "6"⟩, rc 3 1]

private theorem plain_of {cs : List Cmd} (h : ∀ c ∈ cs, (∃ o d, c = rc o d) ∨ c.Ok ∧ c.letter ∉ str "RXYZABC") : Plain cs := by
  refine ⟨fun c hc => ?_, fun c hc hl => ?_, fun c hc i hl => ?_⟩
  · rcases h c hc with ⟨o, d, rfl⟩ | ⟨h, _⟩
    · exact ⟨by simp [rc, Cmd.Ok], rc_ok o d, by simp [rc]⟩
    · exact h
  · rcases h c hc with ⟨o, d, rfl⟩ | ⟨_, h⟩
    · exact ⟨⟨o.val, by omega⟩, [digitChar d], rfl, .inr ⟨⟨false, [d], none⟩, digits_ok d, rfl, trivial⟩⟩
    · rw [hl] at h; exact absurd (by decide) h
  · rcases h c hc with ⟨o, d, rfl⟩ | ⟨_, h⟩
    · have : ∀ i, poseLetter i ≠ 82 := by decide
      exact absurd hl.symm (this i)
    · have : ∀ i, poseLetter i ∈ str "RXYZABC" := by decide
      rw [hl] at h; exact absurd (this i) h

theorem demo1_tells : TellsAngles demo1 := by
  refine { toPlain := plain_of ?_, some := ⟨rc 0 1, by simp [demo1], 0, _, rc_names 0 1⟩, noPose := ?_ }
  · intro c hc
    simp only [demo1, List.mem_cons, List.not_mem_nil, or_false] at hc
    rcases hc with rfl | rfl | rfl | rfl | rfl | rfl | rfl | rfl | rfl
    · exact .inr ⟨⟨by decide, by decide, by decide⟩, by decide⟩
    · exact .inr ⟨⟨by decide, by decide, by decide⟩, by decide⟩
    · exact .inr ⟨⟨by decide, by decide, by decide⟩, by decide⟩
    all_goals exact .inl ⟨_, _, rfl⟩
  · intro c hc i d hn
    have := posed hn
    have h : ∀ c ∈ demo1, c.letter ∉ str "XYZABC" := by decide
    exact h c hc this

theorem demo1_M0 : Chooses 48 demo1 := ⟨⟨_, List.mem_cons_self, rfl⟩, by decide⟩

theorem demo2_tells : TellsAngles demo2 := by
  refine { toPlain := plain_of ?_, some := ⟨rc 3 1, by simp [demo2], 3, _, rc_names 3 1⟩, noPose := ?_ }
  · intro c hc
    simp only [demo2, List.mem_cons, List.not_mem_nil, or_false] at hc
    rcases hc with rfl | rfl
    · exact .inr ⟨⟨by decide, by decide, by decide⟩, by decide⟩
    · exact .inl ⟨_, _, rfl⟩
  · intro c hc i d hn
    have := posed hn
    have h : ∀ c ∈ demo2, c.letter ∉ str "XYZABC" := by decide
    exact h c hc this

/-- the angles the first instruction gives, in degrees. -/
def demoD (i : Fin 6) : Dec := ⟨false, [⟨i.val + 1, by omega⟩], none⟩

/-- all six angles are named. -/
theorem demo1_last (i : Fin 6) : Last NamesAngle demo1 i (demoD i) := by
  have key : ∀ i : Fin 6, ∀ c ∈ demo1.drop (4 + i.val), angleText c i = none := by decide
  have hc : ∀ i : Fin 6, demo1 = demo1.take (3 + i.val) ++ rc i ⟨i.val + 1, by omega⟩ :: demo1.drop (4 + i.val) := by
    intro i; fin_cases i <;> rfl
  refine ⟨_, _, _, hc i, rc_names _ _, fun c' hc' d' hn => ?_⟩
  have := angleText_of hn
  rw [key i c' hc'] at this; cases this

/-- C84, C88: ... and for the kit they are within the ranges. -/
example : KitFits fun i => radians (demoD i) := by
  have hp := Real.pi_pos
  have e : ∀ i, radians (demoD i) = ((i.val + 1 : ℕ) : ℝ) * (Real.pi / 180) := by
    intro i
    have : (demoD i).val = ((i.val + 1 : ℕ) : ℚ) := by revert i; decide +kernel
    rw [radians, this]; norm_num
  have h1 : ∀ i : Fin 6, Kit.minDeg (armServo i) ≤ ((i.val + 1 : ℕ) : ℚ) ∧ ((i.val + 1 : ℕ) : ℚ) ≤ Kit.maxDeg (armServo i) := by decide +kernel
  have h2 : Kit.minDeg 2 ≤ (5 : ℚ) ∧ (5 : ℚ) ≤ Kit.maxDeg 2 := by decide +kernel
  refine ⟨fun i => ?_, ?_, ?_⟩
  · show _ ≤ radians (demoD i) ∧ radians (demoD i) ≤ _
    rw [e]
    obtain ⟨h1, h2⟩ := h1 i
    have h1 : (Kit.minDeg (armServo i) : ℝ) ≤ ((i.val + 1 : ℕ) : ℝ) := by exact_mod_cast h1
    have h2 : ((i.val + 1 : ℕ) : ℝ) ≤ (Kit.maxDeg (armServo i) : ℝ) := by exact_mod_cast h2
    exact ⟨mul_le_mul_of_nonneg_right h1 (by positivity), mul_le_mul_of_nonneg_right h2 (by positivity)⟩
  · have : (Kit.minDeg 2 : ℝ) ≤ 5 := by exact_mod_cast h2.1
    show _ ≤ radians (demoD 2) + radians (demoD 1)
    rw [e, e]
    have h3 : (((2 : Fin 6).val + 1 : ℕ) : ℝ) * (Real.pi / 180) + (((1 : Fin 6).val + 1 : ℕ) : ℝ) * (Real.pi / 180) = 5 * (Real.pi / 180) := by
      rw [show ((2 : Fin 6).val + 1 : ℕ) = 3 from rfl, show ((1 : Fin 6).val + 1 : ℕ) = 2 from rfl]; push_cast; ring
    rw [h3]; exact mul_le_mul_of_nonneg_right this (by positivity)
  · have : (5 : ℝ) ≤ (Kit.maxDeg 2 : ℝ) := by exact_mod_cast h2.2
    show radians (demoD 2) + radians (demoD 1) ≤ _
    rw [e, e]
    have h3 : (((2 : Fin 6).val + 1 : ℕ) : ℝ) * (Real.pi / 180) + (((1 : Fin 6).val + 1 : ℕ) : ℝ) * (Real.pi / 180) = 5 * (Real.pi / 180) := by
      rw [show ((2 : Fin 6).val + 1 : ℕ) = 3 from rfl, show ((1 : Fin 6).val + 1 : ℕ) = 2 from rfl]; push_cast; ring
    rw [h3]; exact mul_le_mul_of_nonneg_right this (by positivity)

/-- the run: two moves from the queue, with the timer interrupt before every pass. -/
def demoRx : String := ":QM0V70N5R01R12R23R34R45R56\x0d:QN6R31\x0d:QN7\x0d"
def demoTr : List (Act Rat) := (kitT demoRx 16).1

/-- the limits of the demonstration servos. -/
def demoL : Six Rat := fun _ => (@Kit.servos Rat toyFloat 0).minA
def demoU : Six Rat := fun _ => (@Kit.servos Rat toyFloat 0).maxA

theorem demo_limits : Limits demoL demoU demoTr := by
  have h : (demoTr.all fun | .servo _ sv => decide (sv.minA = (@Kit.servos Rat toyFloat 0).minA ∧ sv.maxA = (@Kit.servos Rat toyFloat 0).maxA) | _ => true) = true := by decide +kernel
  intro i sv hm
  have := List.all_eq_true.1 h _ hm
  exact of_decide_eq_true this

/-- the pieces of the run: start of the first, its N1, start of the second, its N1. -/
def c1 := cutAt isG demoTr
def c2 := cutAt isN c1.2.2
def c3 := cutAt isG c2.2.2
def c4 := cutAt isN c3.2.2

private def isGhost1 (m : List Byte) : Option (Act Rat) → Bool
  | some (.out (.ghost .queue m')) => m' == m
  | _ => false
private def isN1 (n : Int) : Option (Act Rat) → Bool
  | some (.out (.msg (.n1 n'))) => n' == n
  | _ => false
private theorem isGhost1_eq {m : List Byte} {o : Option (Act Rat)} (h : isGhost1 m o = true) : o = some (.out (.ghost .queue m)) := by
  match o, h with
  | some (.out (.ghost .queue m')), h => rw [show m' = m by simpa [isGhost1] using h]
private theorem isN1_eq {n : Int} {o : Option (Act Rat)} (h : isN1 n o = true) : o = some (.out (.msg (.n1 n))) := by
  match o, h with
  | some (.out (.msg (.n1 n'))), h => rw [show n' = n by simpa [isN1] using h]

theorem demo_split1 : demoTr = c1.1 ++ .out (.ghost .queue (text demo1)) :: c1.2.2 := cutAt_eq (isGhost1_eq (by decide +kernel))
theorem demo_split2 : c1.2.2 = c2.1 ++ .out (.msg (.n1 5)) :: c2.2.2 := cutAt_eq (isN1_eq (by decide +kernel))
theorem demo_split3 : c2.2.2 = c3.1 ++ .out (.ghost .queue (text demo2)) :: c3.2.2 := cutAt_eq (isGhost1_eq (by decide +kernel))
theorem demo_split4 : c3.2.2 = c4.1 ++ .out (.msg (.n1 6)) :: c4.2.2 := cutAt_eq (isN1_eq (by decide +kernel))
theorem demo_quiet : (∀ x ∈ c2.1, ¬ BeginsI x) ∧ (∀ x ∈ c3.1, ¬ BeginsI x) ∧ ∀ x ∈ c4.1, ¬ BeginsI x := by
  have h2 : (c2.1.all fun x => !isG x) = true := by decide +kernel
  have h4 : (c4.1.all fun x => !isG x) = true := by decide +kernel
  refine ⟨fun x hx hb => ?_, fun x hx hb => ?_, fun x hx hb => ?_⟩
  · have := List.all_eq_true.1 h2 x hx; rw [isG_iff.2 hb] at this; cases this
  · have := cutAt_pre hx; rw [isG_iff.2 hb] at this; cases this
  · have := List.all_eq_true.1 h4 x hx; rw [isG_iff.2 hb] at this; cases this

/-- C84: all hypotheses met, and the move is a real one: six commands, each different from where the servos were. -/
example : ∃ tr p pre mid post, @Trace Rat toyFloat (@Kit.cfg Rat toyFloat) (fun _ => 0) tr p ∧ @Limits Rat demoL demoU tr ∧ TellsAngles demo1 ∧ Chooses 48 demo1 ∧
    tr = pre ++ .out (.ghost .queue (text demo1)) :: mid ++ .out (.msg (.n1 5)) :: post ∧ (∀ x ∈ mid, ¬ BeginsI x) ∧
    armTargets mid = [(0, 1/60), (1, 1/30), (2, 1/12), (3, 1/15), (4, 1/12), (5, 1/10)] := by
  refine ⟨demoTr, _, c1.1, c2.1, c2.2.2, kitT_trace demoRx 16, demo_limits, demo1_tells, demo1_M0, ?_, demo_quiet.1, by decide +kernel⟩
  rw [List.append_assoc, List.cons_append, ← demo_split2]; exact demo_split1

private theorem course_acts {F : Type} [FloatOps F] {cfg : RCfg F} {L U : Six F} {tr mid : List (Act F)} {A P : Six F} (h : Course cfg L U tr A P mid) (l : List (Act F)) (hl : ∀ x ∈ l, ¬ BeginsI x) :
    Course cfg L U (tr ++ l) A P (mid ++ l) := by
  induction l using List.reverseRecOn with
  | nil => simpa using h
  | append_singleton l x ih =>
    rw [← List.append_assoc, ← List.append_assoc]
    exact .act (ih fun y hy => hl y (by simp [hy])) (hl x (by simp))

/-- 1°, ..., 6° with π = 3. -/
def demoA1 : Six Rat := fun i => ((i.val + 1 : ℕ) : ℚ) / 60
def demoA2 : Six Rat := fun i => if i = 3 then 1 / 60 else ((i.val + 1 : ℕ) : ℚ) / 60

/-- C87: a course of two moves, the second one tells one axis only; when it is reported the arm is meant to be at 1°, 2°, 3°, 1°, 5°, 6°. -/
example : ∃ tr p pre mid post P, @Trace Rat toyFloat (@Kit.cfg Rat toyFloat) (fun _ => 0) tr p ∧ @Limits Rat demoL demoU tr ∧
    tr = pre ++ .out (.msg (.n1 6)) :: post ∧ @Course Rat toyFloat (@Kit.cfg Rat toyFloat).toRCfg demoL demoU pre demoA2 P mid ∧
    armTargets mid = [(0, 1/60), (1, 1/30), (2, 1/12), (3, 1/60), (4, 1/12), (5, 1/10)] := by
  let _ := toyFloat
  have hfit1 : Fits (@Kit.cfg Rat toyFloat).toRCfg demoL demoU demoA1 := by
    constructor <;> decide +kernel
  have hfit2 : Fits (@Kit.cfg Rat toyFloat).toRCfg demoL demoU demoA2 := by
    constructor <;> decide +kernel
  have hA1 : ∀ i, demoA1 i = angle (demoD i) := by decide +kernel
  have c := Course.home (cfg := (@Kit.cfg Rat toyFloat).toRCfg) (L := demoL) (U := demoU) c1.1 (src := .queue) (by decide) (.angles demo1_tells fun i => ⟨_, demo1_last i, hA1 i⟩) demo1_M0 hfit1
  have c := course_acts c c2.1 demo_quiet.1
  have c := course_acts c [.out (.msg (.n1 5))] (by simp [BeginsI])
  have c := course_acts c c3.1 demo_quiet.2.1
  have c := c.tell (src := .queue) (cs := demo2) (A' := demoA2) (by decide) (.angles demo2_tells (fun i d hl => ?_) (fun i hn => ?_)) (by unfold PtP; decide) hfit2
  · have c := course_acts c c4.1 demo_quiet.2.2
    refine ⟨demoTr, _, _, _, c4.2.2, _, kitT_trace demoRx 16, demo_limits, ?_, c, by rw [List.nil_append]; decide +kernel⟩
    have h1 := demo_split1
    rw [demo_split2, demo_split3, demo_split4] at h1
    rw [h1]; simp
  · obtain ⟨a, c0, b, e, hn, _⟩ := hl
    have hmem : c0 ∈ demo2 := by rw [e]; simp
    have hkey : ∀ c ∈ demo2, ∀ i, angleText c i = none ∨ i = 3 ∧ angleText c i = some (str "1") := by decide
    have := angleText_of hn
    rcases hkey c0 hmem i with h | ⟨rfl, h⟩
    · rw [h] at this; cases this
    · rw [h] at this
      injection this with this
      rw [angle, ← this]
      decide +kernel
  · by_cases hi : i = 3
    · subst hi
      exact absurd (rc_names 3 1) (hn (rc 3 1) (by simp [demo2]) _)
    · simp [demoA1, demoA2, hi]

end Mrc.Props
