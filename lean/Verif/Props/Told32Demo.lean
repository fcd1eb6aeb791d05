import Verif.Props.Told32
import Verif.Props.ToldDemo
/-
C105: a host and an instruction that meet the hypotheses.
-/
set_option linter.unusedSectionVars false
set_option linter.unusedSimpArgs false
set_option maxRecDepth 100000
namespace Mrc.Props
open Mrc Mrc.Prog Mrc.Spec Mrc.Told Mrc.Demo

/-- the angles of the example are within the ranges of the kit. -/
theorem demo1_fits : KitFitsBy (1 / 100000) fun i => radians (demoD i) := by
  have hp := Real.pi_gt_d2
  have e : ∀ i, radians (demoD i) = ((i.val + 1 : ℕ) : ℝ) * (Real.pi / 180) := by
    intro i
    have : (demoD i).val = ((i.val + 1 : ℕ) : ℚ) := by revert i; decide +kernel
    rw [radians, this]; norm_num
  have h1 : ∀ i : Fin 6, Kit.minDeg (armServo i) + 1 ≤ ((i.val + 1 : ℕ) : ℚ) ∧ ((i.val + 1 : ℕ) : ℚ) ≤ Kit.maxDeg (armServo i) - 1 := by decide +kernel
  have h2 : Kit.minDeg 2 + 1 ≤ (5 : ℚ) ∧ (5 : ℚ) ≤ Kit.maxDeg 2 - 1 := by decide +kernel
  have cast : ∀ {a b : ℚ}, a ≤ b → (a : ℝ) ≤ b := fun h => by exact_mod_cast h
  refine ⟨fun i => ?_, ?_⟩
  · show _ ≤ radians (demoD i) ∧ radians (demoD i) ≤ _
    rw [e]
    have a1 := cast (h1 i).1
    have a2 := cast (h1 i).2
    push_cast at a1 a2 ⊢
    constructor <;> nlinarith
  · show _ ≤ radians (demoD 2) + radians (demoD 1) ∧ radians (demoD 2) + radians (demoD 1) ≤ _
    rw [e, e]
    have a1 := cast h2.1
    have a2 := cast h2.2
    have e1 : ((1 : Fin 6).val + 1 : ℕ) = 2 := rfl
    have e2 : ((2 : Fin 6).val + 1 : ℕ) = 3 := rfl
    rw [e1, e2]
    push_cast at a1 a2 ⊢
    constructor <;> nlinarith

/-- ":QM0V70N5R01R12R23R34R45R56" and Enter: a stream of a host that moves by joint angles; it tells all six angles, well within the ranges of the kit. -/
example : let x := str ":QM0V70N5R01R12R23R34R45R56\r"
    LegiblySent x ∧ (∀ p ∈ decode x, AngleFrame (frame p)) ∧ decode x = [81 :: text demo1] ∧ TellsAngles demo1 ∧ Chooses 48 demo1 ∧ Numbered (text demo1) 5 ∧
    (∀ i, Last NamesAngle demo1 i (demoD i)) ∧ KitFitsBy (1 / 100000) fun i => radians (demoD i) := by
  intro x
  have e : decode x = [81 :: text demo1] := by decide +kernel
  have e1 : frame (81 :: text demo1) = .put (text demo1) := by decide +kernel
  have h1 : SafeText 0 (text demo1) := by decide +kernel
  have j1 : AngleText (text demo1) := by decide +kernel
  refine ⟨⟨by decide +kernel, by decide +kernel, ?_⟩, ?_, e, demo1_tells, demo1_M0, ⟨demo1.take 2, (demo1.drop 3).take 5, str "5", ⟨82, str "56"⟩, by decide +kernel, ?_, by decide +kernel, by unfold WriteCmd; decide +kernel, by decide +kernel, by decide⟩, demo1_last, ?_⟩
  · rw [e]; intro p hp; rw [List.mem_singleton.1 hp, e1]; exact h1
  · rw [e]; intro p hp; rw [List.mem_singleton.1 hp, e1]; exact j1
  · exact demo1_tells.ok
  · exact demo1_fits

end Mrc.Props
