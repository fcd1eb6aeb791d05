import Verif.Spec.Liveness
import Verif.Spec.Told
import Verif.Spec.Angles
/-
C108, C109: the arm is at rest, and where it was told to be, when an instruction is reported as finished.
-/
namespace Mrc.Spec
open Mrc
variable {F : Type} [FloatOps F]

/-- The servo interrupt never falls into the command of an arm servo: it does not come after the reading of the servo (time `k`) that is followed by the store of
its speed (time `m`) and before the store of the new target (time `n`), if the program does nothing else in between than read servos and store into this one,
within one pass of the main loop. -/
def Unbroken (ev : ℕ → Ev F) : Prop :=
  ∀ (i : Fin 6) (s : Servo F) (v t : F) (k m n : ℕ), k < m → m < n →
    ev k = .act (.servo (armServo i) s) → ev m = .act (.micro (armServo i) (.setVel v)) → ev n = .act (.micro (armServo i) (.setTarget t)) →
    (∀ j, k < j → j < m → ∀ x, ev j ≠ .act x) →
    (∀ j, m < j → j < n → ∀ x, ev j = .act x → (∃ s', x = .servo (armServo i) s') ∨ (∃ a, x = .micro (armServo i) (.setStart a)) ∨ x = .micro (armServo i) .zeroElapsed) →
    (∀ j, k < j → j < n → ev j ≠ .next) →
    ∀ j, k < j → j < n → ev j ≠ .isr

/-- immediate instructions that name a place for the arm begin only while it is at rest: every arm servo was, after the last store into it, seen at its target. -/
def CalmImmediates (ev : ℕ → Ev F) : Prop := ∀ k m, ev k = .act (.out (.ghost .immediate m)) → ¬ NoPlace m → Arrived (acts (sofar ev k))

/-- at time `k` no move is under way, and the host knows. -/
def CalmAt (ev : ℕ → Ev F) (k : ℕ) : Prop := Calm (acts (sofar ev k))

/-- at time `k` everything begun is reported as finished. -/
def AllDoneAt (ev : ℕ → Ev F) (k : ℕ) : Prop := AllDone (acts (sofar ev k))

/-- immediate instructions that concern the arm begin only while no move is under way (asides may begin at any time). -/
def CalmStarts (ev : ℕ → Ev F) : Prop := ∀ k m, ev k = .act (.out (.ghost .immediate m)) → ¬ Aside m → CalmAt ev k

/-- at time `k` an instruction is reported as finished, or the next one from queue or storage begins. -/
def ReportsAt (ev : ℕ → Ev F) (k : ℕ) : Prop := (∃ n, ev k = .act (.out (.msg (.n1 n)))) ∨ ∃ src m, src ≠ .immediate ∧ ev k = .act (.out (.ghost src m))

/-- nothing is stored into servo `i` from time `a` until time `b`. -/
def Untouched (ev : ℕ → Ev F) (i : Fin 8) (a b : ℕ) : Prop := ∀ j, a ≤ j → j < b → ∀ m, ev j ≠ .act (.micro i m)

/-- the servos of the arm are at the angles `b`. -/
def ArmAt (w : World XR) (b : Fin 6 → ℝ) : Prop := ∀ i, (w.servos (armServo i)).cur = .fin (b i)

/-- the same in binary32. -/
def ArmAt32 (w : World (RX binary32)) (b : Fin 6 → ℝ) : Prop := ∀ i, (w.servos (armServo i)).cur.val = .fin (b i)

end Mrc.Spec
