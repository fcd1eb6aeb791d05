import Verif.Spec.Host
import Verif.Spec.Liveness
/-
C100: a careful host that does not ask for crawling speeds, and interrupts that do not divide the command of a servo.
-/
namespace Mrc.Spec
open Mrc XR

/-- V: negative, or at least 1/1000 (degrees or length units per second). -/
def Brisk (c : Cmd) : Prop := c.letter = 86 → NumArg (fun v => v < 0 ∨ 1/1000 ≤ v) c.arg

/-- an instruction for queue or storage of a careful host without crawling speeds. -/
def BriskInstr (m : List Byte) : Prop := ∃ cs, m = text cs ∧ (∀ c ∈ cs, Careful c ∧ Brisk c) ∧ waits cs ≤ 10

/-- an immediate instruction of such a host. -/
def BriskNow (m : List Byte) : Prop := ∃ cs, m = text cs ∧ (∀ c ∈ cs, Careful c ∧ Brisk c) ∧ waits cs = 0

/-- frames of such a host. -/
def BriskFrame : Frame → Prop
  | .now m => BriskNow m
  | .put m => BriskInstr m
  | .store m => BriskInstr m
  | _ => True

/-- a byte stream of such a host. -/
structure BrisklySent (r : List Byte) : Prop where
  well : WellSent r
  brisk : ∀ p ∈ decode r, BriskFrame (frame p)

/-- the storage contains instructions of such a host only. -/
def BriskStorage (mem : Nat → Byte) : Prop := ∃ L, StoredProgram mem L ∧ ∀ m ∈ L, BriskInstr m

/-- The servo interrupt never falls into the command of an arm servo that gets a positive speed below 1/1000 rad/s: it does not come after the reading of the
servo (time `k`) that is followed by the store of that speed (time `m`) and before the store of the new target (time `n`), if the program does nothing else in
between than read servos and store into this one, within one pass of the main loop. -/
def Undivided (ev : ℕ → Ev XR) : Prop :=
  ∀ (i : Fin 6) (s : Servo XR) (v : ℝ) (t : XR) (k m n : ℕ), k < m → m < n → 0 < v → v < 1/1000 →
    ev k = .act (.servo (armServo i) s) → ev m = .act (.micro (armServo i) (.setVel (.fin v))) → ev n = .act (.micro (armServo i) (.setTarget t)) →
    (∀ j, k < j → j < m → ∀ x, ev j ≠ .act x) →
    (∀ j, m < j → j < n → ∀ x, ev j = .act x → (∃ s', x = .servo (armServo i) s') ∨ (∃ a, x = .micro (armServo i) (.setStart a)) ∨ x = .micro (armServo i) .zeroElapsed) →
    (∀ j, k < j → j < n → ev j ≠ .next) →
    ∀ j, k < j → j < n → ev j ≠ .isr

end Mrc.Spec
