import Verif.Spec.Angles
import Verif.Spec.Host
import Verif.Spec.Liveness
/-
C107: a host that moves the arm by joint angles and does not ask for crawling speeds, in binary32; interrupts that do not divide the command of a servo.
-/
namespace Mrc.Spec
open Mrc XR

/-- every V is a question, or its number is not positive (the firmware then takes 0.1 rad/s or the fastest move) or at least 1/1000 (degrees per second). -/
def BriskText (m : List Byte) : Prop :=
  ∀ t ∈ (commands [] (codePart m)).1, t.head? = some 86 → NumArg (fun v => v ≤ 0 ∨ 1/1000 ≤ v) t.tail

/-- the text of an instruction that moves by joint angles, without crawling speeds. -/
structure JointText (m : List Byte) : Prop where
  angles : AngleText m
  brisk : BriskText m

/-- frames with such instructions. -/
def JointFrame : Frame → Prop
  | .now m => JointText m
  | .put m => JointText m
  | .store m => JointText m
  | _ => True

/-- The servo interrupt never falls into the command of an arm servo that gets a positive speed below 1/1000 rad/s: it does not come after the reading of the
servo (time `k`) that is followed by the store of that speed (time `m`) and before the store of the new target (time `n`), if the program does nothing else in
between than read servos and store into this one, within one pass of the main loop. (`Undivided` for binary32.) -/
def Undivided32 (ev : ℕ → Ev (RX binary32)) : Prop :=
  ∀ (i : Fin 6) (s : Servo (RX binary32)) (v : RX binary32) (x : ℝ) (t : RX binary32) (k m n : ℕ), k < m → m < n → v.val = fin x → 0 < x → x < 1/1000 →
    ev k = .act (.servo (armServo i) s) → ev m = .act (.micro (armServo i) (.setVel v)) → ev n = .act (.micro (armServo i) (.setTarget t)) →
    (∀ j, k < j → j < m → ∀ x, ev j ≠ .act x) →
    (∀ j, m < j → j < n → ∀ x, ev j = .act x → (∃ s', x = .servo (armServo i) s') ∨ (∃ a, x = .micro (armServo i) (.setStart a)) ∨ x = .micro (armServo i) .zeroElapsed) →
    (∀ j, k < j → j < n → ev j ≠ .next) →
    ∀ j, k < j → j < n → ev j ≠ .isr

end Mrc.Spec
