import Verif.Spec.ReadBack
import Verif.Spec.Liveness
import Verif.Model.Wire
/-
C124: the numbers a host reads in an answer.
-/
namespace Mrc.Spec
open Mrc

/-- `fl` prints numbers as Arduino's `String(float)` does, to two decimals: a finite number as a decimal number that is off by at most half of the last digit, however ties are resolved; anything
else as any text without ':' CR LF. -/
structure TwoDecimals (fl : XR → List Byte) : Prop where
  near : ∀ x : ℝ, ∃ r : ℚ, Printed (fl (.fin x)) r ∧ |(r : ℝ) - x| ≤ 1 / 200
  clean : ∀ x, ∀ b ∈ fl x, b ≠ 58 ∧ b ≠ 13 ∧ b ≠ 10

/-- the bytes that went over the serial line to the host in the first `n` events. -/
def received (fl : XR → List Byte) (ev : ℕ → Ev XR) (n : ℕ) : List Byte := (outs (acts (sofar ev n))).flatMap (Out.wire fl)

/-- the last frame a host finds in the bytes received, read by the rules of the protocol. -/
def lastRead (bytes : List Byte) : Option Note := (skim none bytes).getLast?.bind readNote

/-- named values that agree with the angles `A` of the axes (in degrees, up to `e`) and the position `T` of the tool (up to `p`). -/
def TellsBack (A : Fin 6 → ℝ) (T : Fin 3 → ℝ) (e p : ℝ) (vs : List (List Byte × ℚ)) : Prop :=
  (∀ (i : Fin 6) (x : ℚ), ([82, digitChar ⟨i.val, by omega⟩], x) ∈ vs → |(x : ℝ) - A i * (180 / Real.pi)| < e) ∧
  ∀ (i : Fin 3) (x : ℚ), ([poseLetter ⟨i.val, by omega⟩], x) ∈ vs → |(x : ℝ) - T i| < p

end Mrc.Spec
