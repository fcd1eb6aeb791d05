import Verif.Spec.Told
import Verif.Spec.Rest
import Verif.Spec.Way
/-
C121: how fast the arm moves.
-/
namespace Mrc.Spec
open Mrc

/-- the last speed the instruction names (V) is `d` (degrees per second). -/
def LastSpeed (cs : List Cmd) (d : Dec) : Prop := d.Ok ∧ ∃ a b, cs = a ++ ⟨86, d.text⟩ :: b ∧ ∀ c ∈ b, c.letter = 86 → c.arg = []

/-- the number of servo interrupts (one every 20 ms) from time `a` until time `b`. -/
def interrupts {F : Type} (ev : ℕ → Ev F) (a b : ℕ) : ℕ :=
  ((List.range b).filter fun n => decide (a ≤ n) && match ev n with | .isr => true | _ => false).length

/-- the largest change of an angle. -/
noncomputable def widest (a b : Fin 6 → ℝ) : ℝ := max (max (max |a 0 - b 0| |a 1 - b 1|) (max |a 2 - b 2| |a 3 - b 3|)) (max |a 4 - b 4| |a 5 - b 5|)

/-- the speed of a servo that turns by `x` while the arm turns by `W` at the speed `V`: its share of `V` in proportion (a servo at rest may be off by 1e-6). -/
noncomputable def share (V W x : ℝ) : ℝ := V * (x + 1 / 1000000) / max 0 (W - 2 / 1000000)

/-- how the arm keeps the speed `V` (radians per second) on its way from the servo angles `c` to the logical angles `a`, from the beginning of the instruction (time `k0`) until time `e`; the
instruction is reported as finished at time `k`. -/
structure KeepsSpeed (σ : ℕ → Sys XR) (ev : ℕ → Ev XR) (V : ℝ) (c a : Fin 6 → ℝ) (k0 k e : ℕ) : Prop where
  /-- no servo turns faster than its share of the speed, to 2e-6 radians in an interrupt -/
  paced : ∀ n, k0 ≤ n → n < e → ∀ i : Fin 6, ∃ x x' : ℝ, ((σ n).w.servos (armServo i)).cur = .fin x ∧ ((σ (n + 1)).w.servos (armServo i)).cur = .fin x' ∧
    |x' - x| ≤ share V (widest (kitLogical c) a) |kitServo a i - c i| * (20 / 1000) + 2 / 1000000
  /-- a move that is not tiny takes no less than its time, to 0.1% -/
  least : KitFits a → 1 / 100 ≤ widest (kitLogical c) a → 999 / 1000 * widest (kitLogical c) a ≤ V * (20 / 1000 * interrupts ev k0 k)
  /-- it takes no more than its time, or the time the servos need for it at their maximum speeds: when this time `T` has passed since the last servo was commanded (time `j`), the arm is there -/
  most : KitFits a → ∀ T, widest (kitLogical c) a + 2 / 1000000 ≤ V * T → (∀ i, |kitServo a i - c i| + 1 / 1000000 ≤ (Kit.velDeg (armServo i) : ℝ) * (Real.pi / 180) * T) →
    ∀ j, k0 ≤ j → j ≤ k → (∀ i : Fin 6, Untouched ev (armServo i) j k) → ∀ n, j ≤ n → n ≤ e → T ≤ 20 / 1000 * interrupts ev j n →
      ∃ b, ArmAt (σ n).w b ∧ ∀ i, |kitLogical b i - a i| < 12 / 100000

end Mrc.Spec
