import Verif.Spec.Rest
import Verif.Spec.LineEnd
/-
C119, C120: how the arm moves.
-/
namespace Mrc.Spec
open Mrc

/-- the robot kit: the angles of the servos for the logical angles `a` (servo 2 turns by the sum of angles 1 and 2). -/
def kitServo (a : Fin 6 → ℝ) : Fin 6 → ℝ := fun i => if i = 2 then a 2 + a 1 else a i

/-- `x` lies between `a` and `b`, or beyond them by at most `e`. -/
def Amid (e a b x : ℝ) : Prop := min a b - e ≤ x ∧ x ≤ max a b + e

/-- every servo of the arm is between the angles `a` and `b`, or beyond them by at most `e`. -/
def ArmAmid (w : World XR) (e : ℝ) (a b : Fin 6 → ℝ) : Prop := ∃ x, ArmAt w x ∧ ∀ i, Amid e (a i) (b i) (x i)

/-- every servo of the arm is at the angle `a`, up to `e`. -/
def ArmAbout (w : World XR) (e : ℝ) (a : Fin 6 → ℝ) : Prop := ∃ x, ArmAt w x ∧ ∀ i, |x i - a i| ≤ e

/-- at the times from `n` to `n'` the arm goes straight from each of the servo angles `B 0`, ..., `B k` to the next: it is at the angles `B j` at the time `r j`, and every servo is between
`B j` and `B (j+1)` until the time `r (j+1)`; after the last it stays. -/
def Visits (σ : ℕ → Sys XR) (e : ℝ) (B : ℕ → Fin 6 → ℝ) (k n n' : ℕ) : Prop :=
  ∃ r : ℕ → ℕ, r 0 = n ∧ (∀ j < k, r j ≤ r (j + 1)) ∧ r k ≤ n' ∧ (∀ j ≤ k, ArmAbout (σ (r j)).w e (B j)) ∧
    (∀ j < k, ∀ l, r j ≤ l → l ≤ r (j + 1) → ArmAmid (σ l).w e (B j) (B (j + 1))) ∧ ∀ l, r k ≤ l → l ≤ n' → ArmAbout (σ l).w e (B k)

/-- how the arm goes, from time `k0` until time `e`, when it is sent straight to the pose `P`. -/
inductive LineWay (G : Fin 5 → Vec3) (P : Fin 6 → ℝ) (σ : ℕ → Sys XR) (k0 e : ℕ) : Prop
  /-- from where it was to the first `j` of `m` points at equal distances on the straight line from where the tool was (`S`) to `P`, one after the other, all of them or up to one that cannot be
  taken -/
  | goes (a S : Fin 6 → ℝ) (m j : ℕ) (B : ℕ → Fin 6 → ℝ) : Nearer (σ k0).w a → jointPos G (kitLogical a) 5 = ![S 0, S 1, S 2] → 2 * dist3 S P < m → j ≤ m → ArmAt (σ k0).w (B 0) →
      (∀ i, 0 < i → i ≤ j → ∃ A, PutsAt G A (onLine S P i m) ∧ KitFits A ∧ B i = kitServo A) → Visits σ (2 / 1000000) B j k0 e →
      (j = m ∨ Blocked G (onLine S P (j + 1) m) ∧ ∀ A, ¬ KitTakes G (onLine S P (j + 1) m) A) → LineWay G P σ k0 e
  /-- it stays where it was, because it was at `P` already or `P` is out of reach -/
  | stays (c : Fin 6 → ℝ) : ArmAt (σ k0).w c → (∀ n, k0 ≤ n → n ≤ e → ArmAbout (σ n).w (2 / 1000000) c) →
      (¬ InReach G P ∨ ∃ A, PutsAt G A P ∧ ∀ i, |kitLogical c i - A i| < 11 / 100000) → LineWay G P σ k0 e

end Mrc.Spec
