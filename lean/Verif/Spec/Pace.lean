import Verif.Spec.Speed
import Verif.Spec.Way
import Verif.Spec.Line
import Verif.Spec.LineEnd
/-
C122: how fast the tool moves on a straight line.
-/
namespace Mrc.Spec
open Mrc

/-- where the tool of an arm with the geometry `G` is when the servos are at the angles `b`. -/
noncomputable def toolOf (G : Fin 5 → Vec3) (b : Fin 6 → ℝ) : Vec3 := jointPos G (kitLogical b) 5

/-- how the arm keeps the speed `V` (units of length per second) on its way straight to the pose `P`, from the beginning of the instruction (time `k0`) until its report (time `k`). -/
inductive KeepsPace (G : Fin 5 → Vec3) (V : ℝ) (P : Fin 6 → ℝ) (σ : ℕ → Sys XR) (ev : ℕ → Ev XR) (k0 k : ℕ) : Prop
  /-- it passes the first `j` of `m` points at equal distances on the straight line from where the tool was (`S`) to `P`, all of them or up to one that cannot be taken: it is at the point `i`
  (servo angles `B i`) at the time `r i`, at the last one when the report is sent -/
  | parts (S : Fin 6 → ℝ) (m j : ℕ) (B : ℕ → Fin 6 → ℝ) (r : ℕ → ℕ) : 2 * dist3 S P < m → m ≤ 2 * dist3 S P + 1 → 0 < j → j ≤ m → (j = m ∨ Blocked G (onLine S P (j + 1) m)) → ArmAt (σ k0).w (B 0) → len3 (toolOf G (B 0) - ![S 0, S 1, S 2]) ≤ 5 / 10000 →
      (∀ i, 0 < i → i ≤ j → ∃ A, PutsAt G A (onLine S P i m) ∧ KitFits A ∧ B i = kitServo A) → r 0 = k0 → r j = k → (∀ i < j, r i < r (i + 1)) →
      (∀ i ≤ j, ArmAbout (σ (r i)).w (2 / 1000000) (B i)) →
      /- in no interrupt does a servo turn further than its share of the part, to 5e-6 radians -/
      (∀ i < j, ∀ n, r i ≤ n → n < r (i + 1) → ∀ s : Fin 6, ∃ x x' : ℝ, ((σ n).w.servos (armServo s)).cur = .fin x ∧ ((σ (n + 1)).w.servos (armServo s)).cur = .fin x' ∧
        |x' - x| * (dist3 S P / m) ≤ (|B (i + 1) s - B i s| + 3 / 1000000) * V * (20 / 1000) + 5 / 1000000 * (dist3 S P / m)) →
      /- every part takes no less than its time, to 1%, unless it is tiny (the first one if the tool is at its end) -/
      (1 / 10 ≤ dist3 S P / m → ∀ i < j, (i = 0 → toolOf G (B 1) = ![onLine S P 1 m 0, onLine S P 1 m 1, onLine S P 1 m 2]) →
        99 / 100 * (dist3 S P / m) ≤ V * (20 / 1000 * interrupts ev (r i) (r (i + 1)))) → KeepsPace G V P σ ev k0 k
  /-- it stays where it was -/
  | stays (c : Fin 6 → ℝ) : ArmAt (σ k0).w c → (∀ n, k0 ≤ n → n ≤ k → ArmAbout (σ n).w (2 / 1000000) c) → KeepsPace G V P σ ev k0 k

end Mrc.Spec
