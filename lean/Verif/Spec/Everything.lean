import Verif.Spec.Gripper
/-
C139: what a program says last about an additional axis.
-/
namespace Mrc.Spec
open Mrc

/-- the last command of the program `P` that moves axis `j` sends it to `d` degrees. -/
def LastAxis (P : List (List Cmd)) (j : Fin 2) (d : Dec) : Prop :=
  ∃ (xs : List (List Cmd)) (before : List Cmd) (c : Cmd) (after : List Cmd) (ys : List (List Cmd)),
    P = xs ++ (before ++ c :: after) :: ys ∧ SendsAxis j d c ∧ (∀ x ∈ after, ¬ MovesAxis j x) ∧ ∀ m ∈ ys, ∀ x ∈ m, ¬ MovesAxis j x

end Mrc.Spec
