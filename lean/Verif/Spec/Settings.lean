import Verif.Spec.InForce
/-
C125: questions for the movement method and the speed.
-/
namespace Mrc.Spec
open Mrc

/-- a movement method or a speed. -/
inductive Setting (α : Type) where
  | method (k : ℕ)
  | speed (v : α)

/-- what a command asks for while `k` and `v` are in force: M or V without number. -/
def settingBy (k : ℕ) (v : Option (List Byte)) (c : Cmd) : List (Setting (Option (List Byte))) :=
  if c.letter = 77 ∧ c.arg = [] then [.method k] else if c.letter = 86 ∧ c.arg = [] then [.speed v] else []

/-- the settings an instruction asks for, begun while `k` and `v` are in force; each as it is at that point of the instruction. -/
def settings (k : ℕ) (v : Option (List Byte)) : List Cmd → List (Setting (Option (List Byte)))
  | [] => []
  | c :: cs => settingBy k v c ++ settings (chosenBy k c) (spokenBy v c) cs

/-- the setting told in an answer. -/
def Part.setting {F : Type} : Part F → Option (Setting F)
  | .method c => some (.method c)
  | .velocity x => some (.speed x)
  | _ => none

/-- the number of the controller for the speed `v`: 10 if none was told. -/
def speedIn {F : Type} [FloatOps F] : Option (List Byte) → F
  | none => lit 10
  | some a => atof a

def Setting.inNumbers {F : Type} [FloatOps F] : Setting (Option (List Byte)) → Setting F
  | .method k => .method k
  | .speed v => .speed (speedIn v)

/-- a named value that a host has read agrees with a setting: M exactly, V to half of the second decimal. -/
def ReadAs : Setting (Option (List Byte)) → List Byte × ℚ → Prop
  | .method k, f => f = ([77], (k : ℚ))
  | .speed v, f => f.1 = [86] ∧ ∀ V, SaysSpeed v V → |(f.2 : ℝ) - V| ≤ 1 / 200

/-- the named values M and V. -/
def named (vs : List (List Byte × ℚ)) : List (List Byte × ℚ) := vs.filter fun f => f.1 = [77] ∨ f.1 = [86]

example : settings 1 none [⟨77, []⟩, ⟨86, str "50"⟩, ⟨77, str "0"⟩, ⟨88, []⟩, ⟨86, []⟩, ⟨77, []⟩] = [.method 1, .speed (some (str "50")), .method 0] := rfl

end Mrc.Spec
