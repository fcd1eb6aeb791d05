import Verif.Spec.Aside
import Verif.Spec.Device
/-
Asking does not disturb (C118): what it means that a history would have been the same without a question.
-/
namespace Mrc.Spec
open Mrc

/-- `Merge a b c`: `c` consists of `a` and `b`, each in its order. -/
inductive Merge {α : Type} : List α → List α → List α → Prop
  | nil : Merge [] [] []
  | left {x a b c} : Merge a b c → Merge (x :: a) b (x :: c)
  | right {x a b c} : Merge a b c → Merge a (x :: b) (x :: c)

/-- something happens that can be noticed: not the arrival of bytes (only their being read), not the beginning of a round of the main loop, and not a look at the serial line that finds no byte. -/
def Noted {F : Type} : Ev F → Bool
  | .arrive _ => false
  | .next => false
  | .act (.rx none) => false
  | _ => true

/-- what can be noticed of a history, in its order. -/
def noted {F : Type} (evs : List (Ev F)) : List (Ev F) := evs.filter Noted

/-- what the device does to answer: it looks at servos, and sends `N0` or a reply. -/
def Answering {F : Type} (a : Act F) : Prop :=
  (∃ i s, a = .servo i s) ∨ (∃ n, a = .out (.msg (.n0 n))) ∨ (∃ n ps, a = .out (.msg (.reply n ps)))

/-- how the question `m` is answered: only by looking and sending; and unless its last command is its number, the last thing done is to send the reply. -/
def Answered {F : Type} (m : List Byte) (w : List (Act F)) : Prop :=
  (∀ a ∈ w, Answering a) ∧ ∀ cs c, (∀ c ∈ cs, c.Ok) → m = text cs → cs.getLast? = some c → c.letter ≠ 78 → ∃ n ps, w.getLast? = some (.out (.msg (.reply n ps)))

/-- the line `l` only asks: a frame `E<m>` where `m` only asks, or the question for the free space (`B`); or it says nothing at all (an empty frame, a comment, a frame that is too long). -/
def OnlyAsksLine (l : List Byte) : Prop :=
  (13 : Byte) ∉ l ∧ (overlong l = true ∨ frame (payload l) = .empty ∨ frame (payload l) = .free ∨ ∃ m, frame (payload l) = .now m ∧ Asks m)

/-- what the device does after such a line: nothing, or it reports the free space, or the question begins and is answered. -/
inductive Reaction {F : Type} (l : List Byte) : List (Act F) → Prop
  | long : overlong l = true → Reaction l []
  | empty : overlong l = false → frame (payload l) = .empty → Reaction l []
  | free {n} : overlong l = false → frame (payload l) = .free → Reaction l [.out (.msg (.free n))]
  | now {m a} : overlong l = false → frame (payload l) = .now m → Answered m a → Reaction l (.out (.ghost .immediate m) :: a)

/-- `Without r r'`: the bytes `r'` are the bytes `r` without some (any number) of the lines that only ask. -/
inductive Without : List Byte → List Byte → Prop
  | refl (r) : Without r r
  | drop {r1 l r2 r'} : tail r1 = [] → OnlyAsksLine l → Without (r1 ++ r2) r' → Without (r1 ++ (l ++ [13]) ++ r2) r'

/-- one thing that belongs to a question: reading its bytes, its beginning, answering it. -/
def OfQuestion {F : Type} (a : Act F) : Prop :=
  (∃ b, a = .rx (some b)) ∨ (∃ m, a = .out (.ghost .immediate m) ∧ Asks m) ∨ (∃ n, a = .out (.msg (.free n))) ∨ Answering a

end Mrc.Spec
