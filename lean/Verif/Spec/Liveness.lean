import Mathlib.Logic.Function.Iterate
import Verif.Model.Run
import Verif.Spec.Device
import Verif.Spec.Aside
/-
Vocabulary for "eventually" properties (C77-C80): endless histories of the running system.
-/
namespace Mrc.Spec
open Mrc
variable {F : Type} [FloatOps F]

/-- an endless history: at time `n` the system is `σ n`, then `ev n` happens. It starts at power-up, never crashes, the main loop
starts new passes for ever and the timer interrupt keeps running. Nothing is said about how many interrupts fall into a pass, or
when, about the clock, the input pins or the serial line. -/
structure Endless (cfg : Cfg F) (w0 : World F) (junk : Nat → Byte) (σ : ℕ → Sys F) (ev : ℕ → Ev F) : Prop where
  boot : σ 0 = ⟨w0, setup cfg junk⟩
  step : ∀ n, Sys.Do cfg (σ n) (ev n) (σ (n + 1))
  loops : ∀ n, ∃ m, n ≤ m ∧ ev m = .next
  ticks : ∀ n, ∃ m, n ≤ m ∧ ev m = .isr

/-- the first `n` events. -/
def sofar (ev : ℕ → Ev F) (n : ℕ) : List (Ev F) := (List.range n).map ev

/-- an instruction is handed over for execution at time `n`. -/
def Begins (ev : ℕ → Ev F) (n : ℕ) : Prop := ∃ src m, ev n = .act (.out (.ghost src m))

/-- a servo left alone (only the timer interrupt runs) arrives and stays there. -/
def Settles (s : Servo F) : Prop := ∃ K, ∀ k, K ≤ k → ((fun s => s.tick 20)^[k] s).atTarget = true

/-- at time `n` the main loop is between two passes, in state `s`. -/
def Between (σ : ℕ → Sys F) (n : ℕ) (s : FW F) : Prop := (σ n).p = .ret s

/-- all inputs waited for have the required level and the waiting time is over. -/
def Released (s : FW F) (w : World F) : Prop :=
  (∀ c ∈ s.core.conds, (c.2 = 1 → w.pins c.1 = true) ∧ (c.2 = 0 → w.pins c.1 = false)) ∧ s.core.waitUntil < w.now

/-- a pass of the main loop from `a` to `b`, starting in state `s`. -/
structure PassAt (σ : ℕ → Sys F) (ev : ℕ → Ev F) (a b : ℕ) (s : FW F) : Prop where
  lt : a < b
  start : Between σ a s
  here : ev a = .next
  stop : ev b = .next
  one : ∀ n, a < n → n < b → ev n ≠ .next

/-- again and again there is a pass during which everything waited for is there. -/
def Fair (σ : ℕ → Sys F) (ev : ℕ → Ev F) : Prop :=
  ∀ n, ∃ a b s, n ≤ a ∧ PassAt σ ev a b s ∧ ∀ k, a ≤ k → k < b → Released s (σ k).w

/-- what the host knows of the controller's queue at time `n`. -/
def view (ev : ℕ → Ev F) (n : ℕ) : Dev := Dev.after (acts (sofar ev n))

/-- from `n` on no frame is received that clears the queue or makes the controller take instructions from the storage. -/
def KeepsQueue (ev : ℕ → Ev F) (n : ℕ) : Prop :=
  ∀ k, n ≤ k → ev k = .act (.rx (some 13)) → overlong (view ev k).line = false →
    frame (payload (view ev k).line) ≠ .clear ∧ ∀ m, frame (payload (view ev k).line) ≠ .store m

/-- from `n` on no frame is received that puts something into the queue, clears it, or changes the storage. -/
def KeepsStorage (ev : ℕ → Ev F) (n : ℕ) : Prop :=
  ∀ k, n ≤ k → ev k = .act (.rx (some 13)) → overlong (view ev k).line = false →
    frame (payload (view ev k).line) = .free ∨ frame (payload (view ev k).line) = .empty ∨ ∃ m, frame (payload (view ev k).line) = .now m

/-- from `n` on the immediate instructions that begin only ask. -/
def OnlyAsksNow (ev : ℕ → Ev F) (n : ℕ) : Prop := ∀ k, n ≤ k → ∀ m, ev k = .act (.out (.ghost .immediate m)) → Asks m

end Mrc.Spec
