import Verif.Spec.Host
import Verif.Spec.Liveness
/-
A host that never makes the controller wait (C106).
-/
namespace Mrc.Spec
open Mrc

/-- an instruction without the letters I (wait for an input) and D (wait some time). -/
def NoWaiting (m : List Byte) : Prop := (73 : Byte) ∉ m ∧ (68 : Byte) ∉ m

/-- frames without them. -/
def NoWaitingFrame : Frame → Prop
  | .now m => NoWaiting m
  | .put m => NoWaiting m
  | .store m => NoWaiting m
  | _ => True

/-- a byte stream whose frames fit and never make the controller wait. -/
structure NeverWaits (r : List Byte) : Prop where
  frames : ∀ l ∈ lines r, (payload l).length ≤ 78
  pieces : ∀ l ∈ lines r ++ [tail r], ∀ p ∈ split 58 (code l), (p.filter counts).length ≤ 80
  quick : ∀ p ∈ decode r, NoWaitingFrame (frame p)

/-- no stored instruction makes the controller wait. -/
def QuickStorage (mem : Nat → Byte) : Prop := ∃ L, StoredProgram mem L ∧ ∀ m ∈ L, NoWaiting m

/-- the clock runs: again and again there is a pass of the main loop during which the time is not 0 (the time is 0 in the first millisecond after the start and after every rollover). -/
def ClockRuns {F : Type} [FloatOps F] (σ : ℕ → Sys F) (ev : ℕ → Ev F) : Prop :=
  ∀ n, ∃ a b s, n ≤ a ∧ PassAt σ ev a b s ∧ ∀ k, a ≤ k → k < b → 0 < (σ k).w.now

end Mrc.Spec
