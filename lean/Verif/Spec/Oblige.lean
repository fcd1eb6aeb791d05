import Verif.Spec.Await
import Verif.Spec.Liveness
/-
C128: surroundings that give the controller what it waits for, stated without its internal state.
-/
namespace Mrc.Spec
open Mrc
variable {F : Type}

/-- the number of clock readings. -/
def readings (tr : List (Act F)) : ℕ := (tr.filter fun | .now _ => true | _ => false).length

/-- the number of commands D. -/
def delays (cs : List Cmd) : ℕ := (cs.filter fun c => c.letter == 68).length

/-- the text of commands, without D. -/
def NoDelay (m : List Byte) : Prop := ∃ cs, (∀ c ∈ cs, c.Ok) ∧ m = text cs ∧ ∀ c ∈ cs, c.letter ≠ 68

/-- what is waited for by the last D of the history: the clock reading taken for it (every D reads the clock once) and its milliseconds, in the 32 bits of the clock. -/
def DueAt (tr : List (Act F)) (T : ℕ) : Prop :=
  ∃ pre src cs u t v ms, tr = pre ++ .out (.ghost src (text cs)) :: u ++ .now t :: v ∧ (∀ c ∈ cs, c.Ok) ∧ Delays ms cs ∧ readings u + 1 = delays cs ∧
    (∀ s m, .out (.ghost s m) ∈ u ++ v → NoDelay m) ∧ T = (t + ms) % 4294967296

/-- the inputs the last instruction from queue or storage waits for have their levels. -/
def InputsThere (map : List ℕ) (tr : List (Act F)) (pins : ℕ → Bool) : Prop :=
  ∀ pre src cs mid l, tr = pre ++ .out (.ghost src (text cs)) :: mid → (∀ c ∈ cs, c.Ok) → src ≠ .immediate → OnlyBrief mid → Awaits map cs l → ∀ x ∈ l, pins x.1 = x.2

/-- again and again there is a pass of the main loop during which the inputs named last have their levels, and the clock (being past its first millisecond) is past the time named last. -/
def Obliging [FloatOps F] (map : List ℕ) (σ : ℕ → Sys F) (ev : ℕ → Ev F) : Prop :=
  ∀ n, ∃ a b, n ≤ a ∧ a < b ∧ ev a = .next ∧ ev b = .next ∧ (∀ k, a < k → k < b → ev k ≠ .next) ∧
    ∀ k, a ≤ k → k < b → InputsThere map (acts (sofar ev a)) (σ k).w.pins ∧ 0 < (σ k).w.now ∧ ∀ T, DueAt (acts (sofar ev a)) T → T < (σ k).w.now

/-- an instruction as it should be: two digits after I and O, a number of milliseconds after D. -/
def ClearWaits (m : List Byte) : Prop := ∃ cs, m = text cs ∧ PinsOk cs ∧ ∀ c ∈ cs, c.letter = 68 → ∃ ms, NamesDelay ms c

end Mrc.Spec
