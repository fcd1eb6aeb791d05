import Verif.Props.Unattended
/-
C132: a run that satisfies all hypotheses.
-/
set_option maxRecDepth 100000
namespace Mrc.Props
open Mrc Mrc.Prog Mrc.Spec Mrc.Demo Mrc.Rest

/-- a storage that contains the program `L` and zeros. -/
def memOf (L : List (List Byte)) : Nat → Byte := fun k => (image L).getD k 0

theorem memOf_stored {L : List (List Byte)} (h1 : ∀ m ∈ L, m ≠ [] ∧ m.length ≤ 80) (h2 : eSize L ≤ 2048) : StoredProgram (memOf L) L := by
  refine ⟨h1, h2, fun k b _ hb => ?_⟩
  rw [show L.flatMap (fun m => UInt8.ofNat m.length :: m) = image L from rfl] at hb
  rw [memOf, List.getD_eq_getElem?_getD]
  rcases Nat.lt_or_ge k (image L).length with g | g
  · rw [List.getElem?_append_left g] at hb; rw [hb]; rfl
  · rw [List.getElem?_eq_none g]
    rw [List.getElem?_append_right g] at hb
    rcases Nat.lt_or_ge (k - (image L).length) 1 with g' | g'
    · rw [show k - (image L).length = 0 by omega] at hb; simpa using hb
    · rw [List.getElem?_eq_none (by simpa using g')] at hb; cases hb

/-- the stored program: a question, which is never begun, a move, and a command for two pins. -/
def leftQs : List (List Cmd) := [takeI, pinsI]

theorem left_stored : StoredProgram (memOf (text askQ :: leftQs.map text)) (text askQ :: leftQs.map text) := memOf_stored (by decide +kernel) (by decide +kernel)

theorem left_all {P : List Byte → Prop} (h1 : P (text askQ)) (h2 : P (text takeI)) (h3 : P (text pinsI)) : ∀ m ∈ text askQ :: leftQs.map text, P m := by
  intro m hm
  simp only [leftQs, List.map_cons, List.map_nil, List.mem_cons, List.not_mem_nil, or_false] at hm
  rcases hm with rfl | rfl | rfl <;> assumption

theorem left_brisk : ∀ m ∈ text askQ :: leftQs.map text, BriskInstr m :=
  left_all ⟨askQ, rfl, askQ_brisk, by decide +kernel⟩ ⟨takeI, rfl, takeI_brisk, by decide +kernel⟩ ⟨pinsI, rfl, pinsI_brisk, by decide +kernel⟩

theorem left_quick : ∀ m ∈ text askQ :: leftQs.map text, NoWaiting m :=
  left_all ⟨by decide +kernel, by decide +kernel⟩ ⟨by decide +kernel, by decide +kernel⟩ ⟨by decide +kernel, by decide +kernel⟩

theorem pinsI_simple : Simple pinsI := by
  refine ⟨pinsI_ok.ok, fun c hc e => ?_, fun c hc e => ?_⟩
  · have : ∀ c ∈ pinsI, c.letter ≠ 82 := by decide
    exact absurd e (this c hc)
  · have : ∀ c ∈ pinsI, c.letter ≠ 77 := by decide
    exact absurd e (this c hc)

theorem left_told : PinsTold Kit.pinMap (rounds leftQs 4).flatten
    [.mode 11 .output, .write 11 true, .mode 12 .output, .write 12 false, .mode 11 .output, .write 11 true, .mode 12 .output, .write 12 false] := by
  have := pinsTold_append pinsI_told pinsI_told
  exact this

/-- C132: three instructions are stored, nobody sends anything; all hypotheses hold. After two rounds (the first instruction is never begun) the device has said N0 5, N1 5, N0 6, N1 6 twice, and twice it has switched
pin 11 on and pin 12 off; and again and again the move is reported as finished and the tool is where it was told to go. -/
theorem C132_demo : ∃ (w0 : World XR) (σ : ℕ → Sys XR) (ev : ℕ → Ev XR), w0.servos = Kit.servos ∧ w0.rxq = [] ∧ StoredProgram w0.ee (text askQ :: leftQs.map text) ∧ Endless Kit.cfg w0 (fun _ => 0) σ ev ∧ Unbroken ev ∧
    ∃ n, ev n = .act (.out (.ghost .eeprom (text takeI))) ∧ words (acts (sofar ev n)) = [.begun 5, .finished 5, .begun 6, .finished 6, .begun 5, .finished 5, .begun 6, .finished 6] ∧
      pinOps (acts (sofar ev n)) = [.mode 11 .output, .write 11 true, .mode 12 .output, .write 12 false, .mode 11 .output, .write 11 true, .mode 12 .output, .write 12 false] ∧
      ∀ n1, ∃ j, n1 ≤ j ∧ ev j = .act (.out (.msg (.n1 5))) ∧ ∃ b, ArmAt (σ j).w b ∧ ToolAt kitG (113 / 10000) (7 / 10000) (kitLogical b) (poseOfDec takeD) := by
  let w0 : World XR := { servos := Kit.servos, now := 1, pins := fun _ => false, rxq := [], ee := memOf (text askQ :: leftQs.map text), outs := [] }
  let s0 : Sys XR := ⟨w0, setup Kit.cfg fun _ => 0⟩
  have hs : ∀ n, w0.rxq ++ arrivals (sofar (evs Kit.cfg s0) n) = [] := fun n => by
    rw [sched_hist_silent, List.append_nil]
  have hc : ∀ n, WellSent (w0.rxq ++ arrivals (sofar (evs Kit.cfg s0) n)) := fun n => by
    rw [hs]; exact ⟨by decide, by decide, fun p hp => by cases hp⟩
  have hf : ∀ n f, (hist Kit.cfg s0 n).p ≠ .fault f := fun n => (C81_kit rfl (careful_of_briskStorage ⟨_, left_stored, left_brisk⟩) (sched_hist_run Kit.cfg w0 _ n) (hc n)).1
  have he := endless Kit.cfg w0 _ hf
  refine ⟨w0, _, _, rfl, rfl, left_stored, he, sched_unbroken _ _ hf, ?_⟩
  obtain ⟨n, cs, h1, h2, -, h4, h5⟩ := C132_kit rfl he left_stored left_brisk left_quick (by simp [leftQs]) hc (fun n => by rw [hs]; intro p hp; cases hp) (sched_unbroken _ _ hf)
    (clockRuns_of he 0 fun n _ => by rw [sched_now]; exact Nat.one_pos) (by simpa [leftQs] using ⟨takeI_simple, pinsI_simple⟩) (by simpa [leftQs] using ⟨takeI_pins, pinsI_ok⟩) 4 left_told
  have e : cs = takeI := by
    have : rounds leftQs (4 + 1) = rounds leftQs 4 ++ [takeI] := rfl
    rw [this] at h2
    have := List.append_cancel_left h2
    simpa using this.symm
  subst e
  refine ⟨n, h1, by rw [h4]; decide +kernel, h5, fun n1 => ?_⟩
  obtain ⟨k, j, g1, -, g3, g4, -, g6⟩ := C132_poses rfl he left_stored left_brisk left_quick (by simp [leftQs]) hc (fun n => by rw [hs]; intro p hp; cases hp) (sched_unbroken _ _ hf)
    (clockRuns_of he 0 fun n _ => by rw [sched_now]; exact Nat.one_pos) (cs := takeI) (by simp [leftQs]) takeI_tells takeI_M0 takeI_numbered takeI_last takeI_takes n1
  exact ⟨j, by omega, g4, g6 j le_rfl fun i l q1 q2 => by omega⟩

end Mrc.Props
