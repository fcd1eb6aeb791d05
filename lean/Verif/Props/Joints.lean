import Verif.Proof.Joints
import Verif.Props.Legible
/-
C103: a host that never uses the straight line: nothing undefined ever happens, whatever the arithmetic.
-/
set_option maxRecDepth 100000
namespace Mrc.Props
open Mrc Mrc.Prog Mrc.Spec Mrc.Demo
variable {F : Type} [FloatOps F]

/-- **C103**: if every frame fits, every instruction falls into executable commands and none of them uses the line, the firmware
never does anything undefined — for any numbers, any robot, any arithmetic (IEEE rounding, NaN, infinities), any timing, inputs
and interrupts. -/
theorem C103_faultless {cfg : Cfg F} (hm : cfg.pinMap.length = 10) {w0 : World F} {junk : Nat → Byte}
    (hmem : ∃ L, StoredProgram w0.ee L ∧ ∀ m ∈ L, SafeText 0 m ∧ Joints m) {evs : List (Ev F)} {s : Sys F}
    (h : Sys.Run cfg w0 junk evs s) (hc : LegiblySent (w0.rxq ++ arrivals evs))
    (hj : ∀ p ∈ decode (w0.rxq ++ arrivals evs), JointsFrame (frame p)) : ∀ f, s.p ≠ .fault f :=
  fun _ e => Tok.tame_limits (Tok.joint_tame cfg hm _ _) (program_of hmem) h (Tok.clean_of_joint hc hj) e

def jointStream : List Byte := str ":QM0V0X10, Y20\r:QV-M0R0-R1N,A,N S7#X\r:QM0R1+X99999999999\r:EM0O05R7.\r:Q"

theorem jointStream_sent : LegiblySent jointStream ∧ ∀ p ∈ decode jointStream, JointsFrame (frame p) := by
  have e : decode jointStream = [str "QM0V0X10,Y20", str "QV-M0R0-R1N,A,NS7", str "QM0R1+X99999999999", str "EM0O05R7."] := by decide +kernel
  have e1 : frame (str "QM0V0X10,Y20") = .put (str "M0V0X10,Y20") := by decide +kernel
  have e2 : frame (str "QV-M0R0-R1N,A,NS7") = .put (str "V-M0R0-R1N,A,NS7") := by decide +kernel
  have e3 : frame (str "QM0R1+X99999999999") = .put (str "M0R1+X99999999999") := by decide +kernel
  have e4 : frame (str "EM0O05R7.") = .now (str "M0O05R7.") := by decide +kernel
  have h1 : SafeText 0 (str "M0V0X10,Y20") := by decide +kernel
  have h2 : SafeText 0 (str "V-M0R0-R1N,A,NS7") := by decide +kernel
  have h3 : SafeText 0 (str "M0R1+X99999999999") := by decide +kernel
  have h4 : SafeText 10 (str "M0O05R7.") := by decide +kernel
  have j1 : Joints (str "M0V0X10,Y20") := by decide +kernel
  have j2 : Joints (str "V-M0R0-R1N,A,NS7") := by decide +kernel
  have j3 : Joints (str "M0R1+X99999999999") := by decide +kernel
  have j4 : Joints (str "M0O05R7.") := by decide +kernel
  refine ⟨⟨by decide +kernel, by decide +kernel, ?_⟩, ?_⟩
  all_goals
    rw [e]
    intro p hp
    simp only [List.mem_cons, List.not_mem_nil, or_false] at hp
    rcases hp with rfl | rfl | rfl | rfl
  · rw [e1]; exact h1
  · rw [e2]; exact h2
  · rw [e3]; exact h3
  · rw [e4]; exact h4
  · rw [e1]; exact j1
  · rw [e2]; exact j2
  · rw [e3]; exact j3
  · rw [e4]; exact j4

/-! any robot in any arithmetic with this stream waiting: after any number of steps of the scheduler. -/

example (cfg : Cfg F) (hm : cfg.pinMap.length = 10) (w0 : World F) (hw : w0.rxq = jointStream) (hee : w0.ee = fun _ => 0) (junk : Nat → Byte) (k : ℕ) :
    ∀ f, (steps cfg k (⟨w0, setup cfg junk⟩, false)).2.1.p ≠ .fault f := by
  refine C103_faultless hm (w0 := w0) (junk := junk) ⟨[], ⟨by simp, by decide, ?_⟩, by simp⟩ (steps_run k (evs := []) _ .init) ?_ ?_
  · intro k b _ hb
    rw [hee]
    cases k with
    | zero => simpa using hb
    | succ k => simp at hb
  · rw [List.nil_append, steps_quiet, List.append_nil, hw]
    exact jointStream_sent.1
  · rw [List.nil_append, steps_quiet, List.append_nil, hw]
    exact jointStream_sent.2

end Mrc.Props
