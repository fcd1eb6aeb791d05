import Verif.Proof.Replay
/-
C92-C94: the stored program of the running system.
-/
set_option linter.unusedSectionVars false
namespace Mrc.Props
open Mrc Mrc.Prog Mrc.Spec
variable {F : Type} [FloatOps F] {cfg : Cfg F} {w0 : World F} {junk : Nat → Byte}

/-- **C92**: the storage contains the program the host has sent. Between two passes of the main loop, whatever else has happened (moves, queued and immediate instructions, interrupts), it is
the one obtained from what was stored at power-up by the W frames received so far, in order: an instruction that fits is appended, one that does not is ignored, an empty W erases all. -/
theorem C92_program {evs : List (Ev F)} {w : World F} {s : FW F} {L : List (List Byte)} (h : Sys.Run cfg w0 junk evs ⟨w, .ret s⟩) (h0 : HasProgram w0.ee L) :
    HasProgram w.ee (program L (rxBytes (acts evs))) := by
  obtain ⟨h1, h2⟩ := h.mem
  rw [stored_iff] at h0 ⊢
  have := h.trace.mark.stored h0 h2
  rw [← h1] at this
  exact this

/-- **C92** (power cut): at any moment at all, the storage contains the program as of the last frame or the one before it, or a frame that appends an instruction is just being executed and
all instructions stored before are still in their places. -/
theorem C92_cut {evs : List (Ev F)} {s : Sys F} {L : List (List Byte)} (h : Sys.Run cfg w0 junk evs s) (h0 : HasProgram w0.ee L) :
    let r := rxBytes (acts evs)
    ∃ r', (r' = r ∨ r = r' ++ [13]) ∧
      (HasProgram s.w.ee (program L r') ∨ (∃ m, storeOps r = storeOps r' ++ [.append m]) ∧ KeepsMessages s.w.ee (program L r')) := by
  obtain ⟨h1, h2⟩ := h.mem
  rw [stored_iff] at h0
  have := h.trace.cut.intact h0 h2
  rw [← h1] at this
  exact this

/-- **C93** (replay after power-up): as long as no W frame has been received, the instructions started from the storage are the stored ones except the first, in order, again and again
(none if there is only one). -/
theorem C93_replay {evs : List (Ev F)} {s : Sys F} {L : List (List Byte)} (h : Sys.Run cfg w0 junk evs s) (h0 : HasProgram w0.ee L) (hw : storeOps (rxBytes (acts evs)) = []) :
    ∃ k, storeStarts (acts evs) = cyc L.tail 0 k ∧ (L.tail = [] → k = 0) := by
  obtain ⟨_, h2⟩ := h.mem
  rw [stored_iff] at h0
  exact h.trace.cut.boot h0 h2 hw

/-- **C93** (replay of a program just sent): the same from any moment on, with the program of that moment, beginning somewhere in it. -/
theorem C93_since {evs evs' : List (Ev F)} {s : Sys F} {L : List (List Byte)} (h : Sys.Run cfg w0 junk (evs ++ evs') s) (h0 : HasProgram w0.ee L)
    (hw : storeOps (rxBytes (acts (evs ++ evs'))) = storeOps (rxBytes (acts evs))) :
    let T := (program L (rxBytes (acts evs))).tail
    ∃ j k, storeStarts (acts evs') = cyc T j k ∧ (T = [] → k = 0) := by
  obtain ⟨_, h2⟩ := h.mem
  rw [stored_iff] at h0
  have hc := h.trace.cut
  rw [acts_append] at hc h2 hw
  exact hc.since h0 h2 hw

/-- **C94**: the program survives. However often the controller is switched off (between two passes) and on again, its storage contains the program as of all W frames received in all its
lives, and after every power-up that program is replayed (without its first instruction), until a W frame is received. -/
theorem C94_lives {m0 m : Nat → Byte} {rs : List (List Byte)} {L : List (List Byte)} (h : Lives cfg m0 rs m) (h0 : HasProgram m0 L) :
    HasProgram m (rs.foldl program L) ∧
    ∀ {w0 : World F} {junk : Nat → Byte} {evs : List (Ev F)} {s : Sys F}, w0.ee = m → Sys.Run cfg w0 junk evs s → storeOps (rxBytes (acts evs)) = [] →
      ∃ k, storeStarts (acts evs) = cyc (rs.foldl program L).tail 0 k := by
  have main : HasProgram m (rs.foldl program L) := by
    induction h with
    | new => exact h0
    | on h hw hr ih =>
      rw [List.foldl_append]
      exact C92_program hr (by rw [hw]; exact ih)
  refine ⟨main, fun hw hr hops => ?_⟩
  obtain ⟨k, h1, _⟩ := C93_replay hr (by rw [hw]; exact main) hops
  exact ⟨k, h1⟩

end Mrc.Props
