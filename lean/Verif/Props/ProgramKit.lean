import Verif.Props.ProgramLive
import Verif.Props.FlowLive
/-
C95 for the kit and C96: a careful host and power cycles.
-/
set_option linter.unusedSectionVars false
namespace Mrc.Props
open Mrc Mrc.Prog Mrc.Spec

/-- the messages of a program are old ones or have been stored. -/
theorem mem_eRun {L : List (List Byte)} {ops : List EOp} {m : List Byte} (h : m ∈ (eRun L ops).1) : m ∈ L ∨ .append m ∈ ops := by
  induction ops generalizing L with
  | nil => exact .inl h
  | cons o ops ih =>
    rcases ih h with h | h
    · cases o with
      | append x =>
        simp only [eStep] at h
        split at h
        · rcases List.mem_append.1 h with h | h
          · exact .inl h
          · rw [List.mem_singleton.1 h]; exact .inr List.mem_cons_self
        · exact .inl h
      | clear => cases h
      | count => exact .inl h
      | get i => exact .inl h
    · exact .inr (List.mem_cons_of_mem _ h)

theorem mem_program {L : List (List Byte)} {r : List Byte} {m : List Byte} (h : m ∈ program L r) : m ∈ L ∨ ∃ p ∈ decode r, frame p = .store m := by
  refine (mem_eRun h).imp_right fun h => ?_
  obtain ⟨p, hp, he⟩ := List.mem_filterMap.1 h
  refine ⟨p, hp, ?_⟩
  split at he <;> cases he
  assumption

theorem frame_store {p m : List Byte} (h : frame p = .store m) : p.length = m.length + 1 := by
  cases p with
  | nil => cases h
  | cons c x =>
    simp only [frame] at h
    split at h <;> try (cases h; done)
    split at h <;> try (cases h; done)
    split at h
    · split at h <;> cases h
    · split at h
      · split at h <;> cases h
        rfl
      · cases h

/-- a stored program of short instructions. -/
theorem storedProgram_has {mem : Nat → Byte} {L : List (List Byte)} (h : StoredProgram mem L) : HasProgram mem L :=
  ⟨fun m hm => ⟨(h.messages m hm).1, by have := (h.messages m hm).2; omega⟩, h.size, h.image⟩

/-- a careful host leaves a careful program. -/
theorem wellSent_program {mem : Nat → Byte} {L : List (List Byte)} {r s : List Byte} (hc : WellSent (r ++ s)) (h0 : ∀ m ∈ L, m.length ≤ 80 ∧ CarefulInstr m)
    (h : HasProgram mem (program L r)) : CarefulStorage mem := by
  have key : ∀ m ∈ program L r, m.length ≤ 80 ∧ CarefulInstr m := by
    intro m hm
    rcases mem_program hm with hm | ⟨p, hp, hf⟩
    · exact h0 m hm
    · have hd : p ∈ decode (r ++ s) := by rw [decode_append]; exact List.mem_append_left _ hp
      have hcar := hc.careful p hd
      rw [hf] at hcar
      refine ⟨?_, hcar⟩
      have h78 : p.length ≤ 78 := by
        obtain ⟨l, hl, rfl⟩ := List.mem_map.1 hd
        exact hc.frames l (List.mem_of_mem_filter hl)
      have := frame_store hf
      omega
  exact ⟨_, ⟨fun m hm => ⟨(h.messages m hm).1, (key m hm).1⟩, h.size, h.image⟩, fun m hm => (key m hm).2⟩

/-- **C96**: whatever a careful host does, and however often the power fails (except while an instruction is being stored), the storage contains careful instructions only. -/
theorem C96_storage {F : Type} [FloatOps F] {cfg : Cfg F} {m0 m : Nat → Byte} (h : CarefulLives cfg m0 m) (h0 : CarefulStorage m0) : CarefulStorage m := by
  induction h with
  | new => exact h0
  | @on m w0 junk evs s h hw hr hc hs ih =>
    obtain ⟨L, hst, hcar⟩ := ih
    have hh := storedProgram_has hst
    rw [← hw] at hh
    have hrx : w0.rxq ++ arrivals evs = rxBytes (acts evs) ++ s.w.rxq := hr.fifo
    rw [hrx] at hc
    have hL : ∀ m ∈ L, m.length ≤ 80 ∧ CarefulInstr m := fun m hm => ⟨(hst.messages m hm).2, hcar m hm⟩
    rcases hs with ⟨f, hf⟩ | hs
    · obtain ⟨w, p⟩ := s
      obtain rfl : p = .ret f := hf
      exact wellSent_program hc hL (C92_program hr hh)
    obtain ⟨r', hr', hd | ⟨⟨m, hm⟩, _⟩⟩ := C92_cut hr hh
    · rcases hr' with rfl | e
      · exact wellSent_program hc hL hd
      · rw [e, List.append_assoc] at hc
        exact wellSent_program hc hL hd
    · rcases hr' with rfl | e
      · simp at hm
      · exact absurd ⟨r', m, e, hm⟩ hs

section
variable {w0 : World XR} {junk : Nat → Byte} {σ : ℕ → Sys XR} {ev : ℕ → Ev XR}

/-- **C96** for the kit: in none of its lives does the firmware run into undefined behaviour, and all servo angles, all numbers stored into the servos and all numbers sent are finite. -/
theorem C96_kit {m0 : Nat → Byte} (h : CarefulLives (Kit.cfg : Cfg XR) m0 w0.ee) (h0 : CarefulStorage m0) (hw : w0.servos = Kit.servos) {evs : List (Ev XR)} {s : Sys XR}
    (hr : Sys.Run Kit.cfg w0 junk evs s) (hc : WellSent (w0.rxq ++ arrivals evs)) :
    (∀ f, s.p ≠ .fault f) ∧ (∀ i, IsFin (s.w.servos i).cur) ∧ (∀ i m, Act.micro i m ∈ acts evs → MicroFin m) ∧
      ∀ n ps, Act.out (.msg (.reply n ps)) ∈ acts evs → ∀ p ∈ ps, PartFin p :=
  C81_kit hw (C96_storage h h0) hr hc

/-- **C95** for the robot kit in exact arithmetic, with a careful host that never commands a positive speed below 1/1000 rad/s: once nothing more is sent for the queue, the storage, or for
immediate execution, every stored instruction except the first is started again and again, provided again and again all inputs waited for are there and the waiting time is over. -/
theorem C95_kit (hw : w0.servos = Kit.servos) (h : Endless Kit.cfg w0 junk σ ev) {L : List (List Byte)} (h0 : StoredProgram w0.ee L) (hcar : ∀ m ∈ L, CarefulInstr m)
    (hws : ∀ n, WellSent (w0.rxq ++ arrivals (sofar ev n))) (hv : ∀ n i x, ev n = .act (.micro (armServo i) (.setVel (.fin x))) → x ≤ 0 ∨ 1/1000 ≤ x) (hf : Fair σ ev)
    {n0 : ℕ} (hrun : ∃ k ≤ n0, ev k = .next) (hsel : (view ev n0).sel = .storage) (hL : 2 ≤ (program L (rxBytes (acts (sofar ev n0)))).length)
    (hk : KeepsStorage ev n0) (hi : OnlyAsksNow ev n0) {m : List Byte} (hm : m ∈ (program L (rxBytes (acts (sofar ev n0)))).tail) (n1 : ℕ) :
    ∃ n, n1 ≤ n ∧ ev n = .act (.out (.ghost .eeprom m)) := by
  have hfin : ∀ n i m, ev n = .act (.micro i m) → MicroFin m := fun n i m e => by
    refine (C81_kit hw ⟨L, h0, hcar⟩ (h.run (n + 1)) (hws _)).2.2.1 i m ?_
    rw [acts_mem]
    exact List.mem_map.2 ⟨n, List.mem_range.2 (Nat.lt_succ_self n), e⟩
  refine C95_again h parts_XR (storedProgram_has h0) hrun hsel hL hk hi hf (fun n s _ _ i => settles_kit hw h (fun n i => ?_) hv n i) hm n1
  refine ⟨fun e => ?_, fun e => ?_⟩
  · obtain ⟨t, e⟩ := hfin _ _ _ e; cases e
  · obtain ⟨t, e⟩ := hfin _ _ _ e; cases e
end

end Mrc.Props
