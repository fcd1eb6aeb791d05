import Verif.Props.Prompt
import Verif.Props.ObligeDemo
/-
C130: in every endless history the hypotheses are met again and again; a run of the kit.
-/
set_option maxRecDepth 100000
namespace Mrc.Props
open Mrc Mrc.Prog Mrc.Spec Mrc.Costs Mrc.Rest Mrc.Demo

section
variable {F : Type} [FloatOps F] {cfg : Cfg F} {w0 : World F} {junk : Nat → Byte} {σ : ℕ → Sys F} {ev : ℕ → Ev F}

theorem later_span (h : Endless cfg w0 junk σ ev) (n d : ℕ) : Later cfg (σ n) (span ev n d) (σ (n + d)) := by
  induction d with
  | zero => exact .now
  | succ d ih => rw [span_succ]; exact .step ih (h.step _)

/-- a pass is not empty. -/
theorem pass_acts (h : Endless cfg w0 junk σ ev) {a b : ℕ} (ha : ev a = .next) (hab : a < b) (hb : ev b = .next) : 0 < (acts (span ev a (b - a))).length := by
  by_contra h0
  have hno : ∀ i, a ≤ i → i < b → ∀ x, ev i ≠ .act x := fun i h1 h2 x e => by
    have : x ∈ acts (span ev a (b - a)) := acts_mem.2 (mem_span.2 ⟨i, h1, by omega, e⟩)
    exact h0 (List.length_pos_of_mem this)
  have hs := h.step a
  rw [ha] at hs
  obtain ⟨f, -, e1⟩ := do_next hs
  have key : ∀ d, a + 1 + d ≤ b → ∃ f, (σ (a + 1 + d)).p = loopBody cfg f := by
    intro d
    induction d with
    | zero => exact fun _ => ⟨f, e1⟩
    | succ d ih =>
      intro hd
      obtain ⟨f, e⟩ := ih (by omega)
      have hs := h.step (a + 1 + d)
      by_cases hn : ev (a + 1 + d) = .next
      · rw [hn] at hs
        obtain ⟨f', -, e'⟩ := do_next hs
        exact ⟨f', e'⟩
      · exact ⟨f, by rw [show a + 1 + (d + 1) = a + 1 + d + 1 by omega, do_other hs (hno _ (by omega) (by omega)) hn]; exact e⟩
  obtain ⟨f', e'⟩ := key (b - (a + 1)) (by omega)
  rw [show a + 1 + (b - (a + 1)) = b by omega] at e'
  have hs' := h.step b
  rw [hb] at hs'
  obtain ⟨g, e2, -⟩ := do_next hs'
  have := pass_waitMon cfg f' 1
  rw [← e', e2] at this
  have : (1 : ℕ) ≤ 1 - 30 := this
  omega

theorem acts_grow (h : Endless cfg w0 junk σ ev) (n N : ℕ) : ∃ d, N ≤ (acts (span ev n d)).length := by
  induction N with
  | zero => exact ⟨0, Nat.zero_le _⟩
  | succ N ih =>
    obtain ⟨d, hd⟩ := ih
    obtain ⟨a, h1, h2⟩ := h.loops (n + d)
    obtain ⟨b, h3, h4⟩ := h.loops (a + 1)
    have hp := pass_acts h h2 (by omega : a < b) h4
    refine ⟨b - n, ?_⟩
    have e : span ev n (b - n) = span ev n d ++ span ev (n + d) (a - (n + d)) ++ span ev a (b - a) := by
      have s1 : ∀ x y z, span ev x (y + z) = span ev x y ++ span ev (x + y) z := fun x y z => by
        induction z with
        | zero => simp [span]
        | succ z ih => rw [← Nat.add_assoc, span_succ, span_succ, ih, List.append_assoc, Nat.add_assoc]
      rw [show b - n = d + (a - (n + d)) + (b - a) by omega, s1, s1]
      congr 2
      omega
    rw [e, acts_append, acts_append, List.length_append, List.length_append]
    omega

/-- C130: in every endless history the accesses `C130_reaction` asks for are made: every immediate instruction that has arrived is begun. -/
theorem C130_endless (h : Endless cfg w0 junk σ ev) (n : ℕ) : ∃ d, reading (σ n).w.rxq.length + PASS + 2 ≤ (acts (span ev n d)).length ∧ nows (sent w0.rxq (sofar ev n)) <+: nowStarts (acts (sofar ev (n + d))) := by
  obtain ⟨d, hd⟩ := acts_grow h n (reading (σ n).w.rxq.length + PASS + 2)
  refine ⟨d, hd, ?_⟩
  have := C130_reaction (h.run n) (later_span h n d) hd
  have e : sofar ev n ++ span ev n d = sofar ev (n + d) := by
    clear hd this
    induction d with
    | zero => simp [span]
    | succ d ih => rw [span_succ, ← List.append_assoc, ih, ← Nat.add_assoc]; simp [sofar, List.range_succ]
  rwa [e] at this
end

/-- `:QN5I11` waits for input 1 in the queue; `:EV20` and `:EN6X` (a question) are immediate. -/
def promptRx : List Byte := str ":QN5I11\r:EV20\r:EN6X\r"

/-- C130: the kit, with these lines on the serial line at power-up. After 1299 · 3 + 2 accesses both immediate instructions have been begun, although the queue waits for an input that never comes. -/
theorem C130_demo : ∃ (w0 : World XR) (σ : ℕ → Sys XR) (ev : ℕ → Ev XR), w0.rxq = promptRx ∧ Endless Kit.cfg w0 (fun _ => 0) σ ev ∧ (∀ n, (σ n).w.pins = fun _ => false) ∧
    ∃ d, reading 20 + PASS + 2 ≤ (acts (sofar ev d)).length ∧ [str "V20", str "N6X"] <+: nowStarts (acts (sofar ev d)) := by
  let w0 : World XR := { servos := Kit.servos, now := 1, pins := fun _ => false, rxq := promptRx, ee := fun _ => 0, outs := [] }
  let s0 : Sys XR := ⟨w0, setup Kit.cfg fun _ => 0⟩
  have hd : decode promptRx = [str "QN5I11", str "EV20", str "EN6X"] := by decide +kernel
  have f1 : frame (str "QN5I11") = .put (text [⟨78, str "5"⟩, ⟨73, str "11"⟩]) := by decide +kernel
  have f2 : frame (str "EV20") = .now (text [⟨86, Dec.text ⟨false, [2, 0], none⟩⟩]) := by decide +kernel
  have f3 : frame (str "EN6X") = .now (text [⟨78, str "6"⟩, ⟨88, []⟩]) := by decide +kernel
  have c5 : Careful ⟨78, str "5"⟩ := careful_plain _ _ ⟨by decide, by decide, by decide⟩ (by decide)
  have c6 : Careful ⟨78, str "6"⟩ := careful_plain _ _ ⟨by decide, by decide, by decide⟩ (by decide)
  have ci : Careful ⟨73, str "11"⟩ := careful_pin 73 (.inl rfl) 1 1
  have cv : Careful ⟨86, Dec.text ⟨false, [2, 0], none⟩⟩ := careful_number _ _ ⟨by decide, by decide, by decide⟩ (.inl (by decide)) (by decide) (by decide +kernel)
  have cx : Careful ⟨88, []⟩ := careful_bare _ (by decide)
  have hw : WellSent promptRx := by
    refine ⟨by decide +kernel, by decide +kernel, ?_⟩
    rw [hd]
    intro p hp
    simp only [List.mem_cons, List.not_mem_nil, or_false] at hp
    rcases hp with rfl | rfl | rfl
    · rw [f1]; exact ⟨_, rfl, by simpa using ⟨c5, ci⟩, by decide⟩
    · rw [f2]; exact ⟨_, rfl, by simpa using cv, by decide⟩
    · rw [f3]; exact ⟨_, rfl, by simpa using ⟨c6, cx⟩, by decide⟩
  have hs : ∀ n, w0.rxq ++ arrivals (sofar (evs Kit.cfg s0) n) = promptRx := fun n => by
    rw [sched_hist_silent, List.append_nil]
  have hf : ∀ n f, (hist Kit.cfg s0 n).p ≠ .fault f := fun n => (C81_kit rfl (careful_empty _ rfl) (sched_hist_run Kit.cfg w0 _ n) (by rw [hs]; exact hw)).1
  have he := endless Kit.cfg w0 _ hf
  obtain ⟨d, h1, h2⟩ := C130_endless he 0
  refine ⟨w0, _, _, rfl, he, fun n => sched_pins Kit.cfg s0 n, d, ?_, ?_⟩
  · have e : span (evs Kit.cfg s0) 0 d = sofar (evs Kit.cfg s0) d := (sofar_span ..).symm
    rw [e] at h1
    have hl : (hist Kit.cfg s0 0).w.rxq.length = 20 := by
      show promptRx.length = 20
      decide +kernel
    rw [hl] at h1
    exact h1
  · have en : nows (sent w0.rxq (sofar (evs Kit.cfg s0) 0)) = [str "V20", str "N6X"] := by
      rw [sent, hs, nows, hd]
      simp [f1, f2, f3]
      decide +kernel
    rw [en, Nat.zero_add] at h2
    exact h2

end Mrc.Props
