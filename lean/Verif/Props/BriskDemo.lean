import Verif.Props.BriskKit
import Verif.Props.ProgramKitDemo
/-
Runs that satisfy the hypotheses of C100.
-/
set_option maxRecDepth 100000
set_option linter.unusedSimpArgs false
namespace Mrc.Props
open Mrc Mrc.Prog Mrc.Spec Mrc.Demo

theorem careful_of_frame {f : Frame} (h : BriskFrame f) : CarefulFrame f := by
  cases f with
  | now m => obtain ⟨cs, h1, h2, h3⟩ := h; exact ⟨cs, h1, fun c hc => (h2 c hc).1, h3⟩
  | put m => exact careful_of_briskInstr h
  | store m => exact careful_of_briskInstr h
  | free | clear | erase | empty => trivial

/-- a line at 20 length units per second, an angle at full speed (V-1), a question, an instruction for the storage. -/
def briskStream : List Byte := str ":QN5V20M1X10.5Y-3Z25\r:QN6M0R0-45.5V-1\r:EN7XR6\r:B\r:Q"

theorem brisk_other (c : Cmd) (h : c.letter ≠ 86) : Brisk c := fun e => absurd e h

theorem briskStream_sent : BrisklySent briskStream := by
  have e : decode briskStream = [str "QN5V20M1X10.5Y-3Z25", str "QN6M0R0-45.5V-1", str "EN7XR6", str "B"] := by decide +kernel
  have hb : ∀ p ∈ decode briskStream, BriskFrame (frame p) := by
    rw [e]
    intro p hp
    simp only [List.mem_cons, List.not_mem_nil, or_false] at hp
    rcases hp with rfl | rfl | rfl | rfl
    · refine ⟨[⟨78, str "5"⟩, ⟨86, Dec.text ⟨false, [2, 0], none⟩⟩, ⟨77, str "1"⟩, ⟨88, Dec.text ⟨false, [1, 0], some [5]⟩⟩, ⟨89, Dec.text ⟨true, [3], none⟩⟩,
        ⟨90, Dec.text ⟨false, [2, 5], none⟩⟩], by decide +kernel, ?_, by decide +kernel⟩
      intro c hc
      simp only [List.mem_cons, List.not_mem_nil, or_false] at hc
      rcases hc with rfl | rfl | rfl | rfl | rfl | rfl
      · exact ⟨careful_plain _ _ ⟨by decide, by decide, by decide⟩ (by decide), brisk_other _ (by decide)⟩
      · exact ⟨careful_number _ _ ⟨by decide, by decide, by decide⟩ (.inl (by decide)) (by decide) (by decide +kernel), fun _ => .inr ⟨_, .inl (by decide), rfl, by decide +kernel⟩⟩
      · exact ⟨careful_plain _ _ ⟨by decide, by decide, by decide⟩ (by decide), brisk_other _ (by decide)⟩
      · exact ⟨careful_number _ _ ⟨by decide, by decide, by decide⟩ (.inl (by decide)) (by decide) (by decide +kernel), brisk_other _ (by decide)⟩
      · exact ⟨careful_number _ _ ⟨by decide, by decide, by decide⟩ (.inl (by decide)) (by decide) (by decide +kernel), brisk_other _ (by decide)⟩
      · exact ⟨careful_number _ _ ⟨by decide, by decide, by decide⟩ (.inl (by decide)) (by decide) (by decide +kernel), brisk_other _ (by decide)⟩
    · refine ⟨[⟨78, str "6"⟩, ⟨77, str "0"⟩, ⟨82, digitChar 0 :: Dec.text ⟨true, [4, 5], some [5]⟩⟩, ⟨86, Dec.text ⟨true, [1], none⟩⟩], by decide +kernel, ?_, by decide +kernel⟩
      intro c hc
      simp only [List.mem_cons, List.not_mem_nil, or_false] at hc
      rcases hc with rfl | rfl | rfl | rfl
      · exact ⟨careful_plain _ _ ⟨by decide, by decide, by decide⟩ (by decide), brisk_other _ (by decide)⟩
      · exact ⟨careful_plain _ _ ⟨by decide, by decide, by decide⟩ (by decide), brisk_other _ (by decide)⟩
      · exact ⟨careful_axis 0 (by decide) _ ⟨by decide, by decide, by decide⟩ (.inl (by decide)), brisk_other _ (by decide)⟩
      · exact ⟨careful_number _ _ ⟨by decide, by decide, by decide⟩ (.inl (by decide)) (by decide) (by decide +kernel), fun _ => .inr ⟨_, .inl (by decide), rfl, by decide +kernel⟩⟩
    · refine ⟨[⟨78, str "7"⟩, ⟨88, []⟩, ⟨82, [digitChar 6]⟩], by decide +kernel, ?_, by decide +kernel⟩
      intro c hc
      simp only [List.mem_cons, List.not_mem_nil, or_false] at hc
      rcases hc with rfl | rfl | rfl
      · exact ⟨careful_plain _ _ ⟨by decide, by decide, by decide⟩ (by decide), brisk_other _ (by decide)⟩
      · exact ⟨careful_read _ ⟨by decide, by decide, by decide⟩ (by decide), brisk_other _ (by decide)⟩
      · exact ⟨careful_readAxis 6 (by decide), brisk_other _ (by decide)⟩
    · exact trivial
  exact ⟨⟨by decide +kernel, by decide +kernel, fun p hp => careful_of_frame (hb p hp)⟩, hb⟩

section
variable {F : Type} [FloatOps F]

theorem sched_hist_run (cfg : Cfg F) (w0 : World F) (junk : Nat → Byte) (n : ℕ) :
    Sys.Run cfg w0 junk (sofar (evs cfg ⟨w0, setup cfg junk⟩) n) (hist cfg ⟨w0, setup cfg junk⟩ n) := by
  induction n with
  | zero => exact .init
  | succ n ih =>
    rw [sofar_succ]
    refine .step ih ?_
    show Sys.Do cfg _ _ (after cfg _ (n + 1)).1
    rw [after_succ]; exact sched_do cfg _

theorem sched_hist_silent (cfg : Cfg F) (s0 : Sys F) (n : ℕ) : arrivals (sofar (evs cfg s0) n) = [] := by
  induction n with
  | zero => rfl
  | succ n ih =>
    rw [sofar_succ, arrivals_append, ih]
    exact sched_silent cfg _

/-- after an interrupt the scheduler begins a pass. -/
theorem sched_isr_next (cfg : Cfg F) (s0 : Sys F) (n : ℕ) (hf : ∀ f, (hist cfg s0 n).p ≠ .fault f) (h : evs cfg s0 n = .isr) : evs cfg s0 (n + 1) = .next := by
  simp only [evs] at h ⊢
  rw [after_succ]
  have hf : ∀ f, (after cfg s0 n).1.p ≠ .fault f := hf
  rcases hx : after cfg s0 n with ⟨⟨w, p⟩, b⟩
  rw [hx] at h hf
  cases p with
  | ret s =>
    cases b with
    | false => rfl
    | true => simp [sched, mainEv] at h
  | fault f => exact absurd rfl (hf f)
  | rx k =>
    simp only [sched, mainEv] at h
    split at h <;> cases h
  | _ => simp [sched, mainEv] at h
end

theorem sched_undivided (cfg : Cfg XR) (s0 : Sys XR) (hf : ∀ n f, (hist cfg s0 n).p ≠ .fault f) : Undivided (evs cfg s0) := by
  intro i s v t k m n h1 h2 _ _ _ _ e3 _ _ hn j g1 g2 e
  have := sched_isr_next cfg s0 j (hf j) e
  rcases Nat.eq_or_lt_of_le (show j + 1 ≤ n from g2) with rfl | g
  · rw [e3] at this; cases this
  · exact hn (j + 1) (by omega) g this

theorem brisk_empty (mem : Nat → Byte) (h : mem 0 = 0) : BriskStorage mem := by
  obtain ⟨L, h1, h2⟩ := careful_empty mem h
  refine ⟨[], ⟨by simp, by decide, fun k b _ hk => ?_⟩, by simp⟩
  cases k with
  | zero => simp at hk; rw [h, hk]
  | succ k => simp at hk

/-- C100: the kit in exact arithmetic, the stream above on the line, one interrupt before every pass. -/
example : ∃ (w0 : World XR) (σ : ℕ → Sys XR) (ev : ℕ → Ev XR), w0.servos = Kit.servos ∧ w0.rxq = briskStream ∧ Endless Kit.cfg w0 (fun _ => 0) σ ev ∧ BriskStorage w0.ee ∧
    (∀ n, BrisklySent (w0.rxq ++ arrivals (sofar ev n))) ∧ Undivided ev := by
  let w0 : World XR := { servos := Kit.servos, now := 1, pins := fun _ => false, rxq := briskStream, ee := fun _ => 0, outs := [] }
  let s0 : Sys XR := ⟨w0, setup Kit.cfg fun _ => 0⟩
  have hc : ∀ n, BrisklySent (w0.rxq ++ arrivals (sofar (evs Kit.cfg s0) n)) := fun n => by
    rw [sched_hist_silent, List.append_nil]; exact briskStream_sent
  have hf : ∀ n f, (hist Kit.cfg s0 n).p ≠ .fault f := fun n => (C81_kit rfl (careful_empty _ rfl) (sched_hist_run Kit.cfg w0 _ n) (hc n).well).1
  exact ⟨w0, _, _, rfl, rfl, endless Kit.cfg w0 _ hf, brisk_empty _ rfl, hc, sched_undivided _ _ hf⟩

end Mrc.Props
