import Verif.Proof.Turns
import Verif.Props.Rest
import Verif.Props.Rest32
import Verif.Props.Waiting
import Verif.Props.Joint32Demo
import Verif.Props.RestDemo
/-
C112: a host that sends an immediate instruction only when everything sent before has been reported as finished.
-/
set_option maxRecDepth 100000
set_option linter.unusedSimpArgs false
set_option linter.unusedSectionVars false
namespace Mrc.Props
open Mrc Mrc.Prog Mrc.Spec Mrc.Demo Mrc.Rest Mrc.Kine

section
variable {F : Type} [FloatOps F] {cfg : Cfg F} {w0 : World F} {junk : Nat → Byte} {σ : ℕ → Sys F} {ev : ℕ → Ev F} (h : Endless cfg w0 junk σ ev)
include h

/-- **C112**: the storage is empty at power-up and nothing is sent for it. If the host takes turns (it counts instructions sent and N1 received, nothing else), then an immediate instruction
begins only while everything begun before is reported as finished. -/
theorem C112_calm (h0 : w0.ee 0 = 0) (hs : ∀ n, NeverStores (sent w0.rxq (sofar ev n))) (ht : TakesTurns w0.rxq ev) : DoneStarts ev := Turns.calm_starts h h0 hs ht

omit h in
theorem done_calm (hd : DoneStarts ev) : CalmStarts ev := fun k m e hm => Calm.of_done (hd k m e fun ha => hm (Asd.aside_of_asks ha))

/-- **C112**: every immediate instruction sent is started. -/
theorem C112_started {t : ℕ} {m : List Byte} (hm : m ∈ nows (sent w0.rxq (sofar ev t))) : ∃ k, ev k = .act (.out (.ghost .immediate m)) := by
  obtain ⟨n, _, x, hx⟩ := all_read h t
  obtain ⟨a, ha, hna⟩ := h.loops n
  obtain ⟨s, hb, _, _⟩ := h.atNext hna
  have htr := (h.run a).trace
  rw [show (σ a).p = .ret s from hb] at htr
  have h1 := C91_all htr
  have grow : ∃ y, rxBytes (acts (sofar ev a)) = sent w0.rxq (sofar ev t) ++ y := by
    have : ∀ k, n ≤ k → ∃ y, rxBytes (acts (sofar ev k)) = sent w0.rxq (sofar ev t) ++ y := by
      intro k hk
      induction k, hk using Nat.le_induction with
      | base => exact ⟨x, hx⟩
      | succ k _ ih =>
        obtain ⟨y, hy⟩ := ih
        exact ⟨y ++ rxBytes (acts [ev k]), by rw [sofar_succ, acts_append, rxBytes_append, hy, List.append_assoc]⟩
    exact this a ha
  obtain ⟨y, hy⟩ := grow
  have : m ∈ nowStarts (acts (sofar ev a)) := by
    rw [h1, hy]
    rw [nows] at hm ⊢
    rw [decode_append, List.filterMap_append]
    exact List.mem_append_left _ hm
  rw [nowStarts, List.mem_filterMap] at this
  obtain ⟨b, hb1, hb2⟩ := this
  rw [Rest.sofar_span] at hb1
  obtain ⟨k, _, _, e⟩ := mem_span.1 (acts_mem.1 hb1)
  refine ⟨k, ?_⟩
  split at hb2
  · injection hb2 with hb2; rw [e, hb2]
  · cases hb2

/-- **C112**: a numbered instruction begins (from the queue or at once); the host takes turns. Then it is reported as finished before any other begins. -/
theorem C112_reported (hP : Parts F) (h0 : w0.ee 0 = 0) (hs : ∀ n, NeverStores (sent w0.rxq (sofar ev n))) (ht : TakesTurns w0.rxq ev) (hf : Fair σ ev)
    {k : ℕ} {src : Src} {m : List Byte} {n : Int} (hk : ev k = .act (.out (.ghost src m))) (hm : Numbered m n)
    (hset : ∀ n s, k ≤ n → Between σ n s → ∀ i, Settles ((σ n).w.servos (armServo i))) :
    ∃ j, k < j ∧ ev j = .act (.out (.msg (.n1 n))) ∧ ∀ i, k < i → i < j → ¬ Orders ev i :=
  C111_reported h hP hk hm (fun _ _ h1 h2 h3 => Turns.reported_between (C112_calm h h0 hs ht) ⟨src, m, hk, fun ha => Order.numbered_orders hm ha.2⟩ h1 h2 h3) hf hset

end

section
variable {w0 : World XR} (hw : w0.servos = Kit.servos) {junk : Nat → Byte} {σ : ℕ → Sys XR} {ev : ℕ → Ev XR} (h : Endless Kit.cfg w0 junk σ ev)
  (h0 : w0.ee 0 = 0) (hc : ∀ n, BrisklySent (w0.rxq ++ arrivals (sofar ev n))) (hnw : ∀ n, NeverWaits (w0.rxq ++ arrivals (sofar ev n)))
  (hns : ∀ n, NeverStores (sent w0.rxq (sofar ev n))) (htt : TakesTurns w0.rxq ev) (hu : Unbroken ev) (hclk : ClockRuns σ ev)
include hw h h0 hc hnw hns htt hu hclk

/-- **C112** for the kit over the exact numbers: a careful host that asks for no crawling speed, never makes the device wait, and takes turns; interrupts that do not fall into the command
of a servo; a clock that runs. Every numbered immediate instruction sent is started, and reported as finished before any other begins. -/
theorem C112_sent {t : ℕ} {m : List Byte} (hm : m ∈ nows (sent w0.rxq (sofar ev t))) {n : Int} (hn : Numbered m n) :
    ∃ k j, ev k = .act (.out (.ghost .immediate m)) ∧ AllDoneAt ev k ∧ k < j ∧ ev j = .act (.out (.msg (.n1 n))) ∧ ∀ i, k < i → i < j → ¬ Orders ev i := by
  obtain ⟨k, hk⟩ := C112_started h hm
  obtain ⟨j, h1, h2, h3⟩ := C112_reported h parts_XR h0 hns htt (C106_ready h (quick_empty _ h0) hnw hclk) hk hn
    fun n s _ hb i => brisk_settles hw h (brisk_empty _ h0) hc (undivided_of hu) n s hb i
  exact ⟨k, j, hk, C112_calm h h0 hns htt k m hk (Order.numbered_orders hn), h1, h2, h3⟩

/-- **C112**: every numbered immediate move to six angles within the ranges (M0) that is sent is executed and reported as finished, and from the report on the arm is at these angles until
a servo is commanded again. -/
theorem C112_told {t : ℕ} {cs : List Cmd} (hm : text cs ∈ nows (sent w0.rxq (sofar ev t))) (ht : TellsAngles cs) (hM : Chooses 48 cs) {n : Int} (hn : Numbered (text cs) n)
    {d : Fin 6 → Dec} (hd : ∀ i, Last NamesAngle cs i (d i)) (hfit : KitFits fun i => radians (d i)) :
    ∃ k j, ev k = .act (.out (.ghost .immediate (text cs))) ∧ k < j ∧ ev j = .act (.out (.msg (.n1 n))) ∧ (∀ i, k < i → i < j → ¬ Orders ev i) ∧
      ∀ l, j ≤ l → (∀ i : Fin 6, Untouched ev (armServo i) j l) → ∃ b, ArmAt (σ l).w b ∧ ∀ i, |kitLogical b i - radians (d i)| < 11 / 100000 := by
  obtain ⟨k, j, h1, h2, h3, h4, h5⟩ := C112_sent hw h h0 hc hnw hns htt hu hclk hm hn
  exact ⟨k, j, h1, h3, h4, h5, fun l hl hun => C110_told hw h (brisk_empty _ h0) hc hu (Calm.immediates h (done_calm (C112_calm h h0 hns htt))) h1 (.inr (Calm.of_done h2)) ht hM hd hfit h3 (.inl ⟨n, h4⟩) (undirected h5) hl hun⟩

/-- **C112**: the same for all six coordinates of a pose within reach. -/
theorem C112_pose {t : ℕ} {cs : List Cmd} (hm : text cs ∈ nows (sent w0.rxq (sofar ev t))) (ht : TellsPose cs) (hM : Chooses 48 cs) {n : Int} (hn : Numbered (text cs) n)
    {d : Fin 6 → Dec} (hd : ∀ i, Last NamesPose cs i (d i)) (hr : InReach kitG (poseOfDec d)) :
    ∃ k j, ev k = .act (.out (.ghost .immediate (text cs))) ∧ k < j ∧ ev j = .act (.out (.msg (.n1 n))) ∧ (∀ i, k < i → i < j → ¬ Orders ev i) ∧
      ∃ A : Fin 6 → ℝ, (Real.cos (A 4) ≠ 0 → jointPos kitG A 5 = ![poseOfDec d 0, poseOfDec d 1, poseOfDec d 2] ∧ toolFrame A = orientOf (poseOfDec d)) ∧
        (KitFits A → ∀ l, j ≤ l → (∀ i : Fin 6, Untouched ev (armServo i) j l) → ∃ b, ArmAt (σ l).w b ∧ ∀ i, |kitLogical b i - A i| < 11 / 100000) := by
  obtain ⟨k, j, h1, h2, h3, h4, h5⟩ := C112_sent hw h h0 hc hnw hns htt hu hclk hm hn
  exact ⟨k, j, h1, h3, h4, h5, C110_pose_at hw h (brisk_empty _ h0) hc hu (Calm.immediates h (done_calm (C112_calm h h0 hns htt))) h1 (.inr (Calm.of_done h2)) ht hM hd hr h3 (.inl ⟨n, h4⟩) (undirected h5)⟩

/-- **C112**: every numbered immediate straight move (M1) to a pose that is sent is executed and reported as finished, and then the arm has gone the straight way. -/
theorem C112_line {t : ℕ} {cs : List Cmd} (hm : text cs ∈ nows (sent w0.rxq (sofar ev t))) (ht : TellsPose cs) (hM : Chooses 49 cs) {n : Int} (hn : Numbered (text cs) n)
    {d : Fin 6 → Dec} (hd : ∀ i, Last NamesPose cs i (d i)) :
    ∃ k j, ev k = .act (.out (.ghost .immediate (text cs))) ∧ k < j ∧ ev j = .act (.out (.msg (.n1 n))) ∧ (∀ i, k < i → i < j → ¬ Orders ev i) ∧
      KitLineMoved kitG (poseOfDec d) (acts ((sofar ev j).drop (k + 1))) := by
  obtain ⟨k, j, h1, h2, h3, h4, h5⟩ := C112_sent hw h h0 hc hnw hns htt hu hclk hm hn
  obtain ⟨e, hq⟩ := told_split h1 h4 h3 (undirected h5)
  exact ⟨k, j, h1, h3, h4, h5, C110_line_kit hw (careful_of_briskStorage (brisk_empty _ h0)) (h.run (j + 1)) (hc _).well ht hM hd (.inr (Calm.of_done h2)) e hq trivial⟩

end

section
variable [L : RX.Libm binary32]

/-- **C112** in binary32, for every libm: a host that sends legible joint moves, never makes the device wait, and takes turns. Every numbered immediate move to six angles (M0) within the
ranges that is sent is executed and reported as finished, and from the report on the arm is at these angles, to 1.3e-4 radians, until a servo is commanded again. -/
theorem C112_rounded {cfg : Cfg F32} {w0 : World F32} {junk : Nat → Byte} {σ : ℕ → Sys F32} {ev : ℕ → Ev F32} (hk : KitAngles cfg) (hw : w0.servos = Kit.servos) (hrun : Endless cfg w0 junk σ ev)
    (hsq : SqrtNonneg binary32) (h0 : w0.ee 0 = 0) (hc : ∀ n, LegiblySent (w0.rxq ++ arrivals (sofar ev n)))
    (hj : ∀ n, ∀ p ∈ decode (w0.rxq ++ arrivals (sofar ev n)), JointFrame (frame p)) (hu : Unbroken ev) (hnw : ∀ n, NeverWaits (w0.rxq ++ arrivals (sofar ev n)))
    (hns : ∀ n, NeverStores (sent w0.rxq (sofar ev n))) (htt : TakesTurns w0.rxq ev) (hclk : ClockRuns σ ev) {t : ℕ} {cs : List Cmd}
    (hm : text cs ∈ nows (sent w0.rxq (sofar ev t))) (ht : TellsAngles cs) (hM : Chooses 48 cs) {n : Int} (hn : Numbered (text cs) n)
    {d : Fin 6 → Dec} (hd : ∀ i, Last NamesAngle cs i (d i)) (hfit : KitFitsBy (1 / 100000) fun i => radians (d i)) :
    ∃ k j, ev k = .act (.out (.ghost .immediate (text cs))) ∧ k < j ∧ ev j = .act (.out (.msg (.n1 n))) ∧ (∀ i, k < i → i < j → ¬ Orders ev i) ∧
      ∀ l, j ≤ l → (∀ i : Fin 6, Untouched ev (armServo i) j l) → ∃ b, ArmAt32 (σ l).w b ∧ ∀ i, |kitLogical b i - radians (d i)| < 13 / 100000 := by
  have hst : StoredProgram w0.ee [] := ⟨by simp, by decide, fun k b _ hk => by
    cases k with
    | zero => simp at hk; rw [h0, hk]
    | succ k => simp at hk⟩
  have hmem : ∃ L, StoredProgram w0.ee L ∧ ∀ m ∈ L, SafeText 0 m ∧ JointText m := ⟨[], hst, by simp⟩
  have hcs := C112_calm hrun h0 hns htt
  obtain ⟨k, hk0⟩ := C112_started hrun hm
  obtain ⟨j, h1, h2, h3⟩ := C112_reported hrun (parts_RX one32 hsq) h0 hns htt (C106_ready hrun (quick_empty _ h0) hnw hclk) hk0 hn
    fun n s _ hb i => joint_settles hk hw hrun hmem hc hj (undivided32_of hu) n s hb i
  exact ⟨k, j, hk0, h1, h2, h3, fun l hl hun => C110_rounded hk hw hrun hmem hc hj hu (Calm.immediates hrun (done_calm hcs)) hk0 (.inr (Calm.of_done (hcs k _ hk0 (Order.numbered_orders hn)))) ht hM hd hfit h1 (.inl ⟨n, h2⟩) (undirected h3) hl hun⟩
end

end Mrc.Props
