import Verif.Proof.Waiting
import Verif.Props.LineKit
/-
C106: a host that never makes the controller wait needs no luck.
-/
set_option linter.unusedSectionVars false
set_option linter.unusedSimpArgs false
namespace Mrc.Props
open Mrc Mrc.Spec Mrc.Prog Mrc.Kine

section
variable {F : Type} [FloatOps F] {cfg : Cfg F} {w0 : World F} {junk : Nat → Byte}

/-- between two passes nothing is waited for. -/
theorem quick_idle (hmem : QuickStorage w0.ee) {evs : List (Ev F)} {s : Sys F} (h : Sys.Run cfg w0 junk evs s) (hc : NeverWaits (w0.rxq ++ arrivals evs)) {f : FW F} (e : s.p = .ret f) :
    f.core.conds = [] ∧ f.core.waitUntil = 0 := by
  have := ((idle_tame cfg).run (W := fun _ => True) trivial (fun _ _ _ => trivial) (fun _ _ => trivial) (fun _ _ _ _ _ => trivial) (fun _ _ => trivial) (fun _ _ _ _ => trivial)
    (program_of hmem) h (clean_of_quick hc)).2.1
  rw [e] at this
  exact this.core

/-- **C106**: with a host (and a storage) that never uses I or D, whatever the instructions and whatever the arithmetic: again and again there is a pass of the main loop in
which nothing is waited for; only the clock has to run. This is the condition of C78-C80, C88, C90, C95. -/
theorem C106_ready {σ : ℕ → Sys F} {ev : ℕ → Ev F} (h : Endless cfg w0 junk σ ev) (hmem : QuickStorage w0.ee) (hc : ∀ n, NeverWaits (w0.rxq ++ arrivals (sofar ev n)))
    (hclk : ClockRuns σ ev) : Fair σ ev := by
  intro n
  obtain ⟨a, b, s, ha, hp, hk⟩ := hclk n
  obtain ⟨h1, h2⟩ := quick_idle hmem (h.run a) (hc a) hp.start
  refine ⟨a, b, s, ha, hp, fun k k1 k2 => ⟨fun c hc => ?_, ?_⟩⟩
  · rw [h1] at hc; cases hc
  · rw [h2]; exact hk k k1 k2

/-- a clock that is past its first millisecond runs. -/
theorem clockRuns_of {σ : ℕ → Sys F} {ev : ℕ → Ev F} (h : Endless cfg w0 junk σ ev) (n0 : ℕ) (hclk : ∀ n, n0 ≤ n → 0 < (σ n).w.now) : ClockRuns σ ev := by
  intro n
  obtain ⟨a, ha, hn⟩ := h.loops (max n n0)
  obtain ⟨s, hp⟩ := h.pass hn
  exact ⟨a, _, s, by omega, hp, fun k hk _ => hclk k (by omega)⟩
end

/-- what the host counts as started has been started. -/
theorem started_event {F : Type} [FloatOps F] {ev : ℕ → Ev F} {m : List Byte} : ∀ {n : ℕ}, m ∈ (view ev n).started → ∃ k < n, ev k = .act (.out (.ghost .queue m)) := by
  intro n
  induction n with
  | zero => intro h; cases h
  | succ n ih =>
    intro h
    rw [view_succ] at h
    have old : m ∈ (view ev n).started → ∃ k < n + 1, ev k = .act (.out (.ghost .queue m)) := fun h => by
      obtain ⟨k, h1, h2⟩ := ih h; exact ⟨k, by omega, h2⟩
    have fr : ∀ (d : Dev) (f : Frame), (d.frame f).started = d.started := by
      intro d f; cases f <;> simp only [Dev.frame]
      split <;> rfl
    have rc : ∀ (d : Dev) (b : Byte), (d.recv b).started = d.started := by
      intro d b; simp only [Dev.recv]
      split
      · split
        · rfl
        · exact fr _ _
      · rfl
    cases e : ev n with
    | act a =>
      rw [e] at h
      change m ∈ (Dev.act (view ev n) a).started at h
      cases a with
      | out o =>
        cases o with
        | ghost src m' =>
          cases src with
          | queue =>
            simp only [Dev.act, List.mem_append, List.mem_cons, List.not_mem_nil, or_false] at h
            rcases h with h | rfl
            · exact old h
            · exact ⟨n, by omega, e⟩
          | _ => exact old h
        | _ => exact old h
      | rx b =>
        cases b with
        | none => exact old h
        | some b => rw [Dev.act, rc] at h; exact old h
      | eeRead mm =>
        simp only [Dev.act] at h
        split at h <;> exact old h
      | _ => exact old h
    | _ => rw [e] at h; exact old h

/-- a host that uses only the queue: the only immediate instructions are questions. -/
theorem queueOnly_noImmediate {F : Type} [FloatOps F] {cfg : Cfg F} {w0 : World F} {junk : Nat → Byte} {σ : ℕ → Sys F} {ev : ℕ → Ev F} (h : Endless cfg w0 junk σ ev)
    (hq : ∀ n, QueueOnly (sent w0.rxq (sofar ev n))) : OnlyAsksNow ev 0 := by
  intro k _ m e
  have := (C91_at_once (h.run (k + 1)).trace (pre := acts (sofar ev k)) (post := []) (a := .out (.ghost .immediate m)) (by rw [sofar_succ, acts_append, e]; rfl) rfl).1 m rfl
  have hm : m ∈ nows (rxBytes (acts (sofar ev k))) := by rw [this]; simp
  rw [nows, List.mem_filterMap] at hm
  obtain ⟨p, hp, hp'⟩ := hm
  have hp : p ∈ decode (sent w0.rxq (sofar ev k)) := by rw [sent, (h.run k).fifo, decode_append]; exact List.mem_append_left _ hp
  rcases hq k p hp with e | e | e | ⟨m', e⟩ | ⟨m', e, ha⟩ <;> rw [e] at hp' <;> simp at hp'
  exact hp' ▸ ha

/-! ### the kit, with a host that is careful, brisk and never waits: nothing else has to be assumed -/

section
variable {w0 : World XR} (hw : w0.servos = Kit.servos) {junk : Nat → Byte} {σ : ℕ → Sys XR} {ev : ℕ → Ev XR} (h : Endless Kit.cfg w0 junk σ ev) (hmem : BriskStorage w0.ee)
  (hq0 : QuickStorage w0.ee) (hc : ∀ n, BrisklySent (w0.rxq ++ arrivals (sofar ev n))) (hnw : ∀ n, NeverWaits (w0.rxq ++ arrivals (sofar ev n))) (hu : Undivided ev) (hclk : ClockRuns σ ev)
include hw h hmem hq0 hc hnw hu hclk

/-- **C106**, C90 for the kit: everything a counting host has sent is executed. -/
theorem C106_executed (hh : ∀ n, CountingHost w0.rxq (sofar ev n)) (hq : ∀ n, QueueOnly (sent w0.rxq (sofar ev n))) (n : ℕ) :
    ∃ m, n ≤ m ∧ puts (sent w0.rxq (sofar ev n)) <+: (view ev m).started :=
  C100_executed hw h hmem hc hu (C106_ready h hq0 hnw hclk) hh hq n

/-- **C106**, C80 for the kit: every numbered instruction is reported as finished. -/
theorem C106_reported {k : ℕ} {src : Src} {m : List Byte} {n : Int} (hk : ev k = .act (.out (.ghost src m))) (hsrc : src ≠ .immediate) (hm : Numbered m n) (hi : OnlyAsksNow ev (k + 1)) :
    ∃ j, k < j ∧ ev j = .act (.out (.msg (.n1 n))) ∧ ∀ i, k < i → i < j → ¬ Orders ev i :=
  C100_reported hw h hmem hc hu (C106_ready h hq0 hnw hclk) hk hsrc hm hi

/-- **C106**, C79 for the kit: the queue is worked off. -/
theorem C106_drained (q : List (List Byte)) {n0 : ℕ} (hrun : ∃ k ≤ n0, ev k = .next) (hsel : (view ev n0).sel = .queue) (hq : ∃ x, (view ev n0).queue = q ++ x)
    (hk : KeepsQueue ev n0) (hi : OnlyAsksNow ev n0) : ∃ n, n0 ≤ n ∧ (view ev n).started = (view ev n0).started ++ q :=
  C100_drained hw h hmem hc hu (C106_ready h hq0 hnw hclk) q hrun hsel hq hk hi

/-- **C106**, C88 for the kit: a move in the queue is started, goes where it was told to go, and is reported as finished. -/
theorem C106_queue {n0 : ℕ} (hrun : ∃ k ≤ n0, ev k = .next) (hsel : (view ev n0).sel = .queue) {cs : List Cmd} {q : List (List Byte)} (hq : (view ev n0).queue = text cs :: q)
    (hkq : KeepsQueue ev n0) (ht : TellsAngles cs) (hM : Chooses 48 cs) {n : Int} (hm : Numbered (text cs) n) {d : Fin 6 → Dec} (hd : ∀ i, Last NamesAngle cs i (d i))
    (hfit : KitFits fun i => radians (d i)) (hi : OnlyAsksNow ev n0) :
    ∃ k j, n0 ≤ k ∧ ev k = .act (.out (.ghost .queue (text cs))) ∧ (∀ i, n0 ≤ i → i < k → ¬ Orders ev i) ∧
      k < j ∧ ev j = .act (.out (.msg (.n1 n))) ∧ (∀ i, k < i → i < j → ¬ Orders ev i) ∧
      ∃ b, SeenAt (acts ((sofar ev j).drop (k + 1))) b ∧ ∀ i, |kitLogical b i - radians (d i)| < 1 / 10000 :=
  C100_queue hw h hmem hc hu (C106_ready h hq0 hnw hclk) hrun hsel hq hkq ht hM hm hd hfit hi

/-- **C106**, straight moves for the kit: a numbered straight move to a pose is reported as finished, and by then the arm has gone the straight way. -/
theorem C106_line {k : ℕ} {src : Src} {cs : List Cmd} (hk : ev k = .act (.out (.ghost src (text cs)))) (hs : src ≠ .immediate) (ht : TellsPose cs) (hM : Chooses 49 cs) {n : Int}
    (hm : Numbered (text cs) n) {d : Fin 6 → Dec} (hd : ∀ i, Last NamesPose cs i (d i)) (hi : OnlyAsksNow ev (k + 1)) :
    ∃ j, k < j ∧ ev j = .act (.out (.msg (.n1 n))) ∧ (∀ i, k < i → i < j → ¬ Orders ev i) ∧ KitLineMoved kitG (poseOfDec d) (acts ((sofar ev j).drop (k + 1))) :=
  C88_line hw h hmem hc hu (C106_ready h hq0 hnw hclk) hk hs ht hM hm hd hi

/-! #### from the host's point of view: it sends instructions for the queue, counts, and has them executed -/

section
variable (hh : ∀ n, CountingHost w0.rxq (sofar ev n)) (hq : ∀ n, QueueOnly (sent w0.rxq (sofar ev n)))
include hh hq

/-- **C106**: every numbered instruction sent is executed and reported as finished before any other begins. -/
theorem C106_sent {t : ℕ} {m : List Byte} (hm : m ∈ puts (sent w0.rxq (sofar ev t))) {n : Int} (hn : Numbered m n) :
    ∃ k j, ev k = .act (.out (.ghost .queue m)) ∧ k < j ∧ ev j = .act (.out (.msg (.n1 n))) ∧ ∀ i, k < i → i < j → ¬ Orders ev i := by
  obtain ⟨t', -, h1⟩ := C106_executed hw h hmem hq0 hc hnw hu hclk hh hq t
  obtain ⟨k, -, hk⟩ := started_event (h1.subset hm)
  obtain ⟨j, h2, h3, h4⟩ := C106_reported hw h hmem hq0 hc hnw hu hclk hk (by simp) hn fun i _ => queueOnly_noImmediate h hq i (by omega)
  exact ⟨k, j, hk, h2, h3, h4⟩

/-- **C106**: every numbered move to six angles (M0) sent is executed and reported as finished, and then the arm has been seen at these angles. -/
theorem C106_sent_angles {t : ℕ} {cs : List Cmd} (hm : text cs ∈ puts (sent w0.rxq (sofar ev t))) (ht : TellsAngles cs) (hM : Chooses 48 cs) {n : Int} (hn : Numbered (text cs) n)
    {d : Fin 6 → Dec} (hd : ∀ i, Last NamesAngle cs i (d i)) (hfit : KitFits fun i => radians (d i)) :
    ∃ k j, ev k = .act (.out (.ghost .queue (text cs))) ∧ k < j ∧ ev j = .act (.out (.msg (.n1 n))) ∧ (∀ i, k < i → i < j → ¬ Orders ev i) ∧
      ∃ b, SeenAt (acts ((sofar ev j).drop (k + 1))) b ∧ ∀ i, |kitLogical b i - radians (d i)| < 1 / 10000 := by
  obtain ⟨t', -, h1⟩ := C106_executed hw h hmem hq0 hc hnw hu hclk hh hq t
  obtain ⟨k, -, hk⟩ := started_event (h1.subset hm)
  obtain ⟨j, h2, h3, h4, h5⟩ := C88_settles hw h (careful_of_briskStorage hmem) (fun n => (hc n).well) (brisk_settles hw h hmem hc hu) (C106_ready h hq0 hnw hclk) hk (by simp) ht hM hn hd hfit
    fun i _ => queueOnly_noImmediate h hq i (by omega)
  exact ⟨k, j, hk, h2, h3, h4, h5⟩

/-- **C106**: every numbered straight move sent is executed and reported as finished, and then the arm has gone the straight way to the pose told. -/
theorem C106_sent_line {t : ℕ} {cs : List Cmd} (hm : text cs ∈ puts (sent w0.rxq (sofar ev t))) (ht : TellsPose cs) (hM : Chooses 49 cs) {n : Int} (hn : Numbered (text cs) n) {d : Fin 6 → Dec}
    (hd : ∀ i, Last NamesPose cs i (d i)) :
    ∃ k j, ev k = .act (.out (.ghost .queue (text cs))) ∧ k < j ∧ ev j = .act (.out (.msg (.n1 n))) ∧ (∀ i, k < i → i < j → ¬ Orders ev i) ∧
      KitLineMoved kitG (poseOfDec d) (acts ((sofar ev j).drop (k + 1))) := by
  obtain ⟨t', -, h1⟩ := C106_executed hw h hmem hq0 hc hnw hu hclk hh hq t
  obtain ⟨k, -, hk⟩ := started_event (h1.subset hm)
  obtain ⟨j, h2, h3, h4, h5⟩ := C106_line hw h hmem hq0 hc hnw hu hclk hk (by simp) ht hM hn hd fun i _ => queueOnly_noImmediate h hq i (by omega)
  exact ⟨k, j, hk, h2, h3, h4, h5⟩
end
end

end Mrc.Props
