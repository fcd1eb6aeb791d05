import Verif.Props.Talk
import Verif.Props.PinsDemo
/-
C131 for everything a counting host sends to the kit.
-/
set_option maxRecDepth 100000
set_option linter.unusedSectionVars false
namespace Mrc.Props
open Mrc Mrc.Prog Mrc.Spec Mrc.Demo Mrc.Rest

/-- at most one N. -/
def OneNumber (cs : List Cmd) : Prop := cs.countP (fun c => c.letter = 78) ≤ 1

theorem numberOf_none (cs : List Cmd) (h : ∀ c ∈ cs, c.letter ≠ 78) (n : Int) : cs.foldl (fun n c => if c.letter = 78 then atol c.arg else n) n = n := by
  induction cs generalizing n with
  | nil => rfl
  | cons c cs ih => rw [List.foldl_cons, if_neg (h c (by simp))]; exact ih (fun x hx => h x (by simp [hx])) n

theorem numbered_of {cs : List Cmd} (hs : Simple cs) (h1 : OneNumber cs) {c : Cmd} (hc : cs.getLast? = some c) (hq : ¬ Question c) (hl : c.letter ≠ 78) (hn : 0 < numberOf cs) : Numbered (text cs) (numberOf cs) := by
  have hex : ∃ x ∈ cs, x.letter = 78 := by
    by_contra h
    have := numberOf_none cs (fun x hx e => h ⟨x, hx, e⟩) (-1)
    rw [numberOf, this] at hn; omega
  obtain ⟨⟨_, d⟩, hx, rfl⟩ := hex
  obtain ⟨a, b', rfl⟩ := List.append_of_mem hx
  rcases List.eq_nil_or_concat b' with rfl | ⟨b, w, rfl⟩
  · simp at hc; subst hc; exact absurd rfl hl
  · rw [List.concat_eq_append] at *
    have hw : w = c := by
      rw [show a ++ (⟨78, d⟩ : Cmd) :: (b ++ [w]) = (a ++ ⟨78, d⟩ :: b) ++ [w] by simp, List.getLast?_append] at hc
      simpa using hc
    subst hw
    have ha : ∀ x ∈ a ++ b, x.letter ≠ 78 := by
      rw [OneNumber, List.countP_append, List.countP_cons, List.countP_append] at h1
      simp only [decide_true, if_true] at h1
      intro x hx e
      have : ∀ (l : List Cmd), x ∈ l → 0 < l.countP (fun c => c.letter = 78) := fun l hl => List.countP_pos_iff.2 ⟨x, hl, by simp [e]⟩
      rcases List.mem_append.1 hx with hx | hx
      · have := this a hx; omega
      · have := this b hx; omega
    refine ⟨a, b, d, w, rfl, hs.ok, ha, ⟨hl, fun e => hq (.inl ⟨hl, e⟩), fun e => hq (.inr e)⟩, ?_, hn⟩
    rw [numberOf, List.foldl_append, List.foldl_cons, if_pos rfl, numberOf_none]
    intro x hx
    rcases List.mem_append.1 hx with hx | hx
    · exact ha x (by simp [hx])
    · simp at hx; subst hx; exact hl

/-- a conversation ends with N1 in one way only. -/
theorem ending_finished {k : ℕ} {cs : List Cmd} {w : List Word} {n : Int} (h : w ++ [.finished n] = begins cs ++ ending k cs) :
    ∃ c, cs.getLast? = some c ∧ ¬ Question c ∧ c.letter ≠ 78 ∧ 0 < numberOf cs ∧ n = numberOf cs ∧ w = begins cs := by
  have nob : ∀ w', w' ++ [Word.finished n] = begins cs → False := fun w' e => by
    have : Word.finished n ∈ begins cs := by rw [← e]; simp
    rw [begins, List.mem_filterMap] at this
    obtain ⟨c, -, hc⟩ := this
    split at hc <;> cases hc
  unfold ending at h
  split at h
  · exact (nob w (by simpa using h)).elim
  · rename_i c hc
    split at h
    · have := (List.append_inj' h rfl).2; cases this
    · rename_i hq
      split at h
      · rename_i hn
        obtain ⟨h1, h2⟩ := List.append_inj' h rfl
        simp at h2
        exact ⟨c, hc, hq, hn.1, hn.2, h2, h1⟩
      · exact (nob w (by simpa using h)).elim

theorem begunTexts_act {F : Type} {ev : ℕ → Ev F} {k : ℕ} {src : Src} {m : List Byte} (hk : ev k = .act (.out (.ghost src m))) : begunTexts (acts (sofar ev (k + 1))) = begunTexts (acts (sofar ev k)) ++ [m] := by
  simp [sofar, List.range_succ, hk, acts, begunTexts]

section
variable {F : Type} [FloatOps F] {cfg : Cfg F} {w0 : World F} {junk : Nat → Byte} {σ : ℕ → Sys F} {ev : ℕ → Ev F} (h : Endless cfg w0 junk σ ev) (h0 : w0.ee 0 = 0)
  (hh : ∀ n, CountingHost w0.rxq (sofar ev n)) (hq : ∀ n, QueueOnly (sent w0.rxq (sofar ev n))) (hno : ∀ n, nows (sent w0.rxq (sofar ev n)) = [])
  (hex : ∀ t, ∃ m, t ≤ m ∧ puts (sent w0.rxq (sofar ev t)) <+: (view ev m).started)
  (hrep : ∀ {k m n}, ev k = .act (.out (.ghost .queue m)) → Numbered m n → ∃ j, k < j ∧ ev j = .act (.out (.msg (.n1 n))))

include h h0 hq hno in
theorem begun_started (k : ℕ) : begunTexts (acts (sofar ev k)) = (view ev k).started := by
  obtain ⟨n1, n2⟩ := queue_alone h h0 hq hno k
  rw [view_started, begunTexts]
  refine List.filterMap_congr fun a ha => ?_
  match a with
  | .out (.ghost .queue m) => rfl
  | .out (.ghost .immediate m) => exact absurd ha (n2 m)
  | .out (.ghost .eeprom m) => exact absurd ha (n1 m)
  | .out (.msg _) | .out (.raw _) | .out (.pinMode _ _) | .out (.digitalWrite _ _) => rfl
  | .servo .. | .micro .. | .now _ | .pin .. | .rx _ | .eeRead _ | .eeWrite .. => rfl

include h h0 hq hno hex hrep

/-- C131_queue for every robot and arithmetic, if everything sent is executed and reported. -/
theorem talk_of {t : ℕ} {ps : List (List Cmd)} {rest : List (List Byte)} (hp : puts (sent w0.rxq (sofar ev t)) = ps.map text ++ rest) (hok : ∀ x ∈ ps, Simple x ∧ OneNumber x) :
    ∃ n, words (acts (sofar ev n)) = talk 1 ps := by
  have hall : ∀ k, NoNow (acts (sofar ev k)) := fun k => (queue_alone h h0 hq hno k).2
  have hb := begun_started h h0 hq hno
  rcases List.eq_nil_or_concat ps with rfl | ⟨ps', cs, rfl⟩
  · exact ⟨0, rfl⟩
  rw [List.concat_eq_append] at *
  have hS : ∀ x ∈ ps' ++ [cs], Simple x := fun x hx => (hok x hx).1
  obtain ⟨t', -, y', hy'⟩ := hex t
  rw [hp, List.append_assoc, List.map_append, List.append_assoc] at hy'
  obtain ⟨k, -, hk, hv⟩ := started_when hy'.symm
  rw [← hb] at hv
  have hbk : begunTexts (acts (sofar ev (k + 1))) = (ps' ++ [cs]).map text := by rw [begunTexts_act hk, hv]; simp
  -- the next instruction, if there is one
  have stay : ∀ e, k + 1 ≤ e → (∀ i, k < i → i < e → ¬ Begins ev i) → begunTexts (acts (sofar ev e)) = (ps' ++ [cs]).map text := by
    intro e he hn
    obtain ⟨d, rfl⟩ := Nat.exists_eq_add_of_le he
    rw [← hbk]
    clear he
    induction d with
    | zero => rfl
    | succ d ih =>
      rw [← ih fun i h1 h2 => hn i h1 (by omega), ← Nat.add_assoc]
      have hnb := hn (k + 1 + d) (by omega) (by omega)
      have : begunTexts (acts [ev (k + 1 + d)]) = [] := by
        match e : ev (k + 1 + d) with
        | .act (.out (.ghost s m)) => exact absurd ⟨s, m, e⟩ hnb
        | .act (.out (.msg _)) | .act (.out (.raw _)) | .act (.out (.pinMode _ _)) | .act (.out (.digitalWrite _ _)) => rfl
        | .act (.servo ..) | .act (.micro ..) | .act (.now _) | .act (.pin ..) | .act (.rx _) | .act (.eeRead _) | .act (.eeWrite ..) => rfl
        | .next | .isr | .clock _ | .pins _ | .arrive _ => rfl
      rw [show sofar ev (k + 1 + d + 1) = sofar ev (k + 1 + d) ++ [ev (k + 1 + d)] by simp [sofar, List.range_succ],
        show acts (sofar ev (k + 1 + d) ++ [ev (k + 1 + d)]) = acts (sofar ev (k + 1 + d)) ++ acts [ev (k + 1 + d)] by simp [acts], begunTexts_append, this, List.append_nil]
  by_cases hnext : ∃ b, k < b ∧ Begins ev b
  · classical
    have hf := Nat.find_spec hnext
    obtain ⟨s, m, e⟩ := hf.2
    refine ⟨Nat.find hnext, ?_⟩
    have hs : s ≠ .immediate := by
      rintro rfl
      exact hall (Nat.find hnext + 1) m (by simp [sofar, List.range_succ, e, acts])
    refine C131_next (h.run (Nat.find hnext + 1)).trace (src := s) (m := m) (post := []) ?_ hs (hall _) hS (stay _ (by have := hf.1; omega) fun i h1 h2 h3 => Nat.find_min hnext h2 ⟨h1, h3⟩)
    simp [sofar, List.range_succ, e, acts]
  · have hn : ∀ i, k < i → ¬ Begins ev i := fun i h1 h2 => hnext ⟨i, h1, h2⟩
    have he : words (acts (sofar ev k)) = talk 1 ps' := C131_next (h.run (k + 1)).trace (src := .queue) (m := text cs) (post := []) (by simp [sofar, List.range_succ, hk, acts]) (by decide) (hall k)
      (fun x hx => hS x (by simp [hx])) hv
    have grow : ∀ n, k ≤ n → ∃ w, words (acts (sofar ev n)) = talk 1 ps' ++ w := by
      intro n hkn
      obtain ⟨d, rfl⟩ := Nat.exists_eq_add_of_le hkn
      refine ⟨words (acts (span ev k d)), ?_⟩
      rw [← he, ← words_append]
      congr 1
      rw [show acts (sofar ev k) ++ acts (span ev k d) = acts (sofar ev k ++ span ev k d) by simp [acts]]
      congr 1
      clear hkn
      induction d with
      | zero => simp [span]
      | succ d ih => rw [span_succ, ← List.append_assoc, ← ih, ← Nat.add_assoc]; simp [sofar, List.range_succ]
    obtain ⟨e, s, h1, h2, -⟩ := pass_end h (k + 1)
    have htr := (h.run e).trace
    rw [show (σ e).p = .ret s from h2] at htr
    rcases C131_pass htr (hall e) hS (stay e h1 fun i g1 _ => hn i g1) with hd | ⟨n, hpos, hd⟩
    · exact ⟨e, hd⟩
    · obtain ⟨w, hw'⟩ := grow e (by omega)
      rw [hw', List.append_assoc, Speech.talk_append] at hd
      obtain ⟨c, g1, g2, g3, g4, g5, -⟩ := ending_finished (List.append_cancel_left hd)
      have hnum := numbered_of (hS cs (by simp)) (hok cs (by simp)).2 g1 g2 g3 g4
      obtain ⟨j, hj, hj'⟩ := hrep hk hnum
      refine ⟨j + 1, ?_⟩
      obtain ⟨w1, hw1⟩ := grow j (by omega)
      have hpre := C131_only (h.run (j + 1)).trace (hall _) hS (stay (j + 1) (by omega) fun i g1 _ => hn i g1)
      have ew : words (acts (sofar ev (j + 1))) = talk 1 ps' ++ (w1 ++ [.finished (numberOf cs)]) := by
        rw [← List.append_assoc, ← hw1]; simp [sofar, List.range_succ, hj', acts, words, wordOf]
      rw [ew] at hpre ⊢
      rw [Speech.talk_append, List.prefix_append_right_inj] at hpre
      rw [Speech.talk_append]
      congr 1
      have hend : begins cs ++ ending (ps'.flatten.foldl chosenBy 1) cs = begins cs ++ [.finished (numberOf cs)] := by
        congr 1
        unfold ending; rw [g1]; dsimp only
        rw [if_neg (show ¬ ((c.letter ≠ 78 ∧ c.arg = []) ∨ (c.letter = 82 ∧ c.arg.length = 1)) from g2), if_pos ⟨g3, g4⟩]
      rw [hend] at hpre ⊢
      obtain ⟨x, hx⟩ := hpre
      rcases List.eq_nil_or_concat x with rfl | ⟨x', z, rfl⟩
      · simpa using hx
      · rw [List.concat_eq_append, ← List.append_assoc] at hx
        have hx := (List.append_inj' hx rfl).1
        have : Word.finished (numberOf cs) ∈ begins cs := by rw [← hx]; simp
        rw [begins, List.mem_filterMap] at this
        obtain ⟨c, -, hc⟩ := this
        split at hc <;> cases hc

include hh in
/-- C131_rest, likewise. -/
theorem talk_rest_of {t : ℕ} {ps : List (List Cmd)} (hp : ∀ n, t ≤ n → puts (sent w0.rxq (sofar ev n)) = ps.map text) (hok : ∀ x ∈ ps, Simple x ∧ OneNumber x) :
    ∃ n, ∀ n', n ≤ n' → words (acts (sofar ev n')) = talk 1 ps := by
  obtain ⟨n, hn⟩ := talk_of h h0 hq hno hex hrep (rest := []) (by rw [hp t le_rfl, List.append_nil]) hok
  refine ⟨max n t, fun n' hn' => ?_⟩
  have hst : begunTexts (acts (sofar ev n')) <+: ps.map text := by
    rw [begun_started h h0 hq hno, ← hp n' (by omega)]
    refine C89_started (h.run n') (hh n') fun p hp e => ?_
    rcases hq n' p hp with e' | e' | e' | ⟨m', e'⟩ | ⟨m', e', -⟩ <;> rw [e'] at e <;> cases e
  obtain ⟨y, hy⟩ := hst
  obtain ⟨ps1, ps2, rfl, e1, e2⟩ := List.map_eq_append_iff.1 hy.symm
  have hpre := (C131_only (h.run n').trace (queue_alone h h0 hq hno n').2 (fun x hx => (hok x (by simp [hx])).1) e1.symm).trans (talk_prefix (qs := ps2))
  have hle : talk 1 (ps1 ++ ps2) <+: words (acts (sofar ev n')) := by
    rw [← hn]
    obtain ⟨d, rfl⟩ := Nat.exists_eq_add_of_le (show n ≤ n' by omega)
    have : acts (sofar ev (n + d)) = acts (sofar ev n) ++ acts (span ev n d) := by
      clear hn' hy hpre e1
      induction d with
      | zero => simp [span, acts]
      | succ d ih => rw [span_succ, ← Nat.add_assoc, show acts (span ev n d ++ [ev (n + d)]) = acts (span ev n d) ++ acts [ev (n + d)] by simp [acts], ← List.append_assoc, ← ih]; simp [sofar, List.range_succ, acts]
    rw [this, words_append]; exact List.prefix_append _ _
  exact hpre.eq_of_length_le hle.length_le
end

section
variable {w0 : World XR} (hw : w0.servos = Kit.servos) {junk : Nat → Byte} {σ : ℕ → Sys XR} {ev : ℕ → Ev XR} (h : Endless Kit.cfg w0 junk σ ev) (h0 : w0.ee 0 = 0)
  (hc : ∀ n, BrisklySent (w0.rxq ++ arrivals (sofar ev n))) (hnw : ∀ n, NeverWaits (w0.rxq ++ arrivals (sofar ev n)))
  (hu : Unbroken ev) (hclk : ClockRuns σ ev) (hh : ∀ n, CountingHost w0.rxq (sofar ev n)) (hq : ∀ n, QueueOnly (sent w0.rxq (sofar ev n))) (hno : ∀ n, nows (sent w0.rxq (sofar ev n)) = [])
include hw h h0 hc hnw hu hclk hh hq hno

/-- **C131**, total correctness for the queue (C106): when a counting host has sent the instructions `ps` for the queue, there is a moment at which the device has said exactly what is to be said about them. -/
theorem C131_queue {t : ℕ} {ps : List (List Cmd)} {rest : List (List Byte)} (hp : puts (sent w0.rxq (sofar ev t)) = ps.map text ++ rest) (hok : ∀ x ∈ ps, Simple x ∧ OneNumber x) :
    ∃ n, words (acts (sofar ev n)) = talk 1 ps :=
  talk_of h h0 hq hno (fun t => C106_executed hw h (brisk_empty w0.ee h0) (quick_empty w0.ee h0) hc hnw (undivided_of hu) hclk hh hq t)
    (fun hk hn => by
      obtain ⟨j, h1, h2, -⟩ := C106_reported hw h (brisk_empty w0.ee h0) (quick_empty w0.ee h0) hc hnw (undivided_of hu) hclk hk (by decide) hn (fun i _ => queueOnly_noImmediate h hq i (Nat.zero_le _))
      exact ⟨j, h1, h2⟩) hp hok

/-- **C131**: if nothing else is sent for the queue, from some moment on the device has said exactly that, and says nothing more. -/
theorem C131_rest {t : ℕ} {ps : List (List Cmd)} (hp : ∀ n, t ≤ n → puts (sent w0.rxq (sofar ev n)) = ps.map text) (hok : ∀ x ∈ ps, Simple x ∧ OneNumber x) :
    ∃ n, ∀ n', n ≤ n' → words (acts (sofar ev n')) = talk 1 ps :=
  talk_rest_of h h0 hh hq hno (fun t => C106_executed hw h (brisk_empty w0.ee h0) (quick_empty w0.ee h0) hc hnw (undivided_of hu) hclk hh hq t)
    (fun hk hn => by
      obtain ⟨j, h1, h2, -⟩ := C106_reported hw h (brisk_empty w0.ee h0) (quick_empty w0.ee h0) hc hnw (undivided_of hu) hclk hk (by decide) hn (fun i _ => queueOnly_noImmediate h hq i (Nat.zero_le _))
      exact ⟨j, h1, h2⟩) hp hok
end

/-- **C131**: timing does not matter. Two histories of the kit, with different interrupts, clocks, arrival times and inputs, in which a counting host sends the same instructions for the queue: in the end the same was said. -/
theorem C131_timing {w0 w1 : World XR} (hw0 : w0.servos = Kit.servos) (hw1 : w1.servos = Kit.servos) {junk junk' : Nat → Byte} {σ σ' : ℕ → Sys XR} {ev ev' : ℕ → Ev XR}
    (h : Endless Kit.cfg w0 junk σ ev) (h' : Endless Kit.cfg w1 junk' σ' ev') (h0 : w0.ee 0 = 0) (h1 : w1.ee 0 = 0)
    (hc : ∀ n, BrisklySent (w0.rxq ++ arrivals (sofar ev n))) (hc' : ∀ n, BrisklySent (w1.rxq ++ arrivals (sofar ev' n)))
    (hnw : ∀ n, NeverWaits (w0.rxq ++ arrivals (sofar ev n))) (hnw' : ∀ n, NeverWaits (w1.rxq ++ arrivals (sofar ev' n)))
    (hu : Unbroken ev) (hu' : Unbroken ev') (hclk : ClockRuns σ ev) (hclk' : ClockRuns σ' ev')
    (hh : ∀ n, CountingHost w0.rxq (sofar ev n)) (hh' : ∀ n, CountingHost w1.rxq (sofar ev' n))
    (hq : ∀ n, QueueOnly (sent w0.rxq (sofar ev n))) (hq' : ∀ n, QueueOnly (sent w1.rxq (sofar ev' n)))
    (hno : ∀ n, nows (sent w0.rxq (sofar ev n)) = []) (hno' : ∀ n, nows (sent w1.rxq (sofar ev' n)) = [])
    {t : ℕ} {ps : List (List Cmd)} (hp : ∀ n, t ≤ n → puts (sent w0.rxq (sofar ev n)) = ps.map text) (hp' : ∀ n, t ≤ n → puts (sent w1.rxq (sofar ev' n)) = ps.map text)
    (hok : ∀ x ∈ ps, Simple x ∧ OneNumber x) (hpin : ∀ x ∈ ps, PinsOk x) {ops : List PinOp} (ht : PinsTold Kit.pinMap ps.flatten ops) :
    ∃ N, ∀ n n', N ≤ n → N ≤ n' → words (acts (sofar ev n)) = words (acts (sofar ev' n')) ∧ pinOps (acts (sofar ev n)) = pinOps (acts (sofar ev' n')) := by
  obtain ⟨n1, e1⟩ := C131_rest hw0 h h0 hc hnw hu hclk hh hq hno hp hok
  obtain ⟨n2, e2⟩ := C131_rest hw1 h' h1 hc' hnw' hu' hclk' hh' hq' hno' hp' hok
  obtain ⟨n3, e3⟩ := C126_queue_rest hw0 h h0 hc hnw hu hclk hh hq hno hp hpin ht
  obtain ⟨n4, e4⟩ := C126_queue_rest hw1 h' h1 hc' hnw' hu' hclk' hh' hq' hno' hp' hpin ht
  refine ⟨max (max n1 n2) (max n3 n4), fun n n' hn hn' => ⟨?_, ?_⟩⟩
  · rw [e1 n (by omega), e2 n' (by omega)]
  · rw [e3 n (by omega), e4 n' (by omega)]

/-- C131: the kit is sent a move (N5) and a question (N7) for the queue; all hypotheses hold. In the end it has said: N0 5, N1 5, N0 7, and the answer to question 7, about X, Y, Z, R0 and R5; and it says nothing more. -/
theorem C131_demo : ∃ (w0 : World XR) (σ : ℕ → Sys XR) (ev : ℕ → Ev XR), w0.servos = Kit.servos ∧ w0.rxq = askRx ∧ Endless Kit.cfg w0 (fun _ => 0) σ ev ∧ Unbroken ev ∧
    ∃ n, ∀ n', n ≤ n' → words (acts (sofar ev n')) =
      [.begun 5, .finished 5, .begun 7, .answer (some 7) [(str "X", none), (str "Y", none), (str "Z", none), (str "R0", none), (str "R5", none)]] := by
  let w0 : World XR := { servos := Kit.servos, now := 1, pins := fun _ => false, rxq := askRx, ee := fun _ => 0, outs := [] }
  let s0 : Sys XR := ⟨w0, setup Kit.cfg fun _ => 0⟩
  have hs : ∀ n, w0.rxq ++ arrivals (sofar (evs Kit.cfg s0) n) = askRx := fun n => by
    rw [sched_hist_silent, List.append_nil]
  have hc : ∀ n, BrisklySent (w0.rxq ++ arrivals (sofar (evs Kit.cfg s0) n)) := fun n => by rw [hs]; exact askRx_sent
  have hf : ∀ n f, (hist Kit.cfg s0 n).p ≠ .fault f := fun n => (C81_kit rfl (careful_empty _ rfl) (sched_hist_run Kit.cfg w0 _ n) (hc n).well).1
  have he := endless Kit.cfg w0 _ hf
  have h0 : CountingHost (F := XR) askRx [] := by
    intro a b e
    obtain ⟨rfl, rfl⟩ := List.append_eq_nil_iff.1 e.symm
    show qSize ((puts (askRx ++ [])).drop (0 - _)) ≤ QUEUE
    rw [List.append_nil, askRx_puts, Nat.zero_sub]
    decide +kernel
  have e : talk 1 [takeI, askQ] = [.begun 5, .finished 5, .begun 7, .answer (some 7) [(str "X", none), (str "Y", none), (str "Z", none), (str "R0", none), (str "R5", none)]] := by decide +kernel
  refine ⟨w0, _, _, rfl, rfl, he, sched_unbroken _ _ hf, ?_⟩
  rw [← e]
  exact C131_rest (t := 0) rfl he rfl hc (fun n => by rw [hs]; exact askRx_quick) (sched_unbroken _ _ hf)
    (clockRuns_of he 0 fun n _ => by rw [sched_now]; exact Nat.one_pos)
    (fun n => by simpa using counting_quiet h0 (sched_hist_silent Kit.cfg s0 n)) (fun n => by rw [sent, hs]; exact askRx_queue) (fun n => by rw [sent, hs]; exact askRx_nows)
    (fun n _ => by rw [sent, hs, askRx_puts]; rfl) (by simpa using ⟨⟨takeI_simple, (by unfold OneNumber; decide +kernel)⟩, askQ_simple, (by unfold OneNumber; decide +kernel)⟩)

end Mrc.Props
