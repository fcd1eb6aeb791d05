import Verif.Props.TurnsDemo
import Verif.Props.Final
/-
C140: where the arm is in the end, with immediate instructions.
-/
set_option maxRecDepth 100000
set_option linter.unusedSimpArgs false
set_option linter.unusedSectionVars false
namespace Mrc.Props
open Mrc Mrc.Prog Mrc.Spec Mrc.Demo Mrc.Rest Mrc.Kine

section
variable {F : Type} [FloatOps F]

theorem nowStarts_act {ev : ℕ → Ev F} {k : ℕ} {m : List Byte} (hk : ev k = .act (.out (.ghost .immediate m))) : nowStarts (acts (sofar ev (k + 1))) = nowStarts (acts (sofar ev k)) ++ [m] := by
  simp [sofar, List.range_succ, hk, acts, nowStarts]

theorem nowStarts_mono {ev : ℕ → Ev F} {a b : ℕ} (h : a ≤ b) : nowStarts (acts (sofar ev a)) <+: nowStarts (acts (sofar ev b)) := by
  obtain ⟨c, rfl⟩ := Nat.exists_eq_add_of_le h
  rw [sofar_span, sofar_span, span_add, acts_append, nowStarts, nowStarts, List.filterMap_append]
  exact List.prefix_append _ _

/-- when an immediate instruction was started. -/
theorem now_when {ev : ℕ → Ev F} {ps : List (List Byte)} {m : List Byte} {rest : List (List Byte)} : ∀ {n : ℕ}, nowStarts (acts (sofar ev n)) = ps ++ m :: rest →
    ∃ k < n, ev k = .act (.out (.ghost .immediate m)) ∧ nowStarts (acts (sofar ev k)) = ps := by
  intro n
  induction n generalizing rest with
  | zero => intro h; exact absurd h (by simp [sofar, acts, nowStarts])
  | succ n ih =>
    intro h
    by_cases hg : ∃ m', ev n = .act (.out (.ghost .immediate m'))
    · obtain ⟨m', e⟩ := hg
      have h2 := h
      rw [nowStarts_act e] at h
      rcases List.eq_nil_or_concat rest with rfl | ⟨r, x, rfl⟩
      · obtain ⟨h3, h4⟩ := List.append_inj' h rfl
        cases h4
        exact ⟨n, by omega, e, h3⟩
      · rw [List.concat_eq_append] at h
        obtain ⟨k, h1, h2⟩ := ih (List.append_inj' (h.trans (by simp : _ = (ps ++ m :: r) ++ [x])) rfl).1
        exact ⟨k, by omega, h2⟩
    · have e : nowStarts (acts (sofar ev (n + 1))) = nowStarts (acts (sofar ev n)) := by
        have e2 : nowStarts (acts (sofar ev (n + 1))) = nowStarts (acts (sofar ev n)) ++ nowStarts (acts [ev n]) := by
          rw [sofar_succ, acts_append, nowStarts, List.filterMap_append]; rfl
        have e3 : nowStarts (acts [ev n]) = [] := by
          rw [nowStarts, List.filterMap_eq_nil_iff]
          intro a ha
          have ha : ev n = .act a := by
            rw [acts, List.mem_filterMap] at ha
            obtain ⟨b, hb, hb2⟩ := ha
            rw [List.mem_singleton.1 hb] at hb2
            revert hb2
            cases ev n with
            | act a' => intro hb2; simpa using hb2
            | _ => intro hb2; simp at hb2
          match a, ha with
          | .out (.ghost .immediate m'), ha => exact absurd ⟨m', ha⟩ hg
          | .out (.ghost .queue _), _ | .out (.ghost .eeprom _), _ | .out (.msg _), _ | .out (.raw _), _ | .out (.pinMode _ _), _ | .out (.digitalWrite _ _), _ => rfl
          | .servo .., _ | .micro .., _ | .now _, _ | .pin .., _ | .rx _, _ | .eeRead _, _ | .eeWrite .., _ => rfl
        rw [e2, e3, List.append_nil]
      rw [e] at h
      obtain ⟨k, h1, h2⟩ := ih h
      exact ⟨k, by omega, h2⟩
end

section
variable {F : Type} [FloatOps F] {cfg : Cfg F} {w0 : World F} {junk : Nat → Byte} {σ : ℕ → Sys F} {ev : ℕ → Ev F} (h : Endless cfg w0 junk σ ev) (h0 : w0.ee 0 = 0)
  (hns : ∀ n, NeverStores (sent w0.rxq (sofar ev n))) (hno : ∀ n, puts (sent w0.rxq (sofar ev n)) = [])
include h h0 hns hno

/-- only immediate instructions begin. -/
theorem only_now {k : ℕ} {src : Src} {m : List Byte} (hk : ev k = .act (.out (.ghost src m))) : src = .immediate := by
  have hm : Act.out (.ghost src m) ∈ acts (sofar ev (k + 1)) := by rw [sofar_succ, acts_append, hk]; simp [acts]
  cases src with
  | immediate => rfl
  | eeprom => exact absurd hm (Turns.no_storage h h0 hns (k + 1) m)
  | queue =>
    have h1 := Turns.started_le ⟨_, (h.run (k + 1)).trace⟩
    have h2 : puts (rxBytes (acts (sofar ev (k + 1)))) = [] := by
      obtain ⟨x, hx⟩ := puts_append (rxBytes (acts (sofar ev (k + 1)))) (σ (k + 1)).w.rxq
      have := hno (k + 1)
      rw [sent, (h.run (k + 1)).fifo, hx, List.append_eq_nil_iff] at this
      exact this.1
    rw [h2, List.length_nil] at h1
    have h3 : (view ev (k + 1)).started = [] := List.length_eq_zero_iff.1 (show (Dev.after _).started.length = 0 by omega)
    rw [view_started, List.filterMap_eq_nil_iff] at h3
    exact absurd (h3 _ hm) (fun hh => by cases hh)

/-- the immediate instruction `m` begins, and from then on only what was sent after it. -/
theorem last_now {t : ℕ} {ps qs : List (List Byte)} {m : List Byte} (hp : ∀ n, t ≤ n → nows (sent w0.rxq (sofar ev n)) = ps ++ m :: qs) :
    ∃ k, ev k = .act (.out (.ghost .immediate m)) ∧ nowStarts (acts (sofar ev k)) = ps ∧ ∀ i, k < i → ∀ src m', ev i = .act (.out (.ghost src m')) → m' ∈ qs := by
  have pre : ∀ n, nowStarts (acts (sofar ev n)) <+: ps ++ m :: qs := fun n => by
    refine (nowStarts_mono (Nat.le_add_right n t)).trans ((C91_prefix (h.run (n + t)).trace).trans ?_)
    rw [← hp (n + t) (by omega), sent, (h.run (n + t)).fifo, nows, nows, decode_append, List.filterMap_append]
    exact List.prefix_append _ _
  obtain ⟨n, hn, x, hx⟩ := all_read h t
  obtain ⟨a, ha, hna⟩ := h.loops n
  obtain ⟨s, hb, _, _⟩ := h.atNext hna
  have htr := (h.run a).trace
  rw [show (σ a).p = .ret s from hb] at htr
  have h1 := C91_all htr
  have all : ps ++ m :: qs <+: nowStarts (acts (sofar ev a)) := by
    rw [h1, ← hp t le_rfl]
    have e : rxBytes (acts (sofar ev a)) = rxBytes (acts (sofar ev n)) ++ rxBytes (acts (span ev n (a - n))) := by
      rw [← rxBytes_append, ← acts_append, sofar_span, sofar_span, ← Nat.zero_add n, Nat.zero_add n, show a = n + (a - n) by omega, span_add, Nat.zero_add, show n + (a - n) - n = a - n by omega]
    rw [e, hx, List.append_assoc, nows, nows, decode_append, List.filterMap_append]
    exact List.prefix_append _ _
  obtain ⟨y, hy⟩ := all
  rw [List.append_assoc, List.cons_append] at hy
  obtain ⟨k, -, hk, hv⟩ := now_when hy.symm
  refine ⟨k, hk, hv, fun i hi src m' e => ?_⟩
  obtain rfl := only_now h h0 hns hno e
  have g := pre (i + 1)
  have e2 : sofar ev (i + 1) = sofar ev (k + 1) ++ span ev (k + 1) (i - k) := by
    rw [sofar_span, sofar_span, show i + 1 = k + 1 + (i - k) by omega, span_add, Nat.zero_add]
  rw [e2, acts_append, nowStarts, List.filterMap_append, ← nowStarts, ← nowStarts, nowStarts_act hk, hv, show ps ++ m :: qs = (ps ++ [m]) ++ qs by simp, List.prefix_append_right_inj] at g
  refine g.subset ?_
  rw [nowStarts, List.mem_filterMap]
  exact ⟨.out (.ghost .immediate m'), acts_mem.2 (mem_span.2 ⟨i, by omega, by omega, e⟩), rfl⟩

end

section
variable {w0 : World XR} (hw : w0.servos = Kit.servos) {junk : Nat → Byte} {σ : ℕ → Sys XR} {ev : ℕ → Ev XR} (h : Endless Kit.cfg w0 junk σ ev)
  (h0 : w0.ee 0 = 0) (hc : ∀ n, BrisklySent (w0.rxq ++ arrivals (sofar ev n))) (hnw : ∀ n, NeverWaits (w0.rxq ++ arrivals (sofar ev n)))
  (hns : ∀ n, NeverStores (sent w0.rxq (sofar ev n))) (htt : TakesTurns w0.rxq ev) (hu : Unbroken ev) (hclk : ClockRuns σ ev)
include hw h h0 hc hnw hns htt hu hclk

/-- **C140**, angles: the kit with empty storage at power-up; a host that takes turns (C112) and sends immediate instructions only. `cs` tells six angles within the ranges, with M0, and has a number;
what is sent after it names no place (questions, grippers, outputs). Whatever was sent before: from some time on, for ever, the arm is at these angles. -/
theorem C140_angles (hno : ∀ n, puts (sent w0.rxq (sofar ev n)) = []) {t : ℕ} {ps qs : List (List Byte)} {cs : List Cmd}
    (hp : ∀ n, t ≤ n → nows (sent w0.rxq (sofar ev n)) = ps ++ text cs :: qs) (hs : ∀ m ∈ qs, NoPlace m)
    (ht : TellsAngles cs) (hM : Chooses 48 cs) {n : Int} (hn : Numbered (text cs) n) {d : Fin 6 → Dec} (hd : ∀ i, Last NamesAngle cs i (d i)) (hfit : KitFits fun i => radians (d i)) :
    ∃ N, ∀ l, N ≤ l → ∃ b, ArmAt (σ l).w b ∧ ∀ i, |kitLogical b i - radians (d i)| < 11 / 100000 := by
  obtain ⟨k, hk, -, h6⟩ := last_now h h0 hns hno hp
  obtain ⟨j, h3, h4, h5⟩ := C112_reported h parts_XR h0 hns htt (C106_ready h (quick_empty _ h0) hnw hclk) hk hn
    fun n s _ hb i => brisk_settles hw h (brisk_empty _ h0) hc (undivided_of hu) n s hb i
  have hcs := C112_calm h h0 hns htt
  exact ⟨j, fun l hl => C110_told hw h (brisk_empty _ h0) hc hu (Calm.immediates h (done_calm hcs)) hk (.inr (Calm.of_done (hcs k _ hk (Order.numbered_orders hn)))) ht hM hd hfit h3 (.inl ⟨n, h4⟩) (undirected h5) hl
    fun i => C117_untouched h (.inl ⟨n, h4⟩) (fun i' g1 _ src m e => hs m (h6 i' (by omega) src m e)) i⟩

/-- **C140**, a pose within reach, with M0. -/
theorem C140_pose (hno : ∀ n, puts (sent w0.rxq (sofar ev n)) = []) {t : ℕ} {ps qs : List (List Byte)} {cs : List Cmd}
    (hp : ∀ n, t ≤ n → nows (sent w0.rxq (sofar ev n)) = ps ++ text cs :: qs) (hs : ∀ m ∈ qs, NoPlace m)
    (ht : TellsPose cs) (hM : Chooses 48 cs) {n : Int} (hn : Numbered (text cs) n) {d : Fin 6 → Dec} (hd : ∀ i, Last NamesPose cs i (d i)) (hr : InReach kitG (poseOfDec d)) :
    ∃ A : Fin 6 → ℝ, (Real.cos (A 4) ≠ 0 → jointPos kitG A 5 = ![poseOfDec d 0, poseOfDec d 1, poseOfDec d 2] ∧ toolFrame A = orientOf (poseOfDec d)) ∧
      (KitFits A → ∃ N, ∀ l, N ≤ l → ∃ b, ArmAt (σ l).w b ∧ ∀ i, |kitLogical b i - A i| < 11 / 100000) := by
  obtain ⟨k, hk, -, h6⟩ := last_now h h0 hns hno hp
  obtain ⟨j, h3, h4, h5⟩ := C112_reported h parts_XR h0 hns htt (C106_ready h (quick_empty _ h0) hnw hclk) hk hn
    fun n s _ hb i => brisk_settles hw h (brisk_empty _ h0) hc (undivided_of hu) n s hb i
  have hcs := C112_calm h h0 hns htt
  obtain ⟨A, g1, g2⟩ := C110_pose_at hw h (brisk_empty _ h0) hc hu (Calm.immediates h (done_calm hcs)) hk (.inr (Calm.of_done (hcs k _ hk (Order.numbered_orders hn)))) ht hM hd hr h3 (.inl ⟨n, h4⟩) (undirected h5)
  exact ⟨A, g1, fun hA => ⟨j, fun l hl => g2 hA l hl fun i => C117_untouched h (.inl ⟨n, h4⟩) (fun i' g1 _ src m e => hs m (h6 i' (by omega) src m e)) i⟩⟩
end

/-- **C140**: at once or from the queue does not matter. Two histories of the kit: one host takes turns and sends immediate instructions, the other sends a program for the queue; the last instruction
that names a place is the same, six angles with M0. In the end every axis of the arm is at the same angle in both. -/
theorem C140_same {w0 w1 : World XR} (hw0 : w0.servos = Kit.servos) (hw1 : w1.servos = Kit.servos) {junk junk' : Nat → Byte} {σ σ' : ℕ → Sys XR} {ev ev' : ℕ → Ev XR}
    (h : Endless Kit.cfg w0 junk σ ev) (h' : Endless Kit.cfg w1 junk' σ' ev') (h0 : w0.ee 0 = 0) (h1 : w1.ee 0 = 0)
    (hc : ∀ n, BrisklySent (w0.rxq ++ arrivals (sofar ev n))) (hc' : ∀ n, BrisklySent (w1.rxq ++ arrivals (sofar ev' n)))
    (hnw : ∀ n, NeverWaits (w0.rxq ++ arrivals (sofar ev n))) (hnw' : ∀ n, NeverWaits (w1.rxq ++ arrivals (sofar ev' n)))
    (hu : Unbroken ev) (hu' : Unbroken ev') (hclk : ClockRuns σ ev) (hclk' : ClockRuns σ' ev')
    (hns : ∀ n, NeverStores (sent w0.rxq (sofar ev n))) (htt : TakesTurns w0.rxq ev) (hno : ∀ n, puts (sent w0.rxq (sofar ev n)) = [])
    (hh' : ∀ n, CountingHost w1.rxq (sofar ev' n)) (hq' : ∀ n, QueueOnly (sent w1.rxq (sofar ev' n))) (hno' : ∀ n, nows (sent w1.rxq (sofar ev' n)) = [])
    {t : ℕ} {ps qs : List (List Byte)} {ps' qs' : List (List Cmd)} {cs : List Cmd} (hp : ∀ n, t ≤ n → nows (sent w0.rxq (sofar ev n)) = ps ++ text cs :: qs)
    (hp' : ∀ n, t ≤ n → puts (sent w1.rxq (sofar ev' n)) = (ps' ++ cs :: qs').map text)
    (hs : ∀ m ∈ qs, NoPlace m) (hN' : ∀ x ∈ ps', Named x) (hs' : ∀ x ∈ qs', (∀ c ∈ x, c.Ok) ∧ ∀ c ∈ x, NamesNoPlace c)
    (ht : TellsAngles cs) (hC : ClearM cs) (hM : Chooses 48 cs) (hM' : (ps'.flatten ++ cs).foldl chosenBy 1 = 0)
    {V : ℚ} (hV : SaysSpeed ((ps'.flatten ++ cs).foldl spokenBy none) V) (hV0 : 0 < V) {n : Int} (hn : Numbered (text cs) n)
    {d : Fin 6 → Dec} (hd : ∀ i, Last NamesAngle cs i (d i)) (hfit : KitFits fun i => radians (d i)) :
    ∃ N, ∀ n n', N ≤ n → N ≤ n' → ∃ b b', ArmAt (σ n).w b ∧ ArmAt (σ' n').w b' ∧ ∀ i, |kitLogical b i - kitLogical b' i| < 22 / 100000 := by
  obtain ⟨n1, e1⟩ := C140_angles hw0 h h0 hc hnw hns htt hu hclk hno hp hs ht hM hn hd hfit
  obtain ⟨n2, e2⟩ := C136_angles hw1 h' h1 hc' hnw' hu' hclk' hh' hq' hno' hp' hN' (.inr ⟨n, hn⟩) hs' ht hC hM' hV hV0 hd hfit
  refine ⟨max n1 n2, fun n n' hn hn' => ?_⟩
  obtain ⟨b, g1, g2⟩ := e1 n (by omega)
  obtain ⟨b', g3, g4⟩ := e2 n' (by omega)
  refine ⟨b, b', g1, g3, fun i => ?_⟩
  have a1 := abs_lt.1 (g2 i)
  have a2 := abs_lt.1 (g4 i)
  rw [abs_lt]
  constructor <;> linarith [a1.1, a1.2, a2.1, a2.2]

section
variable [L : RX.Libm binary32]

/-- **C140** in binary32, for every libm whose square roots are not negative: legible joint moves, to 1.3e-4 radians. -/
theorem C140_rounded {cfg : Cfg F32} {w0 : World F32} {junk : Nat → Byte} {σ : ℕ → Sys F32} {ev : ℕ → Ev F32} (hk : KitAngles cfg) (hw : w0.servos = Kit.servos) (hrun : Endless cfg w0 junk σ ev)
    (hsq : SqrtNonneg binary32) (h0 : w0.ee 0 = 0) (hc : ∀ n, LegiblySent (w0.rxq ++ arrivals (sofar ev n)))
    (hj : ∀ n, ∀ p ∈ decode (w0.rxq ++ arrivals (sofar ev n)), JointFrame (frame p)) (hu : Unbroken ev) (hnw : ∀ n, NeverWaits (w0.rxq ++ arrivals (sofar ev n)))
    (hns : ∀ n, NeverStores (sent w0.rxq (sofar ev n))) (htt : TakesTurns w0.rxq ev) (hclk : ClockRuns σ ev) (hno : ∀ n, puts (sent w0.rxq (sofar ev n)) = []) {t : ℕ} {ps qs : List (List Byte)} {cs : List Cmd}
    (hp : ∀ n, t ≤ n → nows (sent w0.rxq (sofar ev n)) = ps ++ text cs :: qs) (hs : ∀ m ∈ qs, NoPlace m) (ht : TellsAngles cs) (hM : Chooses 48 cs) {n : Int} (hn : Numbered (text cs) n)
    {d : Fin 6 → Dec} (hd : ∀ i, Last NamesAngle cs i (d i)) (hfit : KitFitsBy (1 / 100000) fun i => radians (d i)) :
    ∃ N, ∀ l, N ≤ l → ∃ b, ArmAt32 (σ l).w b ∧ ∀ i, |kitLogical b i - radians (d i)| < 13 / 100000 := by
  have hst : StoredProgram w0.ee [] := ⟨by simp, by decide, fun k b _ hk => by
    cases k with
    | zero => simp at hk; rw [h0, hk]
    | succ k => simp at hk⟩
  have hmem : ∃ L, StoredProgram w0.ee L ∧ ∀ m ∈ L, SafeText 0 m ∧ JointText m := ⟨[], hst, by simp⟩
  have hcs := C112_calm hrun h0 hns htt
  obtain ⟨k, hk0, -, h6⟩ := last_now hrun h0 hns hno hp
  obtain ⟨j, h1, h2, h3⟩ := C112_reported hrun (parts_RX one32 hsq) h0 hns htt (C106_ready hrun (quick_empty _ h0) hnw hclk) hk0 hn
    fun n s _ hb i => joint_settles hk hw hrun hmem hc hj (undivided32_of hu) n s hb i
  exact ⟨j, fun l hl => C110_rounded hk hw hrun hmem hc hj hu (Calm.immediates hrun (done_calm hcs)) hk0 (.inr (Calm.of_done (hcs k _ hk0 (Order.numbered_orders hn)))) ht hM hd hfit h1 (.inl ⟨n, h2⟩) (undirected h3) hl
    fun i => C117_untouched hrun (.inl ⟨n, h2⟩) (fun i' g1 _ src m e => hs m (h6 i' (by omega) src m e)) i⟩
end

/-- C140: the kit and a host that waits for each report: first E N6M0R31, then E M0V70N5R01... : all hypotheses hold. In the end the arm is at the six angles, for ever. -/
theorem C140_demo : ∃ (w0 : World XR) (σ : ℕ → Sys XR) (ev : ℕ → Ev XR), w0.servos = Kit.servos ∧ Endless Kit.cfg w0 (fun _ => 0) σ ev ∧ Unbroken ev ∧ TakesTurns w0.rxq ev ∧
    (∃ t, ∀ n, t ≤ n → sent w0.rxq (sofar ev n) = turn1 ++ turn2) ∧ ∃ N, ∀ l, N ≤ l → ∃ b, ArmAt (σ l).w b ∧ ∀ i, |kitLogical b i - radians (demoD i)| < 11 / 100000 := by
  let w0 : World XR := { servos := Kit.servos, now := 1, pins := fun _ => false, rxq := turn1, ee := fun _ => 0, outs := [] }
  let x0 : Talk XR := talk0 Kit.cfg w0 (fun _ => 0) [turn2]
  have hs : ∀ n, w0.rxq ++ arrivals (sofar (talkE Kit.cfg x0) n) = turn1 ∨ w0.rxq ++ arrivals (sofar (talkE Kit.cfg x0) n) = turn1 ++ turn2 := fun n =>
    (turn_sent Kit.cfg x0 rfl n).imp And.left And.left
  have hc : ∀ n, BrisklySent (w0.rxq ++ arrivals (sofar (talkE Kit.cfg x0) n)) := fun n => turn_brisk (hs n)
  have hf : ∀ n f, (talkS Kit.cfg x0 n).p ≠ .fault f := fun n => (C81_kit rfl (careful_empty _ rfl) (talk_run Kit.cfg w0 _ _ n) (hc n).well).1
  have he := talk_endless Kit.cfg w0 _ _ hf
  have hclk : ClockRuns (talkS Kit.cfg x0) (talkE Kit.cfg x0) := clockRuns_of he 0 fun n _ => by rw [talk_now]; exact Nat.one_pos
  have htt : TakesTurns w0.rxq (talkE Kit.cfg x0) := talk_turns Kit.cfg x0 turn1 rfl ⟨by rw [turn1_decode]; exact Nat.le_refl _, turn_tails.1⟩ fun t ht => by
    rw [List.mem_singleton.1 ht]; exact ⟨by rw [turn2_decode]; exact Nat.le_refl _, turn_tails.2⟩
  have hu := talk_unbroken Kit.cfg x0 hf
  obtain ⟨k1, j1, g1, -, g2, g3, -⟩ := C112_sent (t := 0) rfl he rfl hc (fun n => turn_quick (hs n)) (fun n => turn_stores (hs n)) htt hu hclk (m := text demoT) (n := 6) (by
    show text demoT ∈ nows (turn1 ++ [])
    rw [List.append_nil, nows, turn1_decode]; simp [turn1_frame]) demoT_numbered
  have hall : sent w0.rxq (sofar (talkE Kit.cfg x0) (j1 + 2)) = turn1 ++ turn2 := by
    rcases turn_sent Kit.cfg x0 rfl (j1 + 2) with ⟨_, h2⟩ | ⟨h1, _⟩
    · rw [talk_answers Kit.cfg x0 g3] at h2
      rcases turn_sent Kit.cfg x0 rfl j1 with ⟨_, h3⟩ | ⟨_, h3⟩ <;> rw [h3] at h2 <;> cases h2
    · exact h1
  have hev : ∀ n, j1 + 2 ≤ n → sent w0.rxq (sofar (talkE Kit.cfg x0) n) = turn1 ++ turn2 := by
    intro n hn
    rcases hs n with e | e
    · exfalso
      obtain ⟨c, rfl⟩ := Nat.exists_eq_add_of_le hn
      have e1 : (turn1 ++ arrivals (sofar (talkE Kit.cfg x0) (j1 + 2))).length = (turn1 ++ turn2).length := congrArg _ hall
      have e2 : (turn1 ++ arrivals (sofar (talkE Kit.cfg x0) (j1 + 2 + c))).length = turn1.length := congrArg _ e
      rw [sofar_span, span_add, arrivals_append, ← sofar_span] at e2
      have e3 : turn2.length = 28 := by decide +kernel
      simp only [List.length_append] at e1 e2
      omega
    · exact e
  refine ⟨w0, _, _, rfl, he, hu, htt, ⟨_, hev⟩, ?_⟩
  exact C140_angles (t := j1 + 2) (ps := [text demoT]) (qs := []) rfl he rfl hc (fun n => turn_quick (hs n)) (fun n => turn_stores (hs n)) htt hu hclk (fun n => by
      rcases hs n with e | e
      · rw [sent, e, puts, turn1_decode]; simp [turn1_frame]
      · rw [sent, e, puts, turns_decode]; simp [turn1_frame, turn2_frame]) (fun n hn => by
    rw [hev n hn, nows, turns_decode]; simp [turn1_frame, turn2_frame]) (by simp) demo1_tells demo1_M0 demo1_numbered demo1_last demo1_kitFits

end Mrc.Props
