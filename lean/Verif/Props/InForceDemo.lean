import Verif.Props.InForce
import Verif.Props.PaceDemo
import Verif.Props.SpeedDemo
import Verif.Props.Turns
import Verif.Props.AreaDemo
/-
C123 for everything a counting host sends, and a run that satisfies all hypotheses.
-/
set_option maxRecDepth 100000
set_option linter.unusedSimpArgs false
set_option linter.unusedSectionVars false
namespace Mrc.Props
open Mrc Mrc.Prog Mrc.Spec Mrc.Demo Mrc.Rest

section
variable {F : Type} [FloatOps F]

theorem started_act (d : Dev) (a : Act F) : (d.act a).started = d.started ∨ ∃ m, a = .out (.ghost .queue m) ∧ (d.act a).started = d.started ++ [m] := by
  have fr : ∀ (d : Dev) (f : Frame), (d.frame f).started = d.started := by
    intro d f; cases f <;> simp only [Dev.frame]
    split <;> rfl
  have rc : ∀ (d : Dev) (b : Byte), (d.recv b).started = d.started := by
    intro d b; simp only [Dev.recv]
    split
    · split
      · rfl
      · exact fr _ _
    · rfl
  cases a with
  | out o =>
    cases o with
    | ghost src m =>
      cases src with
      | queue => exact .inr ⟨m, rfl, rfl⟩
      | _ => exact .inl rfl
    | _ => exact .inl rfl
  | rx b =>
    cases b with
    | none => exact .inl rfl
    | some b => exact .inl (rc _ _)
  | eeRead mm => left; simp only [Dev.act]; split <;> rfl
  | _ => exact .inl rfl

/-- when the instruction with `ps` before it was started from the queue. -/
theorem started_when {ev : ℕ → Ev F} {ps : List (List Byte)} {m : List Byte} {rest : List (List Byte)} : ∀ {n : ℕ}, (view ev n).started = ps ++ m :: rest →
    ∃ k < n, ev k = .act (.out (.ghost .queue m)) ∧ (view ev k).started = ps := by
  intro n
  induction n generalizing rest with
  | zero => intro h; exact absurd h (by simp [view, sofar, acts, Dev.after])
  | succ n ih =>
    intro h
    have old : (view ev n).started = ps ++ m :: rest → ∃ k < n + 1, ev k = .act (.out (.ghost .queue m)) ∧ (view ev k).started = ps := fun h => by
      obtain ⟨k, h1, h2⟩ := ih h; exact ⟨k, by omega, h2⟩
    rw [view_succ] at h
    cases e : ev n with
    | act a =>
      rw [e] at h
      change ((view ev n).act a).started = _ at h
      rcases started_act (view ev n) a with h1 | ⟨m', rfl, h1⟩
      · exact old (h1 ▸ h)
      · rw [h1] at h
        rcases List.eq_nil_or_concat rest with rfl | ⟨r, x, rfl⟩
        · obtain ⟨h2, h3⟩ := List.append_inj' h rfl
          cases h3
          exact ⟨n, by omega, e, h2⟩
        · rw [List.concat_eq_append, ← List.cons_append, ← List.append_assoc] at h
          obtain ⟨h2, -⟩ := List.append_inj' h rfl
          obtain ⟨k, h3, h4⟩ := ih h2
          exact ⟨k, by omega, h4⟩
    | _ => rw [e] at h; exact old h

/-- with only the queue in use, the instructions started from it decide. -/
theorem inForce_queue {tr : List (Act F)} (h1 : ∀ m, .out (.ghost .eeprom m) ∉ tr) (h2 : ∀ m, .out (.ghost .immediate m) ∉ tr) :
    ∀ {ps : List (List Cmd)}, (Dev.after tr).started = ps.map text → (∀ cs ∈ ps, Named cs) → InForce tr (ps.flatten.foldl chosenBy 1) (ps.flatten.foldl spokenBy none) := by
  induction tr using List.reverseRecOn with
  | nil =>
    intro ps h _
    have : ps = [] := by
      have h : ([] : List (List Byte)) = ps.map text := h
      simpa using h.symm
    subst this; exact .boot
  | append_singleton tr a ih =>
    intro ps h hp
    replace ih := @ih (fun m hm => h1 m (by simp [hm])) (fun m hm => h2 m (by simp [hm]))
    rw [after_snoc] at h
    rcases started_act (Dev.after tr) a with h3 | ⟨m, rfl, h3⟩
    · by_cases hb : BeginsI a
      · obtain ⟨src, m, rfl⟩ := hb
        cases src with
        | immediate => exact absurd (by simp) (h2 m)
        | eeprom => exact absurd (by simp) (h1 m)
        | queue => exact absurd (show (Dev.after tr).started ++ [m] = _ from h3) (by simp)
      · exact .act (ih (h3 ▸ h) hp) hb
    · rw [h3] at h
      rcases List.eq_nil_or_concat ps with rfl | ⟨q, cs, rfl⟩
      · simp at h
      · rw [List.concat_eq_append, List.map_append] at h
        obtain ⟨h4, h5⟩ := List.append_inj' h rfl
        have : m = text cs := by simpa using h5
        subst this
        have hc := hp cs (by simp)
        have := InForce.instr (src := .queue) (ih h4 fun x hx => hp x (by simp [hx])) hc.1 hc.2.1 hc.2.2
        simpa [List.foldl_append] using this
end

section
variable {w0 : World XR} (hw : w0.servos = Kit.servos) {junk : Nat → Byte} {σ : ℕ → Sys XR} {ev : ℕ → Ev XR} (h : Endless Kit.cfg w0 junk σ ev) (h0 : w0.ee 0 = 0)
  (hc : ∀ n, BrisklySent (w0.rxq ++ arrivals (sofar ev n))) (hnw : ∀ n, NeverWaits (w0.rxq ++ arrivals (sofar ev n)))
  (hu : Unbroken ev) (hclk : ClockRuns σ ev) (hh : ∀ n, CountingHost w0.rxq (sofar ev n)) (hq : ∀ n, QueueOnly (sent w0.rxq (sofar ev n))) (hno : ∀ n, nows (sent w0.rxq (sofar ev n)) = [])
include hw h h0 hc hnw hu hclk hh hq hno

/-- **C123**, total correctness for the queue (C106): the storage is empty at power-up, a counting host sends everything for the queue. The instruction `cs` sent after the instructions `ps` is executed
and reported, and what is in force when it begins is what was named last in `ps` (or M1 and the speed of power-up). -/
theorem C123_queue {t : ℕ} {ps : List (List Cmd)} {cs : List Cmd} {rest : List (List Byte)} (hp : puts (sent w0.rxq (sofar ev t)) = ps.map text ++ text cs :: rest)
    (hN : ∀ x ∈ ps, Named x) {n : Int} (hn : Numbered (text cs) n) :
    ∃ k j, ev k = .act (.out (.ghost .queue (text cs))) ∧ k < j ∧ ev j = .act (.out (.msg (.n1 n))) ∧ (∀ i, k < i → i < j → ¬ Orders ev i) ∧
      InForce (acts (sofar ev k)) (ps.flatten.foldl chosenBy 1) (ps.flatten.foldl spokenBy none) := by
  have hmem := brisk_empty w0.ee h0
  have hq0 := quick_empty w0.ee h0
  obtain ⟨t', -, y, hy⟩ := C106_executed hw h hmem hq0 hc hnw (undivided_of hu) hclk hh hq t
  rw [hp, List.append_assoc] at hy
  obtain ⟨k, -, hk, hv⟩ := started_when hy.symm
  obtain ⟨j, h2, h3, h4⟩ := C106_reported hw h hmem hq0 hc hnw (undivided_of hu) hclk hk (by simp) hn fun i _ => queueOnly_noImmediate h hq i (by omega)
  refine ⟨k, j, hk, h2, h3, h4, inForce_queue ?_ ?_ hv hN⟩
  · refine Turns.no_storage h h0 (fun n p hp m e => ?_) k
    rcases hq n p hp with e' | e' | e' | ⟨m', e'⟩ | ⟨m', e', -⟩ <;> rw [e'] at e <;> cases e
  · intro m hm
    obtain ⟨a, b, e⟩ := List.append_of_mem hm
    have h5 := (C91_at_once (h.run k).trace e rfl).1 m rfl
    have h6 : m ∈ nows (rxBytes a) := by rw [h5]; simp
    have h7 := hno k
    rw [sent, (h.run k).fifo, e, rxBytes_append, List.append_assoc, nows, decode_append, List.filterMap_append, List.append_eq_nil_iff] at h7
    rw [nows, h7.1] at h6; cases h6

/-- **C123**: six angles sent for the queue; `ps` are the instructions sent before, M0 and the speed `V` follow from them and this one. -/
theorem C123_queue_angles {t : ℕ} {ps : List (List Cmd)} {cs : List Cmd} {rest : List (List Byte)} (hp : puts (sent w0.rxq (sofar ev t)) = ps.map text ++ text cs :: rest)
    (hN : ∀ x ∈ ps, Named x) {n : Int} (hn : Numbered (text cs) n) (ht : TellsAngles cs) (hC : ClearM cs) (hM : (ps.flatten ++ cs).foldl chosenBy 1 = 0)
    {V : ℚ} (hV : SaysSpeed ((ps.flatten ++ cs).foldl spokenBy none) V) (hV0 : 0 < V) {d : Fin 6 → Dec} (hd : ∀ i, Last NamesAngle cs i (d i)) :
    ∃ k j, ev k = .act (.out (.ghost .queue (text cs))) ∧ k < j ∧ ev j = .act (.out (.msg (.n1 n))) ∧ (∀ i, k < i → i < j → ¬ Orders ev i) ∧
      ∀ e, j ≤ e → (∀ i : Fin 6, Untouched ev (armServo i) j e) →
        (∃ c, ArmAt (σ k).w c ∧ KeepsSpeed σ ev ((V : ℝ) * (Real.pi / 180)) c (fun i => radians (d i)) k j e) ∧
        ((KitFits fun i => radians (d i)) → ∃ b, ArmAt (σ e).w b ∧ ∀ i, |kitLogical b i - radians (d i)| < 11 / 100000) := by
  obtain ⟨k, j, h1, h2, h3, h4, h5⟩ := C123_queue hw h h0 hc hnw hu hclk hh hq hno hp hN hn
  rw [List.foldl_append] at hM hV
  exact ⟨k, j, h1, h2, h3, h4, fun e hl hun => C123_told hw h (brisk_empty _ h0) hc hu (calm_of_none (queueOnly_noImmediate h hq)) h1 (.inl (by simp)) ht hC h5 hM hV hV0 hd h2 (.inl ⟨n, h3⟩)
    (undirected h4) hl hun⟩

/-- **C123**: a pose sent for the queue, M0 in force. -/
theorem C123_queue_pose {t : ℕ} {ps : List (List Cmd)} {cs : List Cmd} {rest : List (List Byte)} (hp : puts (sent w0.rxq (sofar ev t)) = ps.map text ++ text cs :: rest)
    (hN : ∀ x ∈ ps, Named x) {n : Int} (hn : Numbered (text cs) n) (ht : TellsPose cs) (hC : ClearM cs) (hM : (ps.flatten ++ cs).foldl chosenBy 1 = 0)
    {V : ℚ} (hV : SaysSpeed ((ps.flatten ++ cs).foldl spokenBy none) V) (hV0 : 0 < V) {d : Fin 6 → Dec} (hd : ∀ i, Last NamesPose cs i (d i)) (hr : InReach kitG (poseOfDec d)) :
    ∃ k j, ev k = .act (.out (.ghost .queue (text cs))) ∧ k < j ∧ ev j = .act (.out (.msg (.n1 n))) ∧ (∀ i, k < i → i < j → ¬ Orders ev i) ∧
      ∀ e, j ≤ e → (∀ i : Fin 6, Untouched ev (armServo i) j e) →
        ∃ A : Fin 6 → ℝ, PutsAt kitG A (poseOfDec d) ∧ (∃ c, ArmAt (σ k).w c ∧ KeepsSpeed σ ev ((V : ℝ) * (Real.pi / 180)) c A k j e) ∧
          (KitFits A → ∃ b, ArmAt (σ e).w b ∧ ∀ i, |kitLogical b i - A i| < 11 / 100000) := by
  obtain ⟨k, j, h1, h2, h3, h4, h5⟩ := C123_queue hw h h0 hc hnw hu hclk hh hq hno hp hN hn
  rw [List.foldl_append] at hM hV
  exact ⟨k, j, h1, h2, h3, h4, fun e hl hun => C123_pose hw h (brisk_empty _ h0) hc hu (calm_of_none (queueOnly_noImmediate h hq)) h1 (.inl (by simp)) ht hC h5 hM hV hV0 hd hr h2 (.inl ⟨n, h3⟩)
    (undirected h4) hl hun⟩

/-- **C123**: a pose sent for the queue, M1 in force. -/
theorem C123_queue_line {t : ℕ} {ps : List (List Cmd)} {cs : List Cmd} {rest : List (List Byte)} (hp : puts (sent w0.rxq (sofar ev t)) = ps.map text ++ text cs :: rest)
    (hN : ∀ x ∈ ps, Named x) {n : Int} (hn : Numbered (text cs) n) (ht : TellsPose cs) (hC : ClearM cs) (hM : (ps.flatten ++ cs).foldl chosenBy 1 = 1)
    {V : ℚ} (hV : SaysSpeed ((ps.flatten ++ cs).foldl spokenBy none) V) (hV0 : 0 < V) {d : Fin 6 → Dec} (hd : ∀ i, Last NamesPose cs i (d i)) :
    ∃ k j, ev k = .act (.out (.ghost .queue (text cs))) ∧ k < j ∧ ev j = .act (.out (.msg (.n1 n))) ∧ (∀ i, k < i → i < j → ¬ Orders ev i) ∧
      KeepsPace kitG V (poseOfDec d) σ ev k j ∧ ∀ e, j ≤ e → (∀ i : Fin 6, Untouched ev (armServo i) j e) → LineWay kitG (poseOfDec d) σ k e := by
  obtain ⟨k, j, h1, h2, h3, h4, h5⟩ := C123_queue hw h h0 hc hnw hu hclk hh hq hno hp hN hn
  rw [List.foldl_append] at hM hV
  have key := fun e hl hun => C123_line (e := e) hw h (brisk_empty _ h0) hc hu (calm_of_none (queueOnly_noImmediate h hq)) h1 (.inl (by simp)) ht hC h5 hM hV hV0 hd h2 (.inl ⟨n, h3⟩)
    (undirected h4) hl hun
  exact ⟨k, j, h1, h2, h3, h4, (key j (le_refl _) fun i => by intro x hx1 hx2; omega).2, fun e hl hun => (key e hl hun).1⟩
end

/-- N5X15Y2Z10A180B0C180 -/
def bareI : List Cmd := [⟨78, str "5"⟩, areaC false 0, areaC false 1, areaC false 2, areaC false 3, areaC false 4, areaC false 5]
theorem bareI_sub {c : Cmd} (hc : c ∈ bareI) : c ∈ areaI false := by
  simp only [bareI, areaI, List.mem_cons, List.not_mem_nil, or_false, Bool.false_eq_true, if_false] at hc ⊢
  tauto
def forceRx : List Byte := str ":QN6M1V20X13Y-3Z8.5A180B0C170\r:QN5X15Y2Z10A180B0C180\r"
theorem forceRx_decode : decode forceRx = [81 :: text (areaI true), 81 :: text bareI] := by decide +kernel
theorem bareI_frame : frame (81 :: text bareI) = .put (text bareI) := by decide +kernel
theorem forceRx_mem {p : List Byte} (hp : p ∈ decode forceRx) : frame p = .put (text (areaI true)) ∨ frame p = .put (text bareI) := by
  rw [forceRx_decode] at hp
  simp only [List.mem_cons, List.not_mem_nil, or_false] at hp
  rcases hp with rfl | rfl
  · exact .inl (areaRx_frame true)
  · exact .inr bareI_frame
theorem forceRx_puts : puts forceRx = [text (areaI true), text bareI] := by
  rw [puts, forceRx_decode]; simp [areaRx_frame, bareI_frame]
theorem forceRx_sent : BrisklySent forceRx := by
  have hb : ∀ p ∈ decode forceRx, BriskFrame (frame p) := by
    intro p hp
    rcases forceRx_mem hp with e | e <;> rw [e]
    · exact ⟨areaI true, rfl, areaI_brisk true, by decide +kernel⟩
    · exact ⟨bareI, rfl, fun c hc => areaI_brisk false c (bareI_sub hc), by decide +kernel⟩
  exact ⟨⟨by decide +kernel, by decide +kernel, fun p hp => careful_of_frame (hb p hp)⟩, hb⟩
theorem forceRx_quick : NeverWaits forceRx := by
  refine ⟨by decide +kernel, by decide +kernel, ?_⟩
  intro p hp
  rcases forceRx_mem hp with e | e <;> rw [e] <;> exact ⟨by decide +kernel, by decide +kernel⟩
theorem forceRx_queue : QueueOnly forceRx := by
  intro p hp
  rcases forceRx_mem hp with e | e <;> exact .inr (.inr (.inr (.inl ⟨_, e⟩)))
theorem forceRx_nows : nows forceRx = [] := by
  rw [nows, forceRx_decode]; simp [areaRx_frame, bareI_frame]
theorem bareI_tells : TellsPose bareI :=
  have t := areaI_tells false
  { ok := fun c hc => t.ok c (bareI_sub hc), axis := fun c hc => t.axis c (bareI_sub hc), pose := fun c hc => t.pose c (bareI_sub hc),
    some := ⟨areaC false 0, by simp [bareI], 0, _, areaD_ok false 0, rfl⟩, noAngle := fun c hc => t.noAngle c (bareI_sub hc) }
theorem bareI_last (i : Fin 6) : Last NamesPose bareI i (areaD false i) := by
  have key : ∀ i : Fin 6, ∀ c ∈ bareI.drop (2 + i.val), c.letter ≠ poseLetter i := by decide
  have hc : ∀ i : Fin 6, bareI = bareI.take (1 + i.val) ++ areaC false i :: bareI.drop (2 + i.val) := by
    intro i; fin_cases i <;> rfl
  refine ⟨_, _, _, hc i, ⟨areaD_ok false i, rfl⟩, ?_⟩
  rintro c' hc' d' ⟨_, rfl⟩
  exact key i _ hc' rfl
theorem bareI_numbered : Numbered (text bareI) 5 :=
  ⟨[], [areaC _ 0, areaC _ 1, areaC _ 2, areaC _ 3, areaC _ 4], _, areaC _ 5, rfl, fun c hc => areaI_ok false c (bareI_sub hc), by decide,
    ⟨by decide, by decide, by decide⟩, by decide +kernel, by decide⟩
theorem areaI_named : Named (areaI true) := ⟨areaI_ok true, by simp [areaI], by unfold ClearM; decide⟩

/-- C123: a straight move at 20 cm/s, then a pose without M and V, for the queue, one interrupt before every pass: all hypotheses hold, and the second is a straight move at 20 cm/s, too. -/
theorem C123_demo : ∃ (w0 : World XR) (σ : ℕ → Sys XR) (ev : ℕ → Ev XR), w0.servos = Kit.servos ∧ w0.rxq = forceRx ∧ Endless Kit.cfg w0 (fun _ => 0) σ ev ∧ Unbroken ev ∧
    ∃ k j, ev k = .act (.out (.ghost .queue (text bareI))) ∧ k < j ∧ ev j = .act (.out (.msg (.n1 5))) ∧ (∀ i, k < i → i < j → ¬ Orders ev i) ∧
      KeepsPace kitG ((20 : ℚ) : ℝ) (poseOfDec (areaD false)) σ ev k j ∧
      ∀ e, j ≤ e → (∀ i : Fin 6, Untouched ev (armServo i) j e) → LineWay kitG (poseOfDec (areaD false)) σ k e := by
  let w0 : World XR := { servos := Kit.servos, now := 1, pins := fun _ => false, rxq := forceRx, ee := fun _ => 0, outs := [] }
  let s0 : Sys XR := ⟨w0, setup Kit.cfg fun _ => 0⟩
  have hs : ∀ n, w0.rxq ++ arrivals (sofar (evs Kit.cfg s0) n) = forceRx := fun n => by
    rw [sched_hist_silent, List.append_nil]
  have hc : ∀ n, BrisklySent (w0.rxq ++ arrivals (sofar (evs Kit.cfg s0) n)) := fun n => by rw [hs]; exact forceRx_sent
  have hf : ∀ n f, (hist Kit.cfg s0 n).p ≠ .fault f := fun n => (C81_kit rfl (careful_empty _ rfl) (sched_hist_run Kit.cfg w0 _ n) (hc n).well).1
  have he := endless Kit.cfg w0 _ hf
  have h0 : CountingHost (F := XR) forceRx [] := by
    intro a b e
    obtain ⟨rfl, rfl⟩ := List.append_eq_nil_iff.1 e.symm
    show qSize ((puts (forceRx ++ [])).drop (0 - _)) ≤ QUEUE
    rw [List.append_nil, forceRx_puts, Nat.zero_sub]
    decide +kernel
  refine ⟨w0, _, _, rfl, rfl, he, sched_unbroken _ _ hf, ?_⟩
  exact C123_queue_line (t := 0) (ps := [areaI true]) (cs := bareI) (rest := []) rfl he rfl hc (fun n => by rw [hs]; exact forceRx_quick) (sched_unbroken _ _ hf)
    (clockRuns_of he 0 fun n _ => by rw [sched_now]; exact Nat.one_pos)
    (fun n => by simpa using counting_quiet h0 (sched_hist_silent Kit.cfg s0 n)) (fun n => by rw [sent, hs]; exact forceRx_queue) (fun n => by rw [sent, hs]; exact forceRx_nows)
    (by rw [sent, hs, forceRx_puts]; rfl) (by simpa using areaI_named) bareI_numbered bareI_tells (by unfold ClearM; decide) (by decide +kernel)
    (V := 20) ⟨areaV, .inl (by decide), by decide +kernel, by decide +kernel⟩ (by norm_num) bareI_last

end Mrc.Props
