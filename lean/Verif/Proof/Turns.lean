import Verif.Proof.Calm
import Verif.Proof.Store
import Verif.Spec.Turns
import Verif.Props.FlowLive
/- A host that takes turns: immediate instructions begin only while everything begun is reported as finished (C112). -/
set_option linter.unusedSectionVars false
set_option linter.unusedSimpArgs false
namespace Mrc.Turns
open Mrc Mrc.Spec Mrc.Prog Mrc.Props

variable {F : Type} [FloatOps F] {cfg : Cfg F} {junk : Nat → Byte}

open Classical in
/-- instructions begun, except for questions asked at once. -/
noncomputable def begun (tr : List (Act F)) : Nat := tr.countP fun a => decide (OrdersI a)

open Classical in
/-- how many of these instructions are no questions. -/
noncomputable def orders (ms : List (List Byte)) : Nat := ms.countP fun m => decide (¬ Asks m)

theorem orders_append (a b : List (List Byte)) : orders (a ++ b) = orders a + orders b := List.countP_append

theorem begun_one {a : Act F} (h : OrdersI a) : begun [a] = 1 := by simp [begun, h]
theorem begun_none {a : Act F} (h : ¬ OrdersI a) : begun [a] = 0 := by simp [begun, h]
theorem not_orders {a : Act F} (h : ¬ Told.isGhost a) : ¬ OrdersI a := by rintro ⟨s, m, rfl, _⟩; exact h trivial

theorem finished_append (a b : List (Act F)) : finished (a ++ b) = finished a + finished b := List.countP_append
theorem begun_append (a b : List (Act F)) : begun (a ++ b) = begun a + begun b := List.countP_append

theorem snoc {tr : List (Act F)} (h : tr ≠ []) : ∃ u a, tr = u ++ [a] := by
  rcases List.eq_nil_or_concat tr with rfl | ⟨u, a, rfl⟩
  · exact absurd rfl h
  · exact ⟨u, a, by simp⟩

open Classical in
/-- every report belongs to an instruction begun, and while not everything begun is reported there is one report less. -/
theorem count {tr : List (Act F)} (h : ∃ p, Trace cfg junk tr p) : finished tr + (if tr.foldl Calm.upd True then 0 else 1) ≤ begun tr := by
  generalize hl : tr.length = l
  induction l generalizing tr with
  | zero => rw [List.length_eq_zero_iff] at hl; subst hl; simp [finished, begun]
  | succ l ih =>
    obtain ⟨t, a, rfl⟩ := snoc (tr := tr) (by rintro rfl; cases hl)
    obtain ⟨p, h⟩ := h
    have i := ih (h.take rfl) (by simpa using hl)
    rw [finished_append, begun_append, List.foldl_append, List.foldl_cons, List.foldl_nil]
    by_cases hn : Told.isN1 a
    · match a, hn with
      | .out (.msg (.n1 n)), _ =>
        have : ¬ t.foldl Calm.upd True := Calm.no_report h rfl
        rw [if_neg this] at i
        have e1 : finished [(.out (.msg (.n1 n)) : Act F)] = 1 := rfl
        have e2 : Calm.upd (F := F) (t.foldl Calm.upd True) (.out (.msg (.n1 n))) = True := rfl
        rw [e1, e2, if_pos trivial, begun_none (not_orders id)]
        omega
    by_cases hg : Told.isGhost a
    · match a, hg with
      | .out (.ghost s m), _ =>
        have e1 : finished [(.out (.ghost s m) : Act F)] = 0 := rfl
        have e2 : Calm.upd (F := F) (t.foldl Calm.upd True) (.out (.ghost s m)) = (t.foldl Calm.upd True ∧ s = .immediate ∧ Asks m) := rfl
        rw [e1, e2]
        by_cases ho : s = .immediate ∧ Asks m
        · rw [begun_none (by rintro ⟨s', m', e, hm⟩; injection e with e; injection e with e1 e2; subst e1; subst e2; exact hm ho), show (t.foldl Calm.upd True ∧ s = .immediate ∧ Asks m) = (t.foldl Calm.upd True) from propext ⟨fun h => h.1, fun h => ⟨h, ho⟩⟩]
          omega
        · rw [begun_one ⟨s, m, rfl, ho⟩, if_neg fun h => ho h.2]
          split at i <;> omega
    have e1 : finished [a] = 0 := by
      match a, hn with
      | .servo _ _, _ | .micro _ _, _ | .now _, _ | .pin _ _, _ | .rx _, _ | .eeRead _, _ | .eeWrite _ _, _ => rfl
      | .out (.msg (.n1 _)), h' => exact absurd trivial h'
      | .out (.msg (.n0 _)), _ | .out (.msg (.free _)), _ | .out (.msg (.reply _ _)), _ => rfl
      | .out (.raw _), _ | .out (.pinMode _ _), _ | .out (.digitalWrite _ _), _ | .out (.ghost _ _), _ => rfl
    rw [Calm.upd_other _ hg hn, e1]
    omega

/-- as many reports as instructions begun: everything begun is reported. -/
theorem calm_of_count {tr : List (Act F)} {p : Prog F (FW F)} (h : Trace cfg junk tr p) (hc : begun tr ≤ finished tr) : AllDone tr := by
  refine Calm.of_flag ?_
  by_contra hne
  have := count ⟨p, h⟩
  rw [if_neg hne] at this
  omega

/-- where a frame was completed. -/
theorem frame_at {tr : List (Act F)} {ps : List (List Byte)} {p : List Byte} {qs : List (List Byte)} (h : decode (rxBytes tr) = ps ++ p :: qs) :
    ∃ t1 t2, tr = t1 ++ .rx (some 13) :: t2 ∧ decode (rxBytes t1) = ps ∧ decode (rxBytes (t1 ++ [.rx (some 13)])) = ps ++ [p] := by
  generalize hl : tr.length = l
  induction l generalizing tr qs with
  | zero => rw [List.length_eq_zero_iff] at hl; subst hl; cases ps <;> cases h
  | succ l ih =>
    obtain ⟨t, a, rfl⟩ := snoc (tr := tr) (by rintro rfl; cases hl)
    have hl' : t.length = l := by simpa using hl
    have old : ∀ qs', decode (rxBytes t) = ps ++ p :: qs' → ∃ t1 t2, t ++ [a] = t1 ++ .rx (some 13) :: t2 ∧ decode (rxBytes t1) = ps ∧ decode (rxBytes (t1 ++ [.rx (some 13)])) = ps ++ [p] := by
      intro qs' h'
      obtain ⟨t1, t2, e, h1, h2⟩ := ih h' hl'
      exact ⟨t1, t2 ++ [a], by rw [e]; simp, h1, h2⟩
    match a, h, old with
    | .rx (some b), h, old =>
      have h : decode (rxBytes (t ++ [.rx (some b)])) = ps ++ p :: qs := h
      have hcopy := h
      rw [rxBytes_append] at h
      change decode (rxBytes t ++ [b]) = _ at h
      rw [decode_snoc, completed] at h
      split at h
      · rename_i hb
        rcases List.eq_nil_or_concat qs with rfl | ⟨qs', x, rfl⟩
        · have := List.append_inj' h rfl
          obtain ⟨rfl, _⟩ := hb
          exact ⟨t, [], rfl, this.1, hcopy⟩
        · rw [List.concat_eq_append] at h
          refine old qs' (List.append_inj' (h.trans (by simp : _ = (ps ++ p :: qs') ++ [x])) rfl).1
      · rw [List.append_nil] at h; exact old _ h
    | .rx none, h, old | .eeRead _, h, old | .servo _ _, h, old | .micro _ _, h, old | .now _, h, old | .pin _ _, h, old | .eeWrite _ _, h, old | .out _, h, old =>
      rw [rxBytes_append] at h
      change decode (rxBytes t ++ []) = _ at h
      rw [List.append_nil] at h
      exact old _ h

/-- started and waiting instructions were sent for the queue. -/
theorem started_le {tr : List (Act F)} (h : ∃ p, Trace cfg junk tr p) : (Dev.after tr).started.length + (Dev.after tr).queue.length ≤ (puts (rxBytes tr)).length := by
  generalize hl : tr.length = l
  induction l generalizing tr with
  | zero => rw [List.length_eq_zero_iff] at hl; subst hl; simp [Dev.after]
  | succ l ih =>
    obtain ⟨t, a, rfl⟩ := snoc (tr := tr) (by rintro rfl; cases hl)
    obtain ⟨p, h⟩ := h
    have i := ih (h.take rfl) (by simpa using hl)
    rw [after_snoc, rxBytes_append]
    match a, h with
    | .rx (some b), h =>
      show ((Dev.after t).recv b).started.length + ((Dev.after t).recv b).queue.length ≤ (puts (rxBytes t ++ [b])).length
      rw [puts, decode_snoc, List.filterMap_append, List.length_append, ← puts, completed, ← after_line]
      unfold Dev.recv
      by_cases hb : b = 13
      · rw [if_pos hb]
        cases ho : overlong (Dev.after t).line
        · rw [if_pos (And.intro hb rfl)]
          simp only [Bool.false_eq_true, if_false]
          rw [List.filterMap_cons]
          generalize frame (payload (Dev.after t).line) = f
          cases f with
          | put m =>
            simp only [Dev.frame]
            split <;> simp <;> omega
          | _ => simp [Dev.frame] <;> omega
        · simp only [if_true]; omega
      · rw [if_neg hb]; simp only; omega
    | .out (.ghost .queue m), h =>
      have := ((trace_dev h).1 t _ [] rfl rfl).1 m rfl
      show ((Dev.after t).started ++ [m]).length + (Dev.after t).queue.tail.length ≤ (puts (rxBytes t ++ [])).length
      have hq : (Dev.after t).queue.head? = some m := this.1
      rw [List.append_nil, List.length_append]
      cases hh : (Dev.after t).queue with
      | nil => rw [hh] at hq; cases hq
      | cons y ys => rw [hh] at i; simp only [List.length_cons, List.length_nil, List.tail_cons] at i ⊢; omega
    | .eeRead m, _ =>
      show (if (Dev.after t).booted then _ else _ : Dev).started.length + (if (Dev.after t).booted then _ else _ : Dev).queue.length ≤ (puts (rxBytes t ++ [])).length
      rw [List.append_nil]
      split <;> exact i
    | .out (.ghost .immediate m), _ | .out (.ghost .eeprom m), _ | .rx none, _ | .servo _ _, _ | .micro _ _, _ | .now _, _ | .pin _ _, _ | .eeWrite _ _, _
    | .out (.msg _), _ | .out (.raw _), _ | .out (.pinMode _ _), _ | .out (.digitalWrite _ _), _ =>
      show (Dev.after t).started.length + (Dev.after t).queue.length ≤ (puts (rxBytes t ++ [])).length
      rw [List.append_nil]; exact i

/-- without stored instructions, those begun are the immediate ones and those from the queue. -/
theorem begun_eq {tr : List (Act F)} (he : ∀ m, .out (.ghost .eeprom m) ∉ tr) : begun tr = orders (nowStarts tr) + (Dev.after tr).started.length := by
  generalize hl : tr.length = l
  induction l generalizing tr with
  | zero => rw [List.length_eq_zero_iff] at hl; subst hl; simp [begun, orders, nowStarts, Dev.after]
  | succ l ih =>
    obtain ⟨t, a, rfl⟩ := snoc (tr := tr) (by rintro rfl; cases hl)
    have i := ih (fun m hm => he m (List.mem_append_left _ hm)) (by simpa using hl)
    rw [after_snoc, begun_append, nowStarts, List.filterMap_append, ← nowStarts, ← nowStarts, orders_append, i]
    have other : ¬ Told.isGhost a → nowStarts [a] = [] → (Dev.act (Dev.after t) a).started = (Dev.after t).started →
        orders (nowStarts t) + (Dev.after t).started.length + begun [a] = orders (nowStarts t) + orders (nowStarts [a]) + (Dev.act (Dev.after t) a).started.length := by
      intro h1 h2 h3
      rw [begun_none (not_orders h1), h2, h3]
      simp [orders]
    match a, he, other with
    | .rx (some b), _, other =>
      refine other id rfl ?_
      show ((Dev.after t).recv b).started = (Dev.after t).started
      unfold Dev.recv
      split
      · split
        · rfl
        · exact (frame_line _ _).2
      · rfl
    | .out (.ghost .queue m), _, _ =>
      rw [begun_one ⟨.queue, m, rfl, by simp⟩]
      show _ = _ + orders [] + ((Dev.after t).started ++ [m]).length
      rw [List.length_append]; simp only [orders, List.countP_nil, List.length_cons, List.length_nil]; omega
    | .out (.ghost .immediate m), _, _ =>
      show _ = _ + orders [m] + (Dev.after t).started.length
      by_cases hm : Asks m
      · rw [begun_none (by rintro ⟨s', m', e, h⟩; injection e with e; injection e with e1 e2; subst e1; subst e2; exact h ⟨rfl, hm⟩)]
        simp [orders, hm]
      · rw [begun_one ⟨_, m, rfl, fun h => hm h.2⟩]
        simp [orders, hm]
        omega
    | .out (.ghost .eeprom m), he, _ => exact absurd (List.mem_append_right _ (List.mem_singleton.2 rfl)) (he m)
    | .eeRead m, _, other =>
      refine other id rfl ?_
      show (if (Dev.after t).booted then _ else _ : Dev).started = _
      split <;> rfl
    | .rx none, _, other | .servo _ _, _, other | .micro _ _, _, other | .now _, _, other | .pin _ _, _, other | .eeWrite _ _, _, other
    | .out (.msg _), _, other | .out (.raw _), _, other | .out (.pinMode _ _), _, other | .out (.digitalWrite _ _), _, other =>
      exact other id rfl rfl

theorem instrs_eq (r : List Byte) : instrs (decode r) = orders (nows r) + (puts r).length := by
  unfold instrs nows puts
  induction decode r with
  | nil => rfl
  | cons p ps ih =>
    rw [List.countP_cons, List.filterMap_cons, List.filterMap_cons, ih]
    cases frame p with
    | now m =>
      by_cases hm : Asks m
      · simp [orders, hm]
      · simp [orders, hm]; omega
    | put m => simp; omega
    | _ => simp

theorem nows_mono {a b : List (Act F)} : (nows (rxBytes a)).length ≤ (nows (rxBytes (a ++ b))).length := by
  rw [rxBytes_append, nows, nows, decode_append, List.filterMap_append, List.length_append]; omega

theorem nowStarts_append (a b : List (Act F)) : nowStarts (a ++ b) = nowStarts a ++ nowStarts b := List.filterMap_append

/-- an immediate instruction is begun right after its frame was read: everything begun before was sent before. -/
theorem before {tr : List (Act F)} {p : Prog F (FW F)} (h : Trace cfg junk tr p) {pre post : List (Act F)} {m : List Byte} (e : tr = pre ++ .out (.ghost .immediate m) :: post)
    (he : ∀ m, .out (.ghost .eeprom m) ∉ tr) : ∃ ps q qs, decode (rxBytes pre) = ps ++ q :: qs ∧ frame q = .now m ∧ begun pre ≤ instrs ps := by
  have h1 := (C91_at_once h e rfl).1 m rfl
  unfold nows at h1
  obtain ⟨l1, l2, e1, e2, e3⟩ := List.filterMap_eq_append_iff.1 h1
  obtain ⟨u, q, v, e4, hu, hq, -⟩ := List.filterMap_eq_cons_iff.1 e3
  have hfq : frame q = .now m := by
    split at hq
    · rename_i x hx; injection hq with hq; rw [hx, hq]
    · cases hq
  have hdec : decode (rxBytes pre) = (l1 ++ u) ++ q :: v := by rw [e1, e4, List.append_assoc]
  refine ⟨l1 ++ u, q, v, hdec, hfq, ?_⟩
  obtain ⟨t1, t2, e5, h5, h6⟩ := frame_at hdec
  have hn5 : nows (rxBytes t1) = nowStarts pre := by
    unfold nows; rw [h5, List.filterMap_append, e2, List.filterMap_eq_nil_iff.2 hu, List.append_nil]
  have hn6 : (nows (rxBytes (t1 ++ [.rx (some 13)]))).length = (nowStarts pre).length + 1 := by
    unfold nows at hn5 ⊢; rw [h6, List.filterMap_append, ← h5, hn5, List.length_append]
    rw [List.filterMap_cons, hfq]; rfl
  -- nothing is done between the frame and the start
  have quiet : ∀ a ∈ t2, a.isInput = true := by
    intro a ha
    obtain ⟨y, z, rfl⟩ := List.append_of_mem ha
    cases hin : a.isInput
    · exfalso
      have hs : tr = (t1 ++ .rx (some 13) :: y) ++ a :: (z ++ .out (.ghost .immediate m) :: post) := by rw [e, e5]; simp
      obtain ⟨k1, k2⟩ := C91_at_once h hs hin
      have hge : (nowStarts pre).length + 1 ≤ (nows (rxBytes (t1 ++ .rx (some 13) :: y))).length := by
        rw [← hn6, show t1 ++ .rx (some 13) :: y = (t1 ++ [.rx (some 13)]) ++ y by simp]
        exact nows_mono
      have hpre : pre = (t1 ++ .rx (some 13) :: y) ++ a :: z := by rw [e5]; simp
      by_cases hg : ∃ m', a = .out (.ghost .immediate m')
      · obtain ⟨m', rfl⟩ := hg
        rw [k1 m' rfl, List.length_append, hpre, nowStarts_append] at hge
        have : nowStarts (Act.out (.ghost .immediate m') :: z) = m' :: nowStarts z := rfl
        rw [this, List.length_append] at hge
        simp only [List.length_cons, List.length_nil] at hge
        omega
      · rw [k2 (fun m' hm' => hg ⟨m', hm'⟩)] at hge
        rw [hpre, nowStarts_append, List.length_append] at hge
        omega
    · rfl
  have hb0 : begun t2 = 0 := by
    rw [begun, List.countP_eq_zero]
    intro a ha
    have := quiet a ha
    have hn : ¬ OrdersI a := by rintro ⟨_, _, rfl, _⟩; cases this
    simpa using hn
  have hb : begun pre = begun t1 := by
    rw [e5, begun_append]
    show begun t1 + begun (_ :: t2) = _
    have : begun (Act.rx (some 13) :: t2) = begun t2 := by
      rw [show (Act.rx (some 13) :: t2 : List (Act F)) = [Act.rx (some 13)] ++ t2 from rfl, begun_append, begun_none (not_orders id), Nat.zero_add]
    rw [this, hb0, Nat.add_zero]
  have h0 : tr = t1 ++ (.rx (some 13) :: t2 ++ .out (.ghost .immediate m) :: post) := by rw [e, e5]; simp
  rw [hb, begun_eq fun m' hm' => he m' (by rw [h0]; exact List.mem_append_left _ hm'), ← h5, instrs_eq, hn5]
  have s1 := started_le (h.take h0)
  have s2 : orders (nowStarts t1) ≤ orders (nowStarts pre) := by rw [e5, nowStarts_append, orders_append]; omega
  omega

theorem stay_booted (t : List (Act F)) (d : Dev) (hd : d.booted = true) : (t.foldl Dev.act d).booted = true := by
  induction t generalizing d with
  | nil => exact hd
  | cons a t ih =>
    refine ih _ ?_
    match a with
    | .rx (some b) => exact (recv_booted d b).trans hd
    | .eeRead m => show (if d.booted = true then d else _).booted = true; rw [if_pos hd]; exact hd
    | .out (.ghost .queue m) => exact hd
    | .out (.ghost .immediate m) | .out (.ghost .eeprom m) | .rx none | .servo _ _ | .micro _ _ | .now _ | .pin _ _ | .eeWrite _ _ | .out (.msg _) | .out (.raw _)
    | .out (.pinMode _ _) | .out (.digitalWrite _ _) => exact hd

/-- nothing is written before the storage has been looked at. -/
theorem unwritten {tr : List (Act F)} {p : Prog F (FW F)} (h : Trace cfg junk tr p) (hb : (Dev.after tr).booted = false) : eeWs tr = [] := by
  rcases trace_last h with h | ⟨t0, s, t, rfl, h1, _⟩
  · have ho : (setup cfg junk).only (fun a : Act F => match a with | .eeWrite _ _ => False | _ => True) (fun _ => True) := by
      simp only [setup, RC.new, RC.getCurrentPose, RC.getCurrentLogicalAngles, RC.readAngles, readServo, bind_def, pure_def, Prog.bind, Prog.only]
      simp
    have := (only_exec h ho).1
    rw [eeWs, List.filterMap_eq_nil_iff]
    intro a ha
    have := this a ha
    match a, this with
    | .rx _, _ | .eeRead m, _ | .out _, _ | .servo _ _, _ | .micro _ _, _ | .now _, _ | .pin _ _, _ => rfl
  · exfalso
    have hbt : (Dev.after t0).booted = true := (trace_dev h1).2.booted
    rw [Dev.after, List.foldl_append] at hb
    rw [show (t.foldl Dev.act (t0.foldl Dev.act {})).booted = true from stay_booted t _ hbt] at hb
    cases hb

/-- with an empty storage into which nothing is sent, nothing is taken from it. -/
theorem not_storage {m0 : EMem} (h0 : m0 0 = 0) {tr : List (Act F)} (h : ∃ p, Trace cfg junk tr p) (hr : ReadsTrue m0 tr) (hs : NeverStores (rxBytes tr)) :
    (Dev.after tr).sel ≠ .storage := by
  generalize hl : tr.length = l
  induction l generalizing tr with
  | zero => rw [List.length_eq_zero_iff] at hl; subst hl; simp [Dev.after]
  | succ l ih =>
    obtain ⟨t, a, rfl⟩ := snoc (tr := tr) (by rintro rfl; cases hl)
    obtain ⟨p, h⟩ := h
    have hs' : NeverStores (rxBytes t) := fun q hq => hs q (by rw [rxBytes_append, decode_append]; exact List.mem_append_left _ hq)
    have i := ih (h.take rfl) (fun pre m post e => hr pre m (post ++ [a]) (by rw [e]; simp)) hs' (by simpa using hl)
    rw [after_snoc]
    match a, h, hr, hs with
    | .rx (some b), _, _, hs =>
      have hs : NeverStores (rxBytes t ++ [b]) := by rw [rxBytes_append] at hs; exact hs
      show ((Dev.after t).recv b).sel ≠ .storage
      unfold Dev.recv
      by_cases hb : b = 13
      · rw [if_pos hb]
        cases ho : overlong (Dev.after t).line
        · have := hs (payload (Dev.after t).line) (by
            rw [decode_snoc, completed, ← after_line, if_pos ⟨hb, ho⟩]; simp)
          simp only [Bool.false_eq_true, if_false] at *
          generalize frame (payload (Dev.after t).line) = f at *
          cases f with
          | put m => simp only [Dev.frame]; split <;> simp
          | store m => exact absurd rfl (this m)
          | clear => simp [Dev.frame]
          | free => exact i
          | now m => exact i
          | erase => exact i
          | empty => exact i
        · exact i
      · rw [if_neg hb]; exact i
    | .eeRead m, h, hr, _ =>
      show (if (Dev.after t).booted then _ else _ : Dev).sel ≠ .storage
      cases hb : (Dev.after t).booted
      · obtain ⟨p', h'⟩ := h.take (pre := t) (post := [.eeRead m]) rfl
        have e1 := hr t m [] rfl
        have e2 : memAfter m0 t = m0 := by rw [memAfter, unwritten h' hb]; rfl
        have : m 0 = 0 := by rw [e1, e2]; exact h0
        simp [this]
      · exact i
    | .out (.ghost .queue m), _, _, _ => exact i
    | .out (.ghost .immediate m), _, _, _ | .out (.ghost .eeprom m), _, _, _ | .rx none, _, _, _ | .servo _ _, _, _, _ | .micro _ _, _, _, _ | .now _, _, _, _ | .pin _ _, _, _, _
    | .eeWrite _ _, _, _, _ | .out (.msg _), _, _, _ | .out (.raw _), _, _, _ | .out (.pinMode _ _), _, _, _ | .out (.digitalWrite _ _), _, _, _ => exact i

section
variable {w0 : World F} {σ : ℕ → Sys F} {ev : ℕ → Ev F}

theorem no_storage (h : Endless cfg w0 junk σ ev) (h0 : w0.ee 0 = 0) (hs : ∀ n, NeverStores (sent w0.rxq (sofar ev n))) (n : ℕ) (m : List Byte) :
    .out (.ghost .eeprom m) ∉ acts (sofar ev n) := by
  intro hm
  obtain ⟨pre, post, e⟩ := List.append_of_mem hm
  have hst := ((trace_dev (h.run n).trace).1 pre _ post e rfl).2.1 m rfl
  have hr := (h.run n).mem.2
  refine not_storage h0 ((h.run n).trace.take e) (fun a mm b e' => hr a mm (b ++ .out (.ghost .eeprom m) :: post) (by rw [e, e']; simp)) (fun q hq => hs n q ?_) hst
  rw [sent, (h.run n).fifo, e, rxBytes_append, List.append_assoc, decode_append]
  exact List.mem_append_left _ hq

/-- **a host that takes turns**: immediate instructions other than questions begin only while everything begun before is reported as finished. -/
theorem calm_starts (h : Endless cfg w0 junk σ ev) (h0 : w0.ee 0 = 0) (hs : ∀ n, NeverStores (sent w0.rxq (sofar ev n))) (ht : TakesTurns w0.rxq ev) : DoneStarts ev := by
  intro k m e hm
  have e' : acts (sofar ev (k + 1)) = acts (sofar ev k) ++ .out (.ghost .immediate m) :: [] := by rw [sofar_succ, acts_append, e]; rfl
  obtain ⟨ps, q, qs, h1, h2, h3⟩ := before (h.run (k + 1)).trace e' (no_storage h h0 hs (k + 1))
  refine calm_of_count (h.run k).trace (h3.trans (ht k ps q (qs ++ decode (tail (rxBytes (acts (sofar ev k))) ++ (σ k).w.rxq)) m ?_ h2 hm))
  rw [sent, (h.run k).fifo, decode_append, h1]
  simp

/-- between an instruction and the next immediate one that is no question there is a report. -/
theorem reported_between (hc : DoneStarts ev) {k i : ℕ} (hk : Orders ev k) (hki : k < i) {m : List Byte} (hi : ev i = .act (.out (.ghost .immediate m))) (hm : ¬ Asks m) :
    ∃ j x, k < j ∧ j < i ∧ ev j = .act (.out (.msg (.n1 x))) := by
  rcases Calm.done_last (hc i m hi hm) with h1 | ⟨r, n, h1, h2, h3⟩
  · exact absurd hk (h1 k hki)
  · refine ⟨r, n, ?_, h1, h2⟩
    by_contra hcon
    rcases Nat.eq_or_lt_of_le (show r ≤ k by omega) with rfl | hlt
    · obtain ⟨s, m', e, -⟩ := hk; rw [h2] at e; cases e
    · exact h3 k hlt hki hk
end

end Mrc.Turns
