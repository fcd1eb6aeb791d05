import Verif.Proof.RestTold
import Verif.Proof.Told
import Verif.Proof.Order
/- While no move is under way nothing is stored into a servo of the arm (C110). -/
set_option linter.unusedSectionVars false
set_option linter.unusedSimpArgs false
namespace Mrc.Calm
open Mrc Mrc.Spec Mrc.Prog Mrc.Props Mrc.Told

variable {F : Type} [FloatOps F]

/-- everything begun is reported as finished, except for questions asked at once. -/
def upd (g : Prop) : Act F → Prop
  | .out (.ghost s m) => g ∧ s = .immediate ∧ Asks m
  | .out (.msg (.n1 _)) => True
  | _ => g

theorem upd_other (g : Prop) {a : Act F} (h : ¬ Told.isGhost a) (h' : ¬ isN1 a) : upd g a = g := by
  match a, h, h' with
  | .servo _ _, _, _ | .micro _ _, _, _ | .now _, _, _ | .pin _ _, _, _ | .rx _, _, _ | .eeRead _, _, _ | .eeWrite _ _, _, _ => rfl
  | .out (.msg (.n1 _)), _, h' => exact absurd trivial h'
  | .out (.msg (.n0 _)), _, _ | .out (.msg (.free _)), _, _ | .out (.msg (.reply _ _)), _, _ => rfl
  | .out (.raw _), _, _ | .out (.pinMode _ _), _, _ | .out (.digitalWrite _ _), _, _ => rfl
  | .out (.ghost _ _), h, _ => exact absurd trivial h

theorem foldl_other {tr : List (Act F)} (h : ∀ a ∈ tr, ¬ Told.isGhost a) (h' : ∀ a ∈ tr, ¬ isN1 a) (g : Prop) : tr.foldl upd g = g := by
  induction tr generalizing g with
  | nil => rfl
  | cons a tr ih => rw [List.foldl_cons, upd_other g (h a (by simp)) (h' a (by simp)), ih (fun b hb => h b (by simp [hb])) (fun b hb => h' b (by simp [hb]))]

theorem of_flag {pre : List (Act F)} (h : pre.foldl upd True) : AllDone pre := by
  induction pre using List.reverseRecOn with
  | nil => exact .inl (by simp)
  | append_singleton l a ih =>
    rw [List.foldl_append, List.foldl_cons, List.foldl_nil] at h
    by_cases hn : isN1 a
    · match a, hn with
      | .out (.msg (.n1 n)), _ => exact .inr ⟨l, n, [], rfl, by simp⟩
    have hb : ¬ OrdersI a ∧ l.foldl upd True := by
      by_cases hg : Told.isGhost a
      · match a, hg, h with
        | .out (.ghost s m), _, h =>
          refine ⟨?_, h.1⟩
          rintro ⟨s', m', e, hm⟩
          injection e with e; injection e with e1 e2
          subst e1; subst e2
          exact hm h.2
      · rw [upd_other _ hg hn] at h
        refine ⟨?_, h⟩
        rintro ⟨s, m, rfl, _⟩; exact hg trivial
    rcases ih hb.2 with h | ⟨p, n, q, rfl, h2⟩
    · exact .inl fun x hx => by
        rcases List.mem_append.1 hx with hx | hx
        · exact h x hx
        · rw [List.mem_singleton.1 hx]; exact hb.1
    · exact .inr ⟨p, n, q ++ [a], by simp, fun x hx => by
        rcases List.mem_append.1 hx with hx | hx
        · exact h2 x hx
        · rw [List.mem_singleton.1 hx]; exact hb.1⟩

theorem not_placesI {a : Act F} (h : ¬ OrdersI a) : ¬ PlacesI a := by
  rintro ⟨s, m, e, hm⟩
  exact h ⟨s, m, e, fun ha => hm (Asd.NoPlace.of_aside (Asd.aside_of_asks ha.2))⟩

/-- everything reported: no move is under way. -/
theorem of_done {pre : List (Act F)} (h : AllDone pre) : Calm pre := by
  rcases h with h | ⟨p, n, q, e, h⟩
  · exact .inl fun a ha => not_placesI (h a ha)
  · exact .inr ⟨p, n, q, e, fun a ha => not_placesI (h a ha)⟩

/-- no store into an arm servo and no report while calm. -/
def mon : Mon F Prop where
  upd := upd
  ok g a := g → quiet a ∧ ¬ isN1 a

def I (g : Prop) (c : Core F) : Prop := c.rc.inTransaction = false ∧ (g → c.rc.state = .idle ∧ c.commandNumber ≤ 0)

theorem inv (cfg : Cfg F) : CoreInv cfg (mon (F := F)) I I where
  flt _ := trivial
  weak _ _ h := h
  disp g c a h ha := by
    obtain ⟨h1, h2, h3⟩ := disp_not ha
    exact ⟨fun _ => ⟨h3, isN1_reports h2⟩, h.1, fun e => h.2 (by simpa only [mon, upd_other g h1 (isN1_reports h2)] using e)⟩
  dispJ g c a h ha := by
    obtain ⟨h1, h2, h3⟩ := disp_not ha
    exact ⟨fun _ => ⟨h3, isN1_reports h2⟩, h.1, fun e => h.2 (by simpa only [mon, upd_other g h1 (isN1_reports h2)] using e)⟩
  rc g c h := by
    by_cases hs : c.rc.state = .idle
    · have : RC.process cfg.toRCfg c.rc = .ret c.rc := by simp [RC.process, hs]
      rw [this]
      exact h
    · refine wp_exec_intro (E := fun _ => True) (fun _ => trivial) (fun _ _ _ => trivial) ?_ ?_
      · intro tr a q he _ hg
        have hk := (only_exec he (RC.process_only cfg.toRCfg c.rc)).1
        simp only [mon] at hg
        rw [foldl_other (fun a ha => (rc_not (hk a (by simp [ha]))).1) (fun a ha => isN1_reports (rc_not (hk a (by simp [ha]))).2)] at hg
        exact absurd (h.2 hg).1 hs
      · intro tr r he _
        have hk := only_exec he (RC.process_only cfg.toRCfg c.rc)
        refine ⟨hk.2.1.trans h.1, fun hg => ?_⟩
        simp only [mon] at hg
        rw [foldl_other (fun a ha => (rc_not (hk.1 a ha)).1) (fun a ha => isN1_reports (rc_not (hk.1 a ha)).2)] at hg
        exact absurd (h.2 hg).1 hs
  parse g c x src h := by
    refine ⟨fun _ => ⟨trivial, id⟩, ?_⟩
    refine wp_exec_intro (E := fun _ => True) (fun _ => trivial) (fun _ _ _ => trivial) ?_ ?_
    · intro tr a q he _ _
      have := mril_not ((only_exec he (parse_only cfg c x)).1 a (by simp))
      exact ⟨this.2.2, isN1_reports this.2.1⟩
    · intro tr c' he _
      have hk := (only_exec he (parse_only cfg c x)).1
      have hi : I g c := by split at h; exacts [h, h.1]
      refine ⟨(only_exec he (Order.parse_closed cfg c x hi.1)).2, fun hg => ?_⟩
      simp only [mon] at hg
      rw [foldl_other (fun a ha => (mril_not (hk a ha)).1) (fun a ha => isN1_reports (mril_not (hk a ha)).2.1)] at hg
      have hg : g ∧ src = .immediate ∧ Asks x := hg
      rw [(only_exec he (Asd.parse_asks cfg c hg.2.2 hi.1)).2]
      exact hi.2 hg.1
  check g c h := by
    refine wp_exec_intro (E := fun _ => True) (fun _ => trivial) (fun _ _ _ => trivial) ?_ ?_
    · intro tr a q he _ hg
      have hk := (only_exec he (mrilProcess_only c)).1
      refine ⟨(check_not (hk a (by simp))).2, fun hn => ?_⟩
      match a, hn with
      | .out (.msg (.n1 n)), _ =>
        have hmem : (Act.out (.msg (.n1 n)) : Act F) ∈ tr ++ [.out (.msg (.n1 n))] := by simp
        obtain ⟨c', rfl⟩ := check_n1 he n hmem
        rcases process_spec _ _ _ he with ⟨_, _, _, _, e, _⟩ | ⟨_, e, _⟩ | ⟨_, t, ⟨_, e, _⟩ | ⟨_, _, e, _⟩ | ⟨_, hpos, e, _⟩⟩
        · rw [e] at hmem; simp [metRead, unmetRead] at hmem
        · rw [e] at hmem; simp [metRead] at hmem
        · rw [e] at hmem; simp [metRead] at hmem
        · rw [e] at hmem; simp [metRead] at hmem
        · obtain ⟨e1, _⟩ := List.append_inj' (e.trans (List.append_assoc _ [_] [_]).symm) rfl
          simp only [mon] at hg
          rw [foldl_other (fun a ha => (check_not (hk a (by simp [ha]))).1) (fun a ha hn => ?_)] at hg
          · have := (h.2 hg).2; omega
          · rw [e1] at ha
            match a, hn with
            | .out (.msg (.n1 _)), _ => simp [metRead] at ha
    · intro tr c' he _
      have hk := (only_exec he (mrilProcess_only c))
      have hrc : c'.rc = c.rc := hk.2.1
      rw [I, hrc]
      refine ⟨h.1, fun hg => ?_⟩
      have no : (∀ a ∈ tr, ¬ isN1 a) → c.rc.state = .idle ∧ c.commandNumber ≤ 0 := fun hn => by
        simp only [mon] at hg
        rw [foldl_other (fun a ha => (check_not (hk.1 a ha)).1) hn] at hg
        exact h.2 hg
      rcases process_spec _ _ _ he with ⟨_, _, _, _, e1, e2⟩ | ⟨_, e1, e2⟩ | ⟨hm, t, ⟨_, e1, e2⟩ | ⟨_, _, e1, e2⟩ | ⟨_, hpos, e1, e2⟩⟩
      · have := no fun a ha hn => by
          match a, hn with
          | .out (.msg (.n1 n)), _ => rw [e1] at ha; simp [metRead, unmetRead] at ha
        rw [e2]; exact this
      · have := no fun a ha hn => by
          match a, hn with
          | .out (.msg (.n1 n)), _ => rw [e1] at ha; simp [metRead] at ha
        rw [e2]; exact this
      · have := no fun a ha hn => by
          match a, hn with
          | .out (.msg (.n1 n)), _ => rw [e1] at ha; simp [metRead] at ha
        rw [e2]; exact this
      · have := no fun a ha hn => by
          match a, hn with
          | .out (.msg (.n1 n)), _ => rw [e1] at ha; simp [metRead] at ha
        rw [e2]; exact this
      · rw [e2]; exact ⟨by simpa [RC.isMoving] using hm, by simp⟩

/-- **no report while everything begun is reported as finished.** -/
theorem no_report {cfg : Cfg F} {junk : Nat → Byte} {tr : List (Act F)} {p : Prog F (FW F)} (h : Trace cfg junk tr p) {pre post : List (Act F)} {n : Int}
    (e : tr = pre ++ .out (.msg (.n1 n)) :: post) : ¬ pre.foldl upd True := by
  intro hc
  exact (((inv cfg).sound (junk := junk) True (fun v u mem _ _ => ⟨rfl, fun _ => ⟨rfl, by simp [CoreInv.boot]⟩⟩) (fun _ _ => rfl) (fun _ => rfl) h (fun _ _ _ _ _ => trivial)).1 pre _ post e rfl hc).2 trivial

/-! ### no move is under way -/

/-- nothing that names a place was begun since the last report. -/
def updP (g : Prop) : Act F → Prop
  | .out (.ghost _ m) => g ∧ NoPlace m
  | .out (.msg (.n1 _)) => True
  | _ => g

theorem updP_other (g : Prop) {a : Act F} (h : ¬ Told.isGhost a) (h' : ¬ isN1 a) : updP g a = g := by
  match a, h, h' with
  | .servo _ _, _, _ | .micro _ _, _, _ | .now _, _, _ | .pin _ _, _, _ | .rx _, _, _ | .eeRead _, _, _ | .eeWrite _ _, _, _ => rfl
  | .out (.msg (.n1 _)), _, h' => exact absurd trivial h'
  | .out (.msg (.n0 _)), _, _ | .out (.msg (.free _)), _, _ | .out (.msg (.reply _ _)), _, _ => rfl
  | .out (.raw _), _, _ | .out (.pinMode _ _), _, _ | .out (.digitalWrite _ _), _, _ => rfl
  | .out (.ghost _ _), h, _ => exact absurd trivial h

theorem foldlP_other {tr : List (Act F)} (h : ∀ a ∈ tr, ¬ Told.isGhost a) (h' : ∀ a ∈ tr, ¬ isN1 a) (g : Prop) : tr.foldl updP g = g := by
  induction tr generalizing g with
  | nil => rfl
  | cons a tr ih => rw [List.foldl_cons, updP_other g (h a (by simp)) (h' a (by simp)), ih (fun b hb => h b (by simp [hb])) (fun b hb => h' b (by simp [hb]))]

theorem foldlP_true {tr : List (Act F)} (h : ∀ a ∈ tr, ¬ PlacesI a) {g : Prop} (hg : g) : tr.foldl updP g := by
  induction tr generalizing g with
  | nil => exact hg
  | cons a tr ih =>
    rw [List.foldl_cons]
    refine ih (fun b hb => h b (by simp [hb])) ?_
    have ha := h a (by simp)
    by_cases hn : isN1 a
    · match a, hn with
      | .out (.msg (.n1 _)), _ => exact trivial
    by_cases hgh : Told.isGhost a
    · match a, hgh, ha with
      | .out (.ghost s m), _, ha => exact ⟨hg, by_contra fun hc => ha ⟨s, m, rfl, hc⟩⟩
    · rw [updP_other _ hgh hn]; exact hg

theorem flagP {pre : List (Act F)} (h : Calm pre) : pre.foldl updP True := by
  rcases h with h | ⟨p, n, q, rfl, h⟩
  · exact foldlP_true h trivial
  · rw [List.foldl_append, List.foldl_cons]
    exact foldlP_true h trivial

/-- no store into an arm servo while calm. -/
def monP : Mon F Prop where
  upd := updP
  ok g a := g → quiet a

theorem invP (cfg : Cfg F) : CoreInv cfg (monP (F := F)) (fun g c => g → c.rc.state = .idle) (fun g c => g → c.rc.state = .idle) where
  flt _ := trivial
  weak _ _ h := h
  disp g c a h ha := by
    obtain ⟨h1, h2, h3⟩ := disp_not ha
    exact ⟨fun _ => h3, fun e => h (by simpa only [monP, updP_other g h1 (isN1_reports h2)] using e)⟩
  dispJ g c a h ha := by
    obtain ⟨h1, h2, h3⟩ := disp_not ha
    exact ⟨fun _ => h3, fun e => h (by simpa only [monP, updP_other g h1 (isN1_reports h2)] using e)⟩
  rc g c h := by
    by_cases hs : c.rc.state = .idle
    · have : RC.process cfg.toRCfg c.rc = .ret c.rc := by simp [RC.process, hs]
      rw [this]
      exact h
    · refine wp_exec_intro (E := fun _ => True) (fun _ => trivial) (fun _ _ _ => trivial) ?_ ?_
      · intro tr a q he _ hg
        have hk := (only_exec he (RC.process_only cfg.toRCfg c.rc)).1
        simp only [monP] at hg
        rw [foldlP_other (fun a ha => (rc_not (hk a (by simp [ha]))).1) (fun a ha => isN1_reports (rc_not (hk a (by simp [ha]))).2)] at hg
        exact absurd (h hg) hs
      · intro tr r he _ hg
        have hk := (only_exec he (RC.process_only cfg.toRCfg c.rc)).1
        simp only [monP] at hg
        rw [foldlP_other (fun a ha => (rc_not (hk a ha)).1) (fun a ha => isN1_reports (rc_not (hk a ha)).2)] at hg
        exact absurd (h hg) hs
  parse g c x src h := by
    refine ⟨fun _ => trivial, ?_⟩
    refine wp_exec_intro (E := fun _ => True) (fun _ => trivial) (fun _ _ _ => trivial) ?_ ?_
    · intro tr a q he _ _
      exact (mril_not ((only_exec he (parse_only cfg c x)).1 a (by simp))).2.2
    · intro tr c' he _ hg
      have hk := (only_exec he (parse_only cfg c x)).1
      simp only [monP] at hg
      rw [foldlP_other (fun a ha => (mril_not (hk a ha)).1) (fun a ha => isN1_reports (mril_not (hk a ha)).2.1)] at hg
      rw [(only_exec he (Asd.parse_state cfg c hg.2)).2]
      split at h
      · exact h hg.1
      · exact h.1 hg.1
  check g c h := by
    refine wp_exec_intro (E := fun _ => True) (fun _ => trivial) (fun _ _ _ => trivial) ?_ ?_
    · intro tr a q he _ hg
      have hk := (only_exec he (mrilProcess_only c)).1
      exact (check_not (hk a (by simp))).2
    · intro tr c' he _ hg
      have hk := (only_exec he (mrilProcess_only c))
      have hrc : c'.rc = c.rc := hk.2.1
      rw [hrc]
      have no : (∀ a ∈ tr, ¬ isN1 a) → c.rc.state = .idle := fun hn => by
        simp only [monP] at hg
        rw [foldlP_other (fun a ha => (check_not (hk.1 a ha)).1) hn] at hg
        exact h hg
      rcases process_spec _ _ _ he with ⟨_, _, _, _, e1, e2⟩ | ⟨_, e1, e2⟩ | ⟨hm, t, ⟨_, e1, e2⟩ | ⟨_, _, e1, e2⟩ | ⟨_, hpos, e1, e2⟩⟩
      · exact no fun a ha hn => by
          match a, hn with
          | .out (.msg (.n1 n)), _ => rw [e1] at ha; simp [metRead, unmetRead] at ha
      · exact no fun a ha hn => by
          match a, hn with
          | .out (.msg (.n1 n)), _ => rw [e1] at ha; simp [metRead] at ha
      · exact no fun a ha hn => by
          match a, hn with
          | .out (.msg (.n1 n)), _ => rw [e1] at ha; simp [metRead] at ha
      · exact no fun a ha hn => by
          match a, hn with
          | .out (.msg (.n1 n)), _ => rw [e1] at ha; simp [metRead] at ha
      · simpa [RC.isMoving] using hm

/-- **no store into an arm servo while no move is under way.** -/
theorem no_store {cfg : Cfg F} {junk : Nat → Byte} {tr : List (Act F)} {p : Prog F (FW F)} (h : Trace cfg junk tr p) {pre post : List (Act F)} {i : Fin 6} {m : Servo.Micro F}
    (e : tr = pre ++ .micro (armServo i) m :: post) : ¬ Calm pre := by
  intro hc
  have := ((invP cfg).sound (junk := junk) True (fun v u mem _ _ _ => rfl) (fun _ _ => rfl) (fun _ => rfl) h (fun _ _ _ _ _ => trivial)).1 pre _ post e rfl (flagP hc)
  simp only [quiet, armServo] at this
  omega

end Mrc.Calm

namespace Mrc
open Mrc.Spec Mrc.Prog Mrc.Props
variable {F : Type} [FloatOps F] {cfg : Cfg F} {junk : Nat → Byte}

theorem Trace.take {tr : List (Act F)} {p : Prog F (FW F)} (h : Trace cfg junk tr p) {pre post : List (Act F)} (e : tr = pre ++ post) : ∃ p', Trace cfg junk pre p' := by
  induction h generalizing post with
  | init => obtain ⟨rfl, rfl⟩ := List.append_eq_nil_iff.1 e.symm; exact ⟨_, .init⟩
  | next _ ih => exact ih e
  | @step tr p a q h1 h2 ih =>
    rcases List.eq_nil_or_concat post with rfl | ⟨post, b, rfl⟩
    · rw [List.append_nil] at e; subst e; exact ⟨_, .step h1 h2⟩
    · rw [List.concat_eq_append, ← List.append_assoc] at e
      exact ih (List.append_inj' e rfl).1

/-- **whenever no move is under way, every servo of the arm was seen at its target after the last store into it**, if immediate instructions that name a place begin only then. -/
theorem Calm.arrived {tr : List (Act F)} {p : Prog F (FW F)} (h : Trace cfg junk tr p) (hi : ∀ p1 m p2, tr = p1 ++ .out (.ghost .immediate m) :: p2 → ¬ NoPlace m → Calm p1)
    {pre post : List (Act F)} (e : tr = pre ++ post) (hc : Calm pre) : Spec.Arrived pre := by
  generalize hn : pre.length = n
  induction n using Nat.strong_induction_on generalizing pre post with
  | _ n ih =>
    have hp := h.take e
    obtain ⟨p', hp⟩ := hp
    rcases hc with hc | ⟨q1, k, q2, rfl, hc⟩
    · intro i p1 m p2 e'
      refine absurd (.inl fun a ha => hc a (by rw [e']; simp [ha])) (Calm.no_store hp e')
    · -- until the report
      have h1 : SeenArrived q1 := by
        obtain ⟨p2, hp2⟩ := hp.take (pre := q1 ++ [.out (.msg (.n1 k))]) (post := q2) (by simp)
        refine C76_arrived_partial hp2 (fun x m y e2 hnp => ?_) (.inl ⟨k, rfl⟩) (post := []) rfl
        have e3 : tr = x ++ .out (.ghost .immediate m) :: (y ++ (q2 ++ post)) := by
          rw [e]
          calc _ = (q1 ++ [.out (.msg (.n1 k))]) ++ (q2 ++ post) := by simp
            _ = _ := by rw [e2]; simp
        refine ih x.length ?_ (post := .out (.ghost .immediate m) :: (y ++ (q2 ++ post))) e3 (hi _ _ _ e3 hnp) rfl
        have := congrArg List.length e2
        simp only [List.length_append, List.length_cons, List.length_nil] at this hn
        omega
      intro i p1 m p2 e'
      rcases List.append_eq_append_iff.1 e' with ⟨a, e1, e2⟩ | ⟨b, e1, e2⟩
      · -- the store would come after the report
        cases a with
        | nil =>
          rw [List.nil_append] at e2; cases e2
        | cons y a =>
          rw [List.cons_append] at e2
          injection e2 with e2 e3
          subst e2
          refine absurd (.inr ⟨q1, k, a, e1, fun x hx => hc x (by rw [e3]; simp [hx])⟩) (Calm.no_store hp e')
      · cases b with
        | nil => rw [List.nil_append] at e2; cases e2
        | cons y b =>
          rw [List.cons_append] at e2
          injection e2 with e2 e3
          subst e2
          obtain ⟨s, hs, ht⟩ := h1 i p1 m b e1
          exact ⟨s, by rw [e3]; simp [hs], ht⟩

theorem Calm.immediates {w0 : World F} {σ : ℕ → Sys F} {ev : ℕ → Ev F} (h : Endless cfg w0 junk σ ev) (hs : CalmStarts ev) : CalmImmediates ev := by
  intro k m e hm
  refine Calm.arrived (h.run k).trace (pre := acts (sofar ev k)) (post := []) ?_ (by simp) (hs k m e fun ha => hm (Asd.NoPlace.of_aside ha))
  intro p1 m' p2 e' hm'
  rw [Rest.sofar_span] at e'
  obtain ⟨r, r1, r2, r3, r4⟩ := Rest.span_at e'
  have : Calm (acts (sofar ev r)) := hs r m' r3 fun ha => hm' (Asd.NoPlace.of_aside ha)
  have e2 := Rest.span_split (a := 0) (k := k) (Nat.zero_le _) (by omega) r3
  rw [e', r4] at e2
  have e3 := List.append_inj_left' e2 rfl
  rw [Rest.sofar_span] at this
  rw [e3]; exact this


section
variable {w0 : World F} {σ : ℕ → Sys F} {ev : ℕ → Ev F}

/-- when the last report was, if everything begun is reported. -/
theorem Calm.done_last {k : ℕ} (hc : AllDoneAt ev k) : (∀ j, j < k → ¬ Orders ev j) ∨ ∃ r n, r < k ∧ ev r = .act (.out (.msg (.n1 n))) ∧ ∀ j, r < j → j < k → ¬ Orders ev j := by
  rcases hc with hc | ⟨p, n, q, e, hc⟩
  · exact .inl fun j h1 ⟨src, m, e, ho⟩ => hc _ (by rw [Rest.sofar_span]; exact acts_mem.2 (mem_span.2 ⟨j, by omega, by omega, e⟩)) ⟨src, m, rfl, ho⟩
  · rw [Rest.sofar_span] at e
    obtain ⟨r, r1, r2, r3, r4⟩ := Rest.span_at e
    refine .inr ⟨r, n, by omega, r3, fun j g1 g2 ⟨src, m, ej, ho⟩ => hc _ ?_ ⟨src, m, rfl, ho⟩⟩
    rw [← r4]
    exact acts_mem.2 (mem_span.2 ⟨j, by omega, by omega, ej⟩)

/-- when the last report was. -/
theorem Calm.last {k : ℕ} (hc : CalmAt ev k) : (∀ j, j < k → ¬ Places ev j) ∨ ∃ r n, r < k ∧ ev r = .act (.out (.msg (.n1 n))) ∧ ∀ j, r < j → j < k → ¬ Places ev j := by
  rcases hc with hc | ⟨p, n, q, e, hc⟩
  · exact .inl fun j h1 ⟨src, m, e, hm⟩ => hc _ (by rw [Rest.sofar_span]; exact acts_mem.2 (mem_span.2 ⟨j, by omega, by omega, e⟩)) ⟨src, m, rfl, hm⟩
  · rw [Rest.sofar_span] at e
    obtain ⟨r, r1, r2, r3, r4⟩ := Rest.span_at e
    refine .inr ⟨r, n, by omega, r3, fun j g1 g2 ⟨src, m, ej, hm⟩ => hc _ ?_ ⟨src, m, rfl, hm⟩⟩
    rw [← r4]
    exact acts_mem.2 (mem_span.2 ⟨j, by omega, by omega, ej⟩)

theorem Calm.of_last {k : ℕ} (h : (∀ j, j < k → ¬ Places ev j) ∨ ∃ r n, r < k ∧ ev r = .act (.out (.msg (.n1 n))) ∧ ∀ j, r < j → j < k → ¬ Places ev j) : CalmAt ev k := by
  rcases h with h | ⟨r, n, h1, h2, h3⟩
  · refine .inl ?_
    rintro a ha ⟨src, m, rfl, hm⟩
    rw [Rest.sofar_span] at ha
    obtain ⟨j, g1, g2, e⟩ := mem_span.1 (acts_mem.1 ha)
    exact h j (by omega) ⟨src, m, e, hm⟩
  · refine .inr ⟨_, n, _, by rw [Rest.sofar_span, Rest.span_split (a := 0) (k := k) (Nat.zero_le _) (by omega) h2], ?_⟩
    rintro a ha ⟨src, m, rfl, hm⟩
    obtain ⟨j, g1, g2, e⟩ := mem_span.1 (acts_mem.1 ha)
    exact h3 j (by omega) (by omega) ⟨src, m, e, hm⟩

/-- calm since the last report, hence no store. -/
theorem Calm.untouched (h : Endless cfg w0 junk σ ev) {a k : ℕ} (hc : ∀ j, a ≤ j → j < k → CalmAt ev j) (i : Fin 6) : Untouched ev (armServo i) a k := by
  intro j g1 g2 m e
  refine Calm.no_store (h.run (j + 1)).trace (pre := acts (sofar ev j)) (post := []) (i := i) (m := m) ?_ (hc j g1 g2)
  rw [show sofar ev (j + 1) = sofar ev j ++ [ev j] by simp [sofar, List.range_succ], acts_append, e]; rfl

/-- **the arm is at rest whenever no move is under way.** -/
theorem Calm.rest (h : Endless cfg w0 junk σ ev) {P : Servo F → Prop} (ht : ∀ s, P s → P (s.tick 20)) (hat : ∀ s, P s → s.atTarget = true → (s.tick 20).atTarget = true)
    {Q : Servo F → Servo F → F → F → Prop}
    (hcmd : ∀ i x y v t n1 n2 n3 n4 n5 n6, Q x y v t → Rest.CommandAt ev i x y v t n1 n2 n3 n4 n5 n6 → P ((σ (n6 + 1)).w.servos (armServo i)))
    (hpass : ∀ a b s', ev a = .next → a < b → Between σ b s' → (∀ j, a < j → j < b → ev j ≠ .next) → Rest.Blk Q (acts (span ev (a + 1) (b - (a + 1)))))
    (h0 : ∀ i : Fin 6, P (w0.servos (armServo i))) (h1 : ∀ i : Fin 6, (w0.servos (armServo i)).atTarget = true) (hi : CalmImmediates ev) {k : ℕ} (hc : CalmAt ev k) (i : Fin 6) :
    P ((σ k).w.servos (armServo i)) ∧ ((σ k).w.servos (armServo i)).atTarget = true := by
  rcases Calm.last hc with hc | ⟨r, n, g1, g2, g3⟩
  · refine Rest.stays_there h ht hat hcmd hpass h0 (Nat.zero_le k) (Calm.untouched h (fun j _ g2 => Calm.of_last (.inl fun j' g => hc j' (by omega))) i) ?_ ?_
    · rw [h.boot]; exact h0 i
    · rw [h.boot]; exact h1 i
  · have hr := Rest.rest_report h ht hat hcmd hpass h0 h1 hi (k := r) (.inl ⟨n, g2⟩) i
    refine Rest.stays_there h ht hat hcmd hpass h0 (by omega) ?_ hr.1 hr.2
    intro j k1 k2
    rcases Nat.eq_or_lt_of_le k1 with rfl | k1
    · intro m e; rw [g2] at e; cases e
    · exact Calm.untouched h (a := r + 1) (k := k) (fun j' l1 l2 => Calm.of_last (.inr ⟨r, n, by omega, g2, fun j'' m1 m2 => g3 j'' m1 (by omega)⟩)) i j k1 k2
end

end Mrc
