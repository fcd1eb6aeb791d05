import Verif.Props.Watch
import Verif.Props.ObligeKit
import Verif.Props.Joint32Demo
/-
C134: a host that works off a program with the kit and watches it.
-/
set_option maxRecDepth 100000
set_option linter.unusedSectionVars false
namespace Mrc.Props
open Mrc Mrc.Prog Mrc.Spec Mrc.Demo Mrc.Rest

section
variable {F : Type} [FloatOps F] {ev : ℕ → Ev F}

theorem saidBy_heard (tr : List (Act F)) : saidBy (heard tr) = words tr := by
  rw [saidBy, heard, words, List.filterMap_filterMap]
  refine List.filterMap_congr fun a _ => ?_
  match a with
  | .out (.ghost _ m) => rfl
  | .out (.msg (.n0 _)) | .out (.msg (.n1 _)) | .out (.msg (.reply _ _)) | .out (.msg (.free _)) => rfl
  | .out (.raw _) | .out (.pinMode _ _) | .out (.digitalWrite _ _) => rfl
  | .servo .. | .micro .. | .now _ | .pin .. | .rx _ | .eeRead _ | .eeWrite .. => rfl

theorem begunNow_heard (tr : List (Act F)) : begunNow (heard tr) = nowStarts tr := by
  rw [begunNow, heard, nowStarts, List.filterMap_filterMap]
  refine List.filterMap_congr fun a _ => ?_
  match a with
  | .out (.ghost .immediate m) | .out (.ghost .queue m) | .out (.ghost .eeprom m) => rfl
  | .out (.msg (.n0 _)) | .out (.msg (.n1 _)) | .out (.msg (.reply _ _)) | .out (.msg (.free _)) => rfl
  | .out (.raw _) | .out (.pinMode _ _) | .out (.digitalWrite _ _) => rfl
  | .servo .. | .micro .. | .now _ | .pin .. | .rx _ | .eeRead _ | .eeWrite .. => rfl

theorem begunLater_heard (tr : List (Act F)) (hs : ∀ m, .out (.ghost .eeprom m) ∉ tr) : begunLater (heard tr) = tr.filterMap fromQueue := by
  rw [begunLater, heard, List.filterMap_filterMap]
  refine List.filterMap_congr fun a ha => ?_
  match a with
  | .out (.ghost .eeprom m) => exact absurd ha (hs m)
  | .out (.ghost .immediate m) | .out (.ghost .queue m) => rfl
  | .out (.msg (.n0 _)) | .out (.msg (.n1 _)) | .out (.msg (.reply _ _)) | .out (.msg (.free _)) => rfl
  | .out (.raw _) | .out (.pinMode _ _) | .out (.digitalWrite _ _) => rfl
  | .servo .. | .micro .. | .now _ | .pin .. | .rx _ | .eeRead _ | .eeWrite .. => rfl

/-- a history whose instructions are texts of commands can be read as a conversation. -/
theorem turns_of (tr : List (Act F)) (h : ∀ src m, .out (.ghost src m) ∈ tr → ∃ cs, Simple cs ∧ text cs = m) : ∃ ts : List Turn, (∀ t ∈ ts, t.Plain) ∧ ts.map Turn.heard = heard tr := by
  induction tr using List.reverseRecOn with
  | nil => exact ⟨[], by simp, rfl⟩
  | append_singleton tr a ih =>
    obtain ⟨ts, h1, h2⟩ := ih fun src m hm => h src m (List.mem_append_left _ hm)
    rw [Dlg.heard_snoc]
    cases hx : Dlg.heardOf a with
    | none => exact ⟨ts, h1, by simpa using h2⟩
    | some x =>
      obtain ⟨t, ht, hp⟩ : ∃ t : Turn, t.heard = x ∧ t.Plain := by
        match x with
        | .said w => exact ⟨.said w, rfl, trivial⟩
        | .begun nw m =>
          have : ∃ src, a = .out (.ghost src m) ∧ (src == .immediate) = nw := by
            unfold Dlg.heardOf at hx
            split at hx
            · cases hx; exact ⟨_, rfl, rfl⟩
            · cases hw : wordOf a <;> rw [hw] at hx <;> cases hx
          obtain ⟨src, rfl, -⟩ := this
          obtain ⟨cs, h3, h4⟩ := h src m (by simp)
          exact ⟨.begun nw cs, by rw [Turn.heard, h4], h3⟩
      refine ⟨ts ++ [t], fun y hy => ?_, by rw [List.map_append, h2, ← ht]; rfl⟩
      rcases List.mem_append.1 hy with hy | hy
      · exact h1 y hy
      · rw [List.mem_singleton.1 hy]; exact hp

theorem acts_prefix {n m : ℕ} (h : n ≤ m) : acts (sofar ev n) <+: acts (sofar ev m) := by
  induction m, h using Nat.le_induction with
  | base => exact List.prefix_refl _
  | succ k _ ih => rw [sofar_succ, acts_append]; exact ih.trans (List.prefix_append _ _)
end

theorem asks_demands {cs : List Cmd} (h : ∀ c ∈ cs, OnlyAsks c) : demands cs = false := by
  unfold demands
  split
  · rename_i c hc
    rcases h c (List.mem_of_getLast? hc) with ⟨h1, h2⟩ | ⟨h1, h2⟩ | h1
    · have : c.letter ≠ 78 := by intro e; rw [e] at h1; revert h1; decide
      simp [poses, hc, h2, this]
    · simp [poses, hc, h1, h2]
    · simp [h1]
  · rfl

/-- what C134 says: there is a moment after which the device says and begins nothing more, and by then: it has begun exactly the instructions `ps` and the questions `qs`, each in the order sent; for every N in
them it has said one N0; for every number it has said as many N1 as there are orders with this number; every question was answered, with its number, once. -/
def AllHeard {F : Type} (ev : ℕ → Ev F) (ps qs : List (List Cmd)) : Prop :=
  ∃ N, (∀ n, N ≤ n → heard (acts (sofar ev n)) = heard (acts (sofar ev N))) ∧
    begunLater (heard (acts (sofar ev N))) = ps.map text ∧ begunNow (heard (acts (sofar ev N))) = qs.map text ∧
    (∀ n, (words (acts (sofar ev N))).count (.begun n) = ((ps ++ qs).flatMap begins).count (.begun n)) ∧
    (∀ n, 0 < n → (words (acts (sofar ev N))).count (.finished n) = ps.countP (fun cs => demands cs && numberOf cs == n)) ∧
    ∀ num, (words (acts (sofar ev N))).countP (answersTo num) = (ps ++ qs).countP (fun cs => poses cs && numberOf? cs == num)

section
variable {F : Type} [FloatOps F] {cfg : Cfg F} {w0 : World F} {junk : Nat → Byte} {σ : ℕ → Sys F} {ev : ℕ → Ev F} (h : Endless cfg w0 junk σ ev) (h0 : w0.ee 0 = 0)
  (hh : ∀ n, CountingHost w0.rxq (sofar ev n)) (hq : ∀ n, QueueOnly (sent w0.rxq (sofar ev n)))
include h h0 hh hq

/-- everything is executed and reported, hence everything is heard. -/
theorem watched_of (hex : ∀ n, ∃ m, n ≤ m ∧ puts (sent w0.rxq (sofar ev n)) <+: (view ev m).started)
    (hrep : ∀ k m n, ev k = .act (.out (.ghost .queue m)) → Numbered m n → ∃ j, k < j ∧ ev j = .act (.out (.msg (.n1 n))))
    {t : ℕ} {ps qs : List (List Cmd)} (hp : ∀ n, t ≤ n → puts (sent w0.rxq (sofar ev n)) = ps.map text) (hi : ∀ n, t ≤ n → nows (sent w0.rxq (sofar ev n)) = qs.map text)
    (hps : ∀ x ∈ ps, Simple x ∧ OneNumber x) (hqs : ∀ x ∈ qs, Simple x ∧ ∀ c ∈ x, OnlyAsks c) : AllHeard ev ps qs := by
  have hstore : ∀ k m, .out (.ghost .eeprom m) ∉ acts (sofar ev k) := fun k => Turns.no_storage h h0 (fun n p hp m e => by
    rcases hq n p hp with e' | e' | e' | ⟨m', e'⟩ | ⟨m', e', -⟩ <;> rw [e'] at e <;> cases e) k
  have hno : ∀ n, ∀ p ∈ decode (sent w0.rxq (sofar ev n)), frame p ≠ .clear := fun n p hp => by
    rcases hq n p hp with e | e | e | ⟨m, e⟩ | ⟨m, e, -⟩ <;> rw [e] <;> simp
  -- upper bounds
  have upQ : ∀ n, t ≤ n → (view ev n).started <+: ps.map text := fun n hn => by rw [← hp n hn]; exact C89_started (h.run n) (hh n) (hno n)
  have upN : ∀ n, t ≤ n → nowStarts (acts (sofar ev n)) <+: qs.map text := fun n hn => by
    refine (C91_prefix (h.run n).trace).trans ?_
    rw [← hi n hn, sent, (h.run n).fifo, nows, nows, decode_append, List.filterMap_append]
    exact List.prefix_append _ _
  -- every history can be read as a conversation
  have hts : ∀ n, ∃ ts : List Turn, (∀ t ∈ ts, t.Plain) ∧ ts.map Turn.heard = heard (acts (sofar ev n)) := fun n => by
    refine turns_of _ fun src m hm => ?_
    have hm' : .out (.ghost src m) ∈ acts (sofar ev (max n t)) := (acts_prefix (Nat.le_max_left n t)).subset hm
    cases src with
    | eeprom => exact absurd hm (hstore n m)
    | queue =>
      have : m ∈ (view ev (max n t)).started := by rw [view_started]; exact List.mem_filterMap.2 ⟨_, hm', rfl⟩
      obtain ⟨cs, h1, h2⟩ := List.mem_map.1 ((upQ _ (Nat.le_max_right n t)).subset this)
      exact ⟨cs, (hps cs h1).1, h2⟩
    | immediate =>
      have : m ∈ nowStarts (acts (sofar ev (max n t))) := List.mem_filterMap.2 ⟨_, hm', rfl⟩
      obtain ⟨cs, h1, h2⟩ := List.mem_map.1 ((upN _ (Nat.le_max_right n t)).subset this)
      exact ⟨cs, (hqs cs h1).1, h2⟩
  have plainL : ∀ {ts : List Turn}, (∀ t ∈ ts, t.Plain) → ∀ cs ∈ later ts, Simple cs := fun {ts} hP cs hcs => by
    rw [later, List.mem_filterMap] at hcs
    obtain ⟨x, hx, e⟩ := hcs
    split at e
    · cases e; exact hP _ hx
    · cases e
  have plainN : ∀ {ts : List Turn}, (∀ t ∈ ts, t.Plain) → ∀ cs ∈ atOnce ts, Simple cs := fun {ts} hP cs hcs => by
    rw [atOnce, List.mem_filterMap] at hcs
    obtain ⟨x, hx, e⟩ := hcs
    split at e
    · cases e; exact hP _ hx
    · cases e
  -- everything is begun
  obtain ⟨m1, hm1, hm2⟩ := hex t
  rw [hp t le_rfl] at hm2
  obtain ⟨d1, -, hd1⟩ := C130_endless h t
  rw [hi t le_rfl] at hd1
  have allQ : ∀ n, m1 ≤ n → (view ev n).started = ps.map text := fun n hn => by
    refine (upQ n (by omega)).eq_of_length_le ?_
    have h1 : (view ev m1).started.length ≤ (view ev n).started.length := by
      rw [view_started, view_started]; exact ((acts_prefix hn).filterMap _).length_le
    exact le_trans hm2.length_le h1
  have allN : ∀ n, t + d1 ≤ n → nowStarts (acts (sofar ev n)) = qs.map text := fun n hn => by
    refine (upN n (by omega)).eq_of_length_le ?_
    have h1 : (nowStarts (acts (sofar ev (t + d1)))).length ≤ (nowStarts (acts (sofar ev n))).length := ((acts_prefix hn).filterMap _).length_le
    exact le_trans hd1.length_le h1
  -- the questions
  have nowQ : ∀ {n} {ts : List Turn}, (∀ t ∈ ts, t.Plain) → ts.map Turn.heard = heard (acts (sofar ev n)) → ∀ cs ∈ atOnce ts, demands cs = false := fun {n ts} hP e cs hcs => by
    have h1 : text cs ∈ nowStarts (acts (sofar ev n)) := by rw [← begunNow_heard, ← e, atOnce_heard]; exact List.mem_map_of_mem hcs
    have h2 : text cs ∈ nowStarts (acts (sofar ev (max n t))) := ((acts_prefix (Nat.le_max_left n t)).filterMap _).subset h1
    obtain ⟨cs', h3, h4⟩ := List.mem_map.1 ((upN _ (Nat.le_max_right n t)).subset h2)
    have : cs' = cs := by
      have := Speech.map_text_inj (ps := [cs']) (ps' := [cs]) (by simpa using (hqs cs' h3).1) (by simpa using plainN hP cs hcs) (by simp [h4])
      simpa using this
    subst this
    exact asks_demands (hqs cs' h3).2
  -- finally nothing is due
  have hdue : ∃ M, ∀ n, M ≤ n → ∀ ts : List Turn, (∀ t ∈ ts, t.Plain) → ts.map Turn.heard = heard (acts (sofar ev n)) → ∀ d, dialogue ts = some d → d.due ≤ 0 := by
    rcases List.eq_nil_or_concat ps with rfl | ⟨ps', cs, rfl⟩
    · refine ⟨m1, fun n hn ts hP e d hd => ?_⟩
      have hl : later ts = [] := by
        have : (later ts).map text = [] := by rw [← later_heard, e, begunLater_heard _ (hstore n), ← view_started, allQ n hn]; rfl
        exact List.map_eq_nil_iff.1 this
      rcases (due_after (ts1 := []) (ts2 := ts) (d0 := {}) rfl hd hl (nowQ hP e)).1 with e | e <;> rw [e] <;> decide
    · rw [List.concat_eq_append] at *
      have hcs := hps cs (by simp)
      obtain ⟨k, hk1, hk, hkv⟩ := started_when (n := m1) (ps := ps'.map text) (m := text cs) (rest := []) (by rw [allQ m1 le_rfl]; simp)
      -- how the time after k looks
      have split : ∀ n, k + 1 ≤ n → m1 ≤ n → ∀ ts : List Turn, (∀ t ∈ ts, t.Plain) → ts.map Turn.heard = heard (acts (sofar ev n)) → ∀ d, dialogue ts = some d →
          ∃ ts1 ts2 d0, ts = (ts1 ++ [.begun false cs]) ++ ts2 ∧ dialogue (ts1 ++ [.begun false cs]) = some d0 ∧ (d0.due = if demands cs then numberOf cs else d0.due) ∧ (demands cs = false → d0.due ≤ 0) ∧
            later ts2 = [] ∧ ∃ rest, acts (sofar ev n) = acts (sofar ev (k + 1)) ++ rest ∧ saids ts2 = words rest := by
        intro n hn1 hn2 ts hP e d hd
        obtain ⟨rest, hrest⟩ := acts_prefix (ev := ev) hn1
        have e1 : heard (acts (sofar ev n)) = (heard (acts (sofar ev k)) ++ [.begun false (text cs)]) ++ heard rest := by
          rw [← hrest, heard, List.filterMap_append, sofar_succ, acts_append, List.filterMap_append, hk]; rfl
        rw [e1] at e
        obtain ⟨ta, ts2, rfl, e2, e3⟩ := List.map_eq_append_iff.1 e
        obtain ⟨ts1, tb, rfl, e4, e5⟩ := List.map_eq_append_iff.1 e2
        obtain ⟨x, rfl, e6⟩ := List.map_eq_singleton_iff.1 e5
        obtain rfl : x = .begun false cs := by
          match x, e6 with
          | .begun nw cs', e6 =>
            simp only [Turn.heard, Heard.begun.injEq] at e6
            obtain ⟨rfl, e6⟩ := e6
            have := Speech.map_text_inj (ps := [cs']) (ps' := [cs]) (by simpa using (show Simple cs' from hP (.begun false cs') (by simp))) (by simpa using hcs.1) (by simp [e6])
            simp at this; rw [this]
        obtain ⟨d0, hd0⟩ : ∃ d0, dialogue (ts1 ++ [.begun false cs]) = some d0 := by
          have hd' := hd
          rw [dialogue, List.foldlM_append] at hd'
          cases hx : dialogue (ts1 ++ [.begun false cs]) with
          | none => rw [dialogue] at hx; rw [hx] at hd'; cases hd'
          | some d0 => exact ⟨d0, rfl⟩
        obtain ⟨d00, -, hs⟩ := dialogue_last hd0
        obtain ⟨-, g1, -, g2⟩ := step_begun hs
        refine ⟨ts1, ts2, d0, rfl, hd0, ?_, fun hd => ?_, ?_, rest, hrest.symm, by rw [← saids_heard, e3, saidBy_heard]⟩
        · split
          · rename_i hd; rw [g2, if_pos hd]
          · rfl
        · rw [g2, hd]; simpa using g1
        · have h1 : (later (ts1 ++ [.begun false cs] ++ ts2)).map text = (ps' ++ [cs]).map text := by
            rw [← later_heard, e, ← e1, begunLater_heard _ (hstore n), ← view_started, allQ n hn2]
          have h2 : (later ts1).map text = ps'.map text := by
            rw [← later_heard, e4, begunLater_heard _ (hstore k), ← view_started, hkv]
          have h3 : (later (ts1 ++ [.begun false cs] ++ ts2)).map text = ((later ts1).map text ++ [text cs]) ++ (later ts2).map text := by simp [later]
          rw [h3, h2, List.map_append] at h1
          have : (later ts2).map text = [] := by simpa using h1
          exact List.map_eq_nil_iff.1 this
      by_cases hdem : demands cs = true ∧ 0 < numberOf cs
      · -- its N1 is said
        have hN : Numbered (text cs) (numberOf cs) := by
          obtain ⟨c, hc, -⟩ : ∃ c, cs.getLast? = some c ∧ True := by
            cases hl : cs.getLast? with
            | none => rw [demands, hl] at hdem; simp at hdem
            | some c => exact ⟨c, rfl, trivial⟩
          have h1 := hdem.1
          simp only [demands, hc, poses, Bool.and_eq_true, Bool.not_eq_true', decide_eq_true_eq, decide_eq_false_iff_not] at h1
          exact numbered_of hcs.1 hcs.2 hc h1.1 h1.2 hdem.2
        obtain ⟨j, hj1, hj2⟩ := hrep _ _ _ hk hN
        refine ⟨max m1 (j + 1), fun n hn ts hP e d hd => ?_⟩
        obtain ⟨ts1, ts2, d0, rfl, g1, g2, g3, g4, rest, g5, g6⟩ := split n (by omega) (by omega) ts hP e d hd
        have hq2 : ∀ c ∈ atOnce ts2, demands c = false := fun c hc => nowQ hP e c (by rw [atOnce, List.filterMap_append]; exact List.mem_append_right _ hc)
        have : .finished (numberOf cs) ∈ saids ts2 := by
          obtain ⟨y, hy⟩ := acts_prefix (ev := ev) (show k + 1 ≤ j by omega)
          obtain ⟨z, hz⟩ := acts_prefix (ev := ev) (show j + 1 ≤ n by omega)
          rw [sofar_succ, acts_append, hj2, ← hy] at hz
          have : rest = y ++ (acts [.act (.out (.msg (.n1 (numberOf cs))))] ++ z) := by
            rw [g5] at hz
            rw [List.append_assoc, List.append_assoc] at hz
            exact (List.append_cancel_left hz).symm
          rw [g6, this, words, List.filterMap_append, List.filterMap_append]
          refine List.mem_append_right _ (List.mem_append_left _ ?_)
          show _ ∈ [Word.finished (numberOf cs)]
          simp
        rw [(due_after g1 hd g4 hq2).2 _ this]; omega
      · refine ⟨max m1 (k + 1), fun n hn ts hP e d hd => ?_⟩
        obtain ⟨ts1, ts2, d0, rfl, g1, g2, g3, g4, rest, g5, g6⟩ := split n (by omega) (by omega) ts hP e d hd
        have hq2 : ∀ c ∈ atOnce ts2, demands c = false := fun c hc => nowQ hP e c (by rw [atOnce, List.filterMap_append]; exact List.mem_append_right _ hc)
        have h1 : d0.due ≤ 0 := by
          rcases Bool.eq_false_or_eq_true (demands cs) with hd | hd
          · rw [hd, if_pos rfl] at g2; rw [g2]
            by_contra hlt
            exact hdem ⟨hd, by omega⟩
          · exact g3 hd
        rcases (due_after g1 hd g4 hq2).1 with e | e <;> rw [e]
        · exact h1
        · omega
  obtain ⟨M, hM⟩ := hdue
  -- a moment between two passes
  obtain ⟨N, hN, hnext⟩ := h.loops (max M (max m1 (t + d1)))
  obtain ⟨s, hs⟩ : ∃ s, (σ N).p = .ret s := by
    have := h.step N
    rw [hnext] at this
    generalize σ N = x, σ (N + 1) = y at this
    cases this with
    | loop => exact ⟨_, rfl⟩
  have htr : Trace cfg junk (acts (sofar ev N)) (.ret s) := by have := (h.run N).trace; rwa [hs] at this
  obtain ⟨ts, hP, e⟩ := hts N
  obtain ⟨d, hd, hleft⟩ := C133_pass htr hP e
  have hdue := hM N (by omega) ts hP e d hd
  have hlater : later ts = ps := Speech.map_text_inj (plainL hP) (fun x hx => (hps x hx).1) (by rw [← later_heard, e, begunLater_heard _ (hstore N), ← view_started, allQ N (by omega)])
  have honce : atOnce ts = qs := Speech.map_text_inj (plainN hP) (fun x hx => (hqs x hx).1) (by rw [← atOnce_heard, e, begunNow_heard, allN N (by omega)])
  have hsaid : saids ts = words (acts (sofar ev N)) := by rw [← saids_heard, e, saidBy_heard]
  refine ⟨N, fun n hn => ?_, by rw [← e, later_heard, hlater], by rw [← e, atOnce_heard, honce], fun n => ?_, fun n hn => ?_, fun num => ?_⟩
  · -- nothing more
    induction n, hn using Nat.le_induction with
    | base => rfl
    | succ n hn ih =>
      obtain ⟨ts', hP', e'⟩ := hts (n + 1)
      obtain ⟨d', hd'⟩ := C133_rules (h.run (n + 1)).trace hP' e'
      have e2 : heard (acts (sofar ev (n + 1))) = heard (acts (sofar ev n)) ++ heard (acts [ev n]) := by
        rw [sofar_succ, acts_append, heard, List.filterMap_append]; rfl
      rw [e2, ih] at e' ⊢
      obtain ⟨ta, tb, rfl, e3, e4⟩ := List.map_eq_append_iff.1 e'
      have hsame : ∀ (tc : List Turn), (∀ t ∈ tc, t.Plain) → tc.map Turn.heard = heard (acts (sofar ev N)) → ∃ dc, dialogue tc = some dc ∧ dc.left = [] ∧ dc.due ≤ 0 := fun tc hc1 hc2 => by
        obtain ⟨dc, hc3, hc4⟩ := C133_pass htr hc1 hc2
        exact ⟨dc, hc3, hc4, hM N (by omega) tc hc1 hc2 dc hc3⟩
      obtain ⟨da, a1, a2, a3⟩ := hsame ta (fun t ht => hP' t (List.mem_append_left _ ht)) e3
      rw [← e4]
      cases tb with
      | nil => simp
      | cons x tb =>
        exfalso
        have hx : ∃ dx, da.step x = some dx := by
          rw [dialogue, List.foldlM_append, ← dialogue, a1] at hd'
          simp only [Option.bind_eq_bind, Option.bind_some, List.foldlM_cons] at hd'
          cases hx : da.step x with
          | none => rw [hx] at hd'; cases hd'
          | some dx => exact ⟨dx, rfl⟩
        obtain ⟨dx, hx⟩ := hx
        have hlen : ∀ f : Heard → Option (List Byte), (heard (acts (sofar ev (n + 1)))).filterMap f = (heard (acts (sofar ev N))).filterMap f → f x.heard = none := fun f hf => by
          rw [e2, ih, List.filterMap_append, ← e4, List.map_cons, List.filterMap_cons] at hf
          have := List.append_right_eq_self.1 hf
          split at this
          · assumption
          · cases this
        match x with
        | .said w =>
          rcases step_said hx with ⟨rest, b1, -⟩ | ⟨-, -, b1, -⟩
          · rw [a2] at b1; cases b1
          · omega
        | .begun true cs =>
          have := hlen (fun | .begun true m => some m | _ => none) (by
            show begunNow _ = begunNow _
            rw [begunNow_heard, begunNow_heard, allN _ (by omega), allN _ (by omega)])
          cases this
        | .begun false cs =>
          have := hlen (fun | .begun false m => some m | _ => none) (by
            show begunLater _ = begunLater _
            rw [begunLater_heard _ (hstore _), begunLater_heard _ (hstore _), ← view_started, ← view_started, allQ _ (by omega), allQ _ (by omega)])
          cases this
  · have := begins_exact hd n
    rw [hleft, hsaid, hlater, honce] at this
    simpa using this
  · have := reports_exact hd (nowQ hP e) n hn
    rw [hsaid, hlater, if_neg (by omega)] at this
    simpa using this
  · have := answers_exact hd num
    rw [hleft, hsaid, hlater, honce] at this
    simpa using this
/-- **C134**, for every robot and arithmetic: a counting host sends the instructions `ps` for the queue and, at any time in between, the questions `qs` for immediate execution, and then nothing more. Servos left
alone arrive, and again and again there is a pass in which everything waited for is there. -/
theorem C134_watched (hP : Parts F) (hf : Fair σ ev) (hs : ∀ n s, Between σ n s → ∀ i, Settles ((σ n).w.servos (armServo i)))
    {t : ℕ} {ps qs : List (List Cmd)} (hp : ∀ n, t ≤ n → puts (sent w0.rxq (sofar ev n)) = ps.map text) (hi : ∀ n, t ≤ n → nows (sent w0.rxq (sofar ev n)) = qs.map text)
    (hps : ∀ x ∈ ps, Simple x ∧ OneNumber x) (hqs : ∀ x ∈ qs, Simple x ∧ ∀ c ∈ x, OnlyAsks c) : AllHeard ev ps qs :=
  watched_of h h0 hh hq (C90_executed h hP hf hh hq hs) (fun k m n hk hm => by
    obtain ⟨j, h1, h2, -⟩ := C80_reported h hP hk (by simp) hm (fun i _ => queueOnly_noImmediate h hq i (Nat.zero_le _)) hf fun n s _ hb i => hs n s hb i
    exact ⟨j, h1, h2⟩) hp hi hps hqs
end

section
variable {w0 : World XR} (hw : w0.servos = Kit.servos) {junk : Nat → Byte} {σ : ℕ → Sys XR} {ev : ℕ → Ev XR} (h : Endless Kit.cfg w0 junk σ ev) (h0 : w0.ee 0 = 0)
  (hc : ∀ n, BrisklySent (w0.rxq ++ arrivals (sofar ev n))) (hu : Undivided ev) (hh : ∀ n, CountingHost w0.rxq (sofar ev n)) (hq : ∀ n, QueueOnly (sent w0.rxq (sofar ev n)))
include hw h h0 hc hu hh hq

/-- **C134** for the kit, with a host that never makes it wait. -/
theorem C134_kit (hnw : ∀ n, NeverWaits (w0.rxq ++ arrivals (sofar ev n))) (hclk : ClockRuns σ ev)
    {t : ℕ} {ps qs : List (List Cmd)} (hp : ∀ n, t ≤ n → puts (sent w0.rxq (sofar ev n)) = ps.map text) (hi : ∀ n, t ≤ n → nows (sent w0.rxq (sofar ev n)) = qs.map text)
    (hps : ∀ x ∈ ps, Simple x ∧ OneNumber x) (hqs : ∀ x ∈ qs, Simple x ∧ ∀ c ∈ x, OnlyAsks c) : AllHeard ev ps qs :=
  C134_watched h h0 hh hq parts_XR (C106_ready h (quick_empty w0.ee h0) hnw hclk) (fun n s hb i => brisk_settles hw h (brisk_empty w0.ee h0) hc hu n s hb i) hp hi hps hqs

/-- **C134** for the kit, with a host whose instructions may wait for inputs and for times, and surroundings that oblige (C128). -/
theorem C134_waiting (hcl : ∀ n, ∀ m ∈ puts (sent w0.rxq (sofar ev n)), ClearWaits m) (ho : Obliging Kit.pinMap σ ev)
    {t : ℕ} {ps qs : List (List Cmd)} (hp : ∀ n, t ≤ n → puts (sent w0.rxq (sofar ev n)) = ps.map text) (hi : ∀ n, t ≤ n → nows (sent w0.rxq (sofar ev n)) = qs.map text)
    (hps : ∀ x ∈ ps, Simple x ∧ OneNumber x) (hqs : ∀ x ∈ qs, Simple x ∧ ∀ c ∈ x, OnlyAsks c) : AllHeard ev ps qs :=
  C134_watched h h0 hh hq parts_XR (obliging_fair (cfg := Kit.cfg) (by decide) h h0 hh hq hcl ho) (fun n s hb i => brisk_settles hw h (brisk_empty w0.ee h0) hc hu n s hb i) hp hi hps hqs
end

/-- nothing stored. -/
theorem stored_none (mem : Nat → Byte) (h : mem 0 = 0) : StoredProgram mem [] := by
  refine ⟨by simp, by decide, fun k b _ hk => ?_⟩
  cases k with
  | zero => simp at hk; rw [h, hk]
  | succ k => simp at hk

section
open Ang Brisk32 XR
variable [RX.Libm binary32] {cfg : Cfg F32} {w0 : World F32} {junk : Nat → Byte} {σ : ℕ → Sys F32} {ev : ℕ → Ev F32} (hk : KitAngles cfg) (hw : w0.servos = Kit.servos) (hrun : Endless cfg w0 junk σ ev)
  (hsq : SqrtNonneg binary32) (h0 : w0.ee 0 = 0) (hc : ∀ n, LegiblySent (w0.rxq ++ arrivals (sofar ev n)))
  (hj : ∀ n, ∀ p ∈ decode (w0.rxq ++ arrivals (sofar ev n)), JointFrame (frame p)) (hu : Undivided32 ev)
  (hnw : ∀ n, NeverWaits (w0.rxq ++ arrivals (sofar ev n))) (hclk : ClockRuns σ ev)
  (hh : ∀ n, CountingHost w0.rxq (sofar ev n)) (hq : ∀ n, QueueOnly (sent w0.rxq (sofar ev n)))

include hk hw hrun hsq h0 hc hj hu hnw hclk hh hq in
/-- **C134** in single precision (C107): the kit, with a host that moves it by joint angles. -/
theorem C134_single {t : ℕ} {ps qs : List (List Cmd)} (hp : ∀ n, t ≤ n → puts (sent w0.rxq (sofar ev n)) = ps.map text) (hi : ∀ n, t ≤ n → nows (sent w0.rxq (sofar ev n)) = qs.map text)
    (hps : ∀ x ∈ ps, Simple x ∧ OneNumber x) (hqs : ∀ x ∈ qs, Simple x ∧ ∀ c ∈ x, OnlyAsks c) : AllHeard ev ps qs :=
  C134_watched hrun h0 hh hq (parts_RX one32 hsq) (C106_ready hrun (quick_empty w0.ee h0) hnw hclk)
    (fun n s hb i => joint_settles hk hw hrun ⟨[], stored_none w0.ee h0, by simp⟩ hc hj hu n s hb i) hp hi hps hqs
end

/-- a move for the queue (N5), and a question to be answered at once (N7). -/
def watchRx : List Byte := takeRx ++ str ":EN7XYZR0R5\r"

theorem watchRx_decode : decode watchRx = [str "QN5M0V20X0Y17.75Z18.1A180B0C90", str "EN7XYZR0R5"] := by decide +kernel
theorem watchRx_frame : frame (str "EN7XYZR0R5") = .now (text askQ) := by decide +kernel

theorem watchRx_frames {P : Frame → Prop} (h1 : P (.put (text takeI))) (h2 : P (.now (text askQ))) : ∀ p ∈ decode watchRx, P (frame p) := by
  rw [watchRx_decode]
  intro p hp
  rcases List.mem_cons.1 hp with rfl | hp
  · rw [takeRx_frame]; exact h1
  · rw [List.mem_singleton.1 hp, watchRx_frame]; exact h2

theorem askQ_asks : ∀ c ∈ askQ, OnlyAsks c := by
  intro c hc
  simp only [askQ, List.mem_cons, List.not_mem_nil, or_false] at hc
  rcases hc with rfl | rfl | rfl | rfl | rfl | rfl
  · exact .inr (.inr rfl)
  · exact .inl ⟨by decide, rfl⟩
  · exact .inl ⟨by decide, rfl⟩
  · exact .inl ⟨by decide, rfl⟩
  · exact .inr (.inl ⟨rfl, rfl⟩)
  · exact .inr (.inl ⟨rfl, rfl⟩)

theorem watchRx_sent : BrisklySent watchRx := by
  have hb : ∀ p ∈ decode watchRx, BriskFrame (frame p) := watchRx_frames ⟨takeI, rfl, takeI_brisk, by decide +kernel⟩ ⟨askQ, rfl, askQ_brisk, by decide +kernel⟩
  exact ⟨⟨by decide +kernel, by decide +kernel, fun p hp => careful_of_frame (hb p hp)⟩, hb⟩

theorem watchRx_quick : NeverWaits watchRx := by
  refine ⟨by decide +kernel, by decide +kernel, ?_⟩
  rw [watchRx_decode]
  intro p hp
  rcases List.mem_cons.1 hp with rfl | hp
  · rw [takeRx_frame]; exact ⟨by decide +kernel, by decide +kernel⟩
  · rw [List.mem_singleton.1 hp, watchRx_frame]; exact ⟨by decide +kernel, by decide +kernel⟩

theorem watchRx_queue : QueueOnly watchRx := watchRx_frames (P := fun f => f = .free ∨ f = .empty ∨ f = .erase ∨ (∃ m, f = .put m) ∨ ∃ m, f = .now m ∧ Asks m) (.inr (.inr (.inr (.inl ⟨_, rfl⟩))))
  (.inr (.inr (.inr (.inr ⟨_, rfl, askQ, askQ_ok, askQ_asks, rfl⟩))))

theorem watchRx_puts : puts watchRx = [text takeI] := by
  rw [puts, watchRx_decode]; simp [takeRx_frame, watchRx_frame]

theorem watchRx_nows : nows watchRx = [text askQ] := by
  rw [nows, watchRx_decode]; simp [takeRx_frame, watchRx_frame]

/-- C134: the kit is sent a move (N5) for the queue and a question (N7) for immediate execution; all hypotheses hold. In the end one N0 5, one N1 5, one N0 7 and one answer to question 7 was said, and nothing more is. -/
theorem C134_demo : ∃ (w0 : World XR) (σ : ℕ → Sys XR) (ev : ℕ → Ev XR), w0.servos = Kit.servos ∧ w0.rxq = watchRx ∧ Endless Kit.cfg w0 (fun _ => 0) σ ev ∧
    ∃ N, (∀ n, N ≤ n → heard (acts (sofar ev n)) = heard (acts (sofar ev N))) ∧ (words (acts (sofar ev N))).count (.begun 5) = 1 ∧ (words (acts (sofar ev N))).count (.begun 7) = 1 ∧
      (words (acts (sofar ev N))).count (.finished 5) = 1 ∧ (words (acts (sofar ev N))).count (.finished 7) = 0 ∧ (words (acts (sofar ev N))).countP (answersTo (some 7)) = 1 := by
  let w0 : World XR := { servos := Kit.servos, now := 1, pins := fun _ => false, rxq := watchRx, ee := fun _ => 0, outs := [] }
  let s0 : Sys XR := ⟨w0, setup Kit.cfg fun _ => 0⟩
  have hs : ∀ n, w0.rxq ++ arrivals (sofar (evs Kit.cfg s0) n) = watchRx := fun n => by
    rw [sched_hist_silent, List.append_nil]
  have hc : ∀ n, BrisklySent (w0.rxq ++ arrivals (sofar (evs Kit.cfg s0) n)) := fun n => by rw [hs]; exact watchRx_sent
  have hf : ∀ n f, (hist Kit.cfg s0 n).p ≠ .fault f := fun n => (C81_kit rfl (careful_empty _ rfl) (sched_hist_run Kit.cfg w0 _ n) (hc n).well).1
  have he := endless Kit.cfg w0 _ hf
  have h0 : CountingHost (F := XR) watchRx [] := by
    intro a b e
    obtain ⟨rfl, rfl⟩ := List.append_eq_nil_iff.1 e.symm
    show qSize ((puts (watchRx ++ [])).drop (0 - _)) ≤ QUEUE
    rw [List.append_nil, watchRx_puts, Nat.zero_sub]
    decide +kernel
  refine ⟨w0, _, _, rfl, rfl, he, ?_⟩
  obtain ⟨N, h1, -, -, h4, h5, h6⟩ := C134_kit (t := 0) (ps := [takeI]) (qs := [askQ]) rfl he rfl hc (undivided_of (sched_unbroken _ _ hf))
    (fun n => by simpa using counting_quiet h0 (sched_hist_silent Kit.cfg s0 n)) (fun n => by rw [sent, hs]; exact watchRx_queue)
    (fun n => by rw [hs]; exact watchRx_quick) (clockRuns_of he 0 fun n _ => by rw [sched_now]; exact Nat.one_pos)
    (fun n _ => by rw [sent, hs, watchRx_puts]; rfl) (fun n _ => by rw [sent, hs, watchRx_nows]; rfl) (by simpa using ⟨takeI_simple, (by unfold OneNumber; decide +kernel)⟩) (by simpa using ⟨askQ_simple, askQ_asks⟩)
  refine ⟨N, h1, (h4 5).trans (by decide +kernel), (h4 7).trans (by decide +kernel), (h5 5 (by decide)).trans (by decide +kernel), (h5 7 (by decide)).trans (by decide +kernel), (h6 (some 7)).trans (by decide +kernel)⟩

theorem demo1_plain : Simple demo1 := by
  refine ⟨demo1_tells.ok, fun c hc e => ?_, fun c hc e => ?_⟩
  · simp only [demo1, List.mem_cons, List.not_mem_nil, or_false] at hc
    rcases hc with rfl | rfl | rfl | rfl | rfl | rfl | rfl | rfl | rfl
    all_goals first | exact absurd e (by decide) | exact ⟨0, _, rfl⟩ | exact ⟨1, _, rfl⟩ | exact ⟨2, _, rfl⟩ | exact ⟨3, _, rfl⟩ | exact ⟨4, _, rfl⟩ | exact ⟨5, _, rfl⟩
  · have : ∀ c ∈ demo1, c.letter = 77 → c.arg = str "0" := by decide
    exact .inr ⟨0, this c hc e⟩

section
open Ang Brisk32 XR
/-- C134 in single precision: the kit is sent a move (N5) to six angles; all hypotheses hold. In the end one N0 5 and one N1 5 was said, and nothing more is. -/
theorem C134_single_demo [RX.Libm binary32] (hsq : SqrtNonneg binary32) : ∃ (w0 : World F32) (σ : ℕ → Sys F32) (ev : ℕ → Ev F32), w0.servos = Kit.servos ∧ w0.rxq = jointRx ∧ Endless Kit.cfg w0 (fun _ => 0) σ ev ∧
    ∃ N, (∀ n, N ≤ n → heard (acts (sofar ev n)) = heard (acts (sofar ev N))) ∧ (words (acts (sofar ev N))).count (.begun 5) = 1 ∧ (words (acts (sofar ev N))).count (.finished 5) = 1 := by
  let w0 : World F32 := { servos := Kit.servos, now := 1, pins := fun _ => false, rxq := jointRx, ee := fun _ => 0, outs := [] }
  let s0 : Sys F32 := ⟨w0, setup Kit.cfg fun _ => 0⟩
  have hs : ∀ n, w0.rxq ++ arrivals (sofar (evs Kit.cfg s0) n) = jointRx := fun n => by
    rw [sched_hist_silent, List.append_nil]
  have hc : ∀ n, LegiblySent (w0.rxq ++ arrivals (sofar (evs Kit.cfg s0) n)) := fun n => by rw [hs]; exact jointRx_sent
  have hj : ∀ n, ∀ p ∈ decode (w0.rxq ++ arrivals (sofar (evs Kit.cfg s0) n)), JointFrame (frame p) := fun n => by rw [hs]; exact jointRx_frames
  have hmem : ∃ L, StoredProgram w0.ee L ∧ ∀ m ∈ L, SafeText 0 m ∧ JointText m := ⟨[], stored_none _ rfl, by simp⟩
  have hf : ∀ n f, (hist Kit.cfg s0 n).p ≠ .fault f := fun n =>
    (C104_numbers kitAngles rfl (joint_angle_mem hmem) (sched_hist_run Kit.cfg w0 _ n) (hc n) fun p hp => joint_angle_frame (hj n p hp)).1
  have he := endless Kit.cfg w0 _ hf
  have h0 : CountingHost (F := F32) jointRx [] := by
    intro a b e
    obtain ⟨rfl, rfl⟩ := List.append_eq_nil_iff.1 e.symm
    show qSize ((puts (jointRx ++ [])).drop (0 - _)) ≤ QUEUE
    rw [List.append_nil, jointRx_puts, Nat.zero_sub]
    decide +kernel
  refine ⟨w0, _, _, rfl, rfl, he, ?_⟩
  obtain ⟨N, h1, -, -, h4, h5, -⟩ := C134_single (t := 0) (ps := [demo1]) (qs := []) kitAngles rfl he hsq rfl hc hj (sched_undivided32 _ _ hf) (fun n => by rw [hs]; exact jointRx_quick)
    (clockRuns_of he 0 fun n _ => by rw [sched_now]; exact Nat.one_pos)
    (fun n => by simpa using counting_quiet h0 (sched_hist_silent Kit.cfg s0 n)) (fun n => by rw [sent, hs]; exact jointRx_queue)
    (fun n _ => by rw [sent, hs, jointRx_puts]; rfl) (fun n _ => by rw [sent, hs, nows, jointRx_decode]; simp [jointRx_frame]) (by simpa using ⟨demo1_plain, (by unfold OneNumber; decide +kernel)⟩) (by simp)
  exact ⟨N, h1, (h4 5).trans (by decide +kernel), (h5 5 (by decide)).trans (by decide +kernel)⟩
end

end Mrc.Props
