import Verif.Props.WatchKit
/-
C135: no stale reports: after an order given at once nothing begun before it is reported any more.
-/
set_option maxRecDepth 100000
set_option linter.unusedSectionVars false
namespace Mrc.Props
open Mrc Mrc.Prog Mrc.Spec Mrc.Rest

/-- while no order with the number `n` begins, and `n` is not due, N1 `n` is not said. -/
theorem not_said {ts1 ts2 : List Turn} {d0 d : Dialogue} {n : Int} (h1 : dialogue ts1 = some d0) (h2 : dialogue (ts1 ++ ts2) = some d) (hn : 0 < n) (hd : d0.due ≠ n)
    (hno : ∀ nw cs, .begun nw cs ∈ ts2 → ¬ (demands cs = true ∧ numberOf cs = n)) : d.due ≠ n ∧ .finished n ∉ saids ts2 := by
  induction ts2 using List.reverseRecOn generalizing d with
  | nil => rw [List.append_nil, h1] at h2; cases h2; exact ⟨hd, by simp [saids]⟩
  | append_singleton ts t ih =>
    rw [← List.append_assoc] at h2
    obtain ⟨d1, g1, g2⟩ := dialogue_last h2
    obtain ⟨i1, i2⟩ := ih g1 fun nw cs hc => hno nw cs (List.mem_append_left _ hc)
    have hk := left_kind g1
    match t with
    | .begun nw cs =>
      obtain ⟨-, -, -, e⟩ := step_begun g2
      refine ⟨?_, by simpa [saids] using i2⟩
      rw [e]
      split
      · rename_i hdm; exact fun hx => hno nw cs (by simp) ⟨hdm, hx⟩
      · exact i1
    | .said w =>
      have hsaid : saids (ts ++ [.said w]) = saids ts ++ [w] := by simp [saids]
      rw [hsaid]
      rcases step_said g2 with ⟨rest, e1, e2, e3⟩ | ⟨e1, rfl, e2, e3, e4⟩
      · have : w ≠ .finished n := hk w (by rw [e1]; exact List.mem_cons_self) n
        rw [e3]
        refine ⟨i1, fun hm => ?_⟩
        rcases List.mem_append.1 hm with hm | hm
        · exact i2 hm
        · rw [List.mem_singleton] at hm; exact this hm.symm
      · rw [e4]
        refine ⟨by omega, fun hm => ?_⟩
        rcases List.mem_append.1 hm with hm | hm
        · exact i2 hm
        · rw [List.mem_singleton] at hm
          injection hm with hm
          exact i1 hm.symm

variable {F : Type} [FloatOps F] {cfg : Cfg F} {junk : Nat → Byte} {tr : List (Act F)} {p : Prog F (FW F)}

/-- **C135**: after an order given at once has begun, N1 `n` is not sent, unless the order itself has the number `n`, or an order with the number `n` begins later. In particular a move that it interrupts is never
reported, and the host that waits for its report waits forever. -/
theorem C135_stale (h : Trace cfg junk tr p) {pre post : List (Act F)} {cs : List Cmd} (e : tr = pre ++ .out (.ghost .immediate (text cs)) :: post) (hs : Simple cs) (hd : demands cs = true)
    (hall : ∀ src m, .out (.ghost src m) ∈ tr → ∃ x, Simple x ∧ text x = m) {n : Int} (hn : 0 < n) (hne : numberOf cs ≠ n)
    (hno : ∀ src x, .out (.ghost src (text x)) ∈ post → Simple x → ¬ (demands x = true ∧ numberOf x = n)) : .out (.msg (.n1 n)) ∉ post := by
  obtain ⟨ts, hP, ht⟩ := turns_of tr hall
  obtain ⟨d, hdl⟩ := C133_rules h hP ht
  have e1 : heard tr = (heard pre ++ [.begun true (text cs)]) ++ heard post := by
    rw [e, heard, List.filterMap_append]; simp [heard]
  rw [e1] at ht
  obtain ⟨ta, ts2, rfl, e2, e3⟩ := List.map_eq_append_iff.1 ht
  obtain ⟨ts1, tb, rfl, e4, e5⟩ := List.map_eq_append_iff.1 e2
  obtain ⟨x, rfl, e6⟩ := List.map_eq_singleton_iff.1 e5
  obtain rfl : x = .begun true cs := by
    match x, e6 with
    | .begun nw cs', e6 =>
      simp only [Turn.heard, Heard.begun.injEq] at e6
      obtain ⟨rfl, e6⟩ := e6
      have := Speech.map_text_inj (ps := [cs']) (ps' := [cs]) (by simpa using (show Simple cs' from hP (.begun true cs') (by simp))) (by simpa using hs) (by simp [e6])
      simp at this; rw [this]
  obtain ⟨d0, hd0⟩ : ∃ d0, dialogue (ts1 ++ [.begun true cs]) = some d0 := by
    have hd' := hdl
    rw [dialogue, List.foldlM_append] at hd'
    cases hx : dialogue (ts1 ++ [.begun true cs]) with
    | none => rw [dialogue] at hx; rw [hx] at hd'; cases hd'
    | some d0 => exact ⟨d0, rfl⟩
  obtain ⟨d00, -, hst⟩ := dialogue_last hd0
  obtain ⟨-, -, -, g2⟩ := step_begun hst
  rw [hd, if_pos rfl] at g2
  have key := (not_said hd0 hdl hn (by rw [g2]; exact hne) fun nw x hx => by
    have hsx : Simple x := hP (.begun nw x) (List.mem_append_right _ hx)
    have : .begun nw (text x) ∈ heard post := by rw [← e3]; exact List.mem_map.2 ⟨_, hx, rfl⟩
    rw [heard, List.mem_filterMap] at this
    obtain ⟨a, ha, hb⟩ := this
    split at hb
    · injection hb with hb; injection hb with hb1 hb2; subst hb2; exact hno _ x ha hsx
    · obtain ⟨w, -, hb⟩ := Option.map_eq_some_iff.1 hb; cases hb).2
  intro hm
  apply key
  rw [← saids_heard, e3, saidBy_heard]
  exact List.mem_filterMap.2 ⟨_, hm, rfl⟩

/-- **C135**, the host's side: nothing sent after the interruption can bring back the report, except another order with the same number: in an endless history in which an order at once (not numbered `n`) begins at
`k`, and no order numbered `n` begins after it, N1 `n` is not sent after it. -/
theorem C135_never {w0 : World F} {σ : ℕ → Sys F} {ev : ℕ → Ev F} (h : Endless cfg w0 junk σ ev) {k : ℕ} {cs : List Cmd} (hk : ev k = .act (.out (.ghost .immediate (text cs)))) (hs : Simple cs) (hd : demands cs = true)
    (hall : ∀ i src m, ev i = .act (.out (.ghost src m)) → ∃ x, Simple x ∧ text x = m) {n : Int} (hn : 0 < n) (hne : numberOf cs ≠ n)
    (hno : ∀ i, k < i → ∀ src x, ev i = .act (.out (.ghost src (text x))) → Simple x → ¬ (demands x = true ∧ numberOf x = n)) : ∀ j, k < j → ev j ≠ .act (.out (.msg (.n1 n))) := by
  intro j hj hjn
  have e := span_split (ev := ev) (Nat.zero_le k) (show k < 0 + (j + 1) by omega) hk
  rw [← sofar_span] at e
  refine C135_stale (h.run (j + 1)).trace e hs hd (fun src m hm => ?_) hn hne (fun src x hx hsx => ?_) ?_
  · rw [acts_mem, sofar_span, mem_span] at hm
    obtain ⟨i, -, -, hi⟩ := hm
    exact hall i src m hi
  · rw [acts_mem, mem_span] at hx
    obtain ⟨i, hi, -, hi'⟩ := hx
    exact hno i (by omega) src x hi' hsx
  · rw [acts_mem, mem_span]
    exact ⟨j, by omega, by omega, hjn⟩

open Mrc.Demo in
/-- a move from the queue (N5), interrupted by a speed told at once: the theorem applies, and N1 5 is not said. -/
theorem C135_demo : ∃ tr s pre post, @Trace Rat toyFloat (@Kit.cfg Rat toyFloat) (fun _ => 0) tr (.ret s) ∧ tr = pre ++ .out (.ghost .immediate (text [⟨86, str "9"⟩])) :: post ∧ .begun 5 ∈ words pre ∧ .finished 5 ∉ words tr ∧
    demands [⟨86, str "9"⟩] = true ∧ numberOf [⟨86, str "9"⟩] ≠ 5 ∧ ∀ src m, .out (.ghost src m) ∈ post → m = str "N7V5" := by
  have h := kitT_trace ":QN5R01\r                       :EV9\r:QN7V5\r" 6
  have hr : (match (kitT ":QN5R01\r                       :EV9\r:QN7V5\r" 6).2.1 with | .ret _ => true | _ => false) = true := by decide +kernel
  have hn : heard (kitT ":QN5R01\r                       :EV9\r:QN7V5\r" 6).1 = [.begun false (str "N5R01"), .said (.begun 5)] ++ ([.begun true (str "V9")] ++ [.begun false (str "N7V5"), .said (.begun 7), .said (.finished 7)]) := by decide +kernel
  split at hr
  · rename_i s hs
    rw [hs] at h
    have hw : words (kitT ":QN5R01\r                       :EV9\r:QN7V5\r" 6).1 = [.begun 5, .begun 7, .finished 7] := by rw [← @saidBy_heard Rat toyFloat, hn]; rfl
    obtain ⟨x, y, e, hx, hy⟩ := List.filterMap_eq_append_iff.1 hn
    rw [List.singleton_append] at hy
    obtain ⟨u, a, v, e2, hu, ha, hv⟩ := List.filterMap_eq_cons_iff.1 hy
    have : a = .out (.ghost .immediate (str "V9")) := by
      split at ha
      · rename_i src m
        injection ha with ha; injection ha with h1 h2
        cases src <;> first | exact absurd h1 (by decide) | rw [h2]
      · obtain ⟨w, -, hb⟩ := Option.map_eq_some_iff.1 ha; cases hb
    subst this
    refine ⟨_, s, x ++ u, v, h, by rw [e, e2, List.append_assoc]; rfl, ?_, by rw [hw]; decide, by decide, by decide, fun src m hm => ?_⟩
    · have : heard x = [.begun false (str "N5R01"), .said (.begun 5)] := hx
      rw [words, List.filterMap_append]
      refine List.mem_append_left _ ?_
      show _ ∈ words x
      rw [← @saidBy_heard Rat toyFloat, this]
      decide
    · have : .begun (src == .immediate) m ∈ heard v := List.mem_filterMap.2 ⟨_, hm, rfl⟩
      have hv' : heard v = [.begun false (str "N7V5"), .said (.begun 7), .said (.finished 7)] := hv
      rw [hv'] at this
      have : src ≠ .immediate ∧ m = str "N7V5" := by simpa using this
      exact this.2
  · cases hr

end Mrc.Props
