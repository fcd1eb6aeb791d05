import Verif.Proof.Talk
/-
C131: the device says exactly what the instructions make it say.
-/
set_option linter.unusedSectionVars false
namespace Mrc.Props
open Mrc Mrc.Prog Mrc.Spec Mrc.Rest
variable {F : Type} [FloatOps F] {cfg : Cfg F} {junk : Nat → Byte} {tr : List (Act F)} {p : Prog F (FW F)}

theorem words_append (x y : List (Act F)) : words (x ++ y) = words x ++ words y := by simp [words]

theorem begunTexts_append (x y : List (Act F)) : begunTexts (x ++ y) = begunTexts x ++ begunTexts y := by simp [begunTexts]

theorem noNow_left {x y : List (Act F)} (h : NoNow (x ++ y)) : NoNow x := fun m hm => h m (by simp [hm])

theorem talk_state (tr : List (Act F)) (hn : NoNow tr) : tr.foldl Speech.upd (([], [], false) : Speech.St) = (words tr, begunTexts tr, false) := by
  induction tr using List.reverseRecOn with
  | nil => rfl
  | append_singleton tr a ih =>
    rw [List.foldl_append, ih (noNow_left hn), words_append, begunTexts_append]
    match a with
    | .out (.ghost src m) =>
      have : src ≠ .immediate := by rintro rfl; exact hn m (by simp)
      simp [Speech.upd, words, wordOf, begunTexts, this]
    | .out (.msg x) => simp only [List.foldl_cons, List.foldl_nil, Speech.upd, words, begunTexts, List.filterMap_cons]; cases wordOf (.out (.msg x) : Act F) <;> simp
    | .out (.raw _) => simp [Speech.upd, words, begunTexts, wordOf]
    | .out (.pinMode _ _) => simp [Speech.upd, words, begunTexts, wordOf]
    | .out (.digitalWrite _ _) => simp [Speech.upd, words, begunTexts, wordOf]
    | .servo .. | .micro .. | .now _ | .pin .. | .rx _ | .eeRead _ | .eeWrite .. => simp [Speech.upd, words, begunTexts, wordOf]

theorem talk_sound (h : Trace cfg junk tr p) :
    (∀ pre a post, tr = pre ++ a :: post → a.isInput = false → Speech.mon.ok (pre.foldl Speech.upd ([], [], false)) a) ∧
      p.wp Speech.mon (fun g s => Speech.I g s.core) (tr.foldl Speech.upd ([], [], false)) :=
  (Speech.talk_inv cfg).sound ([], [], false) junk (fun _ _ _ _ _ => by
    refine ⟨fun _ ps h1 h2 => ?_, fun _ ps h1 h2 => ?_⟩
    · have : ps = [] := by simpa using h2.symm
      subst this; rfl
    · have : ps = [] := by simpa using h2.symm
      subst this; rfl) (fun _ _ => rfl) (fun _ => rfl) h (fun _ _ _ _ _ => trivial)

/-- **C131**: when the next instruction begins, the conversation about those begun before is complete: everything that had to be said was said, in order, and nothing else. -/
theorem C131_next (h : Trace cfg junk tr p) {pre post : List (Act F)} {src : Src} {m : List Byte} (e : tr = pre ++ .out (.ghost src m) :: post) (hs : src ≠ .immediate) (hn : NoNow pre)
    {ps : List (List Cmd)} (hps : ∀ cs ∈ ps, Simple cs) (hb : begunTexts pre = ps.map text) : words pre = talk 1 ps := by
  have := ((talk_sound h).1 pre _ post e rfl).1 ⟨_, _, rfl⟩ (by rintro m' e'; cases e'; exact hs rfl)
  rw [talk_state pre hn] at this
  simpa using this rfl ps hps hb

theorem talk_prefix {k : ℕ} {ps qs : List (List Cmd)} : talk k ps <+: talk k (ps ++ qs) := by
  induction ps generalizing k with
  | nil => exact List.nil_prefix
  | cons x ps ih => simp only [talk, List.cons_append]; exact (List.prefix_append_right_inj _).2 ih

/-- **C131**: at any time nothing was said but the beginning of the conversation about the instructions begun so far. -/
theorem C131_only (h : Trace cfg junk tr p) (hn : NoNow tr) {ps : List (List Cmd)} (hps : ∀ cs ∈ ps, Simple cs) (hb : begunTexts tr = ps.map text) : words tr <+: talk 1 ps := by
  have key : ∀ mid : List (Act F), ∀ post, tr = mid ++ post → words mid <+: talk 1 ps := by
    intro mid
    induction mid using List.reverseRecOn with
    | nil => intro _ _; exact List.nil_prefix
    | append_singleton mid a ih =>
      intro post e
      rw [List.append_assoc, List.singleton_append] at e
      rw [words_append]
      cases hw : wordOf a with
      | none => simpa [words, hw] using ih _ e
      | some w =>
        have hi : a.isInput = false := by
          match a, hw with
          | .out _, _ => rfl
        have hok := ((talk_sound h).1 mid a post e hi).2 w hw
        rw [talk_state mid (by rw [e] at hn; exact noNow_left hn)] at hok
        have hpre : begunTexts mid <+: ps.map text := by rw [← hb, e, begunTexts_append]; exact List.prefix_append _ _
        obtain ⟨y, hy⟩ := hpre
        obtain ⟨ps1, ps2, rfl, e1, e2⟩ := List.map_eq_append_iff.1 hy.symm
        have := hok rfl ps1 (fun c hc => hps c (by simp [hc])) e1.symm
        simp only [words, List.filterMap_cons, hw, List.filterMap_nil]
        exact this.trans talk_prefix
  exact key tr [] (by simp)

/-- **C131**: at the end of a pass of the main loop the conversation is complete, except perhaps for the N1 of the instruction begun last. -/
theorem C131_pass {s : FW F} (h : Trace cfg junk tr (.ret s)) (hn : NoNow tr) {ps : List (List Cmd)} (hps : ∀ cs ∈ ps, Simple cs) (hb : begunTexts tr = ps.map text) :
    words tr = talk 1 ps ∨ ∃ n, 0 < n ∧ words tr ++ [.finished n] = talk 1 ps := by
  have := (talk_sound h).2
  rw [talk_state tr hn] at this
  have h1 := this.1 rfl ps hps hb
  simp only [Speech.pend] at h1
  split at h1
  · exact .inr ⟨_, ‹_›, h1⟩
  · exact .inl (by simpa using h1)

/-! ### non-vacuity of the words: two instructions -/

/-- N5 V20, and a question N6 X. -/
example : talk 1 [[⟨78, str "5"⟩, ⟨86, str "20"⟩], [⟨78, str "6"⟩, ⟨88, []⟩]] = [.begun 5, .finished 5, .begun 6, .answer (some 6) [(str "X", none)]] := by decide +kernel

end Mrc.Props
