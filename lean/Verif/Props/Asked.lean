import Verif.Props.Answers
import Verif.Proof.Mril
import Verif.Proof.Aside
import Verif.Props.Notices
/-
C98, second part: an answer answers what was asked.
-/
set_option linter.unusedSectionVars false
namespace Mrc.Props
open Mrc Mrc.Prog Mrc.Spec
variable {F : Type} [FloatOps F]

/-! ### one command -/

/-- accesses other than answers. -/
def noReply (a : Act F) : Prop := mrilAct a ∧ ∀ num ps, a ≠ .out (.msg (.reply num ps))

def Did (c : Cmd) (s : Core F) (l : Loc F) (r : Core F × Loc F) : Prop :=
  r.2.resp.map Part.tag = l.resp.map Part.tag ++ askedBy s.rc.method.code c ∧ r.1.rc.method.code = chosenBy s.rc.method.code c ∧
    (r.2.tmpNumber = if c.letter = 78 then atol c.arg else l.tmpNumber) ∧ (r.2.ctype = .read ↔ Question c)

structure Simple1 (c : Cmd) : Prop where
  ok : c.Ok
  axis : c.letter = 82 → ∃ (o : Fin 10) (rest : List Byte), c.arg = digitChar o :: rest
  method : c.letter = 77 → c.arg = [] ∨ ∃ d : Fin 10, c.arg = [digitChar d]

theorem readAngles_noReply : (RC.readAngles : Prog F (Six F)).only noReply (fun _ => True) := by
  simp [RC.readAngles, readServo, Prog.bind, only, noReply, mrilAct]

theorem dig_atol (d : Fin 10) : u32OfInt (atol [digitChar d]) = d.val := by revert d; decide
theorem dig_0 (d : Fin 10) : (digitChar d = 48) ↔ d.val = 0 := by revert d; decide
theorem dig_1 (d : Fin 10) : (digitChar d = 49) ↔ d.val = 1 := by revert d; decide
theorem poseLetter_facts (i : Fin 6) : poseLetter i ≠ 78 ∧ poseLetter i ≠ 82 ∧ poseLetter i ∈ str "VXYZABC" := by revert i; decide

theorem exec_did (cfg : Cfg F) (s : Core F) (l : Loc F) (c : Cmd) (h : Simple1 c) : (Mril.exec cfg s l c.text).only noReply (Did c s l) := by
  obtain ⟨letter, arg⟩ := c
  have hax := h.axis
  have hme := h.method
  simp only at hax hme
  unfold Mril.exec
  simp only [Cmd.text, List.headD_cons, List.drop_one, List.tail_cons]
  split
  · rename_i h77
    subst h77
    rcases hme rfl with rfl | ⟨d, rfl⟩
    · simp [only, Did, Question, askedBy, chosenBy, Part.tag]
    · have ha : u32OfInt (atol [digitChar d]) = d.val := dig_atol d
      have hc0 : (digitChar d = 48) ↔ d.val = 0 := dig_0 d
      have hc1 : (digitChar d = 49) ↔ d.val = 1 := dig_1 d
      simp only [ha]
      simp only [show (77 : Byte) ≠ 78 by decide, List.length_cons, List.length_nil, if_false, show ¬ (0 + 1 + 1 = 1) by decide, reduceCtorEq]
      split
      · simp_all [only, Did, Question, askedBy, chosenBy, Part.tag, RC.setMovementMethod, Method.code]
      · split
        · simp_all [only, Did, Question, askedBy, chosenBy, Part.tag, RC.setMovementMethod, Method.code]
        · simp_all [only, Did, Question, askedBy, chosenBy, Part.tag, RC.setMovementMethod, Method.code]
  split
  · rename_i h86
    subst h86
    cases arg with
    | nil => simp [only, Did, Question, askedBy, chosenBy, Part.tag]; decide
    | cons b bs => simp [only, Did, Question, askedBy, chosenBy, Part.tag, Prog.bind, doMicro, noReply, mrilAct, RC.setMaxVelocity]
  split
  · rename_i i hi
    have hl := letter_of_poseIdx hi
    have h78 : letter ≠ 78 := by rw [hl]; exact (poseLetter_facts i).1
    have h82 : letter ≠ 82 := by rw [hl]; exact (poseLetter_facts i).2.1
    have hmem : letter ∈ str "VXYZABC" := by rw [hl]; exact (poseLetter_facts i).2.2
    cases arg with
    | nil =>
      simp only [h78, if_false, List.length_cons, List.length_nil, if_true, bind_def, RC.getCurrentPose, RC.getCurrentLogicalAngles, only_bind]
      refine only_mono (fun _ h => h) (fun a _ => ?_) readAngles_noReply
      simp_all [only, Did, Question, askedBy, chosenBy, Part.tag]
    | cons b bs =>
      simp_all [only, Did, Question, askedBy, chosenBy, Part.tag, RC.setTargetPoseAt]
  split
  · rename_i h82
    subst h82
    obtain ⟨o, rest, rfl⟩ := hax rfl
    have hopt : optionAt (82 :: digitChar o :: rest) 1 = some o.val := optionAt_digit _ 1 o.val o.isLt rfl
    have hdc : digitChar o = UInt8.ofNat (48 + o.val) := rfl
    simp only [hopt]
    simp only [show (82 : Byte) ≠ 78 by decide, List.length_cons, if_false, reduceCtorEq]
    cases rest with
    | nil =>
      simp only [List.length_nil, show ¬ (0 + 1 + 1 = 1) by decide, if_false]
      split
      · split
        · split
          · trivial
          · simp [only, Did, Question, askedBy, chosenBy, Part.tag, Prog.bind, readServo, noReply, mrilAct, hdc]
        · split
          · trivial
          · simp only [bind_def, RC.getCurrentLogicalAngles, only_bind]
            refine only_mono (fun _ h => h) (fun a _ => ?_) readAngles_noReply
            simp [only, Did, Question, askedBy, chosenBy, Part.tag, hdc]
      · simp_all
    | cons b bs =>
      simp only [List.length_cons, show ¬ (bs.length + 1 + 1 + 1 = 1) by omega, show ¬ (bs.length + 1 + 1 + 1 = 2) by omega, if_false]
      simp only [reduceCtorEq, decide_false, Bool.or_self, Bool.false_eq_true, if_false]
      split
      · split
        · trivial
        · rename_i ha
          have := axisServo_ge ha
          simp [only, Did, Question, askedBy, chosenBy, Part.tag, Prog.bind, readServo, doMicro, Mril.setAxis, noReply, mrilAct, this]
      · split
        · trivial
        · simp [only, Did, Question, askedBy, chosenBy, Part.tag, RC.setTargetLogicalAngle]
  have hno : letter ∉ str "VXYZABC" := by
    intro hm
    have : letter = 86 ∨ (poseIdx letter).isSome = true := by
      simp [str] at hm
      rcases hm with rfl | rfl | rfl | rfl | rfl | rfl | rfl <;> decide
    rcases this with rfl | this
    · simp_all
    · obtain ⟨i, hi⟩ := Option.isSome_iff_exists.1 this
      simp_all
  have hct : letter ≠ 78 → ((if letter = 78 then CmdType.none else if (letter :: arg).length = 1 then CmdType.read else CmdType.write) = .read ↔ Question ⟨letter, arg⟩) := by
    intro h78
    simp_all [Question]
  have hD : ∀ c', c'.rc = s.rc → letter ≠ 78 → Did ⟨letter, arg⟩ s l (c', { l with ctype := if letter = 78 then CmdType.none else if (letter :: arg).length = 1 then CmdType.read else CmdType.write }) := by
    intro c' e h78
    refine ⟨?_, ?_, ?_, hct h78⟩ <;> simp_all [askedBy, chosenBy]
  split
  · subst_vars
    split
    · simp only [bind_def, IOL.addCondition]
      split
      · trivial
      · refine ⟨by simp [noReply, mrilAct], ?_⟩
        split
        · trivial
        · exact hD _ rfl (by decide)
    · trivial
  split
  · subst_vars
    split
    · simp only [bind_def, IOL.setOutput]
      split
      · trivial
      · refine ⟨by simp [noReply, mrilAct], ?_⟩
        split
        · exact ⟨by simp [noReply, mrilAct], hD _ rfl (by decide)⟩
        · split
          · exact ⟨by simp [noReply, mrilAct], hD _ rfl (by decide)⟩
          · exact hD _ rfl (by decide)
    · trivial
  split
  · subst_vars
    exact fun t => ⟨by simp [noReply, mrilAct], hD _ rfl (by decide)⟩
  split
  · subst_vars
    refine ⟨by simp [noReply, mrilAct], ?_⟩
    show Did _ _ _ _
    simp [Did, Question, askedBy, chosenBy, hno]
  · rename_i h78
    exact hD _ rfl h78

/-! ### an instruction -/

theorem foldl_number (cs : List Cmd) (n : Int) : ∀ c : Cmd, (c :: cs).foldl (fun n c => if c.letter = 78 then atol c.arg else n) n =
    cs.foldl (fun n c => if c.letter = 78 then atol c.arg else n) (if c.letter = 78 then atol c.arg else n) := fun _ => rfl

theorem execAll_did (cfg : Cfg F) (cs : List Cmd) (h : ∀ c ∈ cs, Simple1 c) (s : Core F) (l : Loc F) :
    (execAll cfg cs s l).only noReply (fun r => r.2.resp.map Part.tag = l.resp.map Part.tag ++ asked s.rc.method.code cs ∧ r.1.rc.method.code = cs.foldl chosenBy s.rc.method.code ∧
      r.2.tmpNumber = cs.foldl (fun n c => if c.letter = 78 then atol c.arg else n) l.tmpNumber) := by
  induction cs generalizing s l with
  | nil => simp [execAll, only, asked]
  | cons c cs ih =>
    simp only [execAll]
    rw [only_bind]
    refine only_mono (fun _ h => h) (fun r hr => ?_) (exec_did cfg s l c (h c (by simp)))
    obtain ⟨h1, h2, h3, h4⟩ := hr
    refine only_mono (fun _ h => h) (fun r' hr' => ?_) (ih (fun x hx => h x (by simp [hx])) r.1 r.2)
    obtain ⟨k1, k2, k3⟩ := hr'
    refine ⟨?_, ?_, ?_⟩
    · rw [k1, h1, h2, asked, List.append_assoc]
    · rw [k2, h2]; rfl
    · rw [k3, h3]; rfl

theorem simple_each {cs : List Cmd} (h : Simple cs) : ∀ c ∈ cs, Simple1 c := fun c hc => ⟨h.ok c hc, h.axis c hc, h.method c hc⟩

/-! ### histories -/

theorem methodIs_snoc {tr : List (Act F)} {a : Act F} {k : Nat} (h : MethodIs (tr ++ [a]) k) :
    (¬ BeginsI a ∧ MethodIs tr k) ∨ ∃ src cs k', a = .out (.ghost src (text cs)) ∧ Simple cs ∧ MethodIs tr k' ∧ k = cs.foldl chosenBy k' := by
  generalize e : tr ++ [a] = t at h
  cases h with
  | boot => simp at e
  | act h ha => obtain ⟨rfl, e⟩ := List.append_inj' e rfl; simp at e; subst e; exact .inl ⟨ha, h⟩
  | instr h hs => obtain ⟨rfl, e⟩ := List.append_inj' e rfl; simp at e; subst e; exact .inr ⟨_, _, _, rfl, hs, h, rfl⟩

theorem methodIs_append {tr x : List (Act F)} {k : Nat} (hx : ∀ a ∈ x, ¬ BeginsI a) (h : MethodIs (tr ++ x) k) : MethodIs tr k := by
  induction x using List.reverseRecOn with
  | nil => simpa using h
  | append_singleton x a ih =>
    rw [← List.append_assoc] at h
    rcases methodIs_snoc h with ⟨_, h⟩ | ⟨src, cs, _, rfl, _⟩
    · exact ih (fun b hb => hx b (by simp [hb])) h
    · exact absurd ⟨src, text cs, rfl⟩ (hx _ (List.mem_append_right _ List.mem_cons_self))

theorem methodIs_drop {d x : List (Act F)} {k : Nat} (hd : ∀ a ∈ d, setupRead a = true) (h : MethodIs (d ++ x) k) : MethodIs x k := by
  induction x using List.reverseRecOn generalizing k with
  | nil =>
    have := methodIs_append (tr := []) (x := d) (by rintro a ha ⟨_, _, rfl⟩; simpa [setupRead] using hd _ ha) (by simpa using h)
    exact this
  | append_singleton x a ih =>
    rw [← List.append_assoc] at h
    rcases methodIs_snoc h with ⟨ha, h'⟩ | ⟨src, cs, k', rfl, hs, h', rfl⟩
    · exact .act (ih h') ha
    · exact .instr (ih h') hs

/-- the last instruction started is determined. -/
theorem last_begin {a a' x x' : List (Act F)} {b b' : Act F} (hx : ∀ y ∈ x, ¬ BeginsI y) (hx' : ∀ y ∈ x', ¬ BeginsI y) (hb : BeginsI b) (hb' : BeginsI b')
    (e : a ++ b :: x = a' ++ b' :: x') : a = a' ∧ b = b' ∧ x = x' := by
  induction a generalizing a' with
  | nil =>
    cases a' with
    | nil => simp at e; exact ⟨rfl, e⟩
    | cons y a' => simp at e; exact absurd hb' (hx _ (by rw [e.2]; simp))
  | cons y a ih =>
    cases a' with
    | nil => simp at e; exact absurd hb (hx' _ (by rw [← e.2]; simp))
    | cons y' a' =>
      simp at e
      obtain ⟨rfl, h2, h3⟩ := ih e.2
      exact ⟨by rw [e.1], h2, h3⟩

/-- the answer is what was asked by the instruction started last. -/
def Fitting (g : List (Act F)) (num : Option Int) (ps : List (Part F)) : Prop :=
  ∀ a0 src cs mid k, g = a0 ++ .out (.ghost src (text cs)) :: mid → (∀ a ∈ mid, ¬ BeginsI a) → Simple cs → MethodIs a0 k →
    ps.map Part.tag = asked k cs ∧ num = if 0 < numberOf cs then some (numberOf cs) else none

def askMon : Mon F (List (Act F)) where
  upd := ansUpd
  ok g a := ∀ num ps, a = .out (.msg (.reply num ps)) → Fitting g num ps

def MethodOk (g : List (Act F)) (c : Core F) : Prop := ∀ k, MethodIs g k → c.rc.method.code = k

theorem MethodOk.act {g : List (Act F)} {c : Core F} (h : MethodOk g c) {a : Act F} (ha : ¬ BeginsI a) : MethodOk (ansUpd g a) c := by
  unfold ansUpd
  split
  · exact h
  · intro k hk
    rcases methodIs_snoc hk with ⟨_, hk⟩ | ⟨_, _, _, rfl, _⟩
    · exact h k hk
    · exact absurd ⟨_, _, rfl⟩ ha

/-- since the start of the instruction. -/
def Since (g : List (Act F)) (src : Src) (m : List Byte) (g' : List (Act F)) : Prop := ∃ x, g' = g ++ .out (.ghost src m) :: x ∧ ∀ a ∈ x, ¬ BeginsI a

theorem Since.act {g g' : List (Act F)} {src : Src} {m : List Byte} (h : Since g src m g') {a : Act F} (ha : ¬ BeginsI a) : Since g src m (ansUpd g' a) := by
  obtain ⟨x, rfl, hx⟩ := h
  refine ⟨x ++ [a], by simp [ansUpd], ?_⟩
  intro b hb
  rcases List.mem_append.1 hb with hb | hb
  · exact hx b hb
  · simp at hb; subst hb; exact ha

theorem mrilAct_noBegin {a : Act F} (h : mrilAct a) : ¬ BeginsI a := by rintro ⟨_, _, rfl⟩; exact h

theorem ask_inv (cfg : Cfg F) : CoreInv cfg askMon MethodOk MethodOk where
  flt _ := trivial
  weak _ _ h := h
  disp g c a h ha := ⟨by rintro num ps rfl; exact ha.elim, h.act (by rintro ⟨_, _, rfl⟩; exact ha)⟩
  dispJ g c a h ha := ⟨by rintro num ps rfl; exact ha.elim, h.act (by rintro ⟨_, _, rfl⟩; exact ha)⟩
  rc g c h := by
    refine wp_mono ?_ (ans_keep (RC.process_only cfg.toRCfg c.rc) (fun g => MethodOk g c) g h ?_ (fun _ => trivial))
    · rintro g' r ⟨h1, h2⟩ k hk
      show r.method.code = k
      rw [h2.2.1]; exact h1 k hk
    · intro g a h ha
      exact ⟨by rintro num ps rfl; exact ha.elim, h.act (by rintro ⟨_, _, rfl⟩; exact ha)⟩
  check g c h := by
    refine wp_mono ?_ (ans_keep (mrilProcess_only c) (fun g => MethodOk g c) g h ?_ (fun _ => trivial))
    · rintro g' r ⟨h1, h2⟩ k hk
      rw [h2.1]; exact h1 k hk
    · intro g a h ha
      exact ⟨by rintro num ps rfl; exact ha.elim, h.act (by rintro ⟨_, _, rfl⟩; exact ha)⟩
  parse g c m src h := by
    have h : MethodOk g c := by split at h; · exact h
                                · exact h.1
    refine ⟨by rintro num ps ⟨⟩, ?_⟩
    have hu : ansUpd g (.out (.ghost src m)) = g ++ [.out (.ghost src m)] := by simp [ansUpd, setupRead]
    show Prog.wp _ _ _ (ansUpd g (.out (.ghost src m)))
    rw [hu]
    have h0 : Since g src m (g ++ [.out (.ghost src m)]) := ⟨[], rfl, by simp⟩
    have huniq : ∀ {g'}, Since g src m g' → ∀ {a0 src' cs mid}, g' = a0 ++ .out (.ghost src' (text cs)) :: mid → (∀ a ∈ mid, ¬ BeginsI a) → a0 = g ∧ m = text cs := by
      rintro g' ⟨x, rfl, hx⟩ a0 src' cs mid e hmid
      obtain ⟨e1, e2, _⟩ := last_begin hx hmid ⟨_, _, rfl⟩ ⟨_, _, rfl⟩ e
      simp at e2
      exact ⟨e1.symm, e2.2⟩
    have hlast : ∀ {g' k}, Since g src m g' → MethodIs g' k → ∃ cs k', m = text cs ∧ Simple cs ∧ MethodIs g k' ∧ k = cs.foldl chosenBy k' := by
      rintro g' k ⟨x, rfl, hx⟩ hk
      rw [show g ++ Act.out (Out.ghost src m) :: x = (g ++ [Act.out (Out.ghost src m)]) ++ x by simp] at hk
      rcases methodIs_snoc (methodIs_append hx hk) with ⟨hb, _⟩ | ⟨_, cs, k', e, hs, hk', rfl⟩
      · exact absurd ⟨_, _, rfl⟩ hb
      · simp at e; exact ⟨cs, k', e.2, hs, hk', rfl⟩
    by_cases hcs : ∃ cs, Simple cs ∧ m = text cs
    · obtain ⟨cs, hs, rfl⟩ := hcs
      have hun : ∀ {cs'}, Simple cs' → text cs = text cs' → cs' = cs := fun hs' e => (text_inj hs.ok hs'.ok e).symm
      by_cases hne : cs = []
      · subst hne
        intro k hk
        obtain ⟨cs', k', e, hs', hk', rfl⟩ := hlast h0 hk
        rw [hun hs' e]; exact h k' hk'
      · rw [parse_text cfg cs hs.ok hne, wp_bind]
        refine wp_mono ?_ (ans_keep (execAll_did cfg cs (simple_each hs) { c with rc := c.rc.startTransaction } {}) (fun g' => Since g src (text cs) g') _ h0 ?_ (fun _ => trivial))
        · rintro g' ⟨s, l⟩ ⟨hg, h1, h2, h3⟩
          have hI : ∀ {g''}, Since g src (text cs) g'' → ∀ k, MethodIs g'' k → s.rc.method.code = k := by
            intro g'' hg'' k hk
            obtain ⟨cs', k', e, hs', hk', rfl⟩ := hlast hg'' hk
            rw [hun hs' e, h2, ← h k' hk']; rfl
          unfold Mril.finish
          simp only [send, bind_def, Prog.bind]
          split
          · refine ⟨?_, ?_⟩
            · intro num ps e; simp at e
              obtain ⟨rfl, rfl⟩ := e
              intro a0 src' cs' mid k e hmid hs' hk
              obtain ⟨rfl, e⟩ := huniq hg e hmid
              rw [hun hs' e]
              refine ⟨?_, ?_⟩
              · rw [h1, ← h k hk]; rfl
              · rw [h3]; rfl
            · exact hI (hg.act (by rintro ⟨_, _, h⟩; cases h))
          · exact hI hg
          · exact hI hg
        · intro g' a hg ha
          exact ⟨fun num ps e => absurd e (ha.2 num ps), hg.act (mrilAct_noBegin ha.1)⟩
    · refine wp_mono ?_ (ans_keep (parse_only cfg c m) (fun g' => Since g src m g') _ h0 ?_ (fun _ => trivial))
      · rintro g' c' ⟨hg, _⟩ k hk
        obtain ⟨cs, _, e, hs, _⟩ := hlast hg hk
        exact absurd ⟨cs, hs, e⟩ hcs
      · intro g' a hg ha
        refine ⟨fun num ps _ a0 src' cs mid k e hmid hs _ => ?_, hg.act (mrilAct_noBegin ha)⟩
        exact absurd ⟨cs, hs, (huniq hg e hmid).2⟩ hcs

/-- the readings are before the instruction. -/
theorem begin_after {d w a0 mid : List (Act F)} {src : Src} {m : List Byte} (hd : ∀ a ∈ d, setupRead a = true) (e2 : a0 ++ .out (.ghost src m) :: mid = d ++ w) :
    ∃ a1, a0 = d ++ a1 ∧ w = a1 ++ .out (.ghost src m) :: mid := by
  rcases List.append_eq_append_iff.1 e2 with ⟨x, e3, e4⟩ | ⟨x, e3, e4⟩
  · cases x with
    | nil => exact ⟨[], by simpa using e3.symm, by simpa using e4.symm⟩
    | cons y x =>
      simp at e4
      have : y ∈ d := by rw [e3]; simp
      have := hd y this
      rw [← e4.1] at this; cases this
  · exact ⟨x, e3, e4⟩

/-- **C98**: an answer answers, in order, exactly what the instruction started last asks for, with its number; a question for the movement method is answered with the one that was chosen last. -/
theorem C98_asked {cfg : Cfg F} {junk : Nat → Byte} {tr : List (Act F)} {p : Prog F (FW F)} (h : Trace cfg junk tr p) {a0 mid post : List (Act F)} {src : Src} {cs : List Cmd}
    {num : Option Int} {ps : List (Part F)} (e : tr = a0 ++ .out (.ghost src (text cs)) :: mid ++ .out (.msg (.reply num ps)) :: post) (hmid : ∀ a ∈ mid, ¬ BeginsI a) (hcs : Simple cs)
    {k : Nat} (hk : MethodIs a0 k) : ps.map Part.tag = asked k cs ∧ num = if 0 < numberOf cs then some (numberOf cs) else none := by
  have h1 := ((ask_inv cfg).sound [] junk (fun _ _ _ _ _ => ?_) (fun _ _ => rfl) (fun _ => rfl) h (fun _ _ _ _ _ => trivial)).1 _ _ _ e rfl num ps rfl
  · obtain ⟨d, hd, e2⟩ := ans_state (a0 ++ .out (.ghost src (text cs)) :: mid)
    obtain ⟨a1, e3, e4⟩ := begin_after hd e2
    exact h1 a1 src cs mid k e4 hmid hcs (methodIs_drop hd (e3 ▸ hk))
  · intro k hk
    generalize hg : ([] : List (Act F)) = g at hk
    cases hk with
    | boot => rfl
    | act => simp at hg
    | instr => simp at hg

/-! ### every question is answered -/

theorem execAll_kind (cfg : Cfg F) (cs : List Cmd) (h : ∀ c ∈ cs, Simple1 c) (s : Core F) (l : Loc F) (hne : cs ≠ []) :
    (execAll cfg cs s l).only noReply (fun r => r.2.ctype = .read ↔ ∃ c, cs.getLast? = some c ∧ Question c) := by
  induction cs generalizing s l with
  | nil => exact absurd rfl hne
  | cons c cs ih =>
    simp only [execAll]
    rw [only_bind]
    refine only_mono (fun _ h => h) (fun r hr => ?_) (exec_did cfg s l c (h c (by simp)))
    cases cs with
    | nil => simpa [execAll, only] using hr.2.2.2
    | cons d cs => simpa using ih (fun x hx => h x (by simp [hx])) r.1 r.2 (by simp)

/-- since the instruction started last: one answer if its last command is a question, none otherwise. -/
def Replied (g : List (Act F)) : Prop :=
  ∀ a0 src cs mid, g = a0 ++ .out (.ghost src (text cs)) :: mid → (∀ a ∈ mid, ¬ BeginsI a) → Simple cs →
    ((∃ c, cs.getLast? = some c ∧ Question c) → answers mid = 1) ∧ ((¬ ∃ c, cs.getLast? = some c ∧ Question c) → answers mid = 0)

def repMon : Mon F (List (Act F)) where
  upd := ansUpd
  ok g a := BeginsI a → Replied g

theorem answers_none {a : Act F} (h : ∀ num ps, a ≠ .out (.msg (.reply num ps))) : answers [a] = 0 := by
  cases a with
  | out o =>
    cases o with
    | msg m =>
      cases m with
      | reply num ps => exact absurd rfl (h _ _)
      | _ => rfl
    | _ => rfl
  | _ => rfl

theorem Replied.act {g : List (Act F)} (h : Replied g) {a : Act F} (ha : ¬ BeginsI a) (hr : ∀ num ps, a ≠ .out (.msg (.reply num ps))) : Replied (ansUpd g a) := by
  unfold ansUpd
  split
  · exact h
  · intro a0 src cs mid e hmid hs
    rcases List.eq_nil_or_concat mid with rfl | ⟨mid', b, rfl⟩
    · rw [show a0 ++ [Act.out (Out.ghost src (text cs))] = a0 ++ [Act.out (Out.ghost src (text cs))] from rfl] at e
      obtain ⟨_, e⟩ := List.append_inj' e rfl
      simp at e; subst e
      exact absurd ⟨_, _, rfl⟩ ha
    · have e' : g ++ [a] = (a0 ++ .out (.ghost src (text cs)) :: mid') ++ [b] := by simpa using e
      obtain ⟨e1, e2⟩ := List.append_inj' e' rfl
      simp at e2; subst e2
      have := h a0 src cs mid' e1 (fun x hx => hmid x (by simp [hx])) hs
      have hc : answers (mid'.concat a) = answers mid' := by
        rw [List.concat_eq_append, answers, List.countP_append]
        show answers mid' + answers [a] = _
        rw [answers_none hr]; rfl
      rw [hc]; exact this

/-- as `Since`, with the number of answers. -/
def SinceN (g : List (Act F)) (src : Src) (m : List Byte) (n : Nat) (g' : List (Act F)) : Prop := ∃ x, g' = g ++ .out (.ghost src m) :: x ∧ (∀ a ∈ x, ¬ BeginsI a) ∧ answers x = n

theorem SinceN.act {g g' : List (Act F)} {src : Src} {m : List Byte} {n : Nat} (h : SinceN g src m n g') {a : Act F} (ha : ¬ BeginsI a) :
    SinceN g src m (n + answers [a]) (ansUpd g' a) := by
  obtain ⟨x, rfl, hx, hn⟩ := h
  refine ⟨x ++ [a], by simp [ansUpd], ?_, by rw [← hn, answers, List.countP_append]; rfl⟩
  intro b hb
  rcases List.mem_append.1 hb with hb | hb
  · exact hx b hb
  · simp at hb; subst hb; exact ha

theorem SinceN.replied {g g' : List (Act F)} {src : Src} {m : List Byte} {n : Nat} (h : SinceN g src m n g')
    (hn : ∀ cs, Simple cs → m = text cs → ((∃ c, cs.getLast? = some c ∧ Question c) → n = 1) ∧ ((¬ ∃ c, cs.getLast? = some c ∧ Question c) → n = 0)) : Replied g' := by
  obtain ⟨x, rfl, hx, rfl⟩ := h
  intro a0 src' cs mid e hmid hs
  obtain ⟨rfl, e2, rfl⟩ := last_begin hx hmid ⟨_, _, rfl⟩ ⟨_, _, rfl⟩ e
  simp at e2
  exact hn cs hs e2.2

theorem rep_inv (cfg : Cfg F) : CoreInv cfg repMon (fun g _ => Replied g) (fun g _ => Replied g) where
  flt _ := trivial
  weak _ _ h := h
  disp g c a h ha := ⟨by rintro ⟨_, _, rfl⟩; exact ha.elim, h.act (by rintro ⟨_, _, rfl⟩; exact ha) (by rintro _ _ rfl; exact ha)⟩
  dispJ g c a h ha := ⟨by rintro ⟨_, _, rfl⟩; exact ha.elim, h.act (by rintro ⟨_, _, rfl⟩; exact ha) (by rintro _ _ rfl; exact ha)⟩
  rc g c h := wp_mono (fun _ _ h => h.1) (ans_keep (RC.process_only cfg.toRCfg c.rc) Replied g h
    (fun g a h ha => ⟨by rintro ⟨_, _, rfl⟩; exact ha.elim, h.act (by rintro ⟨_, _, rfl⟩; exact ha) (by rintro _ _ rfl; exact ha)⟩) (fun _ => trivial))
  check g c h := wp_mono (fun _ _ h => h.1) (ans_keep (mrilProcess_only c) Replied g h
    (fun g a h ha => ⟨by rintro ⟨_, _, rfl⟩; exact ha.elim, h.act (by rintro ⟨_, _, rfl⟩; exact ha) (by rintro _ _ rfl; exact ha)⟩) (fun _ => trivial))
  parse g c m src h := by
    have h : Replied g := by split at h; · exact h
                             · exact h.1
    refine ⟨fun _ => h, ?_⟩
    have hu : ansUpd g (.out (.ghost src m)) = g ++ [.out (.ghost src m)] := by simp [ansUpd, setupRead]
    show Prog.wp _ _ _ (ansUpd g (.out (.ghost src m)))
    rw [hu]
    have h0 : SinceN g src m 0 (g ++ [.out (.ghost src m)]) := ⟨[], rfl, by simp, rfl⟩
    by_cases hcs : ∃ cs, Simple cs ∧ m = text cs
    · obtain ⟨cs, hs, rfl⟩ := hcs
      have hun : ∀ {cs'}, Simple cs' → text cs = text cs' → cs' = cs := fun hs' e => (text_inj hs.ok hs'.ok e).symm
      by_cases hne : cs = []
      · subst hne
        refine h0.replied fun cs' hs' e => ?_
        rw [hun hs' e]
        exact ⟨fun ⟨_, h, _⟩ => by simp at h, fun _ => rfl⟩
      · rw [parse_text cfg cs hs.ok hne, wp_bind]
        refine wp_mono ?_ (ans_keep (execAll_kind cfg cs (simple_each hs) { c with rc := c.rc.startTransaction } {} hne) (fun g' => SinceN g src (text cs) 0 g') _ h0 ?_ (fun _ => trivial))
        · rintro g' ⟨s, l⟩ ⟨hg, h1⟩
          unfold Mril.finish
          simp only [send, bind_def, Prog.bind]
          split
          · rename_i hl
            refine ⟨(by rintro ⟨_, _, h⟩; cases h), ?_⟩
            refine (hg.act (by rintro ⟨_, _, h⟩; cases h)).replied fun cs' hs' e => ?_
            rw [hun hs' e]
            exact ⟨fun _ => rfl, fun hn => absurd (h1.1 hl) hn⟩
          · rename_i hl
            refine hg.replied fun cs' hs' e => ?_
            rw [hun hs' e]
            exact ⟨fun hq => absurd (h1.2 hq) (by simp [hl]), fun _ => rfl⟩
          · rename_i hl
            refine hg.replied fun cs' hs' e => ?_
            rw [hun hs' e]
            exact ⟨fun hq => absurd (h1.2 hq) (by simp [hl]), fun _ => rfl⟩
        · intro g' a hg ha
          have := hg.act (mrilAct_noBegin ha.1)
          rw [answers_none ha.2] at this
          exact ⟨fun hb => absurd hb (mrilAct_noBegin ha.1), this⟩
    · refine wp_mono ?_ (ans_keep (parse_only cfg c m) (fun g' => Since g src m g') _ ⟨[], rfl, by simp⟩ ?_ (fun _ => trivial))
      · rintro g' c' ⟨⟨x, rfl, hx⟩, _⟩
        intro a0 src' cs mid e hmid hs
        obtain ⟨_, e2, _⟩ := last_begin hx hmid ⟨_, _, rfl⟩ ⟨_, _, rfl⟩ e
        simp at e2
        exact absurd ⟨cs, hs, e2.2⟩ hcs
      · intro g' a hg ha
        exact ⟨fun hb => absurd hb (mrilAct_noBegin ha), hg.act (mrilAct_noBegin ha)⟩

/-- **C99** (if the question is the last command; otherwise the claim is false, see below): between the start of an instruction and the start of the next one, exactly one answer is sent if
the instruction ends with a question, and none if it does not. -/
theorem C99_answered_partial {cfg : Cfg F} {junk : Nat → Byte} {tr : List (Act F)} {p : Prog F (FW F)} (h : Trace cfg junk tr p) {a0 mid post : List (Act F)} {src src' : Src} {cs : List Cmd}
    {m' : List Byte} (e : tr = a0 ++ .out (.ghost src (text cs)) :: mid ++ .out (.ghost src' m') :: post) (hmid : ∀ a ∈ mid, ¬ BeginsI a) (hcs : Simple cs) :
    ((∃ c, cs.getLast? = some c ∧ Question c) → answers mid = 1) ∧ ((¬ ∃ c, cs.getLast? = some c ∧ Question c) → answers mid = 0) := by
  have h1 := ((rep_inv cfg).sound [] junk (fun _ _ _ _ _ => ?_) (fun _ _ => rfl) (fun _ => rfl) h (fun _ _ _ _ _ => trivial)).1 _ _ _ e rfl ⟨_, _, rfl⟩
  · obtain ⟨d, hd, e2⟩ := ans_state (a0 ++ .out (.ghost src (text cs)) :: mid)
    obtain ⟨a1, e3, e4⟩ := begin_after hd e2
    exact h1 a1 src cs mid e4 hmid hcs
  · intro a0 src cs mid e
    simp at e

/-- the movement method is known as long as all instructions are simple. -/
theorem methodIs_exists {tr : List (Act F)} (h : ∀ src m, .out (.ghost src m) ∈ tr → ∃ cs, Simple cs ∧ m = text cs) : ∃ k, MethodIs tr k := by
  induction tr using List.reverseRecOn with
  | nil => exact ⟨1, .boot⟩
  | append_singleton tr a ih =>
    obtain ⟨k, hk⟩ := ih fun src m hm => h src m (List.mem_append_left _ hm)
    by_cases ha : BeginsI a
    · obtain ⟨src, m, rfl⟩ := ha
      obtain ⟨cs, hs, rfl⟩ := h src m (by simp)
      exact ⟨_, .instr hk hs⟩
    · exact ⟨k, .act hk ha⟩

section
open Mrc.Demo

def questions : List Cmd := [⟨78, str "7"⟩, ⟨77, []⟩, ⟨77, str "0"⟩, ⟨82, str "2"⟩, ⟨77, []⟩, ⟨86, []⟩]

theorem questions_simple : Simple questions where
  ok c hc := by
    have : ∀ c ∈ questions, (65 ≤ c.letter.toNat ∧ c.letter.toNat ≤ 90) ∧ (∀ b ∈ c.arg, argChar b = true) ∧ c.arg.length ≤ 18 := by decide
    exact ⟨(this c hc).1, (this c hc).2.1, (this c hc).2.2⟩
  axis c hc h := by
    have : ∀ c ∈ questions, c.letter = 82 → c.arg = [digitChar 2] := by decide
    exact ⟨2, [], this c hc h⟩
  method c hc h := by
    have : ∀ c ∈ questions, c.letter = 77 → c.arg = [] ∨ c.arg = [digitChar 0] := by decide
    exact (this c hc h).imp id fun e => ⟨0, e⟩

/-- C98: the kit is asked for method, angle of axis 2, method again and speed; the method is changed in between (power-up: linear, speed 10). -/
example : text questions = str "N7MM0R2MV" ∧
    (msgs (kit ":EN7MM0R2MV\x0d" 2).1).map (Msg.text fun x : Rat => if x = 10 then str "10.00" else if x = 0 then str "0.00" else str "?") = [str "N07", str "N17 M1R20.00M0V10.00"] ∧
    asked 1 questions = [(str "M", some 1), (str "R2", none), (str "M", some 0), (str "V", none)] ∧ numberOf questions = 7 := by
  decide +kernel

/-- C99 is false when a question is followed by something else: the question for the speed is not answered (the number is acknowledged and the speed is set). -/
theorem C99_answered_false : (msgs (kit ":EN7VV50\x0d" 3).1).map (Msg.text fun x : Rat => if x = 10 then str "10.00" else str "50.00") = [str "N07", str "N17"] ∧
    (msgs (kit ":EN7VV50\x0d:EN8V\x0d" 3).1).map (Msg.text fun x : Rat => if x = 10 then str "10.00" else str "50.00") = [str "N07", str "N08", str "N18 V50.00", str "N17"] := by
  decide +kernel
end

end Mrc.Props
