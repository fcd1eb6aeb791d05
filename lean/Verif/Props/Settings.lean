import Verif.Spec.Settings
import Verif.Props.InForce
import Verif.Props.Asked
import Verif.Props.ReadOff
/-
C125: what is answered for M and V is what is in force.
-/
set_option linter.unusedSectionVars false
set_option linter.unusedSimpArgs false
namespace Mrc.Props
open Mrc Mrc.Prog Mrc.Spec Mrc.Told Mrc.Rest

section
variable {F : Type} [FloatOps F]

/-! ### commands -/

set_option maxHeartbeats 1000000 in
theorem exec_set_other (cfg : Cfg F) (s : Core F) (l : Loc F) (tok : List Byte) :
    (Mril.exec cfg s l tok).only (fun _ => True) (fun r => tok.headD 0 = 77 ∨ tok.headD 0 = 86 ∨ r.2.resp.filterMap Part.setting = l.resp.filterMap Part.setting) := by
  exec_leaves
  all_goals simp only [Prog.bind, only, true_and, forall_const]
  all_goals first
    | exact .inl ‹_›
    | exact .inr (.inl ‹_›)
    | exact .inr (.inr rfl)
    | exact fun _ => .inr (.inr rfl)
    | exact fun _ _ _ _ _ _ => .inr (.inr rfl)
    | exact .inr (.inr (by simp [Part.setting]))
    | exact fun _ => .inr (.inr (by simp [Part.setting]))
    | exact fun _ _ _ _ _ _ => .inr (.inr (by simp [Part.setting]))
    | trivial

theorem exec_set (cfg : Cfg F) (s : Core F) (l : Loc F) (c : Cmd) {k : ℕ} {v : Option (List Byte)} (h : Has k v s.rc) :
    (Mril.exec cfg s l c.text).only (fun _ => True) (fun r => r.2.resp.filterMap Part.setting = l.resp.filterMap Part.setting ++ (settingBy k v c).map Setting.inNumbers) := by
  obtain ⟨letter, arg⟩ := c
  obtain ⟨h1, h2⟩ := h
  have e : (speedIn v : F) = speedOf v := by cases v <;> rfl
  by_cases h7 : letter = 77
  · subst h7
    cases arg with
    | nil => simp [Mril.exec, Cmd.text, only, settingBy, Part.setting, Setting.inNumbers, h1]
    | cons b bs =>
      simp only [Mril.exec, Cmd.text, List.headD_cons, if_true, show (77 : Byte) ≠ 78 by decide, if_false, List.length_cons, show ¬ (bs.length + 1 + 1 = 1) by omega, reduceCtorEq]
      split
      · simp [only, settingBy]
      · split <;> simp [only, settingBy]
  · by_cases h8 : letter = 86
    · subst h8
      cases arg with
      | nil => simp [Mril.exec, Cmd.text, only, settingBy, Part.setting, Setting.inNumbers, h2, e]
      | cons b bs => simp [Mril.exec, Cmd.text, only, doMicro, bind_def, Prog.bind, pure_def, RC.setMaxVelocity, settingBy]
    · refine only_mono (fun _ h => h) (fun r hr => ?_) (exec_set_other cfg s l _)
      rcases hr with hr | hr | hr
      · exact absurd hr h7
      · exact absurd hr h8
      · rw [hr]; simp [settingBy, h7, h8]

/-- accesses other than answers and beginnings. -/
theorem exec_noReply (cfg : Cfg F) (s : Core F) (l : Loc F) (tok : List Byte) : (Mril.exec cfg s l tok).only (fun a => ¬ BeginsI a ∧ ∀ num ps, a ≠ .out (.msg (.reply num ps))) (fun _ => True) := by
  exec_leaves
  all_goals simp [Prog.bind, only, BeginsI]

theorem only_all {α ι : Type} {p : Prog F α} {K : Act F → Prop} {R : ι → α → Prop} (h0 : p.only K (fun _ => True)) (h : ∀ i, p.only (fun _ => True) (R i)) : p.only K (fun a => ∀ i, R i a) := by
  induction p with
  | ret a => exact fun i => h i
  | fault f => trivial
  | servo i k ih => exact fun v => ⟨(h0 v).1, ih v (h0 v).2 fun i => (h i v).2⟩
  | micro i m k ih => exact ⟨h0.1, ih h0.2 fun i => (h i).2⟩
  | now k ih => exact fun v => ⟨(h0 v).1, ih v (h0 v).2 fun i => (h i v).2⟩
  | pin p k ih => exact fun v => ⟨(h0 v).1, ih v (h0 v).2 fun i => (h i v).2⟩
  | rx k ih => exact fun v => ⟨(h0 v).1, ih v (h0 v).2 fun i => (h i v).2⟩
  | eeRead k ih => exact fun v => ⟨(h0 v).1, ih v (h0 v).2 fun i => (h i v).2⟩
  | eeWrite a b k ih => exact ⟨h0.1, ih h0.2 fun i => (h i).2⟩
  | out o k ih => exact ⟨h0.1, ih h0.2 fun i => (h i).2⟩

def silent (a : Act F) : Prop := ¬ BeginsI a ∧ ∀ num ps, a ≠ .out (.msg (.reply num ps))

theorem execAll_silent (cfg : Cfg F) (cs : List Cmd) (s : Core F) (l : Loc F) : (execAll cfg cs s l).only silent (fun _ => True) := by
  induction cs generalizing s l with
  | nil => trivial
  | cons c cs ih =>
    simp only [execAll]
    rw [only_bind]
    exact only_mono (fun _ h => h) (fun r _ => ih r.1 r.2) (exec_noReply cfg s l c.text)

theorem execAll_set (cfg : Cfg F) (cs : List Cmd) (hM : ClearM cs) (s : Core F) (l : Loc F) {k : ℕ} {v : Option (List Byte)} (h : Has k v s.rc) :
    (execAll cfg cs s l).only (fun _ => True) (fun r => r.2.resp.filterMap Part.setting = l.resp.filterMap Part.setting ++ (settings k v cs).map Setting.inNumbers) := by
  induction cs generalizing s l k v with
  | nil => simp [execAll, only, settings]
  | cons c cs ih =>
    simp only [execAll]
    rw [only_bind]
    refine only_mono (fun _ h => h) (fun r hr => ?_) (only_and (exec_has cfg s l c (hM c (by simp)) h) (exec_set cfg s l c h))
    refine only_mono (fun _ h => h) (fun r' hr' => ?_) (ih (fun x hx => hM x (by simp [hx])) r.1 r.2 hr.1)
    rw [hr', hr.2]
    simp [settings]

/-! ### histories -/

/-- what a history says is in force. -/
theorem inForce_split {pre mid : List (Act F)} (h : ∀ a ∈ mid, ¬ BeginsI a) {x : Act F} {G : ℕ → Option (List Byte) → Prop} :
    (pre ++ x :: mid).foldl gupd G = gupd (pre.foldl gupd G) x := by
  rw [List.foldl_append, List.foldl_cons]
  generalize gupd (pre.foldl gupd G) x = G'
  induction mid with
  | nil => rfl
  | cons a mid ih =>
    have hg : ¬ isGhost a := fun hg => by
      match a, hg with
      | .out (.ghost src m), _ => exact h _ (by simp) ⟨src, m, rfl⟩
    rw [List.foldl_cons, gupd_other hg, ih fun b hb => h b (by simp [hb])]

abbrev StQ := (ℕ → Option (List Byte) → Prop) × Option ((ℕ → Option (List Byte) → Prop) × List Byte)

/-- the state: what is in force, and what was when the last instruction began, with this instruction. -/
def setUpd (g : StQ) (a : Act F) : StQ :=
  (gupd g.1 a, match a with | .out (.ghost _ m) => some (g.1, m) | _ => g.2)

def FitSet (g : StQ) (ps : List (Part F)) : Prop :=
  ∀ G m, g.2 = some (G, m) → ∀ cs k v, m = text cs → Named cs → G k v → ps.filterMap Part.setting = (settings k v cs).map Setting.inNumbers

def setMon : Mon F StQ where
  upd := setUpd
  ok g a := ∀ num ps, a = .out (.msg (.reply num ps)) → FitSet g ps

def SetOk (g : StQ) (c : Core F) : Prop := ∀ k v, g.1 k v → Has k v c.rc

theorem setUpd_other {g : StQ} {a : Act F} (h : ¬ BeginsI a) : setUpd g a = g := by
  have hg : ¬ isGhost a := fun hg => by
    match a, hg with
    | .out (.ghost src m), _ => exact h ⟨src, m, rfl⟩
  unfold setUpd
  rw [gupd_other hg]
  split
  · exact absurd trivial hg
  · rfl

theorem set_inv (cfg : Cfg F) : CoreInv cfg (setMon (F := F)) SetOk SetOk where
  flt _ := trivial
  weak _ _ h := h
  disp g c a h ha := ⟨by rintro num ps rfl; exact ha.elim, by show SetOk (setUpd g a) c; rw [setUpd_other (by rintro ⟨_, _, rfl⟩; exact ha)]; exact h⟩
  dispJ g c a h ha := ⟨by rintro num ps rfl; exact ha.elim, by show SetOk (setUpd g a) c; rw [setUpd_other (by rintro ⟨_, _, rfl⟩; exact ha)]; exact h⟩
  rc g c h := by
    refine wp_mono ?_ (ans_keep (RC.process_only cfg.toRCfg c.rc) (fun g => SetOk g c) g h ?_ (fun _ => trivial))
    · rintro g' r ⟨h1, h2⟩ k v hk
      obtain ⟨x1, x2⟩ := h1 k v hk
      exact ⟨by show r.method.code = k; rw [h2.2.1]; exact x1, by show r.maxVelocity = _; rw [h2.2.2]; exact x2⟩
    · intro g a h ha
      exact ⟨by rintro num ps rfl; exact ha.elim, by show SetOk (setUpd g a) c; rw [setUpd_other (by rintro ⟨_, _, rfl⟩; exact ha)]; exact h⟩
  check g c h := by
    refine wp_mono ?_ (ans_keep (mrilProcess_only c) (fun g => SetOk g c) g h ?_ (fun _ => trivial))
    · rintro g' r ⟨h1, h2⟩ k v hk
      rw [h2.1]; exact h1 k v hk
    · intro g a h ha
      exact ⟨by rintro num ps rfl; exact ha.elim, by show SetOk (setUpd g a) c; rw [setUpd_other (by rintro ⟨_, _, rfl⟩; exact ha)]; exact h⟩
  parse g c m src h := by
    have h : SetOk g c := by split at h; · exact h
                             · exact h.1
    refine ⟨by rintro num ps ⟨⟩, ?_⟩
    show Prog.wp _ _ _ (setUpd g (.out (.ghost src m)))
    have hu : setUpd g (.out (.ghost src m) : Act F) = (gupd g.1 (.out (.ghost src m) : Act F), some (g.1, m)) := rfl
    rw [hu]
    by_cases hcs : ∃ cs, m = text cs ∧ Named cs
    · obtain ⟨cs, rfl, hs⟩ := hcs
      have hun : ∀ {cs'}, (∀ c ∈ cs', c.Ok) → text cs = text cs' → cs' = cs := fun hs' e => (text_inj hs.1 hs' e).symm
      rw [parse_text cfg cs hs.1 hs.2.1, wp_bind]
      refine wp_mono ?_ (ans_keep (only_all (execAll_silent cfg cs { c with rc := c.rc.startTransaction } {}) fun x : {x : ℕ × Option (List Byte) // g.1 x.1 x.2} => only_and
        (execAll_has cfg cs hs.2.2 { c with rc := c.rc.startTransaction } {} (k := x.1.1) (v := x.1.2) (h _ _ x.2))
        (execAll_set cfg cs hs.2.2 { c with rc := c.rc.startTransaction } {} (k := x.1.1) (v := x.1.2) (h _ _ x.2))) (fun g' => g' = setUpd g (.out (.ghost src (text cs)) : Act F)) _ rfl ?_ (fun _ => trivial))
      · rintro g' ⟨s, l⟩ ⟨rfl, h1⟩
        have hI : SetOk (setUpd g (.out (.ghost src (text cs)) : Act F)) s := by
          rintro k v ⟨cs', k0, v0, e, g1, -, -, g2, rfl, rfl⟩
          rw [hun g1 e]
          exact (h1 ⟨(k0, v0), g2⟩).1
        unfold Mril.finish
        simp only [send, bind_def, Prog.bind]
        split
        · refine ⟨?_, ?_⟩
          · intro num ps e; simp at e
            obtain ⟨rfl, rfl⟩ := e
            intro G m e cs' k v e' hs' hk
            simp only [hu, Option.some.injEq, Prod.mk.injEq] at e
            obtain ⟨rfl, rfl⟩ := e
            rw [hun hs'.1 e']
            exact (h1 ⟨(k, v), hk⟩).2
          · exact hI
        · exact hI
        · exact hI
      · rintro g' a rfl ha
        exact ⟨fun num ps e => absurd e (ha.2 num ps), setUpd_other ha.1⟩
    · refine wp_mono ?_ (ans_keep (parse_only cfg c m) (fun g' => g' = setUpd g (.out (.ghost src m) : Act F)) _ rfl ?_ (fun _ => trivial))
      · rintro g' c' ⟨rfl, -⟩ k v ⟨cs', k0, v0, e, g1, g2, g3, -⟩
        exact absurd ⟨cs', e, g1, g2, g3⟩ hcs
      · rintro g' a rfl ha
        refine ⟨fun num ps e => ?_, setUpd_other (mrilAct_noBegin ha)⟩
        rintro G m' e' cs' k v rfl hs' hk
        cases e'
        exact absurd ⟨cs', rfl, hs'⟩ hcs

theorem setUpd_fst (tr : List (Act F)) (g : StQ) : (tr.foldl setUpd g).1 = tr.foldl gupd g.1 := by
  induction tr generalizing g with
  | nil => rfl
  | cons a tr ih => rw [List.foldl_cons, List.foldl_cons, ih]; rfl

theorem setUpd_mid {mid : List (Act F)} (h : ∀ a ∈ mid, ¬ BeginsI a) (g : StQ) : mid.foldl setUpd g = g := by
  induction mid with
  | nil => rfl
  | cons a mid ih => rw [List.foldl_cons, setUpd_other (h a (by simp)), ih fun b hb => h b (by simp [hb])]

theorem methodIs_of_inForce {tr : List (Act F)} {k : ℕ} {v : Option (List Byte)} (h : InForce tr k v) (hs : ∀ src m, .out (.ghost src m) ∈ tr → ∃ cs, Simple cs ∧ m = text cs) : MethodIs tr k := by
  induction h with
  | boot => exact .boot
  | act _ ha ih => exact .act (ih fun src m hm => hs src m (by simp [hm])) ha
  | @instr _ _ _ src cs _ h1 h2 h3 ih =>
    obtain ⟨cs', h4, h5⟩ := hs src (text cs) (by simp)
    have := text_inj h1 h4.ok h5
    subst this
    exact .instr (ih fun src m hm => hs src m (by simp [hm])) h4

/-- **C125**: in every history, whatever the arithmetic, the answer of an instruction says for M and V, in the order of the questions, the movement method and the speed in force at that point:
what was named last, in this instruction or before, or else what is in force at power-up. -/
theorem C125_true {cfg : Cfg F} {junk : Nat → Byte} {tr : List (Act F)} {p : Prog F (FW F)} (h : Trace cfg junk tr p) {a0 mid post : List (Act F)} {src : Src} {cs : List Cmd}
    {num : Option Int} {ps : List (Part F)} (e : tr = a0 ++ .out (.ghost src (text cs)) :: mid ++ .out (.msg (.reply num ps)) :: post) (hmid : ∀ a ∈ mid, ¬ BeginsI a) (hcs : Named cs)
    {k : ℕ} {v : Option (List Byte)} (hk : InForce a0 k v) : ps.filterMap Part.setting = (settings k v cs).map Setting.inNumbers := by
  refine ((set_inv cfg).sound ((fun k v => k = 1 ∧ v = none), none) junk (fun _ _ _ _ _ => by rintro k v ⟨rfl, rfl⟩; exact ⟨rfl, rfl⟩) (fun _ _ => rfl) (fun _ => rfl) h (fun _ _ _ _ _ => trivial)).1 _ _ _ e rfl num ps rfl
    (a0.foldl gupd fun k v => k = 1 ∧ v = none) (text cs) ?_ cs k v rfl hcs (inForce_state hk)
  show (List.foldl setUpd _ _).2 = _
  rw [List.foldl_append, List.foldl_cons, setUpd_mid hmid]
  show some ((List.foldl setUpd _ _).1, _) = _
  rw [setUpd_fst]
end

section
variable {w0 : World XR} (hw : w0.servos = Kit.servos) {junk : Nat → Byte} {σ : ℕ → Sys XR} {ev : ℕ → Ev XR} (h : Endless Kit.cfg w0 junk σ ev)
  (hmem : CarefulStorage w0.ee) (hc : ∀ n, WellSent (w0.rxq ++ arrivals (sofar ev n))) {fl : XR → List Byte} (hfl : TwoDecimals fl)
include hw h hmem hc hfl

/-- **C125**: the kit over the exact numbers, a careful host. An instruction that ends with a question is answered before anything else begins; in the bytes received the host reads what it asked for,
with the movement method in force, and the speed in force to half of the second decimal. -/
theorem C125_read {q : ℕ} {src : Src} {qs : List Cmd} (hq : ev q = .act (.out (.ghost src (text qs)))) (hs : Simple qs) (hN : Named qs) (hl : ∃ c, qs.getLast? = some c ∧ Question c)
    (hsim : ∀ src m, .out (.ghost src m) ∈ acts (sofar ev q) → ∃ cs, Simple cs ∧ m = text cs) {k : ℕ} {v : Option (List Byte)} (hf : InForce (acts (sofar ev q)) k v) :
    ∃ j num vs, q < j ∧ (∀ i, q < i → i < j → ¬ Begins ev i) ∧ lastRead (received fl ev (j + 1)) = some (.answer num vs) ∧ vs.map Prod.fst = (Spec.asked k qs).map Prod.fst ∧
      List.Forall₂ ReadAs (settings k v qs) (named vs) := by
  obtain ⟨j, num, ps, h1, h2, h3, h4, h5⟩ := C117_answered h hq hs hl (methodIs_of_inForce hf hsim)
  obtain ⟨r, g1, g2, g3, g4⟩ := C124_read hw h hmem hc hfl h2
  refine ⟨j, num, _, h1, h3, g4, ?_, ?_⟩
  · rw [← h4, List.map_map, List.map_map]
    refine List.map_congr_left fun q _ => ?_
    cases q <;> rfl
  have hs := Rest.acts_between h1 hq h2
  have key := C125_true (h.run (j + 1)).trace (post := []) (by rw [hs]) ?_ hN hf
  · clear h4 h5 g4 hs h2
    generalize settings k v qs = S at key
    induction ps generalizing S with
    | nil =>
      cases S with
      | nil => exact .nil
      | cons a S => cases key
    | cons p ps ih =>
      replace ih := @ih (fun q hq => g2 q (by simp [hq])) (fun q hq => g3 q (by simp [hq]))
      have other : Part.setting p = none → (Part.field r p).1 ≠ [77] ∧ (Part.field r p).1 ≠ [86] → List.Forall₂ ReadAs S (named ((p :: ps).map (Part.field r))) := fun h1 h2 => by
        rw [List.map_cons, named, List.filter_cons, if_neg (by simp [h2])]
        refine ih S ?_
        rwa [List.filterMap_cons, h1] at key
      have here : ∀ x, Part.setting p = some x → (∀ s, Setting.inNumbers s = x → ReadAs s (Part.field r p)) → (Part.field r p).1 = [77] ∨ (Part.field r p).1 = [86] →
          List.Forall₂ ReadAs S (named ((p :: ps).map (Part.field r))) := fun x h1 h2 h3 => by
        rw [List.map_cons, named, List.filter_cons, if_pos (by simpa using h3)]
        rw [List.filterMap_cons, h1] at key
        cases S with
        | nil => cases key
        | cons a S =>
          rw [List.map_cons, List.cons.injEq] at key
          exact .cons (h2 a key.1.symm) (ih S key.2)
      cases p with
      | method c =>
        refine here _ rfl (fun s e => ?_) (.inl rfl)
        cases s with
        | method k => cases e; rfl
        | speed v => cases e
      | velocity x =>
        refine here _ rfl (fun s e => ?_) (.inr rfl)
        cases s with
        | method k => cases e
        | speed v =>
          obtain ⟨y, rfl⟩ := g2 (.velocity x) (by simp)
          refine ⟨rfl, fun V hV => ?_⟩
          have e1 : (speedIn v : XR) = .fin (V : ℝ) := by rw [← speedOf_fin hV]; cases v <;> rfl
          have e2 : (speedIn v : XR) = .fin y := by injection e
          rw [e1] at e2; cases e2
          exact g1 _
      | pose sym x =>
        obtain ⟨i, e⟩ : ∃ i, sym = poseLetter i := by
          have hg : (poseIdx sym).isSome := g3 (.pose sym x) (by simp)
          obtain ⟨i, hi⟩ := Option.isSome_iff_exists.1 hg
          exact ⟨i, letter_of_poseIdx hi⟩
        refine other rfl ?_
        subst e
        have : ∀ i, poseLetter i ≠ 77 ∧ poseLetter i ≠ 86 := by decide
        simpa [Part.field] using this i
      | angle o x => exact other rfl (by simp [Part.field])
  · rintro a ha ⟨s, m, rfl⟩
    obtain ⟨i, x1, x2, x3⟩ := mem_span.1 (acts_mem.1 ha)
    exact h3 i (by omega) (by omega) ⟨s, m, x3⟩
end

end Mrc.Props
