import Verif.Props.Pins
/-
A general form of the argument of C126: what instructions do (a kind of accesses, one list of them per command) is done exactly, in order, between their beginning and the next one.
-/
set_option linter.unusedSectionVars false
set_option linter.unusedSimpArgs false
namespace Mrc.Does
open Mrc Mrc.Prog Mrc.Spec Mrc.Rest Mrc.Props

section
variable {F : Type} [FloatOps F] {O : Type} (op : Act F → Option O) (of : Cmd → List O)

/-- everything of the kind that was done. -/
def ops (tr : List (Act F)) : List O := tr.filterMap op

abbrev St (O : Type) := List O × Option (List Byte)

def upd (g : St O) (a : Act F) : St O :=
  match a with
  | .out (.ghost _ m) => ([], some m)
  | a => (g.1 ++ (op a).toList, g.2)

/-- `todo` remains to be done. -/
def Left (todo : List O) (g : St O) : Prop :=
  (g.2 = none → g.1 = [] ∧ todo = []) ∧ ∀ cs, (∀ c ∈ cs, c.Ok) → g.2 = some (text cs) → g.1 ++ todo = cs.flatMap of

def mon : Mon F (St O) where
  upd := upd op
  ok g a := (BeginsI a → Left of [] g) ∧ ∀ o, op a = some o → g.2 ≠ none ∧ ∀ cs, (∀ c ∈ cs, c.Ok) → g.2 = some (text cs) → g.1 ++ [o] <+: cs.flatMap of

/-- the kind is one that only the commands of an instruction do, and each does its list. -/
structure Kind (cfg : Cfg F) : Prop where
  begins : ∀ src m, op (.out (.ghost src m)) = none
  msg : ∀ m, op (.out (.msg m)) = none
  input : ∀ a o, op a = some o → a.isInput = false
  disp : ∀ a, dispAct a → op a = none
  rc : ∀ a, rcAct a → op a = none
  check : ∀ a, checkAct a → op a = none
  exec : ∀ s l (c : Cmd) todo g, c.Ok → Left of (of c ++ todo) g → (Mril.exec cfg s l c.text).wp (mon op of) (fun g' _ => Left of todo g') g

variable {op of}

theorem upd_other {g : St O} {a : Act F} (h : ¬ BeginsI a) (h' : op a = none) : upd op g a = g := by
  unfold upd
  split
  · exact absurd ⟨_, _, rfl⟩ h
  · rw [h']; simp

theorem upd_op {g : St O} {a : Act F} {o : O} (hb : ¬ BeginsI a) (h' : op a = some o) : upd op g a = (g.1 ++ [o], g.2) := by
  unfold upd
  split
  · exact absurd ⟨_, _, rfl⟩ hb
  · rw [h']; rfl

theorem keep {α : Type} {p : Prog F α} (h : p.only (fun a => ¬ BeginsI a ∧ op a = none) (fun _ => True)) (g : St O) : p.wp (mon op of) (fun g' _ => g' = g) g :=
  wp_mono (fun _ _ h => h.1) (ans_keep h (fun g' => g' = g) g rfl
    (fun s a e ha => ⟨⟨fun hb => absurd hb ha.1, fun o ho => by rw [ha.2] at ho; cases ho⟩, by rw [← e]; exact upd_other ha.1 ha.2⟩) (fun _ => trivial))

theorem Left.does {o : O} {todo : List O} {g : St O} {a : Act F} (h : Left of (o :: todo) g) (hb : ¬ BeginsI a) (ha : op a = some o) :
    (mon op of).ok g a ∧ Left of todo (upd op g a) := by
  rw [upd_op hb ha]
  refine ⟨⟨fun hb' => absurd hb' hb, ?_⟩, ?_, ?_⟩
  · intro o' ho
    rw [ha] at ho; cases ho
    refine ⟨fun e => by simpa using (h.1 e).2, fun cs h1 h2 => ⟨todo, ?_⟩⟩
    rw [← h.2 cs h1 h2]; simp
  · intro e; exact absurd (h.1 e).2 (by simp)
  · intro cs h1 h2
    rw [← h.2 cs h1 h2]; simp

theorem execAll_does {cfg : Cfg F} (K : Kind op of cfg) (cs : List Cmd) (hok : ∀ c ∈ cs, c.Ok) (s : Core F) (l : Loc F) (g : St O) (h : Left of (cs.flatMap of) g) :
    (execAll cfg cs s l).wp (mon op of) (fun g' _ => Left of [] g') g := by
  induction cs generalizing s l g with
  | nil => exact h
  | cons c cs ih =>
    simp only [execAll]
    rw [wp_bind]
    exact wp_mono (fun g' r hr => ih (fun d hd => hok d (by simp [hd])) r.1 r.2 g' hr) (K.exec s l c _ g (hok c (by simp)) (by simpa using h))

theorem does_inv {cfg : Cfg F} (K : Kind op of cfg) : CoreInv cfg (mon op of) (fun g _ => Left of [] g) (fun g _ => Left of [] g) where
  flt _ := trivial
  weak _ _ h := h
  disp g c a h ha := by
    have hb : ¬ BeginsI a := by rintro ⟨_, _, rfl⟩; exact ha
    exact ⟨⟨fun hb' => absurd hb' hb, fun o ho => by rw [K.disp a ha] at ho; cases ho⟩, by show Left _ _ (upd op g a); rw [upd_other hb (K.disp a ha)]; exact h⟩
  dispJ g c a h ha := by
    have hb : ¬ BeginsI a := by rintro ⟨_, _, rfl⟩; exact ha
    exact ⟨⟨fun hb' => absurd hb' hb, fun o ho => by rw [K.disp a ha] at ho; cases ho⟩, by show Left _ _ (upd op g a); rw [upd_other hb (K.disp a ha)]; exact h⟩
  rc g c h := by
    refine wp_mono ?_ (keep (only_mono (fun a ha => ?_) (fun _ _ => trivial) (RC.process_only cfg.toRCfg c.rc)) g)
    · rintro g' r rfl; exact h
    · exact ⟨by rintro ⟨_, _, rfl⟩; exact ha, K.rc a ha⟩
  check g c h := by
    refine wp_mono ?_ (keep (only_mono (fun a ha => ?_) (fun _ _ => trivial) (mrilProcess_only c)) g)
    · rintro g' r rfl; exact h
    · exact ⟨by rintro ⟨_, _, rfl⟩; exact ha, K.check a ha⟩
  parse g c m src h := by
    have h : Left of [] g := by split at h; · exact h
                                · exact h.1
    refine ⟨⟨fun _ => h, fun o ho => by rw [K.begins] at ho; cases ho⟩, ?_⟩
    show Prog.wp _ _ _ (([], some m) : St O)
    by_cases hcs : ∃ cs, (∀ c ∈ cs, c.Ok) ∧ m = text cs
    · obtain ⟨cs, hs, rfl⟩ := hcs
      have hun : ∀ {cs'}, (∀ c ∈ cs', c.Ok) → text cs = text cs' → cs' = cs := fun hs' e => (text_inj hs hs' e).symm
      have h0 : Left of (cs.flatMap of) (([], some (text cs)) : St O) :=
        ⟨fun e => (by cases e), fun cs' h1 h2 => by rw [hun h1 (Option.some.inj h2)]; rfl⟩
      by_cases hne : cs = []
      · subst hne; exact h0
      · rw [parse_text cfg cs hs hne, wp_bind]
        refine wp_mono ?_ (execAll_does K cs hs _ _ _ h0)
        rintro g' ⟨s, l⟩ hg
        unfold Mril.finish
        simp only [send, bind_def, Prog.bind]
        split
        · refine ⟨⟨(by rintro ⟨_, _, h⟩; cases h), fun o ho => (by rw [K.msg] at ho; cases ho)⟩, ?_⟩
          show Left _ _ (upd op g' _)
          rw [upd_other (by rintro ⟨_, _, h⟩; cases h) (K.msg _)]; exact hg
        · exact hg
        · exact hg
    · refine wp_mono ?_ (ans_keep (parse_only cfg c m) (fun g' => g'.2 = some m) _ rfl ?_ (fun _ => trivial))
      · rintro g' c' ⟨hg, -⟩
        refine ⟨fun e => (by rw [hg] at e; cases e), fun cs h1 h2 => absurd ⟨cs, h1, ?_⟩ hcs⟩
        rw [hg] at h2; exact Option.some.inj h2
      · intro g' a hg ha
        have hb := mrilAct_noBegin ha
        refine ⟨⟨fun h => absurd h hb, fun o _ => ⟨by rw [hg]; simp, fun cs h1 h2 => absurd ⟨cs, h1, Option.some.inj (hg.symm.trans h2)⟩ hcs⟩⟩, ?_⟩
        · show (upd op g' a).2 = _
          unfold upd
          split
          · exact absurd ⟨_, _, rfl⟩ hb
          · exact hg

theorem ops_append (x y : List (Act F)) : ops op (x ++ y) = ops op x ++ ops op y := by simp [ops]

theorem ops_cons (a : Act F) (y : List (Act F)) : ops op (a :: y) = (op a).toList ++ ops op y := by
  unfold ops
  rw [List.filterMap_cons]
  cases op a <;> rfl

theorem upd_since (pre mid : List (Act F)) (src : Src) (m : List Byte) (hm : ∀ a ∈ mid, ¬ BeginsI a) (g : St O) :
    (pre ++ .out (.ghost src m) :: mid).foldl (upd op) g = (ops op mid, some m) := by
  rw [List.foldl_append, List.foldl_cons]
  show mid.foldl (upd op) ([], some m) = _
  have key : ∀ x : List O, mid.foldl (upd op) (x, some m) = (x ++ ops op mid, some m) := by
    induction mid with
    | nil => intro x; simp [ops]
    | cons a mid ih =>
      intro x
      rw [List.foldl_cons, ops_cons]
      have : upd op (x, some m) a = (x ++ (op a).toList, some m) := by
        unfold upd
        split
        · exact absurd ⟨_, _, rfl⟩ (hm _ List.mem_cons_self)
        · rfl
      rw [this, ih fun b hb => hm b (by simp [hb])]
      simp
  simpa using key []

theorem does_sound {cfg : Cfg F} (K : Kind op of cfg) {junk : Nat → Byte} {tr : List (Act F)} {p : Prog F (FW F)} (h : Trace cfg junk tr p) :
    (∀ pre a post, tr = pre ++ a :: post → a.isInput = false → (mon op of).ok (pre.foldl (upd op) ([], none)) a) ∧
    p.wp (mon op of) (fun g _ => Left of [] g) (tr.foldl (upd op) ([], none)) :=
by
  have hs : ∀ i s, upd op ([], none) (.servo i s : Act F) = ([], none) := fun i s => upd_other (by rintro ⟨_, _, e⟩; cases e) (by
    cases ho : op (.servo i s) with
    | none => rfl
    | some o => exact absurd (K.input _ o ho) (by simp [Act.isInput]))
  have hr : ∀ m, upd op ([], none) (.eeRead m : Act F) = ([], none) := fun m => upd_other (by rintro ⟨_, _, e⟩; cases e) (K.disp (.eeRead m) trivial)
  exact (does_inv K).sound ([], none) junk (fun _ _ _ _ _ => ⟨fun _ => ⟨rfl, rfl⟩, fun _ _ e => by cases e⟩) (fun i s => hs i s) hr h (fun _ _ _ _ _ => trivial)

/-- between two beginnings exactly what the commands say. -/
theorem exact {cfg : Cfg F} (K : Kind op of cfg) {junk : Nat → Byte} {tr : List (Act F)} {p : Prog F (FW F)} (h : Trace cfg junk tr p) {pre mid post : List (Act F)} {src src' : Src} {cs : List Cmd} {m' : List Byte}
    (e : tr = pre ++ .out (.ghost src (text cs)) :: mid ++ .out (.ghost src' m') :: post) (hm : ∀ a ∈ mid, ¬ BeginsI a) (hcs : ∀ c ∈ cs, c.Ok) : ops op mid = cs.flatMap of := by
  have := ((does_sound K h).1 _ _ _ e rfl).1 ⟨_, _, rfl⟩
  rw [upd_since pre mid src _ hm] at this
  have := this.2 cs hcs rfl
  rw [← this, List.append_nil]

/-- since a beginning, a prefix of what the commands say. -/
theorem only {cfg : Cfg F} (K : Kind op of cfg) {junk : Nat → Byte} {tr : List (Act F)} {p : Prog F (FW F)} (h : Trace cfg junk tr p) {pre mid post : List (Act F)} {src : Src} {cs : List Cmd}
    (e : tr = pre ++ .out (.ghost src (text cs)) :: mid ++ post) (hm : ∀ a ∈ mid, ¬ BeginsI a) (hcs : ∀ c ∈ cs, c.Ok) : ops op mid <+: cs.flatMap of := by
  induction mid using List.reverseRecOn generalizing post with
  | nil => exact ⟨_, rfl⟩
  | append_singleton mid a ih =>
    rw [ops_append, ops_cons]
    cases ho : op a with
    | none => simpa [ops] using ih (post := a :: post) (by rw [e]; simp) fun b hb => hm b (by simp [hb])
    | some o =>
      have := ((does_sound K h).1 (pre ++ .out (.ghost src (text cs)) :: mid) a post (by rw [e]; simp) (K.input a o ho)).2 o ho
      rw [upd_since pre mid src _ (fun b hb => hm b (by simp [hb]))] at this
      have := this.2 cs hcs rfl
      simpa [ops] using this

/-- before the first beginning nothing. -/
theorem before {cfg : Cfg F} (K : Kind op of cfg) {junk : Nat → Byte} {tr : List (Act F)} {p : Prog F (FW F)} (h : Trace cfg junk tr p) {pre post : List (Act F)} (e : tr = pre ++ post) (hm : ∀ a ∈ pre, ¬ BeginsI a) :
    ops op pre = [] := by
  induction pre using List.reverseRecOn generalizing post with
  | nil => rfl
  | append_singleton pre a ih =>
    have hn := ih (post := a :: post) (by rw [e]; simp) fun b hb => hm b (by simp [hb])
    rw [ops_append, ops_cons, hn]
    cases ho : op a with
    | none => rfl
    | some o =>
      refine absurd ?_ (((does_sound K h).1 pre a post (by rw [e]; simp) (K.input a o ho)).2 o ho).1
      have key : ∀ (x : List (Act F)) (g : St O), (∀ b ∈ x, ¬ BeginsI b) → (x.foldl (upd op) g).2 = g.2 := by
        intro x
        induction x with
        | nil => intro g _; rfl
        | cons b x ih =>
          intro g hb
          rw [List.foldl_cons, ih _ fun c hc => hb c (by simp [hc])]
          unfold upd
          split
          · exact absurd ⟨_, _, rfl⟩ (hb _ List.mem_cons_self)
          · rfl
      exact key pre _ fun b hb => hm b (by simp [hb])

section
variable {cfg : Cfg F} (K : Kind op of cfg) {w0 : World F} {junk : Nat → Byte} {σ : ℕ → Sys F} {ev : ℕ → Ev F} (h : Endless cfg w0 junk σ ev)
include K h

theorem since {q e : ℕ} {a : Act F} (he : q < e) (hq : ev q = .act a) : acts (sofar ev e) = acts (sofar ev q) ++ a :: acts (span ev (q + 1) (e - (q + 1))) := by
  rw [sofar_span, span_split (c := q) (Nat.zero_le _) (by omega) hq]
  simp [sofar_span]

omit K h in
theorem mid_none {q e : ℕ} (hn : ∀ i, q < i → i < e → ¬ Begins ev i) : ∀ a ∈ acts (span ev (q + 1) (e - (q + 1))), ¬ BeginsI a := by
  rintro a ha ⟨s, m, rfl⟩
  obtain ⟨j, h1, h2, h3⟩ := mem_span.1 (acts_mem.1 ha)
  exact hn j (by omega) (by omega) ⟨s, m, h3⟩

/-- as soon as an instruction has begun all of it is done. -/
theorem done {q : ℕ} {src : Src} {cs : List Cmd} (hq : ev q = .act (.out (.ghost src (text cs)))) (hcs : ∀ c ∈ cs, c.Ok) :
    ∃ e, q < e ∧ (∀ i, q < i → i < e → ¬ Begins ev i) ∧ ops op (acts (sofar ev e)) = ops op (acts (sofar ev q)) ++ cs.flatMap of := by
  classical
  have fin : ∀ e, q < e → (∀ i, q < i → i < e → ¬ Begins ev i) → Left of [] ((acts (sofar ev e)).foldl (upd op) ([], none)) → ops op (acts (sofar ev e)) = ops op (acts (sofar ev q)) ++ cs.flatMap of := by
    intro e he hn hR
    have hmid := mid_none hn
    rw [since K h he hq, upd_since _ _ _ _ hmid] at hR
    have := hR.2 cs hcs rfl
    rw [List.append_nil] at this
    rw [since K h he hq, ops_append, ops_cons, K.begins]
    simpa using this
  obtain ⟨e, s, h1, h2, _⟩ := pass_end h (q + 1)
  by_cases hb : ∃ b, q < b ∧ b < e ∧ Begins ev b
  · have hb' := Nat.find_spec hb
    refine ⟨Nat.find hb, hb'.1, fun i g1 g2 g3 => Nat.find_min hb g2 ⟨g1, by omega, g3⟩, fin _ hb'.1 (fun i g1 g2 g3 => Nat.find_min hb g2 ⟨g1, by omega, g3⟩) ?_⟩
    obtain ⟨src', m', e'⟩ := hb'.2.2
    refine ((does_sound K (h.run (Nat.find hb + 1)).trace).1 _ (.out (.ghost src' m')) [] ?_ rfl).1 ⟨_, _, rfl⟩
    simp [sofar, List.range_succ, e', acts]
  · refine ⟨e, by omega, fun i g1 g2 g3 => hb ⟨i, g1, g2, g3⟩, fin e (by omega) (fun i g1 g2 g3 => hb ⟨i, g1, g2, g3⟩) ?_⟩
    have := (does_sound K (h.run e).trace).2
    rw [show (σ e).p = .ret s from h2] at this
    exact this

/-- whatever is done at some time was said by the instruction begun last. -/
theorem said {n : ℕ} {a : Act F} {o : O} (hn : ev n = .act a) (ho : op a = some o) :
    ∃ q src m, q < n ∧ ev q = .act (.out (.ghost src m)) ∧ (∀ i, q < i → i < n → ¬ Begins ev i) ∧
      ∀ cs, (∀ c ∈ cs, c.Ok) → m = text cs → ops op (acts (span ev (q + 1) (n - (q + 1)))) ++ [o] <+: cs.flatMap of := by
  classical
  have hsp : acts (sofar ev (n + 1)) = acts (sofar ev n) ++ [a] := by simp [sofar, List.range_succ, hn, acts]
  by_cases hb : ∃ q, q < n ∧ Begins ev q
  · obtain ⟨q0, q1, q2⟩ := hb
    obtain ⟨q, q1, q3, q4⟩ : ∃ q, q < n ∧ Begins ev q ∧ ∀ i, q < i → i < n → ¬ Begins ev i := by
      refine ⟨Nat.findGreatest (Begins ev) (n - 1), lt_of_le_of_lt (Nat.findGreatest_le _) (by omega), Nat.findGreatest_spec (show q0 ≤ n - 1 by omega) q2, fun i g1 g2 => Nat.findGreatest_is_greatest g1 (by omega)⟩
    obtain ⟨src, m, q5⟩ := q3
    refine ⟨q, src, m, q1, q5, q4, fun cs hcs em => ?_⟩
    subst em
    have hb : ¬ BeginsI a := by rintro ⟨_, _, rfl⟩; rw [K.begins] at ho; cases ho
    have := only K (h.run (n + 1)).trace (pre := acts (sofar ev q)) (mid := acts (span ev (q + 1) (n - (q + 1))) ++ [a]) (post := []) (src := src) (cs := cs)
      (by rw [hsp, since K h q1 q5]; simp) (fun b hb' => by
        rcases List.mem_append.1 hb' with g | g
        · exact mid_none q4 b g
        · rw [List.mem_singleton.1 g]; exact hb) hcs
    rw [ops_append, ops_cons, ho] at this
    simpa [ops] using this
  · have := before K (h.run (n + 1)).trace (pre := acts (sofar ev (n + 1))) (post := []) (by simp) (by
      rintro b hb' ⟨s, m, rfl⟩
      rw [sofar_span] at hb'
      obtain ⟨j, h1, h2, h3⟩ := mem_span.1 (acts_mem.1 hb')
      rcases Nat.lt_or_ge j n with g | g
      · exact hb ⟨j, g, _, _, h3⟩
      · have : j = n := by omega
        rw [this, hn] at h3; cases h3
        rw [K.begins] at ho; cases ho)
    rw [hsp, ops_append, ops_cons, ho] at this
    simp at this

/-- what lasts: from some time on after an instruction has begun, as long as the instructions that begin say nothing satisfying `Q`, nothing satisfying `Q` is done. -/
theorem lasts {k : ℕ} {src : Src} {cs : List Cmd} (hk : ev k = .act (.out (.ghost src (text cs)))) (hcs : ∀ c ∈ cs, c.Ok) (Q : O → Prop) :
    ∃ e, k < e ∧ (∀ i, k < i → i < e → ¬ Begins ev i) ∧ ops op (acts (sofar ev e)) = ops op (acts (sofar ev k)) ++ cs.flatMap of ∧
      ∀ n, e ≤ n → (∀ j s m, k < j → j < n → ev j = .act (.out (.ghost s m)) → ∃ cs', (∀ c ∈ cs', c.Ok) ∧ m = text cs' ∧ ∀ o ∈ cs'.flatMap of, ¬ Q o) →
        ∀ a o, ev n = .act a → op a = some o → ¬ Q o := by
  obtain ⟨e, h1, h2, h3⟩ := done K h hk hcs
  refine ⟨e, h1, h2, h3, fun n hn hl a o ha ho hQ => ?_⟩
  obtain ⟨q, s, m, q1, q2, q3, q4⟩ := said K h ha ho
  rcases Nat.lt_trichotomy q k with g | rfl | g
  · exact q3 k g (by omega) ⟨_, _, hk⟩
  · rw [hk] at q2; cases q2
    have g1 := (q4 cs hcs rfl).length_le
    have g2 := h3
    rw [since K h h1 hk, ops_append, ops_cons, K.begins] at g2
    have g3 : ops op (acts (span ev (q + 1) (e - (q + 1)))) = cs.flatMap of := by simpa using g2
    have g4 : (ops op (acts (span ev (q + 1) (e - (q + 1))))).length ≤ (ops op (acts (span ev (q + 1) (n - (q + 1))))).length := by
      have : n - (q + 1) = (e - (q + 1)) + (n - e) := by omega
      rw [this]
      generalize n - e = d
      induction d with
      | zero => exact le_rfl
      | succ d ih => rw [← Nat.add_assoc, span_succ, acts_append, ops_append, List.length_append]; omega
    rw [g3] at g4
    rw [List.length_append, List.length_singleton] at g1
    omega
  · obtain ⟨cs', c1, rfl, c2⟩ := hl q s m g q1 q2
    exact c2 o ((q4 cs' c1 rfl).subset (by simp)) hQ
end

end
end Mrc.Does
