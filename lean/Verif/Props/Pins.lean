import Verif.Spec.Pins
import Verif.Props.Asked
import Verif.Props.ReadBack
/-
C126: the pins are driven exactly as told.
-/
set_option linter.unusedSectionVars false
set_option linter.unusedSimpArgs false
namespace Mrc.Props
open Mrc Mrc.Prog Mrc.Spec Mrc.Rest

section
variable {F : Type} [FloatOps F]

/-- what is done for a command. -/
def pinsOf (map : List ℕ) (c : Cmd) : List PinOp :=
  if c.letter = 79 then
    match optionAt c.text 1, optionAt c.text 2 with
    | some p, some s => match map[p]? with
      | none => []
      | some x => .mode x .output :: (if s = 1 then [.write x true] else if s = 0 then [.write x false] else [])
    | _, _ => []
  else if c.letter = 73 then
    match optionAt c.text 1, optionAt c.text 2 with
    | some p, some s => match map[p]? with
      | none => []
      | some x => [.mode x (if s = 1 then .input_pulldown else .input_pullup)]
    | _, _ => []
  else []

theorem pinTold_of {map : List ℕ} {c : Cmd} {ops : List PinOp} (h : PinTold map c ops) : pinsOf map c = ops := by
  have ho : ∀ (l : Byte) (p s : Fin 10) (rest : List Byte), optionAt (l :: digitChar p :: digitChar s :: rest) 1 = some p.val ∧ optionAt (l :: digitChar p :: digitChar s :: rest) 2 = some s.val :=
    fun l p s rest => ⟨optionAt_digit _ 1 p.val p.isLt rfl, optionAt_digit _ 2 s.val s.isLt rfl⟩
  cases h with
  | @off p x c h hx =>
    obtain ⟨letter, arg⟩ := c
    obtain ⟨rfl, rest, e⟩ := h
    dsimp only at e; subst e
    simp [pinsOf, Cmd.text, ho, hx]
  | @on p x c h hx =>
    obtain ⟨letter, arg⟩ := c
    obtain ⟨rfl, rest, e⟩ := h
    dsimp only at e; subst e
    simp [pinsOf, Cmd.text, ho, hx]
  | @other p s x c h hs hx =>
    obtain ⟨letter, arg⟩ := c
    obtain ⟨rfl, rest, e⟩ := h
    dsimp only at e; subst e
    simp [pinsOf, Cmd.text, ho, hx, show s.val ≠ 1 by omega, show s.val ≠ 0 by omega]
  | @input p s x c h hx =>
    obtain ⟨letter, arg⟩ := c
    obtain ⟨rfl, rest, e⟩ := h
    dsimp only at e; subst e
    have : (s.val = 1) = (s = 1) := by simp [Fin.ext_iff]
    simp [pinsOf, Cmd.text, ho, hx, this]
  | none h1 h2 => simp [pinsOf, h1, h2]

theorem pinsTold_of {map : List ℕ} {cs : List Cmd} {ops : List PinOp} (h : PinsTold map cs ops) : cs.flatMap (pinsOf map) = ops := by
  induction h with
  | nil => rfl
  | cons h _ ih => rw [List.flatMap_cons, pinTold_of h, ih]

/-- with ten pins on the board, every instruction as it should be says what has to be done. -/
theorem pinsTold_exists {map : List ℕ} (hm : 10 ≤ map.length) {cs : List Cmd} (h : PinsOk cs) : ∃ ops, PinsTold map cs ops := by
  have one : ∀ c ∈ cs, ∃ a, PinTold map c a := by
    intro c hc
    by_cases h7 : c.letter = 73
    · obtain ⟨p, s, rest, e⟩ := h.pin c hc (.inl h7)
      exact ⟨_, .input (p := p) (s := s) ⟨h7, rest, e⟩ (List.getElem?_eq_getElem (show p.val < map.length by omega))⟩
    · by_cases h9 : c.letter = 79
      · obtain ⟨p, s, rest, e⟩ := h.pin c hc (.inr h9)
        have hx := List.getElem?_eq_getElem (show p.val < map.length by omega)
        by_cases h0 : s = 0
        · subst h0; exact ⟨_, .off ⟨h9, rest, e⟩ hx⟩
        · by_cases h1 : s = 1
          · subst h1; exact ⟨_, .on ⟨h9, rest, e⟩ hx⟩
          · exact ⟨_, .other (s := s) ⟨h9, rest, e⟩ (by omega) hx⟩
      · exact ⟨_, .none h7 h9⟩
  clear h
  induction cs with
  | nil => exact ⟨_, .nil⟩
  | cons c cs ih =>
    obtain ⟨a, ha⟩ := one c (by simp)
    obtain ⟨b, hb⟩ := ih fun x hx => one x (by simp [hx])
    exact ⟨_, .cons ha hb⟩

/-! ### the monitor: what was done since the last instruction began, and this instruction -/

abbrev StP := List PinOp × Option (List Byte)

def opOf : Act F → Option PinOp
  | .out (.pinMode p m) => some (.mode p m)
  | .out (.digitalWrite p b) => some (.write p b)
  | _ => none

def pinUpd (g : StP) (a : Act F) : StP :=
  match a with
  | .out (.ghost _ m) => ([], some m)
  | a => (g.1 ++ (opOf a).toList, g.2)

/-- `todo` remains to be done. -/
def Remains (map : List ℕ) (todo : List PinOp) (g : StP) : Prop :=
  (g.2 = none → g.1 = [] ∧ todo = []) ∧ ∀ cs, (∀ c ∈ cs, c.Ok) → g.2 = some (text cs) → g.1 ++ todo = cs.flatMap (pinsOf map)

def pinMon (map : List ℕ) : Mon F StP where
  upd := pinUpd
  ok g a := (BeginsI a → Remains map [] g) ∧ ∀ o, opOf a = some o → g.2 ≠ none ∧ ∀ cs, (∀ c ∈ cs, c.Ok) → g.2 = some (text cs) → g.1 ++ [o] <+: cs.flatMap (pinsOf map)

theorem pinUpd_other {g : StP} {a : Act F} (h : ¬ BeginsI a) (h' : opOf a = none) : pinUpd g a = g := by
  unfold pinUpd
  split
  · exact absurd ⟨_, _, rfl⟩ h
  · rw [h']; simp

theorem pinUpd_op {g : StP} {a : Act F} {o : PinOp} (h' : opOf a = some o) : pinUpd g a = (g.1 ++ [o], g.2) := by
  unfold pinUpd
  split
  · cases h'
  · rw [h']; rfl

/-- accesses that are no beginnings and do nothing to pins. -/
def pinless (a : Act F) : Prop := ¬ BeginsI a ∧ opOf a = none

theorem pin_keep {α : Type} {map : List ℕ} {p : Prog F α} (h : p.only pinless (fun _ => True)) (g : StP) : p.wp (pinMon map) (fun g' _ => g' = g) g :=
  wp_mono (fun _ _ h => h.1) (ans_keep h (fun g' => g' = g) g rfl
    (fun s a e ha => ⟨⟨fun hb => absurd hb ha.1, fun o ho => by rw [ha.2] at ho; cases ho⟩, by rw [← e]; exact pinUpd_other ha.1 ha.2⟩) (fun _ => trivial))

set_option maxHeartbeats 1000000 in
theorem exec_pinless (cfg : Cfg F) (s : Core F) (l : Loc F) (tok : List Byte) (h1 : tok.headD 0 ≠ 73) (h2 : tok.headD 0 ≠ 79) : (Mril.exec cfg s l tok).only pinless (fun _ => True) := by
  exec_leaves
  all_goals first
    | exact absurd ‹_› h1
    | exact absurd ‹_› h2
    | simp [Prog.bind, only, pinless, BeginsI, opOf]

theorem Remains.op {map : List ℕ} {o : PinOp} {todo : List PinOp} {g : StP} {a : Act F} (h : Remains map (o :: todo) g) (ha : opOf a = some o) :
    (pinMon map).ok g a ∧ Remains map todo (pinUpd g a) := by
  rw [pinUpd_op ha]
  refine ⟨⟨?_, ?_⟩, ?_, ?_⟩
  · rintro ⟨_, _, rfl⟩; cases ha
  · intro o' ho
    rw [ha] at ho; cases ho
    refine ⟨fun e => by simpa using (h.1 e).2, fun cs h1 h2 => ⟨todo, ?_⟩⟩
    rw [← h.2 cs h1 h2]; simp
  · intro e; exact absurd (h.1 e).2 (by simp)
  · intro cs h1 h2
    rw [← h.2 cs h1 h2]; simp

theorem exec_pins (cfg : Cfg F) (s : Core F) (l : Loc F) (c : Cmd) (todo : List PinOp) (g : StP) (h : Remains cfg.pinMap (pinsOf cfg.pinMap c ++ todo) g) :
    (Mril.exec cfg s l c.text).wp (pinMon cfg.pinMap) (fun g' _ => Remains cfg.pinMap todo g') g := by
  obtain ⟨letter, arg⟩ := c
  by_cases h9 : letter = 79
  · subst h9
    simp only [pinsOf, if_true] at h
    simp only [Mril.exec, Cmd.text, List.headD_cons] at h ⊢
    simp [poseIdx] at h ⊢
    split
    · rename_i p st hp hs
      rw [hp, hs] at h
      dsimp only at h
      simp only [bind_def, IOL.setOutput]
      cases hx : cfg.pinMap[p]? with
      | none => simp [Prog.bind, wp, pinMon]
      | some x =>
        rw [hx] at h
        dsimp only at h
        simp only [Prog.bind]
        have h1 := Remains.op (F := F) (a := .out (.pinMode x .output)) h rfl
        refine ⟨h1.1, ?_⟩
        by_cases e1 : st = 1
        · simp only [e1, if_true] at h1 ⊢
          have h2 := Remains.op (F := F) (a := .out (.digitalWrite x true)) h1.2 rfl
          exact ⟨h2.1, h2.2⟩
        · by_cases e0 : st = 0
          · simp only [e1, e0, if_true, if_false] at h1 ⊢
            have h2 := Remains.op (F := F) (a := .out (.digitalWrite x false)) h1.2 rfl
            exact ⟨h2.1, h2.2⟩
          · simp only [e1, e0, if_false] at h1 ⊢
            exact h1.2
    · simp [wp, pinMon]
  · by_cases h7 : letter = 73
    · subst h7
      simp only [pinsOf, if_true] at h
      simp only [Mril.exec, Cmd.text, List.headD_cons] at h ⊢
      simp [poseIdx] at h ⊢
      split
      · rename_i p st hp hs
        rw [hp, hs] at h
        dsimp only at h
        simp only [bind_def, IOL.addCondition]
        cases hx : cfg.pinMap[p]? with
        | none => simp [Prog.bind, wp, pinMon]
        | some x =>
          rw [hx] at h
          dsimp only at h
          simp only [Prog.bind]
          have h1 := Remains.op (F := F) (a := .out (.pinMode x (if st = 1 then .input_pulldown else .input_pullup))) h rfl
          refine ⟨h1.1, ?_⟩
          split
          · trivial
          · exact h1.2
      · simp [wp, pinMon]
    · refine wp_mono ?_ (pin_keep (exec_pinless cfg s l (Cmd.text ⟨letter, arg⟩) h7 h9) g)
      rintro g' _ rfl
      simpa [pinsOf, h7, h9] using h

theorem execAll_pins (cfg : Cfg F) (cs : List Cmd) (s : Core F) (l : Loc F) (g : StP) (h : Remains cfg.pinMap (cs.flatMap (pinsOf cfg.pinMap)) g) :
    (execAll cfg cs s l).wp (pinMon cfg.pinMap) (fun g' _ => Remains cfg.pinMap [] g') g := by
  induction cs generalizing s l g with
  | nil => exact h
  | cons c cs ih =>
    simp only [execAll]
    rw [wp_bind]
    exact wp_mono (fun g' r hr => ih r.1 r.2 g' hr) (exec_pins cfg s l c _ g (by simpa using h))

theorem pin_inv (cfg : Cfg F) : CoreInv cfg (pinMon (F := F) cfg.pinMap) (fun g _ => Remains cfg.pinMap [] g) (fun g _ => Remains cfg.pinMap [] g) where
  flt _ := trivial
  weak _ _ h := h
  disp g c a h ha := by
    have hp : pinless a := by
      refine ⟨by rintro ⟨_, _, rfl⟩; exact ha, ?_⟩
      cases a with
      | out o => cases o <;> first | rfl | exact ha.elim
      | _ => rfl
    exact ⟨⟨fun hb => absurd hb hp.1, fun o ho => by rw [hp.2] at ho; cases ho⟩, by show Remains _ _ (pinUpd g a); rw [pinUpd_other hp.1 hp.2]; exact h⟩
  dispJ g c a h ha := by
    have hp : pinless a := by
      refine ⟨by rintro ⟨_, _, rfl⟩; exact ha, ?_⟩
      cases a with
      | out o => cases o <;> first | rfl | exact ha.elim
      | _ => rfl
    exact ⟨⟨fun hb => absurd hb hp.1, fun o ho => by rw [hp.2] at ho; cases ho⟩, by show Remains _ _ (pinUpd g a); rw [pinUpd_other hp.1 hp.2]; exact h⟩
  rc g c h := by
    refine wp_mono ?_ (pin_keep (only_mono (fun a ha => ?_) (fun _ _ => trivial) (RC.process_only cfg.toRCfg c.rc)) g)
    · rintro g' r rfl; exact h
    · refine ⟨by rintro ⟨_, _, rfl⟩; exact ha, ?_⟩
      cases a with
      | out o => cases o <;> first | rfl | exact ha.elim
      | _ => rfl
  check g c h := by
    refine wp_mono ?_ (pin_keep (only_mono (fun a ha => ?_) (fun _ _ => trivial) (mrilProcess_only c)) g)
    · rintro g' r rfl; exact h
    · refine ⟨by rintro ⟨_, _, rfl⟩; exact ha, ?_⟩
      cases a with
      | out o => cases o <;> first | rfl | exact ha.elim
      | _ => rfl
  parse g c m src h := by
    have h : Remains cfg.pinMap [] g := by split at h; · exact h
                                           · exact h.1
    refine ⟨⟨fun _ => h, fun o ho => by cases ho⟩, ?_⟩
    show Prog.wp _ _ _ (([], some m) : StP)
    by_cases hcs : ∃ cs, (∀ c ∈ cs, c.Ok) ∧ m = text cs
    · obtain ⟨cs, hs, rfl⟩ := hcs
      have hun : ∀ {cs'}, (∀ c ∈ cs', c.Ok) → text cs = text cs' → cs' = cs := fun hs' e => (text_inj hs hs' e).symm
      have h0 : Remains cfg.pinMap (cs.flatMap (pinsOf cfg.pinMap)) (([], some (text cs)) : StP) :=
        ⟨fun e => (by cases e), fun cs' h1 h2 => by rw [hun h1 (Option.some.inj h2)]; rfl⟩
      by_cases hne : cs = []
      · subst hne; exact h0
      · rw [parse_text cfg cs hs hne, wp_bind]
        refine wp_mono ?_ (execAll_pins cfg cs _ _ _ h0)
        rintro g' ⟨s, l⟩ hg
        unfold Mril.finish
        simp only [send, bind_def, Prog.bind]
        split
        · refine ⟨⟨(by rintro ⟨_, _, h⟩; cases h), fun o ho => (by cases ho)⟩, ?_⟩
          show Remains _ _ (pinUpd g' _)
          rw [pinUpd_other (by rintro ⟨_, _, h⟩; cases h) rfl]; exact hg
        · exact hg
        · exact hg
    · refine wp_mono ?_ (ans_keep (parse_only cfg c m) (fun g' => g'.2 = some m) _ rfl ?_ (fun _ => trivial))
      · rintro g' c' ⟨hg, -⟩
        refine ⟨fun e => (by rw [hg] at e; cases e), fun cs h1 h2 => absurd ⟨cs, h1, ?_⟩ hcs⟩
        rw [hg] at h2; exact Option.some.inj h2
      · intro g' a hg ha
        have hb := mrilAct_noBegin ha
        refine ⟨⟨fun h => absurd h hb, fun o _ => ⟨by rw [hg]; simp, fun cs h1 h2 => absurd ⟨cs, h1, Option.some.inj (hg.symm.trans h2)⟩ hcs⟩⟩, ?_⟩
        · show (pinUpd g' a).2 = _
          unfold pinUpd
          split
          · exact absurd ⟨_, _, rfl⟩ hb
          · exact hg

theorem pinOps_append (x y : List (Act F)) : pinOps (x ++ y) = pinOps x ++ pinOps y := by simp [pinOps]

theorem pinOps_cons (a : Act F) (y : List (Act F)) : pinOps (a :: y) = (opOf a).toList ++ pinOps y := by
  unfold pinOps
  rw [List.filterMap_cons]
  cases a with
  | out o => cases o <;> rfl
  | _ => rfl

theorem pinUpd_since (pre mid : List (Act F)) (src : Src) (m : List Byte) (hm : ∀ a ∈ mid, ¬ BeginsI a) (g : StP) :
    (pre ++ .out (.ghost src m) :: mid).foldl pinUpd g = (pinOps mid, some m) := by
  rw [List.foldl_append, List.foldl_cons]
  show mid.foldl pinUpd ([], some m) = _
  have key : ∀ x : List PinOp, mid.foldl pinUpd (x, some m) = (x ++ pinOps mid, some m) := by
    induction mid with
    | nil => intro x; simp [pinOps]
    | cons a mid ih =>
      intro x
      rw [List.foldl_cons, pinOps_cons]
      have : pinUpd (x, some m) a = (x ++ (opOf a).toList, some m) := by
        unfold pinUpd
        split
        · exact absurd ⟨_, _, rfl⟩ (hm _ List.mem_cons_self)
        · rfl
      rw [this, ih fun b hb => hm b (by simp [hb])]
      simp
  simpa using key []

theorem pin_sound {cfg : Cfg F} {junk : Nat → Byte} {tr : List (Act F)} {p : Prog F (FW F)} (h : Trace cfg junk tr p) :
    (∀ pre a post, tr = pre ++ a :: post → a.isInput = false → (pinMon cfg.pinMap).ok (pre.foldl pinUpd ([], none)) a) ∧
    p.wp (pinMon cfg.pinMap) (fun g _ => Remains cfg.pinMap [] g) (tr.foldl pinUpd ([], none)) :=
  (pin_inv cfg).sound ([], none) junk (fun _ _ _ _ _ => ⟨fun _ => ⟨rfl, rfl⟩, fun _ _ e => by cases e⟩) (fun _ _ => rfl) (fun _ => rfl) h (fun _ _ _ _ _ => trivial)

/-- **C126**: in every history, between the beginning of an instruction and the beginning of the next one exactly that is done to the pins which the commands of the instruction say, in their order. -/
theorem C126_exact {cfg : Cfg F} {junk : Nat → Byte} {tr : List (Act F)} {p : Prog F (FW F)} (h : Trace cfg junk tr p) {pre mid post : List (Act F)} {src src' : Src} {cs : List Cmd} {m' : List Byte}
    (e : tr = pre ++ .out (.ghost src (text cs)) :: mid ++ .out (.ghost src' m') :: post) (hm : ∀ a ∈ mid, ¬ BeginsI a) (hcs : PinsOk cs) {ops : List PinOp} (ht : PinsTold cfg.pinMap cs ops) :
    pinOps mid = ops := by
  have := ((pin_sound h).1 _ _ _ e rfl).1 ⟨_, _, rfl⟩
  rw [pinUpd_since pre mid src _ hm] at this
  have := this.2 cs hcs.ok rfl
  rw [← pinsTold_of ht, ← this, List.append_nil]

/-- **C126**: in every history, at any time since an instruction began, what was done to the pins is a beginning of what its commands say. -/
theorem C126_only {cfg : Cfg F} {junk : Nat → Byte} {tr : List (Act F)} {p : Prog F (FW F)} (h : Trace cfg junk tr p) {pre mid post : List (Act F)} {src : Src} {cs : List Cmd}
    (e : tr = pre ++ .out (.ghost src (text cs)) :: mid ++ post) (hm : ∀ a ∈ mid, ¬ BeginsI a) (hcs : PinsOk cs) {ops : List PinOp} (ht : PinsTold cfg.pinMap cs ops) :
    pinOps mid <+: ops := by
  induction mid using List.reverseRecOn generalizing post with
  | nil => exact ⟨ops, rfl⟩
  | append_singleton mid a ih =>
    rw [pinOps_append, pinOps_cons]
    cases ho : opOf a with
    | none => simpa [pinOps] using ih (post := a :: post) (by rw [e]; simp) fun b hb => hm b (by simp [hb])
    | some o =>
      have hi : a.isInput = false := by
        match a, ho with
        | .out _, _ => rfl
      have := ((pin_sound h).1 (pre ++ .out (.ghost src (text cs)) :: mid) a post (by rw [e]; simp) hi).2 o ho
      rw [pinUpd_since pre mid src _ (fun b hb => hm b (by simp [hb]))] at this
      have := this.2 cs hcs.ok rfl
      rw [pinsTold_of ht] at this
      simpa [pinOps] using this

/-- **C126**: before the first instruction nothing is done to the pins. -/
theorem C126_before {cfg : Cfg F} {junk : Nat → Byte} {tr : List (Act F)} {p : Prog F (FW F)} (h : Trace cfg junk tr p) {pre post : List (Act F)} (e : tr = pre ++ post) (hm : ∀ a ∈ pre, ¬ BeginsI a) :
    pinOps pre = [] := by
  induction pre using List.reverseRecOn generalizing post with
  | nil => rfl
  | append_singleton pre a ih =>
    have hn := ih (post := a :: post) (by rw [e]; simp) fun b hb => hm b (by simp [hb])
    rw [pinOps_append, pinOps_cons, hn]
    cases ho : opOf a with
    | none => rfl
    | some o =>
      have hi : a.isInput = false := by
        match a, ho with
        | .out _, _ => rfl
      refine absurd ?_ (((pin_sound h).1 pre a post (by rw [e]; simp) hi).2 o ho).1
      have key : ∀ (x : List (Act F)) (g : StP), (∀ b ∈ x, ¬ BeginsI b) → (x.foldl pinUpd g).2 = g.2 := by
        intro x
        induction x with
        | nil => intro g _; rfl
        | cons b x ih =>
          intro g hb
          rw [List.foldl_cons, ih _ fun c hc => hb c (by simp [hc])]
          unfold pinUpd
          split
          · exact absurd ⟨_, _, rfl⟩ (hb _ List.mem_cons_self)
          · rfl
      exact key pre _ fun b hb => hm b (by simp [hb])

/-- **C126**, in time: as soon as an instruction has begun, all that it says is done to the pins, before anything else begins. -/
theorem C126_done {cfg : Cfg F} {w0 : World F} {junk : Nat → Byte} {σ : ℕ → Sys F} {ev : ℕ → Ev F} (h : Endless cfg w0 junk σ ev) {q : ℕ} {src : Src} {cs : List Cmd}
    (hq : ev q = .act (.out (.ghost src (text cs)))) (hcs : PinsOk cs) {ops : List PinOp} (ht : PinsTold cfg.pinMap cs ops) :
    ∃ e, q < e ∧ (∀ i, q < i → i < e → ¬ Begins ev i) ∧ pinOps (acts (sofar ev e)) = pinOps (acts (sofar ev q)) ++ ops := by
  classical
  have split : ∀ e, q < e → acts (sofar ev e) = acts (sofar ev q) ++ .out (.ghost src (text cs)) :: acts (span ev (q + 1) (e - (q + 1))) := fun e he => by
    rw [sofar_span, span_split (c := q) (Nat.zero_le _) (by omega) hq]
    simp [sofar_span]
  have fin : ∀ e, q < e → (∀ i, q < i → i < e → ¬ Begins ev i) → Remains cfg.pinMap [] ((acts (sofar ev e)).foldl pinUpd ([], none)) → pinOps (acts (sofar ev e)) = pinOps (acts (sofar ev q)) ++ ops := by
    intro e he hn hR
    have hmid : ∀ a ∈ acts (span ev (q + 1) (e - (q + 1))), ¬ BeginsI a := by
      rintro a ha ⟨s, m, rfl⟩
      obtain ⟨j, h1, h2, h3⟩ := mem_span.1 (acts_mem.1 ha)
      exact hn j (by omega) (by omega) ⟨s, m, h3⟩
    rw [split e he, pinUpd_since _ _ _ _ hmid] at hR
    have := hR.2 cs hcs.ok rfl
    rw [List.append_nil, pinsTold_of ht] at this
    rw [split e he, pinOps_append, pinOps_cons, show opOf (Act.out (Out.ghost src (text cs)) : Act F) = none from rfl]
    simpa using this
  obtain ⟨e, s, h1, h2, _⟩ := pass_end h (q + 1)
  by_cases hb : ∃ b, q < b ∧ b < e ∧ Begins ev b
  · have hb' := Nat.find_spec hb
    refine ⟨Nat.find hb, hb'.1, fun i g1 g2 g3 => Nat.find_min hb g2 ⟨g1, by omega, g3⟩, fin _ hb'.1 (fun i g1 g2 g3 => Nat.find_min hb g2 ⟨g1, by omega, g3⟩) ?_⟩
    obtain ⟨src', m', e'⟩ := hb'.2.2
    refine ((pin_sound (h.run (Nat.find hb + 1)).trace).1 _ (.out (.ghost src' m')) [] ?_ rfl).1 ⟨_, _, rfl⟩
    simp [sofar, List.range_succ, e', acts]
  · refine ⟨e, by omega, fun i g1 g2 g3 => hb ⟨i, g1, g2, g3⟩, fin e (by omega) (fun i g1 g2 g3 => hb ⟨i, g1, g2, g3⟩) ?_⟩
    have := (pin_sound (h.run e).trace).2
    rw [show (σ e).p = .ret s from h2] at this
    exact this

theorem pinTold_switches {map : List ℕ} {x : ℕ} {b : Bool} {c : Cmd} (h : Switches map x b c) : PinTold map c [.mode x .output, .write x b] := by
  obtain ⟨p, h1, h2⟩ := h
  cases b
  · exact .off h1 h2
  · exact .on h1 h2

theorem pinTold_leaves {map : List ℕ} {x : ℕ} {c : Cmd} {ops : List PinOp} (h : PinTold map c ops) (hc : ¬ Concerns map x c) : ∀ o ∈ ops, o.pin ≠ x := by
  have no : ∀ {l p s y}, (l = 73 ∨ l = 79) → NamesPin l p s c → map[p.val]? = some y → y ≠ x := by
    rintro l p s y hl hn hy rfl
    exact hc ⟨l, p, s, hl, hn, hy⟩
  cases h with
  | off h hx => have := no (.inr rfl) h hx; simpa [PinOp.pin] using this
  | on h hx => have := no (.inr rfl) h hx; simpa [PinOp.pin] using this
  | other h hs hx => have := no (.inr rfl) h hx; simpa [PinOp.pin] using this
  | input h hx => have := no (.inl rfl) h hx; simpa [PinOp.pin] using this
  | none _ _ => simp

theorem pinsTold_leaves {map : List ℕ} {x : ℕ} {cs : List Cmd} {ops : List PinOp} (h : PinsTold map cs ops) (hc : ∀ c ∈ cs, ¬ Concerns map x c) : ∀ o ∈ ops, o.pin ≠ x := by
  induction h with
  | nil => simp
  | cons h _ ih =>
    intro o ho
    rcases List.mem_append.1 ho with ho | ho
    · exact pinTold_leaves h (hc _ List.mem_cons_self) o ho
    · exact ih (fun c hm => hc c (by simp [hm])) o ho

theorem pinsTold_split {map : List ℕ} {a b : List Cmd} {ops : List PinOp} (h : PinsTold map (a ++ b) ops) : ∃ x y, ops = x ++ y ∧ PinsTold map a x ∧ PinsTold map b y := by
  induction a generalizing ops with
  | nil => exact ⟨[], ops, rfl, .nil, h⟩
  | cons c a ih =>
    cases h with
    | cons h1 h2 =>
      obtain ⟨x, y, rfl, g1, g2⟩ := ih h2
      exact ⟨_, y, by rw [List.append_assoc], .cons h1 g1, g2⟩

/-- **C126**, what lasts: an instruction switches a pin on or off, and no later command of it concerns this pin. From some time on, and as long as no other instruction concerns the pin, it is an output and
switched as told. -/
theorem C126_stays {cfg : Cfg F} (hmap : 10 ≤ cfg.pinMap.length) {w0 : World F} {junk : Nat → Byte} {σ : ℕ → Sys F} {ev : ℕ → Ev F} (h : Endless cfg w0 junk σ ev) {k : ℕ} {src : Src} {before after : List Cmd} {c : Cmd}
    {x : ℕ} {b : Bool} (hk : ev k = .act (.out (.ghost src (text (before ++ c :: after))))) (hcs : PinsOk (before ++ c :: after)) (hx : Switches cfg.pinMap x b c) (ha : ∀ d ∈ after, ¬ Concerns cfg.pinMap x d) :
    ∃ e, k < e ∧ (∀ i, k < i → i < e → ¬ Begins ev i) ∧
      ∀ n, e ≤ n → (∀ j s m, k < j → j < n → ev j = .act (.out (.ghost s m)) → LeavesPin cfg.pinMap x m) → Driven (pinOps (acts (sofar ev n))) x b := by
  classical
  obtain ⟨ops, ht⟩ := pinsTold_exists hmap hcs
  obtain ⟨A, B0, e0, -, hB0⟩ := pinsTold_split ht
  obtain ⟨B, eB, hB⟩ : ∃ B, B0 = [.mode x .output, .write x b] ++ B ∧ PinsTold cfg.pinMap after B := by
    cases hB0 with
    | cons h1 h2 =>
      have := (pinTold_of h1).symm.trans (pinTold_of (pinTold_switches hx))
      exact ⟨_, by rw [this], h2⟩
  obtain ⟨e, h1, h2, h3⟩ := C126_done h hk hcs ht
  refine ⟨e, h1, h2, fun n hn hl => ?_⟩
  have step : ∀ n a, ev n = .act a → pinOps (acts (sofar ev (n + 1))) = pinOps (acts (sofar ev n)) ++ (opOf a).toList := by
    intro n a ea
    have : acts (sofar ev (n + 1)) = acts (sofar ev n) ++ [a] := by simp [sofar, List.range_succ, ea, acts]
    rw [this, pinOps_append, pinOps_cons]; simp [pinOps]
  have step' : ∀ n, (∀ a, ev n ≠ .act a) → pinOps (acts (sofar ev (n + 1))) = pinOps (acts (sofar ev n)) := by
    intro n ea
    have : acts (sofar ev (n + 1)) = acts (sofar ev n) := by
      cases e' : ev n with
      | act a => exact absurd e' (ea a)
      | _ => simp [sofar, List.range_succ, e', acts]
    rw [this]
  have split : ∀ q m e, q < e → ev q = .act m → acts (sofar ev e) = acts (sofar ev q) ++ m :: acts (span ev (q + 1) (e - (q + 1))) := fun q m e he hq => by
    rw [sofar_span, span_split (c := q) (Nat.zero_le _) (by omega) hq]
    simp [sofar_span]
  have hmid : ∀ q i, (∀ j, q < j → j < i → ¬ Begins ev j) → ∀ a ∈ acts (span ev (q + 1) (i - (q + 1))), ¬ BeginsI a := by
    rintro q i hn a ha ⟨s, m, rfl⟩
    obtain ⟨j, g1, g2, g3⟩ := mem_span.1 (acts_mem.1 ha)
    exact hn j (by omega) (by omega) ⟨s, m, g3⟩
  have key : ∀ n, e ≤ n → (∀ j s m, k < j → j < n → ev j = .act (.out (.ghost s m)) → LeavesPin cfg.pinMap x m) →
      ∃ T, pinOps (acts (sofar ev n)) = pinOps (acts (sofar ev e)) ++ T ∧ ∀ o ∈ T, o.pin ≠ x := by
    intro n hn
    induction n, hn using Nat.le_induction with
    | base => exact fun _ => ⟨[], by simp, by simp⟩
    | succ n hn ih =>
      intro hl
      obtain ⟨T, t1, t2⟩ := ih fun j s m g1 g2 g3 => hl j s m g1 (by omega) g3
      by_cases ea : ∃ a, ev n = .act a
      · obtain ⟨a, ea⟩ := ea
        rw [step n a ea]
        cases ho : opOf a with
        | none => exact ⟨T, by simpa using t1, t2⟩
        | some o =>
          refine ⟨T ++ [o], by rw [t1]; simp, ?_⟩
          have hox : o.pin ≠ x := by
            -- the last instruction that began
            have hna : ¬ Begins ev n := by rintro ⟨s, m, e'⟩; rw [ea] at e'; cases e'; cases ho
            obtain ⟨q, q1, q2, ⟨s, m, q3⟩, q4⟩ : ∃ q, k ≤ q ∧ q < n ∧ Begins ev q ∧ ∀ j, q < j → j < n + 1 → ¬ Begins ev j := by
              have hkn : k ≤ n := by omega
              have hP : Begins ev k := ⟨_, _, hk⟩
              refine ⟨Nat.findGreatest (Begins ev) n, Nat.le_findGreatest hkn hP, ?_, Nat.findGreatest_spec hkn hP, fun j g1 g2 => Nat.findGreatest_is_greatest g1 (by omega)⟩
              refine lt_of_le_of_ne (Nat.findGreatest_le n) fun e' => hna ?_
              have := Nat.findGreatest_spec hkn hP
              rwa [e'] at this
            have ho' : pinOps (acts (span ev (q + 1) (n + 1 - (q + 1)))) = pinOps (acts (span ev (q + 1) (n - (q + 1)))) ++ [o] := by
              have e1 := step n a ea
              rw [split q _ _ (by omega) q3, split q _ n q2 q3, pinOps_append, pinOps_append, pinOps_cons, pinOps_cons, ho] at e1
              simpa using e1
            rcases eq_or_lt_of_le q1 with rfl | q1
            · rw [hk] at q3; cases q3
              have g1 := C126_only (h.run (n + 1)).trace (post := []) (by rw [split k _ (n + 1) (by omega) hk, List.append_nil]) (hmid k (n + 1) q4) hcs ht
              have g2 := h3
              rw [split k _ e h1 hk, pinOps_append, pinOps_cons] at g2
              have g3 : pinOps (acts (span ev (k + 1) (e - (k + 1)))) = ops := by simpa [opOf] using g2
              have g4 : (pinOps (acts (sofar ev e))).length ≤ (pinOps (acts (sofar ev n))).length := by rw [t1]; simp
              rw [h3, split k _ n q2 hk, pinOps_append, pinOps_cons] at g4
              have g5 := g1.length_le
              rw [ho'] at g5
              simp [opOf] at g4 g5
              omega
            · obtain ⟨cs', rfl, c1, c2⟩ := hl q s m q1 (by omega) q3
              obtain ⟨ops', ht'⟩ := pinsTold_exists hmap c1
              have g1 := C126_only (h.run (n + 1)).trace (post := []) (by rw [split q _ (n + 1) (by omega) q3, List.append_nil]) (hmid q (n + 1) q4) c1 ht'
              rw [ho'] at g1
              exact pinsTold_leaves ht' c2 o (g1.subset (by simp))
          intro o' ho'
          rcases List.mem_append.1 ho' with g | g
          · exact t2 o' g
          · rw [List.mem_singleton.1 g]; exact hox
      · rw [step' n fun a e' => ea ⟨a, e'⟩]
        exact ⟨T, t1, t2⟩
  obtain ⟨T, t1, t2⟩ := key n hn hl
  refine ⟨pinOps (acts (sofar ev k)) ++ A, B ++ T, ?_, ?_⟩
  · rw [t1, h3, e0, eB]; simp
  · intro o ho
    rcases List.mem_append.1 ho with g | g
    · exact pinsTold_leaves hB ha o g
    · exact t2 o g

end
end Mrc.Props
