import Verif.Proof.System
import Verif.Proof.Eeprom
/- One pass of the main loop, phase by phase. -/
set_option linter.unusedSectionVars false
namespace Mrc
open Mrc.Prog Mrc.Spec
variable {F : Type} [FloatOps F]

/-- accesses of the command dispatcher while serial bytes are processed. -/
def cmdAct (a : Act F) : Prop :=
  mrilAct a ∨ (∃ n, a = .out (.msg (.free n))) ∨ (∃ m, a = .out (.ghost .immediate m)) ∨ (∃ m, a = .eeRead m) ∨
    (∃ x b, a = .eeWrite x b) ∨ ∃ r, a = .out (.raw r)

theorem eeWrites_only (ws : List (Nat × Byte)) : (eeWrites ws : Prog F Unit).only cmdAct (fun _ => True) := by
  induction ws with
  | nil => trivial
  | cons w ws ih => exact ⟨by simp [cmdAct], ih⟩

theorem parseCommand_only (cfg : Cfg F) (s : FW F) (p : List Byte) :
    (Mrcp.parseCommand cfg s p).only cmdAct (fun s' => s'.framer = s.framer) := by
  cases p with
  | nil => exact rfl
  | cons c m =>
    simp only [Mrcp.parseCommand]
    split
    · exact ⟨.inr (.inl ⟨_, rfl⟩), rfl⟩
    · split
      · refine ⟨by simp [cmdAct], ?_⟩
        rw [only_bind]
        exact only_mono (fun _ h => .inl h) (fun c _ => rfl) (parse_only cfg s.core m)
      · split
        · split <;> exact rfl
        · split
          · split
            · exact ⟨by simp [cmdAct], rfl⟩
            · intro mem
              refine ⟨by simp [cmdAct], ?_⟩
              have hgo : ((eeWrites (EE.appendWrites mem m) : Prog F Unit).bind fun _ => .ret { s with mode := .eeprom }).only cmdAct
                  (fun s' => s'.framer = s.framer) := by
                rw [only_bind]
                exact only_mono (fun _ h => h) (fun _ _ => rfl) (eeWrites_only _)
              show Prog.only cmdAct _ (if _ then _ else _)
              split
              · exact ⟨by simp [cmdAct], hgo⟩
              · exact hgo
          · exact rfl

theorem events_only (cfg : Cfg F) (s : FW F) (es : List FEv) : (Mrcp.events cfg s es).only cmdAct (fun _ => True) := by
  induction es generalizing s with
  | nil => trivial
  | cons e es ih =>
    cases e with
    | oob => trivial
    | cmd p =>
      simp only [Mrcp.events, only_bind]
      exact only_mono (fun _ h => h) (fun s' _ => ih s') (parseCommand_only cfg s p)

theorem parseChar_only (cfg : Cfg F) (s : FW F) (b : Byte) : (Mrcp.parseChar cfg s b).only cmdAct (fun _ => True) :=
  events_only cfg _ _

/-- start of an instruction from queue or storage. -/
def isStart : Act F → Bool
  | .out (.ghost .immediate _) => false
  | .out (.ghost _ _) => true
  | _ => false

/-- reading a serial byte. -/
def isRx : Act F → Bool
  | .rx (some _) => true
  | _ => false

theorem cmdAct_facts {a : Act F} (h : cmdAct a) : isStart a = false ∧ isRx a = false := by
  rcases h with h | ⟨n, rfl⟩ | ⟨m, rfl⟩ | ⟨m, rfl⟩ | ⟨x, b, rfl⟩ | ⟨r, rfl⟩
  · match a, h with
    | .servo _ _, _ | .micro _ _, _ | .now _, _ | .out (.msg (.n0 _)), _ | .out (.msg (.reply _ _)), _ | .out (.raw .comment), _
    | .out (.pinMode _ _), _ | .out (.digitalWrite _ _), _ => exact ⟨rfl, rfl⟩
  all_goals exact ⟨rfl, rfl⟩

theorem rcAct_facts {a : Act F} (h : rcAct a) : isStart a = false ∧ isRx a = false := by
  match a, h with
  | .servo _ _, _ | .micro _ _, _ | .out (.raw _), _ => exact ⟨rfl, rfl⟩

theorem checkAct_facts {a : Act F} (h : checkAct a) : isStart a = false ∧ isRx a = false := by
  match a, h with
  | .pin _ _, _ | .now _, _ | .out (.msg (.n1 _)), _ => exact ⟨rfl, rfl⟩

theorem count_false {p : Act F → Bool} {tr : List (Act F)} (h : ∀ a ∈ tr, p a = false) : tr.countP p = 0 := by
  rw [List.countP_eq_zero]
  intro a ha; simp [h a ha]

theorem serial_exec (cfg : Cfg F) (n : Nat) (s : FW F) (tr : List (Act F)) (q : Prog F (FW F)) (h : Exec (serialProcess cfg n s) tr q) :
    tr.countP isRx ≤ n ∧ ∀ a ∈ tr, isStart a = false := by
  induction n generalizing s tr with
  | zero => obtain ⟨rfl, _⟩ := exec_ret h; simp
  | succ n ih =>
    cases h with
    | nil => simp
    | @cons _ _ _ rest _ hs h =>
      cases hs with
      | rx _ b =>
        cases b with
        | none => obtain ⟨rfl, _⟩ := exec_ret h; simp [isRx, isStart]
        | some c =>
          have : ∃ t u s', (∀ a ∈ t, cmdAct a) ∧ rest = t ++ u ∧ (u = [] ∨ Exec (serialProcess cfg n s') u q) := by
            rcases exec_bind h with ⟨p', h1, _⟩ | ⟨s', t, u, h0, h1, h2⟩
            · exact ⟨_, [], s, (only_exec h1 (parseChar_only cfg s c)).1, (List.append_nil _).symm, .inl rfl⟩
            · exact ⟨t, u, s', (only_exec h1 (parseChar_only cfg s c)).1, h0, .inr h2⟩
          obtain ⟨t, u, s', ht, rfl, hu⟩ := this
          have hu' : u.countP isRx ≤ n ∧ ∀ a ∈ u, isStart a = false := by
            rcases hu with rfl | hu
            · simp
            · exact ih s' u hu
          have ht' := count_false (p := isRx) fun a ha => (cmdAct_facts (ht a ha)).2
          refine ⟨?_, ?_⟩
          · rw [List.countP_cons, List.countP_append, ht']
            have : isRx (Act.rx (some c) : Act F) = true := rfl
            simp only [this, if_true]; omega
          · intro a ha
            rcases List.mem_cons.1 ha with rfl | ha
            · rfl
            · rcases List.mem_append.1 ha with ha | ha
              · exact (cmdAct_facts (ht a ha)).1
              · exact hu'.2 a ha

theorem rcProcess_exec (cfg : Cfg F) (s : FW F) (tr : List (Act F)) (q : Prog F (FW F)) (h : Exec (rcProcess cfg s) tr q) :
    ∀ a ∈ tr, rcAct a := by
  have : (rcProcess cfg s).only rcAct (fun _ => True) := by
    rw [rcProcess, only_bind]
    exact only_mono (fun _ h => h) (fun _ _ => trivial) (RC.process_only cfg.toRCfg s.core.rc)
  exact (only_exec h this).1

/-- the first three phases of a pass. -/
def firstPhases (cfg : Cfg F) (s : FW F) : Prog F (FW F) :=
  (rcProcess cfg s).bind fun s => (rcProcess cfg s).bind fun s => serialProcess cfg SERIAL_BYTES s

theorem loopBody_eq (cfg : Cfg F) (s : FW F) :
    loopBody cfg s = (firstPhases cfg s).bind fun s => (Mril.process s.core).bind fun c => Mrcp.process cfg { s with core := c } := by
  simp only [loopBody, firstPhases, bind_def, bind_assoc]

theorem firstPhases_exec (cfg : Cfg F) (s : FW F) (tr : List (Act F)) (q : Prog F (FW F)) (h : Exec (firstPhases cfg s) tr q) :
    tr.countP isRx ≤ 30 ∧ ∀ a ∈ tr, isStart a = false := by
  have hr : ∀ s tr q, Exec (rcProcess cfg s) tr q → tr.countP isRx = 0 ∧ ∀ a ∈ tr, isStart a = false := fun s tr q h =>
    ⟨count_false fun a ha => (rcAct_facts (rcProcess_exec cfg s tr q h a ha)).2,
     fun a ha => (rcAct_facts (rcProcess_exec cfg s tr q h a ha)).1⟩
  rcases exec_bind h with ⟨p', h1, _⟩ | ⟨sa, ta, ua, rfl, h1, h2⟩
  · have := hr _ _ _ h1; exact ⟨by omega, this.2⟩
  have ha := hr _ _ _ h1
  have hu : ua.countP isRx ≤ 30 ∧ ∀ a ∈ ua, isStart a = false := by
    rcases exec_bind h2 with ⟨p', h3, _⟩ | ⟨sb, tb, ub, rfl, h3, h4⟩
    · have := hr _ _ _ h3; exact ⟨by omega, this.2⟩
    have hb := hr _ _ _ h3
    have hc := serial_exec cfg _ _ _ _ h4
    refine ⟨by rw [List.countP_append]; have := hc.1; simp only [SERIAL_BYTES] at this; omega, ?_⟩
    intro a hm
    rcases List.mem_append.1 hm with hm | hm
    · exact hb.2 a hm
    · exact hc.2 a hm
  refine ⟨by rw [List.countP_append]; omega, ?_⟩
  intro a hm
  rcases List.mem_append.1 hm with hm | hm
  · exact ha.2 a hm
  · exact hu.2 a hm

/-- the dispatcher starts at most one instruction. -/
theorem process_start (cfg : Cfg F) (s : FW F) (tr : List (Act F)) (q : Prog F (FW F)) (h : Exec (Mrcp.process cfg s) tr q) :
    tr.countP isStart ≤ 1 ∧ ∀ a ∈ tr, isRx a = false := by
  have hand : ∀ (src : Src) (s : FW F) (m : List Byte) (tr : List (Act F)) (q), Exec (Mrcp.handOver cfg src s m) tr q →
      tr.countP isStart ≤ 1 ∧ ∀ a ∈ tr, isRx a = false := by
    intro src s m tr q h
    cases h with
    | nil => simp
    | cons hs h =>
      cases hs
      have ho : ((Mril.parse cfg s.core m).bind fun c => Prog.ret { s with core := c }).only mrilAct (fun _ => True) := by
        rw [only_bind]; exact only_mono (fun _ h => h) (fun _ _ => trivial) (parse_only cfg s.core m)
      have hm := (only_exec h ho).1
      have hc := count_false (p := isStart) fun a ha => (cmdAct_facts (.inl (hm a ha))).1
      refine ⟨?_, ?_⟩
      · rw [List.countP_cons, hc]; split <;> omega
      · intro a ha
        rcases List.mem_cons.1 ha with rfl | ha
        · rfl
        · exact (cmdAct_facts (.inl (hm a ha))).2
  have nothing : ∀ {s' : FW F}, Exec (.ret s') tr q → tr.countP isStart ≤ 1 ∧ ∀ a ∈ tr, isRx a = false := by
    intro s' h; obtain ⟨rfl, _⟩ := exec_ret h; simp
  simp only [Mrcp.process] at h
  split at h
  · exact nothing h
  · split at h
    · split at h
      · split at h
        · cases h with
          | nil => simp
          | cons hs h =>
            cases hs
            split at h
            · cases h with
              | nil => simp [isStart, isRx]
              | cons hs _ => cases hs
            · obtain ⟨h1, h2⟩ := hand _ _ _ _ _ h
              refine ⟨by rw [List.countP_cons]; simpa [isStart] using h1, ?_⟩
              intro a ha
              rcases List.mem_cons.1 ha with rfl | ha
              · rfl
              · exact h2 a ha
        · exact nothing h
      · cases h with
        | nil => simp
        | cons hs h =>
          cases hs with
          | eeRead _ mem =>
            simp only at h
            split at h
            · cases h with
              | nil => simp [isStart, isRx]
              | cons hs _ => cases hs
            · split at h
              · obtain ⟨h1, h2⟩ := hand _ _ _ _ _ h
                refine ⟨by rw [List.countP_cons]; simpa [isStart] using h1, ?_⟩
                intro a ha
                rcases List.mem_cons.1 ha with rfl | ha
                · rfl
                · exact h2 a ha
              · obtain ⟨rfl, _⟩ := exec_ret h; simp [isStart, isRx]
      · exact nothing h
    · exact nothing h

/-- one loop pass, cut into: controller twice and serial input; completion check; dispatcher. -/
theorem pass_cases {cfg : Cfg F} {s : FW F} {tr : List (Act F)} {q : Prog F (FW F)} (h : Exec (loopBody cfg s) tr q) :
    (∃ p', Exec (firstPhases cfg s) tr p') ∨
    (∃ s2 t1 t2 p', tr = t1 ++ t2 ∧ Exec (firstPhases cfg s) t1 (.ret s2) ∧ Exec (Mril.process s2.core) t2 p') ∨
    (∃ s2 t1 t2 c t3, tr = t1 ++ (t2 ++ t3) ∧ Exec (firstPhases cfg s) t1 (.ret s2) ∧ Exec (Mril.process s2.core) t2 (.ret c) ∧
      Exec (Mrcp.process cfg { s2 with core := c }) t3 q) := by
  rw [loopBody_eq] at h
  rcases exec_bind h with ⟨p', h1, _⟩ | ⟨s2, t1, u, rfl, h1, h2⟩
  · exact .inl ⟨p', h1⟩
  · rcases exec_bind h2 with ⟨p', h3, _⟩ | ⟨c, t2, t3, rfl, h3, h4⟩
    · exact .inr (.inl ⟨s2, t1, u, p', rfl, h1, h3⟩)
    · exact .inr (.inr ⟨s2, t1, t2, c, t3, rfl, h1, h3, h4⟩)

theorem check_none {s : Core F} {tr : List (Act F)} {q : Prog F (Core F)} (h : Exec (Mril.process s) tr q) :
    ∀ a ∈ tr, isStart a = false ∧ isRx a = false :=
  fun a ha => checkAct_facts ((only_exec h (mrilProcess_only s)).1 a ha)

/-- accesses of the first phases of a pass. -/
def passAct (a : Act F) : Prop := rcAct a ∨ cmdAct a ∨ ∃ b, a = .rx b

theorem serial_only (cfg : Cfg F) (n : Nat) (s : FW F) : (serialProcess cfg n s).only passAct (fun _ => True) := by
  induction n generalizing s with
  | zero => trivial
  | succ n ih =>
    intro b
    refine ⟨.inr (.inr ⟨b, rfl⟩), ?_⟩
    cases b with
    | none => trivial
    | some c =>
      show Prog.only passAct _ ((Mrcp.parseChar cfg s c).bind (serialProcess cfg n))
      rw [only_bind]
      exact only_mono (fun _ h => .inr (.inl h)) (fun s' _ => ih s') (parseChar_only cfg s c)

theorem firstPhases_only (cfg : Cfg F) (s : FW F) : (firstPhases cfg s).only passAct (fun _ => True) := by
  have hr : ∀ s, (rcProcess cfg s).only (passAct (F := F)) (fun _ => True) := by
    intro s
    rw [rcProcess, only_bind]
    exact only_mono (fun _ h => .inl h) (fun _ _ => trivial) (RC.process_only cfg.toRCfg s.core.rc)
  rw [firstPhases, only_bind]
  refine only_mono (fun _ h => h) (fun s _ => ?_) (hr s)
  rw [only_bind]
  exact only_mono (fun _ h => h) (fun s _ => serial_only cfg _ s) (hr s)

theorem passAct_not_n1 {n : Int} : ¬ passAct (F := F) (.out (.msg (.n1 n))) := by
  rintro (h | h | ⟨b, h⟩)
  · exact h
  · rcases h with h | ⟨n, h⟩ | ⟨m, h⟩ | ⟨m, h⟩ | ⟨x, b, h⟩ | ⟨r, h⟩ <;> first | exact h | simp at h
  · simp at h

theorem process_not_n1 {cfg : Cfg F} {s : FW F} {tr : List (Act F)} {q : Prog F (FW F)} (h : Exec (Mrcp.process cfg s) tr q) (n : Int) :
    Act.out (.msg (.n1 n)) ∉ tr := by
  have hand : ∀ (src : Src) (s : FW F) (m : List Byte), (Mrcp.handOver cfg src s m).only (fun a => a ≠ .out (.msg (.n1 n))) (fun _ => True) := by
    intro src s m
    refine ⟨by simp, ?_⟩
    rw [only_bind]
    exact only_mono (fun a ha e => by subst e; exact ha) (fun _ _ => trivial) (parse_only cfg s.core m)
  have : (Mrcp.process cfg s).only (fun a => a ≠ .out (.msg (.n1 n))) (fun _ => True) := by
    simp only [Mrcp.process]
    split
    · trivial
    · split
      · split
        · split
          · refine ⟨by simp [Mrcp.freeMsg], ?_⟩
            show Prog.only _ _ (if _ then _ else _)
            split
            · trivial
            · exact hand _ _ _
          · trivial
        · intro mem
          refine ⟨by simp, ?_⟩
          show Prog.only _ _ (if _ then _ else _)
          split
          · trivial
          · split
            · exact hand _ _ _
            · trivial
        · trivial
      · trivial
  intro hm
  exact (only_exec h this).1 _ hm rfl

/-- after the notice the completion check is over. -/
theorem check_n1 {s : Core F} {tr : List (Act F)} {q : Prog F (Core F)} (h : Exec (Mril.process s) tr q) (n : Int)
    (hm : Act.out (.msg (.n1 n)) ∈ tr) : ∃ c, q = .ret c := by
  have pins : ∀ (c : Conds) t q, Exec (IOL.isDone c : Prog F (Bool × Conds)) t q → Act.out (.msg (.n1 n)) ∉ t := by
    intro c t q he hm
    have ho : ∀ c : Conds, (IOL.check c : Prog F Bool).only (fun a => a ≠ .out (.msg (.n1 n))) (fun _ => True) := by
      intro c
      induction c with
      | nil => trivial
      | cons x c ih =>
        simp only [IOL.check]
        split
        · intro b; refine ⟨by simp, ?_⟩; cases b <;> first | exact ih | trivial
        · split
          · intro b; refine ⟨by simp, ?_⟩; cases b <;> first | exact ih | trivial
          · exact ih
    have : (IOL.isDone c : Prog F (Bool × Conds)).only (fun a => a ≠ .out (.msg (.n1 n))) (fun _ => True) := by
      unfold IOL.isDone
      rw [only_bind]
      exact only_mono (fun _ h => h) (fun _ _ => trivial) (ho c)
    exact (only_exec he this).1 _ hm rfl
  rcases exec_bind h with ⟨p', h1, _⟩ | ⟨r, t, u, rfl, h1, h2⟩
  · exact absurd hm (pins _ _ _ h1)
  · have hu : Act.out (.msg (.n1 n)) ∈ u := by
      rcases List.mem_append.1 hm with hm | hm
      · exact absurd hm (pins _ _ _ h1)
      · exact hm
    have nothing : ∀ {c : Core F} {v : List (Act F)}, Exec (.ret c) v q → ∃ c, q = .ret c := fun h => ⟨_, (exec_ret h).2⟩
    simp only at h2
    split at h2
    · cases h2 with
      | nil => simp at hu
      | cons hs h2 =>
        cases hs
        simp only at h2
        split at h2
        · split at h2
          · cases h2 with
            | nil => simp at hu
            | cons hs h2 => cases hs; exact nothing h2
          · exact nothing h2
        · exact nothing h2
    · exact nothing h2

end Mrc
