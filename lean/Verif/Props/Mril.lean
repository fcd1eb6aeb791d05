import Verif.Props.IO
import Verif.Proof.MrilWp
/-
Property theorems C20-C23, C26-C29 (instruction parser).
-/
namespace Mrc.Props
open Mrc Mrc.Prog Mrc.Spec
variable {F : Type} [FloatOps F]

/-- degrees to radians, x·(π/180). -/
def rad (x : F) : F := FloatOps.mul x (FloatOps.div FloatOps.pi (FloatOps.ofRat 180))

/-! ### C20 -/

/-- the commands `cs` are executed one after the other, each exactly once: from (core, parser locals) `r` with accesses
`tr` to `r'`. -/
inductive Steps (cfg : Cfg F) : List Cmd → Core F × Loc F → List (Act F) → Core F × Loc F → Prop
  | nil (r) : Steps cfg [] r [] r
  | cons {c cs r t r1 u r2} : Does (Mril.exec cfg r.1 r.2 c.text) t r1 → Steps cfg cs r1 u r2 →
      Steps cfg (c :: cs) r (t ++ u) r2

private theorem execAll_steps (cfg : Cfg F) (cs : List Cmd) (r r' : Core F × Loc F) (tr : List (Act F)) :
    Does (execAll cfg cs r.1 r.2) tr r' ↔ Steps cfg cs r tr r' := by
  induction cs generalizing r tr with
  | nil =>
    constructor
    · intro h
      obtain ⟨rfl, h2⟩ := exec_ret h
      simp at h2; subst h2; exact .nil _
    · intro h; cases h; exact .nil _
  | cons c cs ih =>
    constructor
    · intro h
      obtain ⟨a, t, u, rfl, h1, h2⟩ := exec_bind_ret h
      exact .cons h1 ((ih a u).1 h2)
    · intro h
      cases h with
      | cons h1 h2 => exact exec_bind_intro h1 ((ih _ _).2 h2)

/-- **C20**: an instruction consisting of commands letter+argument executes exactly these commands, each once, in order,
between the opening and closing of the transaction; then the completion bookkeeping `finish`. -/
theorem C20_commands (cfg : Cfg F) (cs : List Cmd) (h : ∀ c ∈ cs, c.Ok) (hne : cs ≠ []) (s s' : Core F)
    (tr : List (Act F)) :
    Does (Mril.parse cfg s (text cs)) tr s' ↔
      ∃ t u r, tr = t ++ u ∧ Steps cfg cs ({ s with rc := s.rc.startTransaction }, {}) t r ∧
        Does (Mril.finish { r.1 with rc := r.1.rc.endTransaction } r.2) u s' := by
  rw [parse_text cfg cs h hne]
  constructor
  · intro h
    obtain ⟨r, t, u, rfl, h1, h2⟩ := exec_bind_ret h
    exact ⟨t, u, r, rfl, (execAll_steps cfg cs (_, _) r t).1 h1, h2⟩
  · rintro ⟨t, u, r, rfl, h1, h2⟩
    exact exec_bind_intro ((execAll_steps cfg cs (_, _) r t).2 h1) h2

example : text [⟨78, str "5"⟩, ⟨88, str "10.5"⟩, ⟨82, str "6-20"⟩] = str "N5X10.5R6-20" ∧
    ∀ c ∈ ([⟨78, str "5"⟩, ⟨88, str "10.5"⟩, ⟨82, str "6-20"⟩] : List Cmd), c.Ok := by
  refine ⟨by decide, ?_⟩
  intro c hc
  simp at hc
  rcases hc with rfl | rfl | rfl <;> exact ⟨by decide, by decide, by decide⟩

/-! what each write command does (argument `arg` nonempty; for R: axis digit and nonempty argument) -/

/-- **C20/C28** X,Y,Z: the target coordinate becomes the number as given; nothing else of the target changes, no access. -/
theorem C28_position (cfg : Cfg F) (s : Core F) (l : Loc F) (i : Fin 3) (arg : List Byte) (ha : arg ≠ []) (tr) (r : Core F × Loc F)
    (h : Does (Mril.exec cfg s l ((88 + UInt8.ofNat i.val) :: arg)) tr r) :
    tr = [] ∧ r.1 = { s with rc := { s.rc with
      targetPose := RC.upd s.rc.targetPose ⟨i.val, by omega⟩ (atof arg)
      poseChanged := true, state := .prepareMove } } := by
  have e : Mril.exec cfg s l ((88 + UInt8.ofNat i.val) :: arg) =
      .ret ({ s with rc := s.rc.setTargetPoseAt ⟨i.val, by omega⟩ (atof arg) }, { l with ctype := .write }) := by
    obtain ⟨i, hi⟩ := i
    rcases (show i = 0 ∨ i = 1 ∨ i = 2 by omega) with rfl | rfl | rfl <;> simp [Mril.exec, poseIdx, ha]
  rw [e] at h
  obtain ⟨rfl, h3⟩ := exec_ret h
  simp at h3; subst h3
  exact ⟨rfl, rfl⟩

/-- **C20/C28** A,B,C: the target orientation angle becomes the number in degrees times π/180. -/
theorem C28_orientation (cfg : Cfg F) (s : Core F) (l : Loc F) (i : Fin 3) (arg : List Byte) (ha : arg ≠ []) (tr) (r : Core F × Loc F)
    (h : Does (Mril.exec cfg s l ((65 + UInt8.ofNat i.val) :: arg)) tr r) :
    tr = [] ∧ r.1 = { s with rc := { s.rc with
      targetPose := RC.upd s.rc.targetPose ⟨3 + i.val, by omega⟩ (rad (atof arg))
      poseChanged := true, state := .prepareMove } } := by
  have e : Mril.exec cfg s l ((65 + UInt8.ofNat i.val) :: arg) =
      .ret ({ s with rc := s.rc.setTargetPoseAt ⟨3 + i.val, by omega⟩ (rad (atof arg)) }, { l with ctype := .write }) := by
    obtain ⟨i, hi⟩ := i
    rcases (show i = 0 ∨ i = 1 ∨ i = 2 by omega) with rfl | rfl | rfl <;> simp [Mril.exec, poseIdx, ha] <;> rfl
  rw [e] at h
  obtain ⟨rfl, h3⟩ := exec_ret h
  simp at h3; subst h3
  exact ⟨rfl, rfl⟩

/-- **C20/C28** R0..R5: the logical target angle of that arm axis becomes the number in degrees times π/180. -/
theorem C28_axis (cfg : Cfg F) (s : Core F) (l : Loc F) (i : Fin 6) (arg : List Byte) (ha : arg ≠ []) (tr) (r : Core F × Loc F)
    (h : Does (Mril.exec cfg s l (82 :: digit i.val :: arg)) tr r) :
    tr = [] ∧ r.1 = { s with rc := { s.rc with
      targetAngles := RC.upd s.rc.targetAngles i (rad (atof arg))
      anglesChanged := true, state := .prepareMove } } := by
  have e : Mril.exec cfg s l (82 :: digit i.val :: arg) =
      .ret ({ s with rc := s.rc.setTargetLogicalAngle i (rad (atof arg)) }, { l with ctype := .write }) := by
    simp only [Mril.exec]
    rw [optionAt_digit _ 1 i.val (by omega) rfl]
    have hi : ¬ (6 ≤ i.val) := by omega
    have h1 : armAxis i.val = some i := by simp [armAxis]
    simp [poseIdx, ha, hi, h1]
    rfl
  rw [e] at h
  obtain ⟨rfl, h3⟩ := exec_ret h
  simp at h3; subst h3
  exact ⟨rfl, rfl⟩

/-- **C20/C28** R6, R7: exactly that additional axis is given the number in degrees /180·π as new target; the core state does
not change. -/
theorem C28_additional_axis (cfg : Cfg F) (s : Core F) (l : Loc F) (i : Fin 2) (arg : List Byte) (ha : arg ≠ []) (tr)
    (r : Core F × Loc F) (h : Does (Mril.exec cfg s l (82 :: digit (6 + i.val) :: arg)) tr r) :
    r.1 = s ∧ ∃ sv : Servo F, tr = [.servo ⟨6 + i.val, by omega⟩ sv, .micro ⟨6 + i.val, by omega⟩ (.setStart sv.cur),
      .micro ⟨6 + i.val, by omega⟩ .zeroElapsed,
      .micro ⟨6 + i.val, by omega⟩ (.setTarget (FloatOps.mul (FloatOps.div (atof arg) (FloatOps.ofRat 180)) FloatOps.pi))] := by
  have e : Mril.exec cfg s l (82 :: digit (6 + i.val) :: arg) =
      .servo ⟨6 + i.val, by omega⟩ fun sv => .micro ⟨6 + i.val, by omega⟩ (.setStart sv.cur) <|
        .micro ⟨6 + i.val, by omega⟩ .zeroElapsed <|
        .micro ⟨6 + i.val, by omega⟩ (.setTarget (FloatOps.mul (FloatOps.div (atof arg) (FloatOps.ofRat 180)) FloatOps.pi)) <|
        .ret (s, { l with ctype := .write }) := by
    simp only [Mril.exec]
    rw [optionAt_digit _ 1 (6 + i.val) (by omega) rfl]
    obtain ⟨i, hi⟩ := i
    rcases (show i = 0 ∨ i = 1 by omega) with rfl | rfl <;>
      simp [poseIdx, ha, axisServo, Mril.setAxis, readServo, doMicro, Prog.bind] <;> rfl
  rw [e] at h
  cases h with | cons hs h =>
  cases hs with | servo _ _ sv =>
  cases h with | cons hs h =>
  cases hs
  cases h with | cons hs h =>
  cases hs
  cases h with | cons hs h =>
  cases hs
  obtain ⟨rfl, h3⟩ := exec_ret h
  simp at h3; subst h3
  exact ⟨rfl, sv, rfl⟩

/-- **C20** M0 / M1 select point-to-point / linear; other codes change nothing. -/
theorem C20_method (cfg : Cfg F) (s : Core F) (l : Loc F) (arg : List Byte) (ha : arg ≠ []) (tr) (r : Core F × Loc F)
    (h : Does (Mril.exec cfg s l (77 :: arg)) tr r) :
    tr = [] ∧ r.1 = (if atol arg = 0 then { s with rc := { s.rc with method := .p2p } }
      else if atol arg = 1 then { s with rc := { s.rc with method := .linear } } else s) := by
  have hb : -2147483648 ≤ atol arg ∧ atol arg ≤ 2147483647 := by
    simp only [atol, satLong]
    generalize (if (takeSign arg).fst = true then _ else _ : Int) = x
    split
    · omega
    · split <;> omega
  have h0 : (u32OfInt (atol arg) = 0) ↔ atol arg = 0 := by simp only [u32OfInt]; omega
  have h1 : (u32OfInt (atol arg) = 1) ↔ atol arg = 1 := by simp only [u32OfInt]; omega
  have e : Mril.exec cfg s l (77 :: arg) =
      .ret (if atol arg = 0 then { s with rc := s.rc.setMovementMethod .p2p }
        else if atol arg = 1 then { s with rc := s.rc.setMovementMethod .linear } else s, { l with ctype := .write }) := by
    simp [Mril.exec, ha, h0, h1]
    split
    · rfl
    · split <;> rfl
  rw [e] at h
  obtain ⟨rfl, h3⟩ := exec_ret h
  simp at h3; subst h3
  exact ⟨rfl, rfl⟩

/-- **C20** V sets the velocity of the arm and of both additional axes. -/
theorem C20_velocity (cfg : Cfg F) (s : Core F) (l : Loc F) (arg : List Byte) (ha : arg ≠ []) (tr) (r : Core F × Loc F)
    (h : Does (Mril.exec cfg s l (86 :: arg)) tr r) :
    tr = [.micro 6 (.setVel (atof arg)), .micro 7 (.setVel (atof arg))] ∧
    r.1 = { s with rc := { s.rc with maxVelocity := atof arg } } := by
  have e : Mril.exec cfg s l (86 :: arg) =
      .micro 6 (.setVel (atof arg)) (.micro 7 (.setVel (atof arg))
        (.ret ({ s with rc := s.rc.setMaxVelocity (atof arg) }, { l with ctype := .write }))) := by
    simp [Mril.exec, ha, doMicro, Prog.bind]
  rw [e] at h
  cases h with | cons hs h =>
  cases hs
  cases h with | cons hs h =>
  cases hs
  obtain ⟨rfl, h3⟩ := exec_ret h
  simp at h3; subst h3
  exact ⟨rfl, rfl⟩

/-- **C20** N<n> acknowledges with N0<n> and changes nothing else of the core. -/
theorem C20_number (cfg : Cfg F) (s : Core F) (l : Loc F) (arg : List Byte) (tr) (r : Core F × Loc F)
    (h : Does (Mril.exec cfg s l (78 :: arg)) tr r) :
    tr = [.out (.msg (.n0 (atol arg)))] ∧ r.1 = s ∧ r.2.tmpNumber = atol arg := by
  have e : Mril.exec cfg s l (78 :: arg) =
      .out (.msg (.n0 (atol arg))) (.ret (s, { l with ctype := .none, tmpNumber := atol arg })) := by
    simp [Mril.exec, poseIdx, send, Prog.bind]
  rw [e] at h
  cases h with | cons hs h =>
  cases hs
  obtain ⟨rfl, h3⟩ := exec_ret h
  simp at h3; subst h3
  exact ⟨rfl, rfl, rfl⟩

/-! ### C21 -/

/-- monitor: the arm servos are never commanded. -/
private def armQuiet : Mon F Unit where
  upd := fun _ _ => ()
  ok := fun _ a => ∀ i m, a = .micro i m → 6 ≤ i.val

private theorem exec_armQuiet (cfg : Cfg F) (s : Core F) (l : Loc F) (tok : List Byte) (g : Unit)
    (hs : s.rc.inTransaction = true) :
    (Mril.exec cfg s l tok).wp armQuiet (fun _ r => r.1.rc.inTransaction = true) g := by
  exec_leaves
  all_goals simp [armQuiet, Prog.bind, wp, RC.setMovementMethod, RC.setMaxVelocity, RC.setTargetPoseAt, RC.setTargetLogicalAngle, hs]
  all_goals first
    | decide
    | (intro v; rename_i h; exact axisServo_ge h)

private theorem noArm_of_ok {tr : List (Act F)}
    (h : ∀ pre a post, tr = pre ++ a :: post → a.isInput = false → (armQuiet (F := F)).ok (pre.foldl armQuiet.upd ()) a) :
    ∀ i m, Act.micro i m ∈ tr → 6 ≤ i.val := by
  intro i m hm
  obtain ⟨pre, post, e⟩ := List.append_of_mem hm
  exact h pre _ post e rfl i m rfl

/-- **C21** (no move starts inside): whatever bytes an instruction consists of and whatever the environment answers, while it
is being read no arm servo is commanded — neither target nor speed (only the additional axes 6 and 7 may be).  Holds for
every prefix of the execution. -/
theorem C21_no_motion (cfg : Cfg F) (s : Core F) (instr : List Byte) (tr : List (Act F)) (q : Prog F (Core F))
    (h : Exec (Mril.parse cfg s instr) tr q) : ∀ i m, Act.micro i m ∈ tr → 6 ≤ i.val := by
  have hp : (Mril.parse cfg s instr).wp armQuiet (fun _ _ => True) () :=
    parse_wp armQuiet cfg (fun _ s _ => s.rc.inTransaction = true) _ trivial
      (fun g s l tok hs => exec_armQuiet cfg s l tok g hs)
      (fun g s l hs => ⟨by simp [armQuiet], hs⟩) instr () s (fun _ => trivial) (fun _ => rfl)
      (by
        intro g s l _
        simp only [Mril.finish]
        split <;> simp [send, Prog.bind, wp, armQuiet])
  exact noArm_of_ok (wp_exec h hp (fun _ _ _ _ _ => trivial)).1

/-- **C21** (transaction is open while reading and always closed at the end). -/
theorem C21_closed (cfg : Cfg F) (s s' : Core F) (instr : List Byte) (hne : instr ≠ []) (tr : List (Act F))
    (h : Does (Mril.parse cfg s instr) tr s') : s'.rc.inTransaction = false := by
  have hp : (Mril.parse cfg s instr).wp armQuiet (fun _ s' => s'.rc.inTransaction = false) () :=
    parse_wp armQuiet cfg (fun _ s _ => s.rc.inTransaction = true) _ trivial
      (fun g s l tok hs => exec_armQuiet cfg s l tok g hs)
      (fun g s l hs => ⟨by simp [armQuiet], hs⟩) instr () s (fun e => absurd e hne) (fun _ => rfl)
      (by
        intro g s l _
        simp only [Mril.finish]
        split <;> simp [send, Prog.bind, wp, armQuiet, RC.endTransaction])
  exact (wp_exec h hp (fun _ _ _ _ _ => trivial)).2

/-- **C21**: every command of an instruction is executed with the transaction open. -/
theorem C21_open (cfg : Cfg F) (cs : List Cmd) (r r' : Core F × Loc F) (tr : List (Act F)) (h : Steps cfg cs r tr r')
    (h0 : r.1.rc.inTransaction = true) : r'.1.rc.inTransaction = true := by
  induction h with
  | nil => exact h0
  | @cons c cs r t r1 u r2 h1 _ ih =>
    exact ih (wp_exec h1 (exec_armQuiet cfg r.1 r.2 c.text () h0) (fun _ _ _ _ _ => trivial)).2

/-! ### C22 -/

/-- **C22** (comments): text after '#' or '(' has no influence: the whole behaviour of the instruction (as a program, i.e. for
all environments) is the same for any such text. -/
theorem C22_comment (cfg : Cfg F) (s : Core F) (a : List Byte) (o : Byte) (ho : o = 35 ∨ o = 40) (c c' : List Byte) :
    Mril.parse cfg s (a ++ o :: c) = Mril.parse cfg s (a ++ o :: c') := by
  simp only [Mril.parse]
  rw [if_neg (by simp), if_neg (by simp), loop_comment cfg a o ho c c']

private theorem loop_before (cfg : Cfg F) (cs : List Cmd) (h : ∀ c ∈ cs, c.Ok) (o : Byte) (ho : o = 35 ∨ o = 40) (c : List Byte) (s : Core F) (l : Loc F) :
    Mril.loop cfg (text cs ++ o :: c) s l [] = (execAll cfg cs s l).bind fun r => .out (.raw .comment) (.ret r) := by
  induction cs generalizing s l with
  | nil =>
    show Mril.loop cfg (o :: c) s l [] = .out (.raw .comment) (.ret (s, l))
    rw [Mril.loop, if_pos (by rcases ho with rfl | rfl <;> rfl)]
  | cons x cs ih =>
    have hc := h x (by simp)
    have hu := upper_facts x.letter ((isUpper_iff x.letter).2 hc.letter)
    have e : text (x :: cs) ++ o :: c = x.letter :: x.arg ++ (text cs ++ o :: c) := by simp [text, Cmd.text]
    have hf : Mril.finished (text cs ++ o :: c) = true := by
      cases cs with
      | nil => rcases ho with rfl | rfl <;> rfl
      | cons y ys =>
        have := finished_text (y :: ys) (fun z hz => h z (by simp [hz]))
        simpa [text, Cmd.text, Mril.finished] using this
    rw [e, loop_token cfg s l [] x.letter x.arg _ hu hc.arg hf (by have := hc.len; simp; omega), execAll, List.nil_append, Cmd.text, Prog.bind_assoc]
    congr 1
    funext r
    exact ih (fun x hx => h x (by simp [hx])) r.1 r.2

/-- **C22** (what precedes a comment is executed): with a comment behind it an instruction does what it does without one, up to a log line. -/
theorem C22_before (cfg : Cfg F) (s : Core F) (cs : List Cmd) (hne : cs ≠ []) (hok : ∀ c ∈ cs, c.Ok) (o : Byte) (ho : o = 35 ∨ o = 40) (c : List Byte)
    (tr : List (Act F)) (s' : Core F) (h : Does (Mril.parse cfg s (text cs ++ o :: c)) tr s') :
    ∃ a b, tr = a ++ .out (.raw .comment) :: b ∧ Does (Mril.parse cfg s (text cs)) (a ++ b) s' := by
  rw [Mril.parse, if_neg (by simp), loop_before cfg cs hok o ho c, Prog.bind_assoc] at h
  obtain ⟨r, t, u, e, h1, h2⟩ := exec_bind_ret h
  cases h2 with | cons hs h2 =>
  cases hs with | out _ _ =>
  refine ⟨t, _, e, ?_⟩
  rw [parse_text cfg cs hok hne]
  exact exec_bind_intro h1 h2

example : text [⟨88, str "10"⟩, ⟨89, str "2"⟩] ++ 40 :: str "go" = str "X10Y2(go" := by decide

/-- the command letters with a meaning. -/
def known : List Byte := str "MVXYZABCRIODN"

/-- **C22** (unknown letters): a command with an unknown letter has no effect at all. -/
theorem C22_unknown (cfg : Cfg F) (s : Core F) (l : Loc F) (c : Byte) (arg : List Byte) (hk : c ∉ known) (tr) (r : Core F × Loc F)
    (h : Does (Mril.exec cfg s l (c :: arg)) tr r) : tr = [] ∧ r.1 = s ∧ r.2.resp = l.resp ∧ r.2.tmpNumber = l.tmpNumber := by
  have hk' : c ≠ 77 ∧ c ≠ 86 ∧ c ≠ 88 ∧ c ≠ 89 ∧ c ≠ 90 ∧ c ≠ 65 ∧ c ≠ 66 ∧ c ≠ 67 ∧ c ≠ 82 ∧ c ≠ 73 ∧ c ≠ 79 ∧ c ≠ 68 ∧ c ≠ 78 := by
    refine ⟨?_, ?_, ?_, ?_, ?_, ?_, ?_, ?_, ?_, ?_, ?_, ?_, ?_⟩ <;> (rintro rfl; exact hk (by decide))
  obtain ⟨k1, k2, k3, k4, k5, k6, k7, k8, k9, k10, k11, k12, k13⟩ := hk'
  have e : ∃ ct, Mril.exec cfg s l (c :: arg) = .ret (s, { l with ctype := ct }) := by
    simp [Mril.exec, poseIdx, k1, k2, k3, k4, k5, k6, k7, k8, k9, k10, k11, k12, k13]
  obtain ⟨ct, e⟩ := e
  rw [e] at h
  obtain ⟨rfl, h3⟩ := exec_ret h
  simp at h3; subst h3
  exact ⟨rfl, rfl, rfl, rfl⟩

example : (75 : Byte) ∉ known ∧ (71 : Byte) ∉ known := by decide

/-! ### C23 -/

/-- a read command. -/
inductive IsRead : Cmd → Prop
  | simple (c : Byte) (h : c ∈ str "MVXYZABC") : IsRead ⟨c, []⟩
  | axis (o : Fin 8) : IsRead ⟨82, [digit o.val]⟩

/-- reading the six arm servos once each. -/
def sixReads (v : Fin 6 → Servo F) : List (Act F) := (List.finRange 6).map fun i => .servo (armServo i) (v i)

/-- What a read command may do: `Answer cfg s c t a` — it performs the accesses `t` (only reads) and answers `a`. -/
inductive Answer (cfg : Cfg F) (s : Core F) : Cmd → List (Act F) → Part F → Prop
  | method : Answer cfg s ⟨77, []⟩ [] (.method s.rc.method.code)
  | velocity : Answer cfg s ⟨86, []⟩ [] (.velocity s.rc.maxVelocity)
  | position (i : Fin 3) (v : Fin 6 → Servo F) : Answer cfg s ⟨88 + UInt8.ofNat i.val, []⟩ (sixReads v)
      (.pose (88 + UInt8.ofNat i.val) (cfg.fwd (cfg.p2l fun j => (v j).cur) ⟨i.val, by omega⟩))
  | orientation (i : Fin 3) (v : Fin 6 → Servo F) : Answer cfg s ⟨65 + UInt8.ofNat i.val, []⟩ (sixReads v)
      (.pose (65 + UInt8.ofNat i.val) (FloatOps.mul (cfg.fwd (cfg.p2l fun j => (v j).cur) ⟨3 + i.val, by omega⟩) radToDeg))
  | axis (i : Fin 6) (v : Fin 6 → Servo F) : Answer cfg s ⟨82, [digit i.val]⟩ (sixReads v)
      (.angle i.val (FloatOps.mul (cfg.p2l (fun j => (v j).cur) i) radToDeg))
  | additional (i : Fin 2) (v : Servo F) : Answer cfg s ⟨82, [digit (6 + i.val)]⟩ [.servo ⟨6 + i.val, by omega⟩ v]
      (.angle (6 + i.val) (FloatOps.mul v.cur radToDeg))

/-- the answers of several read commands, in order. -/
inductive Answers (cfg : Cfg F) (s : Core F) : List Cmd → List (Act F) → List (Part F) → Prop
  | nil : Answers cfg s [] [] []
  | cons {c cs t u a as} : Answer cfg s c t a → Answers cfg s cs u as → Answers cfg s (c :: cs) (t ++ u) (a :: as)

private theorem six_fun (v : Fin 6 → Servo F) : six (v 0).cur (v 1).cur (v 2).cur (v 3).cur (v 4).cur (v 5).cur = fun j => (v j).cur := by
  funext j
  match j with
  | 0 | 1 | 2 | 3 | 4 | 5 => rfl

private theorem exec_readAngles {β : Type} (f : Six F → β) (tr : List (Act F)) (r : β)
    (h : Does (RC.readAngles.bind fun a => .ret (f a)) tr r) :
    ∃ v : Fin 6 → Servo F, tr = sixReads v ∧ r = f fun j => (v j).cur := by
  have e : (RC.readAngles.bind fun a => .ret (f a)) = (.servo 0 fun a => .servo 1 fun b => .servo 2 fun c => .servo 3 fun d =>
      .servo 4 fun e => .servo 5 fun g => .ret (f (six a.cur b.cur c.cur d.cur e.cur g.cur)) : Prog F β) := rfl
  rw [e] at h
  cases h with | cons hs h =>
  cases hs with | servo _ _ a =>
  cases h with | cons hs h =>
  cases hs with | servo _ _ b =>
  cases h with | cons hs h =>
  cases hs with | servo _ _ c =>
  cases h with | cons hs h =>
  cases hs with | servo _ _ d =>
  cases h with | cons hs h =>
  cases hs with | servo _ _ e =>
  cases h with | cons hs h =>
  cases hs with | servo _ _ g =>
  obtain ⟨rfl, h3⟩ := exec_ret h
  simp at h3
  let v : Fin 6 → Servo F := fun j => match j with
    | 0 => a | 1 => b | 2 => c | 3 => d | 4 => e | 5 => g
  refine ⟨v, rfl, ?_⟩
  rw [h3, ← six_fun v]

/-- each read command does exactly what `Answer` says, and changes nothing. -/
theorem C23_read_command (cfg : Cfg F) (s : Core F) (l : Loc F) (c : Cmd) (hc : IsRead c) (tr : List (Act F)) (r : Core F × Loc F)
    (h : Does (Mril.exec cfg s l c.text) tr r) :
    ∃ a, Answer cfg s c tr a ∧ r = (s, { l with ctype := .read, resp := l.resp ++ [a] }) := by
  have pose : ∀ (sym : Byte) (i : Fin 6), poseIdx sym = some i → sym ≠ 77 → sym ≠ 86 → sym ≠ 78 →
      Does (Mril.exec cfg s l [sym]) tr r → ∃ v : Fin 6 → Servo F, tr = sixReads v ∧
        r = (s, { l with ctype := .read, resp := l.resp ++ [.pose sym (if i.val < 3 then cfg.fwd (cfg.p2l fun j => (v j).cur) i
          else FloatOps.mul (cfg.fwd (cfg.p2l fun j => (v j).cur) i) radToDeg)] }) := by
    intro sym i hi h77 h86 h78 h
    have e : Mril.exec cfg s l [sym] = RC.readAngles.bind fun a => .ret (s, { l with ctype := .read, resp := l.resp ++
        [.pose sym (if i.val < 3 then cfg.fwd (cfg.p2l a) i else FloatOps.mul (cfg.fwd (cfg.p2l a) i) radToDeg)] }) := by
      simp [Mril.exec, hi, h77, h86, h78, RC.getCurrentPose, bind_assoc, Prog.bind]
      rfl
    rw [e] at h
    exact exec_readAngles _ _ _ h
  cases hc with
  | simple sym hm =>
    have : sym = 77 ∨ sym = 86 ∨ (∃ i : Fin 3, sym = 88 + UInt8.ofNat i.val) ∨ ∃ i : Fin 3, sym = 65 + UInt8.ofNat i.val := by
      simp [str] at hm
      rcases hm with rfl | rfl | rfl | rfl | rfl | rfl | rfl | rfl
      · exact .inl rfl
      · exact .inr (.inl rfl)
      · exact .inr (.inr (.inl ⟨0, rfl⟩))
      · exact .inr (.inr (.inl ⟨1, rfl⟩))
      · exact .inr (.inr (.inl ⟨2, rfl⟩))
      · exact .inr (.inr (.inr ⟨0, rfl⟩))
      · exact .inr (.inr (.inr ⟨1, rfl⟩))
      · exact .inr (.inr (.inr ⟨2, rfl⟩))
    rcases this with rfl | rfl | ⟨i, rfl⟩ | ⟨i, rfl⟩
    · have e : Mril.exec cfg s l [77] = .ret (s, { l with ctype := .read, resp := l.resp ++ [.method s.rc.method.code] }) := by
        simp [Mril.exec]
      simp only [Cmd.text] at h
      rw [e] at h
      obtain ⟨rfl, h3⟩ := exec_ret h
      simp at h3
      exact ⟨_, .method, h3⟩
    · have e : Mril.exec cfg s l [86] = .ret (s, { l with ctype := .read, resp := l.resp ++ [.velocity s.rc.maxVelocity] }) := by
        simp [Mril.exec]
      simp only [Cmd.text] at h
      rw [e] at h
      obtain ⟨rfl, h3⟩ := exec_ret h
      simp at h3
      exact ⟨_, .velocity, h3⟩
    · obtain ⟨v, rfl, rfl⟩ := pose (88 + UInt8.ofNat i.val) ⟨i.val, by omega⟩
        (by match i with | 0 => rfl | 1 => rfl | 2 => rfl)
        (by match i with | 0 => decide | 1 => decide | 2 => decide)
        (by match i with | 0 => decide | 1 => decide | 2 => decide)
        (by match i with | 0 => decide | 1 => decide | 2 => decide) h
      refine ⟨_, .position i v, ?_⟩
      rw [if_pos (by simp)]
    · obtain ⟨v, rfl, rfl⟩ := pose (65 + UInt8.ofNat i.val) ⟨3 + i.val, by omega⟩
        (by match i with | 0 => rfl | 1 => rfl | 2 => rfl)
        (by match i with | 0 => decide | 1 => decide | 2 => decide)
        (by match i with | 0 => decide | 1 => decide | 2 => decide)
        (by match i with | 0 => decide | 1 => decide | 2 => decide) h
      refine ⟨_, .orientation i v, ?_⟩
      rw [if_neg (by simp)]
  | axis o =>
    simp only [Cmd.text] at h
    by_cases ho : o.val < 6
    · have e : Mril.exec cfg s l [82, digit o.val] = RC.readAngles.bind fun a => .ret (s, { l with ctype := .read, resp := l.resp ++
          [.angle o.val (FloatOps.mul (cfg.p2l a ⟨o.val, ho⟩) radToDeg)] }) := by
        simp only [Mril.exec]
        rw [optionAt_digit _ 1 o.val (by omega) rfl]
        have h1 : armAxis o.val = some ⟨o.val, ho⟩ := by simp [armAxis, ho]
        have hn : ¬ (6 ≤ o.val) := by omega
        simp [poseIdx, hn, h1, RC.getCurrentLogicalAngles, bind_assoc, Prog.bind]
        rfl
      rw [e] at h
      obtain ⟨v, rfl, rfl⟩ := exec_readAngles _ _ _ h
      exact ⟨_, .axis ⟨o.val, ho⟩ v, rfl⟩
    · obtain ⟨k, hk⟩ : ∃ k : Fin 2, o = ⟨6 + k.val, by omega⟩ := ⟨⟨o.val - 6, by omega⟩, by ext; simp; omega⟩
      have hv : o.val = 6 + k.val := by rw [hk]
      rw [hv] at h ⊢
      have e : Mril.exec cfg s l [82, digit (6 + k.val)] = .servo ⟨6 + k.val, by omega⟩ fun v =>
          .ret (s, { l with ctype := .read, resp := l.resp ++ [.angle (6 + k.val) (FloatOps.mul v.cur radToDeg)] }) := by
        simp only [Mril.exec]
        rw [optionAt_digit _ 1 (6 + k.val) (by omega) rfl]
        match k with
        | 0 => simp [poseIdx, axisServo, readServo, Prog.bind]; rfl
        | 1 => simp [poseIdx, axisServo, readServo, Prog.bind]; rfl
      rw [e] at h
      cases h with | cons hs h =>
      cases hs with | servo _ _ v =>
      obtain ⟨rfl, h3⟩ := exec_ret h
      simp at h3
      exact ⟨_, .additional k v, h3⟩

private theorem steps_reads (cfg : Cfg F) (cs : List Cmd) (hr : ∀ c ∈ cs, IsRead c) (s : Core F) (l : Loc F) (tr : List (Act F))
    (r : Core F × Loc F) (h : Steps cfg cs (s, l) tr r) :
    ∃ as, Answers cfg s cs tr as ∧ r.1 = s ∧ r.2.resp = l.resp ++ as ∧ r.2.tmpNumber = l.tmpNumber ∧ (cs ≠ [] → r.2.ctype = .read) := by
  induction cs generalizing l tr with
  | nil =>
    cases h
    exact ⟨[], .nil, rfl, by simp, rfl, fun h => absurd rfl h⟩
  | cons c cs ih =>
    cases h with
    | @cons _ _ _ t r1 u _ h1 h2 =>
      obtain ⟨a, ha, rfl⟩ := C23_read_command cfg s l c (hr c (by simp)) t r1 h1
      obtain ⟨as, h3, h4, h5, h6, h7⟩ := ih (fun x hx => hr x (by simp [hx])) _ _ h2
      refine ⟨a :: as, .cons ha h3, h4, ?_, h6, fun _ => ?_⟩
      · rw [h5]; simp
      · cases cs with
        | nil => cases h2; rfl
        | cons d ds => exact h7 (by simp)

private theorem isRead_ok {c : Cmd} (h : IsRead c) : c.Ok := by
  cases h with
  | simple c hm =>
    simp [str] at hm
    rcases hm with rfl | rfl | rfl | rfl | rfl | rfl | rfl | rfl <;> exact ⟨by decide, by simp, by simp⟩
  | axis o => exact ⟨by simp, by revert o; decide, by simp⟩

/-- **C23**: an instruction of read commands only (outside a transaction) changes nothing; its accesses are exactly the reads
its commands need, followed by exactly one reply frame with all answers in order. -/
theorem C23_reads (cfg : Cfg F) (cs : List Cmd) (hr : ∀ c ∈ cs, IsRead c) (hne : cs ≠ []) (s s' : Core F)
    (ht : s.rc.inTransaction = false) (tr : List (Act F)) (h : Does (Mril.parse cfg s (text cs)) tr s') :
    s' = s ∧ ∃ t as, Answers cfg { s with rc := { s.rc with inTransaction := true } } cs t as ∧
      tr = t ++ [.out (.msg (.reply none as))] := by
  obtain ⟨t, u, r, rfl, h1, h2⟩ := (C20_commands cfg cs (fun c hc => isRead_ok (hr c hc)) hne s s' tr).1 h
  obtain ⟨as, h3, h4, h5, h6, h7⟩ := steps_reads cfg cs hr _ _ _ _ h1
  simp only [Mril.finish, h7 hne, h6] at h2
  cases h2 with | cons hs h2 =>
  cases hs
  obtain ⟨rfl, h8⟩ := exec_ret h2
  simp at h8
  refine ⟨?_, t, as, h3, ?_⟩
  · subst h8; rw [h4]
    simp only [RC.startTransaction, RC.endTransaction, ← ht]
  · rw [h5]; rfl

/-- **C23** with a number: N<n> followed by reads: acknowledged by N0<n>, then one reply carrying n (if positive). -/
theorem C23_numbered_reads (cfg : Cfg F) (n : List Byte) (hn : (⟨78, n⟩ : Cmd).Ok) (cs : List Cmd) (hr : ∀ c ∈ cs, IsRead c)
    (hne : cs ≠ []) (s s' : Core F) (ht : s.rc.inTransaction = false) (tr : List (Act F))
    (h : Does (Mril.parse cfg s (text (⟨78, n⟩ :: cs))) tr s') :
    s' = s ∧ ∃ t as, Answers cfg { s with rc := { s.rc with inTransaction := true } } cs t as ∧
      tr = .out (.msg (.n0 (atol n))) :: t ++ [.out (.msg (.reply (if 0 < atol n then some (atol n) else none) as))] := by
  obtain ⟨t, u, r, rfl, h1, h2⟩ := (C20_commands cfg _ (fun c hc => by
    rcases List.mem_cons.1 hc with rfl | hc
    · exact hn
    · exact isRead_ok (hr c hc)) (by simp) s s' tr).1 h
  cases h1 with
  | @cons _ _ _ t0 r1 u0 _ h0 h1 =>
    obtain ⟨rfl, k2, k3⟩ := C20_number cfg _ _ n t0 r1 h0
    have k4 : r1 = (r1.1, r1.2) := rfl
    rw [k4, k2] at h1
    obtain ⟨as, h3, h4, h5, h6, h7⟩ := steps_reads cfg cs hr _ _ _ _ h1
    have k5 : r1.2.resp = [] := by
      have e : Mril.exec cfg { s with rc := s.rc.startTransaction } {} (Cmd.text ⟨78, n⟩) =
          .out (.msg (.n0 (atol n))) (.ret ({ s with rc := s.rc.startTransaction }, { ctype := .none, tmpNumber := atol n })) := by
        simp [Mril.exec, poseIdx, send, Prog.bind, Cmd.text]
      rw [e] at h0
      cases h0 with | cons hs h0 =>
      cases hs
      have := (exec_ret h0).2
      simp at this
      rw [this]
    simp only [Mril.finish, h7 hne, h6, k3] at h2
    cases h2 with | cons hs h2 =>
    cases hs
    obtain ⟨rfl, h8⟩ := exec_ret h2
    simp at h8
    refine ⟨?_, u0, as, h3, ?_⟩
    · subst h8; rw [h4]
      simp only [RC.startTransaction, RC.endTransaction, ← ht]
    · rw [h5, k5]; rfl

example : IsRead ⟨88, []⟩ ∧ IsRead ⟨82, [digit 6]⟩ ∧ text [⟨88, []⟩, ⟨82, [digit 6]⟩] = str "XR6" :=
  ⟨.simple 88 (by decide), .axis 6, by decide⟩

/-! ### C26 -/

/-- **C26** fails: a command of 20 characters overruns the token buffer … -/
theorem C26_token_false (cfg : Cfg F) (s : Core F) (w : World F) :
    (Mril.parse cfg s (str "X0000000000000000001")).run w = .error .oobWrite := by
  have e : ∀ s l, Mril.loop cfg (str "X0000000000000000001") s l [] = .fault .oobWrite := by intro s l; rfl
  have e2 : Mril.parse cfg s (str "X0000000000000000001") = .fault .oobWrite := by
    rw [Mril.parse, if_neg (by decide), e]; rfl
  rw [e2]; rfl

/-- … and so does a longer one, in the middle of an instruction … -/
theorem C26_long_false (cfg : Cfg F) (s : Core F) (w : World F) :
    (Mril.parse cfg s (str "X000000000000000000000001Y2")).run w = .error .oobWrite := by
  have e : ∀ s l, Mril.loop cfg (str "X000000000000000000000001Y2") s l [] = .fault .oobWrite := by intro s l; rfl
  have e2 : Mril.parse cfg s (str "X000000000000000000000001Y2") = .fault .oobWrite := by
    rw [Mril.parse, if_neg (by decide), e]; rfl
  rw [e2]; rfl

/-- … and R9 … -/
theorem C26_axis_false (cfg : Cfg F) (s : Core F) (w : World F) :
    (Mril.parse cfg s (str "R9")).run w = .error .oobRead := by
  have h : ∀ c ∈ ([⟨82, [digit 9]⟩] : List Cmd), c.Ok := by
    intro c hc; simp at hc; subst hc; exact ⟨by decide, by decide, by decide⟩
  rw [show str "R9" = text [⟨82, [digit 9]⟩] by decide, parse_text cfg _ h (by simp)]
  have e : ∀ s l, Mril.exec cfg s l (Cmd.text ⟨82, [digit 9]⟩) = .fault .oobRead := by
    intro s l
    simp only [Mril.exec, Cmd.text]
    rw [optionAt_digit _ 1 9 (by omega) rfl]
    simp [poseIdx, axisServo]
  simp [execAll, e, Prog.bind, Prog.run]

/-- … and an O without pin. -/
theorem C26_pin_false (cfg : Cfg F) (s : Core F) (w : World F) :
    (Mril.parse cfg s (str "O")).run w = .error .oobRead := by
  have h : ∀ c ∈ ([⟨79, []⟩] : List Cmd), c.Ok := by
    intro c hc; simp at hc; subst hc; exact ⟨by decide, by decide, by decide⟩
  rw [show str "O" = text [⟨79, []⟩] by decide, parse_text cfg _ h (by simp)]
  have e : ∀ s l, Mril.exec cfg s l (Cmd.text ⟨79, []⟩) = .fault .oobRead := by
    intro s l
    simp [Mril.exec, Cmd.text, optionAt, poseIdx]
  simp [execAll, e, Prog.bind, Prog.run]

/-- commands whose axis / pin digits exist. -/
def Addressed (c : Cmd) : Prop :=
  (c.letter = 82 → ∃ (o : Fin 8) (rest : List Byte), c.arg = digit o.val :: rest) ∧
  (c.letter = 73 ∨ c.letter = 79 → ∃ (p st : Fin 10) (rest : List Byte), c.arg = digit p.val :: digit st.val :: rest)

/-- number of input conditions in an instruction. -/
def inputs (cs : List Cmd) : Nat := (cs.filter fun c => c.letter == 73).length

private def noFault : Mon F Unit where
  upd := fun _ _ => ()
  flt := fun _ => False

private theorem exec_noFault_other (cfg : Cfg F) (s : Core F) (l : Loc F) (tok : List Byte) (n : Nat) (hw : s.conds.length + n ≤ 10) (g : Unit)
    (h1 : tok.headD 0 ≠ 73) (h2 : tok.headD 0 ≠ 79) (h3 : tok.headD 0 ≠ 82) :
    (Mril.exec cfg s l tok).wp noFault (fun _ r => r.1.conds.length + n ≤ 10) g := by
  exec_leaves
  all_goals first
    | contradiction
    | simp [Prog.bind, wp, noFault, hw]

private theorem exec_noFault (cfg : Cfg F) (hm : cfg.pinMap.length = 10) (s : Core F) (l : Loc F) (c : Cmd) (cs : List Cmd) (ha : Addressed c)
    (hi : s.conds.length + inputs (c :: cs) ≤ 10) (g : Unit) :
    (Mril.exec cfg s l c.text).wp noFault (fun _ r => r.1.conds.length + inputs cs ≤ 10) g := by
  obtain ⟨letter, arg⟩ := c
  obtain ⟨hR, hIO⟩ := ha
  simp only at hR hIO
  have hle : inputs cs ≤ inputs (⟨letter, arg⟩ :: cs) := by
    simp only [inputs, List.filter_cons]; split <;> simp
  by_cases h73 : letter = 73
  · obtain ⟨p, st, rest, rfl⟩ := hIO (.inl h73)
    subst h73
    have hp : cfg.pinMap[p.val]? = some cfg.pinMap[p.val] := List.getElem?_eq_getElem (by rw [hm]; exact p.isLt)
    rw [Cmd.text, exec_I cfg s l p.val st.val _ rest p.isLt st.isLt hp]
    have : inputs (⟨73, digit p.val :: digit st.val :: rest⟩ :: cs) = inputs cs + 1 := by simp [inputs]
    rw [this] at hi
    have hn : ¬ s.conds.length ≥ MAX_PINS := by show ¬ (10 ≤ s.conds.length); omega
    rw [if_neg hn]
    simp only [wp, noFault]
    simp
    omega
  · by_cases h79 : letter = 79
    · obtain ⟨p, st, rest, rfl⟩ := hIO (.inr h79)
      subst h79
      have hp : cfg.pinMap[p.val]? = some cfg.pinMap[p.val] := List.getElem?_eq_getElem (by rw [hm]; exact p.isLt)
      rw [Cmd.text, exec_O cfg s l p.val st.val _ rest p.isLt st.isLt hp]
      simp only [wp, wp_bind, noFault, true_and]
      split
      · simp only [wp, true_and]; omega
      · split
        · simp only [wp, true_and]; omega
        · simp only [wp]; omega
    · by_cases h82 : letter = 82
      · obtain ⟨o, rest, rfl⟩ := hR h82
        subst h82
        simp only [Cmd.text]
        have ho := optionAt_digit (82 :: digit o.val :: rest) 1 o.val (by omega) rfl
        have hw : s.conds.length + inputs cs ≤ 10 := by omega
        clear hR hIO hi hle h73 h79
        generalize inputs cs = n at hw
        by_cases h6 : 6 ≤ o.val
        · obtain ⟨a, hax⟩ : ∃ a, axisServo o.val = some a := by
            rcases (show o.val = 6 ∨ o.val = 7 by omega) with h | h <;> simp [h, axisServo]
          simp only [Mril.exec, ho, hax, List.headD_cons, poseIdx]
          cases rest with
          | nil => simp [h6, readServo, Prog.bind, wp, noFault, hw]
          | cons r rest => simp [h6, readServo, doMicro, Mril.setAxis, Prog.bind, wp, noFault, hw]
        · obtain ⟨a, har⟩ : ∃ a, armAxis o.val = some a := by
            rw [armAxis, dif_pos (by omega)]; exact ⟨_, rfl⟩
          simp only [Mril.exec, ho, har, List.headD_cons, poseIdx]
          cases rest with
          | nil => simp [h6, readServo, RC.getCurrentLogicalAngles, RC.readAngles, Prog.bind, wp, noFault, hw]
          | cons r rest => simp [h6, Prog.bind, wp, noFault, hw]
      · have hw : s.conds.length + inputs cs ≤ 10 := by omega
        clear hR hIO hi hle
        generalize inputs cs = n at hw
        exact exec_noFault_other cfg s l _ n hw g h73 h79 h82

/-- **C26** (partial): an instruction of commands of at most 19 characters, with existing axes and pins and at most ten pending
input conditions, never accesses memory outside the buffers — in any environment, at any point of its execution.
Missing: the other instructions, for which it is false (`C26_token_false`, `C26_axis_false`, `C26_pin_false`,
`C32_capacity_false`). -/
theorem C26_memory_partial (cfg : Cfg F) (hm : cfg.pinMap.length = 10) (s : Core F) (cs : List Cmd) (hne : cs ≠ []) (hok : ∀ c ∈ cs, c.Ok)
    (ha : ∀ c ∈ cs, Addressed c) (hi : s.conds.length + inputs cs ≤ 10) (tr : List (Act F)) (f : Fault) :
    ¬ Exec (Mril.parse cfg s (text cs)) tr (.fault f) := by
  intro h
  have hp : (Mril.parse cfg s (text cs)).wp noFault (fun _ _ => True) () := by
    rw [parse_text cfg cs hok hne, wp_bind]
    refine wp_mono (fun g r _ => ?_) (execAll_wp noFault cfg
      (fun cs _ s _ => (∀ c ∈ cs, Addressed c) ∧ s.conds.length + inputs cs ≤ 10) ?_ cs () _ _ ⟨ha, hi⟩)
    · simp only [Mril.finish]
      split <;> simp [send, Prog.bind, wp, noFault]
    · intro c cs g s l ⟨h1, h2⟩
      exact wp_mono (fun _ r hr => ⟨fun x hx => h1 x (by simp [hx]), hr⟩) (exec_noFault cfg hm s l c cs (h1 c (by simp)) h2 g)
  exact (wp_exec h hp (fun _ _ _ _ _ => trivial)).2

example : Addressed ⟨82, str "6-20"⟩ ∧ Addressed ⟨79, str "31"⟩ := by
  exact ⟨⟨fun _ => ⟨6, str "-20", by decide⟩, fun h => by simp at h⟩, ⟨fun h => by simp at h, fun _ => ⟨3, 1, [], by decide⟩⟩⟩

/-! ### C27 -/

private theorem digitChar_facts (d : Fin 10) : isDigit (digitChar d) = true ∧ digitVal (digitChar d) = d.val ∧
    digitChar d ≠ 45 ∧ digitChar d ≠ 46 ∧ digitChar d ≠ 78 ∧ digitChar d ≠ 73 ∧ digitChar d ≠ 88 := by
  revert d; decide

private theorem takeWhile_digits (ds : List (Fin 10)) (rest : List Byte) (h : ∀ c r, rest = c :: r → isDigit c = false) :
    (ds.map digitChar ++ rest).takeWhile isDigit = ds.map digitChar ∧ (ds.map digitChar ++ rest).dropWhile isDigit = rest := by
  induction ds with
  | nil =>
    cases rest with
    | nil => simp
    | cons c r => simp [h c r rfl]
  | cons d ds ih => simp [digitChar_facts d, ih]

private theorem digitsVal_map (ds : List (Fin 10)) : digitsVal (ds.map digitChar) = natVal ds := by
  have : ∀ (ds : List (Fin 10)) (a : Nat), (ds.map digitChar).foldl (fun a d => 10 * a + digitVal d) a = a * 10 ^ ds.length + natVal ds := by
    intro ds
    induction ds with
    | nil => intro a; simp [natVal]
    | cons d ds ih =>
      intro a
      simp only [List.map_cons, List.foldl_cons, ih, digitChar_facts d, natVal, List.length_cons, Nat.pow_succ]
      rw [Nat.add_mul, Nat.mul_comm 10 a, Nat.mul_assoc, Nat.mul_comm 10 (10 ^ ds.length), Nat.add_assoc]
  simpa [digitsVal] using this ds 0

private theorem isPrefixOf_ne {a b : Byte} {p l : List Byte} (h : a ≠ b) : (a :: p).isPrefixOf (b :: l) = false := by
  simp [List.isPrefixOf, h]

private theorem isPrefixOf_ne2 {x y a b : Byte} {p l : List Byte} (h : a ≠ b) : (x :: a :: p).isPrefixOf (y :: b :: l) = false := by
  simp [List.isPrefixOf, h]

private theorem noPrefix (p : List Byte) (hp : p ∈ [str "NAN", str "INF", str "0X"]) (ip : List (Fin 10)) (fp : Option (List (Fin 10))) :
    p.isPrefixOf (ip.map digitChar ++ match fp with | none => [] | some f => 46 :: f.map digitChar) = false := by
  have d := digitChar_facts
  simp at hp
  cases fp with
  | none =>
    rcases hp with rfl | rfl | rfl
    · cases ip with
      | nil => decide
      | cons a ip => exact isPrefixOf_ne (Ne.symm (d a).2.2.2.2.1)
    · cases ip with
      | nil => decide
      | cons a ip => exact isPrefixOf_ne (Ne.symm (d a).2.2.2.2.2.1)
    · match ip with
      | [] => decide
      | [a] => show ([48, 88] : List Byte).isPrefixOf [digitChar a] = false; simp [List.isPrefixOf]
      | a :: b :: ip => exact isPrefixOf_ne2 (Ne.symm (d b).2.2.2.2.2.2)
  | some f =>
    rcases hp with rfl | rfl | rfl
    · cases ip with
      | nil => exact isPrefixOf_ne (by decide)
      | cons a ip => exact isPrefixOf_ne (Ne.symm (d a).2.2.2.2.1)
    · cases ip with
      | nil => exact isPrefixOf_ne (by decide)
      | cons a ip => exact isPrefixOf_ne (Ne.symm (d a).2.2.2.2.2.1)
    · match ip with
      | [] => exact isPrefixOf_ne (by decide)
      | [a] => exact isPrefixOf_ne2 (by decide)
      | a :: b :: ip => exact isPrefixOf_ne2 (Ne.symm (d b).2.2.2.2.2.2)

private theorem sign_aux (neg : Bool) (ip : List (Fin 10)) (fp : Option (List (Fin 10))) :
    takeSign (Dec.text ⟨neg, ip, fp⟩) = (neg, ip.map digitChar ++ match fp with | none => [] | some f => 46 :: f.map digitChar) := by
    cases neg with
    | true => cases fp <;> simp [Dec.text, takeSign]
    | false =>
      cases ip with
      | nil => cases fp <;> simp [Dec.text, takeSign]
      | cons a ip => cases fp <;> simp [Dec.text, takeSign, digitChar_facts a]

private theorem atof_aux (neg : Bool) (ip : List (Fin 10)) (fp : Option (List (Fin 10))) (hd : Dec.Ok ⟨neg, ip, fp⟩) :
    (atof (Dec.text ⟨neg, ip, fp⟩) : F) = FloatOps.ofRat (Dec.val ⟨neg, ip, fp⟩) := by
  have hsign := sign_aux neg ip fp
  simp only [atof, hsign]
  rw [noPrefix (str "NAN") (by simp), noPrefix (str "INF") (by simp), noPrefix (str "0X") (by simp)]
  simp only [Bool.false_eq_true, if_false]
  cases fp with
  | none =>
    have ⟨t1, t2⟩ := takeWhile_digits ip [] (by simp)
    rw [List.append_nil] at t1 t2
    have hip : ip ≠ [] := by
      rcases hd with h | ⟨f, h, _⟩
      · exact h
      · simp at h
    simp only [scanMantissa, List.append_nil, t1, t2, digitsVal_map]
    have : (!(ip.map digitChar).isEmpty) = true := by simp [hip]
    simp only [this, if_true, scanExp, pow10]
    simp only [Dec.val]
    cases neg <;> simp [pow10, Rat.add_zero]
  | some f =>
    have ⟨t1, t2⟩ := takeWhile_digits ip (46 :: f.map digitChar) (by rintro c r h; simp at h; rw [← h.1]; decide)
    have ⟨u1, u2⟩ := takeWhile_digits f [] (by simp)
    rw [List.append_nil] at u1 u2
    simp only [scanMantissa, t1, t2, u1, u2, digitsVal_map, if_true]
    have : (!((ip.map digitChar).isEmpty && (f.map digitChar).isEmpty)) = true := by
      rcases hd with h | ⟨f', h, h'⟩
      · simp at h; simp [h]
      · simp at h; subst h; simp [h']
    simp only [this, if_true, scanExp, pow10]
    simp only [Dec.val, List.length_map]
    cases neg <;> simp [pow10, Rat.add_zero]

/-- **C27**: a plain decimal number is converted with exactly its mathematical value (the rounding to `float` is
`FloatOps.ofRat`). -/
theorem C27_decimal (d : Dec) (hd : d.Ok) : (atof d.text : F) = FloatOps.ofRat d.val :=
  atof_aux d.neg d.ip d.fp hd

example : Dec.text ⟨true, [1, 2], some [0, 5]⟩ = str "-12.05" ∧ Dec.val ⟨true, [1, 2], some [0, 5]⟩ = -241 / 20 := by
  refine ⟨by decide, ?_⟩
  decide +kernel

/-! ### C29 -/

/-- **C29** fails: after "X10,Y20" the Y target is what it was. -/
theorem C29_separator_false (cfg : Cfg F) (s : Core F) (w : World F) :
    ∃ s', (Mril.parse cfg s (str "X10,Y20")).run w = .ok (s', w) ∧ s'.rc.targetPose 1 = s.rc.targetPose 1 ∧
      s'.rc.targetPose 0 = atof (str "10Y20") := by
  have e : ∀ s l, Mril.exec cfg s l (str "X10Y20") =
      .ret ({ s with rc := s.rc.setTargetPoseAt 0 (atof (str "10Y20")) }, { l with ctype := .write }) := by
    intro s l
    have : str "X10Y20" = 88 :: str "10Y20" := by decide
    rw [this]
    simp [Mril.exec, poseIdx, str]
  have e2 : ∀ s l, Mril.loop cfg (str "X10,Y20") s l [] = (Mril.exec cfg s l (str "X10Y20")).bind fun r => .ret (r.1, r.2) := by
    intro s l; rfl
  have e3 : Mril.parse cfg s (str "X10,Y20") =
      .ret { s with rc := ((s.rc.startTransaction).setTargetPoseAt 0 (atof (str "10Y20"))).endTransaction, commandNumber := -1 } := by
    rw [Mril.parse, if_neg (by decide), e2, e]; rfl
  rw [e3]
  exact ⟨_, rfl, rfl, rfl⟩

/-- **C29** (partial): a character that is no command character (',' '+' or anything else except '#' and '(') changes nothing when it
stands directly before an argument character (digit, '.', '-').  Missing: such a character before a command letter or
at the end, where the preceding command swallows the next one or is lost (`C29_separator_false`). -/
theorem C29_separator_partial (cfg : Cfg F) (s : Core F) (a b : List Byte) (x d : Byte)
    (hx : Mril.tokChar x = false ∧ x ≠ 35 ∧ x ≠ 40) (hd : argChar d = true) :
    Mril.parse cfg s (a ++ x :: d :: b) = Mril.parse cfg s (a ++ d :: b) := by
  simp only [Mril.parse]
  rw [if_neg (by simp), if_neg (by simp), loop_ignored cfg a x d b hx hd]

example : Mril.tokChar 44 = false ∧ argChar 49 = true := by decide

end Mrc.Props
