import Verif.Proof.ToldInstr
import Verif.Proof.ToldLine
/-
C84-C86: the arm is where it was told. For every number type.
-/
set_option linter.unusedSectionVars false
set_option linter.unusedSimpArgs false
namespace Mrc.Props
open Mrc Mrc.Prog Mrc.Spec Mrc.Told
open scoped Mrc.Num
variable {F : Type} [FloatOps F]

theorem tells_ne {cs : List Cmd} {P : Cmd → Prop} (h : ∃ c ∈ cs, P c) : cs ≠ [] := by
  rintro rfl; obtain ⟨_, h, _⟩ := h; cases h

theorem not_isGhost {x : Act F} (h : ¬ BeginsI x) : ¬ isGhost x := by
  intro hg
  match x, hg with
  | .out (.ghost s m), _ => exact h ⟨s, m, rfl⟩

theorem digitChar_inj {a b : Fin 10} (h : digitChar a = digitChar b) : a = b := by
  revert h; revert a b; decide

/-- an instruction that tells angles names a place. -/
theorem angles_place {cs : List Cmd} (ht : TellsAngles cs) : ¬ NoPlace (text cs) := by
  rintro ⟨cs', ok, hl, e⟩
  rw [← text_inj ht.ok ok e] at hl
  obtain ⟨c, hc, i, d, hd, rfl⟩ := ht.some
  rcases (hl _ hc).2 rfl with h | ⟨o, rest, ho, h⟩
  · simp only [List.length_cons] at h
    exact dec_ne_nil hd (List.length_eq_zero_iff.1 (by omega))
  · injection h with h _
    have := congrArg Fin.val (digitChar_inj h)
    simp only at this
    omega

/-- an instruction that tells a pose names a place. -/
theorem pose_place {cs : List Cmd} (ht : TellsPose cs) : ¬ NoPlace (text cs) := by
  rintro ⟨cs', ok, hl, e⟩
  rw [← text_inj ht.ok ok e] at hl
  obtain ⟨c, hc, i, d, hd, rfl⟩ := ht.some
  exact dec_ne_nil hd ((hl _ hc).1 (by have : ∀ i : Fin 6, poseLetter i ∈ str "XYZABC" := by decide
                                       exact this i))

theorem angles_directs {cs : List Cmd} (ht : TellsAngles cs) : ¬ Aside (text cs) := fun h => angles_place ht (Asd.NoPlace.of_aside h)
theorem pose_directs {cs : List Cmd} (ht : TellsPose cs) : ¬ Aside (text cs) := fun h => pose_place ht (Asd.NoPlace.of_aside h)

/-- **C110**: C84_angles for instructions from queue or storage, and for immediate ones begun while no move is under way (Calm). -/
theorem C110_angles {cfg : Cfg F} {junk : Nat → Byte} {tr : List (Act F)} {p : Prog F (FW F)} (h : Trace cfg junk tr p) {L U : Six F} (hl : Limits L U tr)
    {cs : List Cmd} (ht : TellsAngles cs) (hM : Chooses 48 cs) {pre mid post : List (Act F)} {src : Src} {a : Act F} (hs : src ≠ .immediate ∨ Calm pre)
    (e : tr = pre ++ .out (.ghost src (text cs)) :: mid ++ a :: post) (hm : ∀ x ∈ mid, ¬ DirectsI x) (ha : reports a) :
    ∃ t : Six F, (∀ i d, Last NamesAngle cs i d → t i = angle d) ∧ Moved cfg.toRCfg L U t mid := by
  have hi : a.isInput = false := by
    match a, ha with
    | .out _, _ => rfl
  have H := p2p_phases (cfg := cfg) (L := L) (U := U) (m := text cs) (X := False) (T := fun t => ∀ i d, Last NamesAngle cs i d → t i = angle d) (fun {c c' tr} hf hst he => by
    have hT := (only_exec he (parse_tell cfg cs ht.toPlain (tells_ne ht.some) c (hf.same (by rw [hst]; decide)))).2
    obtain ⟨c0, hc0, i, d, hn⟩ := ht.some
    refine ⟨hT.st ⟨c0, hc0, .inl ⟨i, d, hn⟩⟩, hT.m0 hM, .inr ⟨c'.rc.targetAngles, hT.ang, .inl ⟨hT.angC.2 ht.some, ?_, rfl⟩⟩⟩
    rw [← Bool.not_eq_true, hT.posC]
    rintro ⟨x, hx, i, d, hn⟩; exact ht.noPose x hx i d hn)
  exact (sound H h hl hs ha hi (angles_directs ht) hm e).resolve_left id

/-- **C84**: an instruction from the queue or the storage that gives angles (R commands, M0, no pose): in every history, when it is reported as finished (N1) or the next one is
started, and nothing else that concerns the arm was started in between, then the arm has moved to these angles: every servo was sent to its angle once and was then seen there; or the arm
was there already; or the angles are outside the limits and it was left alone. -/
theorem C84_angles {cfg : Cfg F} {junk : Nat → Byte} {tr : List (Act F)} {p : Prog F (FW F)} (h : Trace cfg junk tr p) {L U : Six F} (hl : Limits L U tr)
    {cs : List Cmd} (ht : TellsAngles cs) (hM : Chooses 48 cs) {pre mid post : List (Act F)} {src : Src} {a : Act F} (hs : src ≠ .immediate)
    (e : tr = pre ++ .out (.ghost src (text cs)) :: mid ++ a :: post) (hm : ∀ x ∈ mid, ¬ DirectsI x) (ha : reports a) :
    ∃ t : Six F, (∀ i d, Last NamesAngle cs i d → t i = angle d) ∧ Moved cfg.toRCfg L U t mid :=
  C110_angles h hl ht hM (.inl hs) e hm ha

/-- **C110**: C85_pose for instructions from queue or storage, and for immediate ones begun while no move is under way (Calm). -/
theorem C110_pose {cfg : Cfg F} {junk : Nat → Byte} {tr : List (Act F)} {p : Prog F (FW F)} (h : Trace cfg junk tr p) {L U : Six F} (hl : Limits L U tr)
    {cs : List Cmd} (ht : TellsPose cs) (hM : Chooses 48 cs) {pre mid post : List (Act F)} {src : Src} {a : Act F} (hs : src ≠ .immediate ∨ Calm pre)
    (e : tr = pre ++ .out (.ghost src (text cs)) :: mid ++ a :: post) (hm : ∀ x ∈ mid, ¬ DirectsI x) (ha : reports a) :
    ∃ P : Six F, (∀ i d, Last NamesPose cs i d → P i = coordinate i d) ∧ (cfg.inv P = none ∨ ∃ t, cfg.inv P = some t ∧ Moved cfg.toRCfg L U t mid) := by
  have hi : a.isInput = false := by
    match a, ha with
    | .out _, _ => rfl
  have H := p2p_phases (cfg := cfg) (L := L) (U := U) (m := text cs) (X := ∃ P : Six F, (∀ i d, Last NamesPose cs i d → P i = coordinate i d) ∧ cfg.inv P = none)
    (T := fun t => ∃ P : Six F, (∀ i d, Last NamesPose cs i d → P i = coordinate i d) ∧ cfg.inv P = some t) (fun {c c' tr} hf hst he => by
    have hT := (only_exec he (parse_tell cfg cs ht.toPlain (tells_ne ht.some) c (hf.same (by rw [hst]; decide)))).2
    obtain ⟨c0, hc0, i, d, hn⟩ := ht.some
    refine ⟨hT.st ⟨c0, hc0, .inr ⟨i, d, hn⟩⟩, hT.m0 hM, ?_⟩
    cases hv : cfg.inv c'.rc.targetPose with
    | none => exact .inl ⟨_, hT.pos, hv⟩
    | some t =>
      refine .inr ⟨t, ⟨_, hT.pos, hv⟩, .inr ⟨?_, hT.posC.2 ht.some, hv⟩⟩
      rw [← Bool.not_eq_true, hT.angC]
      rintro ⟨x, hx, i, d, hn⟩; exact ht.noAngle x hx i d hn)
  rcases sound H h hl hs ha hi (pose_directs ht) hm e with ⟨P, h1, h2⟩ | ⟨t, ⟨P, h1, h2⟩, h3⟩
  · exact ⟨P, h1, .inl h2⟩
  · exact ⟨P, h1, .inr ⟨t, h2, h3⟩⟩

/-- **C85**: the same for an instruction that gives pose coordinates: the pose told (coordinates not mentioned are kept) is out of reach, or the arm has moved to
angles of that pose. -/
theorem C85_pose {cfg : Cfg F} {junk : Nat → Byte} {tr : List (Act F)} {p : Prog F (FW F)} (h : Trace cfg junk tr p) {L U : Six F} (hl : Limits L U tr)
    {cs : List Cmd} (ht : TellsPose cs) (hM : Chooses 48 cs) {pre mid post : List (Act F)} {src : Src} {a : Act F} (hs : src ≠ .immediate)
    (e : tr = pre ++ .out (.ghost src (text cs)) :: mid ++ a :: post) (hm : ∀ x ∈ mid, ¬ DirectsI x) (ha : reports a) :
    ∃ P : Six F, (∀ i d, Last NamesPose cs i d → P i = coordinate i d) ∧ (cfg.inv P = none ∨ ∃ t, cfg.inv P = some t ∧ Moved cfg.toRCfg L U t mid) :=
  C110_pose h hl ht hM (.inl hs) e hm ha

/-- **C110**: C86_line for instructions from queue or storage, and for immediate ones begun while no move is under way (Calm). -/
theorem C110_line {cfg : Cfg F} {junk : Nat → Byte} {tr : List (Act F)} {p : Prog F (FW F)} (h : Trace cfg junk tr p) {L U : Six F} (hl : Limits L U tr)
    {cs : List Cmd} (ht : TellsPose cs) (hM : Chooses 49 cs) {pre mid post : List (Act F)} {src : Src} {a : Act F} (hs : src ≠ .immediate ∨ Calm pre)
    (e : tr = pre ++ .out (.ghost src (text cs)) :: mid ++ a :: post) (hm : ∀ x ∈ mid, ¬ DirectsI x) (ha : reports a) :
    ∃ P A : Six F, (∀ i d, Last NamesPose cs i d → P i = coordinate i d) ∧ (cfg.inv P = some A ∨ cfg.inv P = none) ∧ LineMoved cfg.toRCfg L U P A mid := by
  have hi : a.isInput = false := by
    match a, ha with
    | .out _, _ => rfl
  have H := line_phases (cfg := cfg) (L := L) (U := U) (m := text cs)
    (T := fun P A => (∀ i d, Last NamesPose cs i d → P i = coordinate i d) ∧ (cfg.inv P = some A ∨ cfg.inv P = none)) (fun {c c' tr} hf hst he => by
    have hT := (only_exec he (parse_tell cfg cs ht.toPlain (tells_ne ht.some) c (hf.same (by rw [hst]; decide)))).2
    obtain ⟨c0, hc0, i, d, hn⟩ := ht.some
    have ha : c'.rc.anglesChanged = false := by
      rw [← Bool.not_eq_true, hT.angC]
      rintro ⟨x, hx, i, d, hn⟩; exact ht.noAngle x hx i d hn
    have hp := hT.posC.2 ht.some
    refine ⟨hT.st ⟨c0, hc0, .inr ⟨i, d, hn⟩⟩, hT.m1 hM, by simp [ha], ?_⟩
    cases hv : cfg.inv c'.rc.targetPose with
    | none => simp only [RC.sync, ha, hp, hv, Bool.false_eq_true, if_false, if_true]; exact ⟨hT.pos, by simp⟩
    | some t => simp only [RC.sync, ha, hp, hv, Bool.false_eq_true, if_false, if_true]; exact ⟨hT.pos, by simp⟩)
  obtain ⟨P, A, ⟨h1, h2⟩, h3⟩ := sound H h hl hs ha hi (pose_directs ht) hm e
  exact ⟨P, A, h1, h2, h3⟩

/-- **C86**: linear moves. An instruction from the queue or the storage that gives pose coordinates with M1: when it is reported as finished, the arm has passed all way points of
the straight line from where it was to the pose told, and was seen at every one of them before it was sent to the next; or it stopped at one of them because the next
one is out of reach or outside the limits; or it was there already. -/
theorem C86_line {cfg : Cfg F} {junk : Nat → Byte} {tr : List (Act F)} {p : Prog F (FW F)} (h : Trace cfg junk tr p) {L U : Six F} (hl : Limits L U tr)
    {cs : List Cmd} (ht : TellsPose cs) (hM : Chooses 49 cs) {pre mid post : List (Act F)} {src : Src} {a : Act F} (hs : src ≠ .immediate)
    (e : tr = pre ++ .out (.ghost src (text cs)) :: mid ++ a :: post) (hm : ∀ x ∈ mid, ¬ DirectsI x) (ha : reports a) :
    ∃ P A : Six F, (∀ i d, Last NamesPose cs i d → P i = coordinate i d) ∧ (cfg.inv P = some A ∨ cfg.inv P = none) ∧ LineMoved cfg.toRCfg L U P A mid :=
  C110_line h hl ht hM (.inl hs) e hm ha

/-- **C110**: C86_line_angles for instructions from queue or storage, and for immediate ones begun while no move is under way (Calm). -/
theorem C110_line_angles {cfg : Cfg F} {junk : Nat → Byte} {tr : List (Act F)} {p : Prog F (FW F)} (h : Trace cfg junk tr p) {L U : Six F} (hl : Limits L U tr)
    {cs : List Cmd} (ht : TellsAngles cs) (hM : Chooses 49 cs) {pre mid post : List (Act F)} {src : Src} {a : Act F} (hs : src ≠ .immediate ∨ Calm pre)
    (e : tr = pre ++ .out (.ghost src (text cs)) :: mid ++ a :: post) (hm : ∀ x ∈ mid, ¬ DirectsI x) (ha : reports a) :
    ∃ A : Six F, (∀ i d, Last NamesAngle cs i d → A i = angle d) ∧ LineMoved cfg.toRCfg L U (cfg.fwd A) A mid := by
  have hi : a.isInput = false := by
    match a, ha with
    | .out _, _ => rfl
  have H := line_phases (cfg := cfg) (L := L) (U := U) (m := text cs)
    (T := fun P A => (∀ i d, Last NamesAngle cs i d → A i = angle d) ∧ P = cfg.fwd A) (fun {c c' tr} hf hst he => by
    have hT := (only_exec he (parse_tell cfg cs ht.toPlain (tells_ne ht.some) c (hf.same (by rw [hst]; decide)))).2
    obtain ⟨c0, hc0, i, d, hn⟩ := ht.some
    have hp : c'.rc.poseChanged = false := by
      rw [← Bool.not_eq_true, hT.posC]
      rintro ⟨x, hx, i, d, hn⟩; exact ht.noPose x hx i d hn
    have ha := hT.angC.2 ht.some
    refine ⟨hT.st ⟨c0, hc0, .inl ⟨i, d, hn⟩⟩, hT.m1 hM, by simp [hp], ?_⟩
    simp only [RC.sync, ha, if_true]; exact ⟨hT.ang, by simp⟩)
  obtain ⟨P, A, ⟨h1, rfl⟩, h3⟩ := sound H h hl hs ha hi (angles_directs ht) hm e
  exact ⟨A, h1, h3⟩

/-- **C86** for angles: a linear move to the pose of the angles told. -/
theorem C86_line_angles {cfg : Cfg F} {junk : Nat → Byte} {tr : List (Act F)} {p : Prog F (FW F)} (h : Trace cfg junk tr p) {L U : Six F} (hl : Limits L U tr)
    {cs : List Cmd} (ht : TellsAngles cs) (hM : Chooses 49 cs) {pre mid post : List (Act F)} {src : Src} {a : Act F} (hs : src ≠ .immediate)
    (e : tr = pre ++ .out (.ghost src (text cs)) :: mid ++ a :: post) (hm : ∀ x ∈ mid, ¬ DirectsI x) (ha : reports a) :
    ∃ A : Six F, (∀ i d, Last NamesAngle cs i d → A i = angle d) ∧ LineMoved cfg.toRCfg L U (cfg.fwd A) A mid :=
  C110_line_angles h hl ht hM (.inl hs) e hm ha

end Mrc.Props
