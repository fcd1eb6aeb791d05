import Verif.Proof.InForce
import Verif.Props.Pace
import Verif.Props.WayLine
/-
C123: what an instruction does not name stays as it was told.
-/
set_option linter.unusedSectionVars false
namespace Mrc.Props
open Mrc Mrc.Prog Mrc.Spec Mrc.Rest

section
variable {F : Type} [FloatOps F]
open Told

theorem code_p2p {m : Method} (h : m.code = 0) : m = .p2p := by cases m <;> first | rfl | simp [Method.code] at h
theorem code_linear {m : Method} (h : m.code = 1) : m = .linear := by cases m <;> first | rfl | simp [Method.code] at h

/-- **C123**: in every history, whatever the arithmetic: an instruction that gives angles, with the movement method M0 and the speed `v` in force after it has been read (named in it, or else in an earlier
instruction). When it is reported as finished, and nothing else that concerns the arm was started in between, the arm has moved to these angles, at the speed `v`. -/
theorem C123_angles {cfg : Cfg F} {junk : Nat → Byte} {tr : List (Act F)} {p : Prog F (FW F)} (h : Trace cfg junk tr p) {L U : Six F} (hl : Limits L U tr)
    {cs : List Cmd} (ht : TellsAngles cs) (hC : ClearM cs) {k : ℕ} {v : Option (List Byte)} {pre mid post : List (Act F)} (hf : InForce pre k v) (hM : cs.foldl chosenBy k = 0)
    {src : Src} {a : Act F} (hs : src ≠ .immediate ∨ Calm pre)
    (e : tr = pre ++ .out (.ghost src (text cs)) :: mid ++ a :: post) (hm : ∀ x ∈ mid, ¬ DirectsI x) (ha : reports a) :
    (∃ t : Six F, (∀ i d, Last NamesAngle cs i d → t i = angle d) ∧ Moved cfg.toRCfg L U t mid) ∧
    ∃ t : Six F, (∀ i d, Last NamesAngle cs i d → t i = angle d) ∧ (ArmStill mid ∨ Sped cfg.toRCfg (speedOf (cs.foldl spokenBy v)) t mid) := by
  have hi : a.isInput = false := by
    match a, ha with
    | .out _, _ => rfl
  have begins : ∀ {c c' : Core F} {tr}, Fl c.rc → c.rc.state = .idle → Has k v c.rc → Exec (Mril.parse cfg c (text cs)) tr (.ret c') →
      c'.rc.state = .prepareMove ∧ c'.rc.method = .p2p ∧ c'.rc.maxVelocity = speedOf (cs.foldl spokenBy v) ∧
      ∃ t, (∀ i d, Last NamesAngle cs i d → t i = angle d) ∧ Goal cfg.toRCfg c'.rc t := by
    intro c c' tr hfl hst hH he
    have hT := (only_exec he (parse_tell cfg cs ht.toPlain (tells_ne ht.some) c (hfl.same (by rw [hst]; decide)))).2
    have hV := (only_exec he (parse_has cfg cs ht.ok (tells_ne ht.some) hC c hH)).2
    obtain ⟨c0, hc0, i, d, hn⟩ := ht.some
    refine ⟨hT.st ⟨c0, hc0, .inl ⟨i, d, hn⟩⟩, code_p2p (hV.1.trans hM), hV.2, c'.rc.targetAngles, hT.ang, .inl ⟨hT.angC.2 ht.some, ?_, rfl⟩⟩
    rw [← Bool.not_eq_true, hT.posC]
    rintro ⟨x, hx, i, d, hn⟩; exact ht.noPose x hx i d hn
  have quiets : ∀ {c c' : Core F} {tr}, Exec (Mril.parse cfg c (text cs)) tr (.ret c') → ArmStill tr := fun he =>
    armStill_quiet fun a ha => (mril_not ((only_exec he (parse_only _ _ _)).1 a ha)).2.2
  have H1 : PhasesF cfg L U (text cs) k v (fun mid => ∃ t, (∀ i d, Last NamesAngle cs i d → t i = angle d) ∧ Moved cfg.toRCfg L U t mid)
      (fun mid r => P2P cfg.toRCfg L U (fun t => ∀ i d, Last NamesAngle cs i d → t i = angle d) mid r) :=
    { step := fun hf h hp => h.step hf hp
      stop := fun h hs => h.stop hs
      skip := fun h ht => h.append (armStill_quiet ht)
      begins := fun hfl hst hH he => by
        obtain ⟨h1, h2, _, t, h3, h4⟩ := begins hfl hst hH he
        exact .told t h3 h1 h2 h4 (quiets he) }
  have H2 : PhasesF cfg L U (text cs) k v (fun mid => ∃ t, (∀ i d, Last NamesAngle cs i d → t i = angle d) ∧ (ArmStill mid ∨ Sped cfg.toRCfg (speedOf (cs.foldl spokenBy v)) t mid))
      (fun mid r => Run cfg.toRCfg (speedOf (cs.foldl spokenBy v)) (fun t => ∀ i d, Last NamesAngle cs i d → t i = angle d) mid r) :=
    { step := fun hf h hp => h.step (L := L) (U := U) hf hp
      stop := fun h hs => h.stop hs
      skip := fun h ht => h.append (armStill_quiet ht)
      begins := fun hfl hst hH he => by
        obtain ⟨h1, h2, h5, t, h3, h4⟩ := begins hfl hst hH he
        exact .told t h3 h1 h2 h5 h4 (quiets he) }
  exact ⟨soundF H1 h hl hf hs ha hi (angles_directs ht) hm e, soundF H2 h hl hf hs ha hi (angles_directs ht) hm e⟩

/-- **C123**: the same for an instruction that gives a pose, with M0 in force. -/
theorem C123_poses {cfg : Cfg F} {junk : Nat → Byte} {tr : List (Act F)} {p : Prog F (FW F)} (h : Trace cfg junk tr p) {L U : Six F} (hl : Limits L U tr)
    {cs : List Cmd} (ht : TellsPose cs) (hC : ClearM cs) {k : ℕ} {v : Option (List Byte)} {pre mid post : List (Act F)} (hf : InForce pre k v) (hM : cs.foldl chosenBy k = 0)
    {src : Src} {a : Act F} (hs : src ≠ .immediate ∨ Calm pre)
    (e : tr = pre ++ .out (.ghost src (text cs)) :: mid ++ a :: post) (hm : ∀ x ∈ mid, ¬ DirectsI x) (ha : reports a) :
    (∃ P : Six F, (∀ i d, Last NamesPose cs i d → P i = coordinate i d) ∧ (cfg.inv P = none ∨ ∃ t, cfg.inv P = some t ∧ Moved cfg.toRCfg L U t mid)) ∧
    ∃ P : Six F, (∀ i d, Last NamesPose cs i d → P i = coordinate i d) ∧
      (cfg.inv P = none ∨ ∃ t, cfg.inv P = some t ∧ (ArmStill mid ∨ Sped cfg.toRCfg (speedOf (cs.foldl spokenBy v)) t mid)) := by
  have hi : a.isInput = false := by
    match a, ha with
    | .out _, _ => rfl
  have begins : ∀ {c c' : Core F} {tr}, Fl c.rc → c.rc.state = .idle → Has k v c.rc → Exec (Mril.parse cfg c (text cs)) tr (.ret c') →
      c'.rc.state = .prepareMove ∧ c'.rc.method = .p2p ∧ c'.rc.maxVelocity = speedOf (cs.foldl spokenBy v) ∧
      ((∃ P : Six F, (∀ i d, Last NamesPose cs i d → P i = coordinate i d) ∧ cfg.inv P = none) ∨
        ∃ t, (∃ P : Six F, (∀ i d, Last NamesPose cs i d → P i = coordinate i d) ∧ cfg.inv P = some t) ∧ Goal cfg.toRCfg c'.rc t) := by
    intro c c' tr hfl hst hH he
    have hT := (only_exec he (parse_tell cfg cs ht.toPlain (tells_ne ht.some) c (hfl.same (by rw [hst]; decide)))).2
    have hV := (only_exec he (parse_has cfg cs ht.ok (tells_ne ht.some) hC c hH)).2
    obtain ⟨c0, hc0, i, d, hn⟩ := ht.some
    refine ⟨hT.st ⟨c0, hc0, .inr ⟨i, d, hn⟩⟩, code_p2p (hV.1.trans hM), hV.2, ?_⟩
    cases hv : cfg.inv c'.rc.targetPose with
    | none => exact .inl ⟨_, hT.pos, hv⟩
    | some t =>
      refine .inr ⟨t, ⟨_, hT.pos, hv⟩, .inr ⟨?_, hT.posC.2 ht.some, hv⟩⟩
      rw [← Bool.not_eq_true, hT.angC]
      rintro ⟨x, hx, i, d, hn⟩; exact ht.noAngle x hx i d hn
  have quiets : ∀ {c c' : Core F} {tr}, Exec (Mril.parse cfg c (text cs)) tr (.ret c') → ArmStill tr := fun he =>
    armStill_quiet fun a ha => (mril_not ((only_exec he (parse_only _ _ _)).1 a ha)).2.2
  have H1 : PhasesF cfg L U (text cs) k v (fun mid => (∃ P : Six F, (∀ i d, Last NamesPose cs i d → P i = coordinate i d) ∧ cfg.inv P = none) ∨
        ∃ t, (∃ P : Six F, (∀ i d, Last NamesPose cs i d → P i = coordinate i d) ∧ cfg.inv P = some t) ∧ Moved cfg.toRCfg L U t mid)
      (fun mid r => (∃ P : Six F, (∀ i d, Last NamesPose cs i d → P i = coordinate i d) ∧ cfg.inv P = none) ∨
        P2P cfg.toRCfg L U (fun t => ∃ P : Six F, (∀ i d, Last NamesPose cs i d → P i = coordinate i d) ∧ cfg.inv P = some t) mid r) :=
    { step := fun hf h hp => h.imp id fun h => h.step hf hp
      stop := fun h hs => h.imp id fun h => h.stop hs
      skip := fun h ht => h.imp id fun h => h.append (armStill_quiet ht)
      begins := fun hfl hst hH he => by
        obtain ⟨h1, h2, _, h3⟩ := begins hfl hst hH he
        exact h3.imp id fun ⟨t, h3, h4⟩ => .told t h3 h1 h2 h4 (quiets he) }
  have H2 : PhasesF cfg L U (text cs) k v (fun mid => (∃ P : Six F, (∀ i d, Last NamesPose cs i d → P i = coordinate i d) ∧ cfg.inv P = none) ∨
        ∃ t, (∃ P : Six F, (∀ i d, Last NamesPose cs i d → P i = coordinate i d) ∧ cfg.inv P = some t) ∧ (ArmStill mid ∨ Sped cfg.toRCfg (speedOf (cs.foldl spokenBy v)) t mid))
      (fun mid r => (∃ P : Six F, (∀ i d, Last NamesPose cs i d → P i = coordinate i d) ∧ cfg.inv P = none) ∨
        Run cfg.toRCfg (speedOf (cs.foldl spokenBy v)) (fun t => ∃ P : Six F, (∀ i d, Last NamesPose cs i d → P i = coordinate i d) ∧ cfg.inv P = some t) mid r) :=
    { step := fun hf h hp => h.imp id fun h => h.step (L := L) (U := U) hf hp
      stop := fun h hs => h.imp id fun h => h.stop hs
      skip := fun h ht => h.imp id fun h => h.append (armStill_quiet ht)
      begins := fun hfl hst hH he => by
        obtain ⟨h1, h2, h5, h3⟩ := begins hfl hst hH he
        exact h3.imp id fun ⟨t, h3, h4⟩ => .told t h3 h1 h2 h5 h4 (quiets he) }
  refine ⟨?_, ?_⟩
  · rcases soundF H1 h hl hf hs ha hi (pose_directs ht) hm e with ⟨P, h1, h2⟩ | ⟨t, ⟨P, h1, h2⟩, h3⟩
    · exact ⟨P, h1, .inl h2⟩
    · exact ⟨P, h1, .inr ⟨t, h2, h3⟩⟩
  · rcases soundF H2 h hl hf hs ha hi (pose_directs ht) hm e with ⟨P, h1, h2⟩ | ⟨t, ⟨P, h1, h2⟩, h3⟩
    · exact ⟨P, h1, .inl h2⟩
    · exact ⟨P, h1, .inr ⟨t, h2, h3⟩⟩

/-- **C123**: the same for an instruction that gives a pose, with M1 in force: a straight move. -/
theorem C123_lines {cfg : Cfg F} {junk : Nat → Byte} {tr : List (Act F)} {p : Prog F (FW F)} (h : Trace cfg junk tr p) {L U : Six F} (hl : Limits L U tr)
    {cs : List Cmd} (ht : TellsPose cs) (hC : ClearM cs) {k : ℕ} {v : Option (List Byte)} {pre mid post : List (Act F)} (hf : InForce pre k v) (hM : cs.foldl chosenBy k = 1)
    {src : Src} {a : Act F} (hs : src ≠ .immediate ∨ Calm pre)
    (e : tr = pre ++ .out (.ghost src (text cs)) :: mid ++ a :: post) (hm : ∀ x ∈ mid, ¬ DirectsI x) (ha : reports a) :
    (∃ P A : Six F, (∀ i d, Last NamesPose cs i d → P i = coordinate i d) ∧ (cfg.inv P = some A ∨ cfg.inv P = none) ∧ LineMoved cfg.toRCfg L U P A mid) ∧
    ∃ P : Six F, (∀ i d, Last NamesPose cs i d → P i = coordinate i d) ∧ Paced cfg.toRCfg L U (speedOf (cs.foldl spokenBy v)) P mid := by
  have hi : a.isInput = false := by
    match a, ha with
    | .out _, _ => rfl
  have begins : ∀ {c c' : Core F} {tr}, Fl c.rc → c.rc.state = .idle → Has k v c.rc → Exec (Mril.parse cfg c (text cs)) tr (.ret c') →
      c'.rc.state = .prepareMove ∧ c'.rc.method = .linear ∧ c'.rc.maxVelocity = speedOf (cs.foldl spokenBy v) ∧ ¬ (c'.rc.poseChanged = true ∧ c'.rc.anglesChanged = true) ∧
      (∀ i d, Last NamesPose cs i d → (RC.sync cfg.toRCfg c'.rc).targetPose i = coordinate i d) ∧
      (cfg.inv (RC.sync cfg.toRCfg c'.rc).targetPose = some (RC.sync cfg.toRCfg c'.rc).targetAngles ∨ cfg.inv (RC.sync cfg.toRCfg c'.rc).targetPose = none) := by
    intro c c' tr hfl hst hH he
    have hT := (only_exec he (parse_tell cfg cs ht.toPlain (tells_ne ht.some) c (hfl.same (by rw [hst]; decide)))).2
    have hV := (only_exec he (parse_has cfg cs ht.ok (tells_ne ht.some) hC c hH)).2
    obtain ⟨c0, hc0, i, d, hn⟩ := ht.some
    have ha : c'.rc.anglesChanged = false := by
      rw [← Bool.not_eq_true, hT.angC]
      rintro ⟨x, hx, i, d, hn⟩; exact ht.noAngle x hx i d hn
    have hp := hT.posC.2 ht.some
    refine ⟨hT.st ⟨c0, hc0, .inr ⟨i, d, hn⟩⟩, code_linear (hV.1.trans hM), hV.2, by simp [ha], ?_⟩
    cases hv : cfg.inv c'.rc.targetPose with
    | none => simp only [RC.sync, ha, hp, hv, Bool.false_eq_true, if_false, if_true]; exact ⟨hT.pos, by simp [hv]⟩
    | some t => simp only [RC.sync, ha, hp, hv, Bool.false_eq_true, if_false, if_true]; exact ⟨hT.pos, by simp [hv]⟩
  have quiets : ∀ {c c' : Core F} {tr}, Exec (Mril.parse cfg c (text cs)) tr (.ret c') → ArmStill tr := fun he =>
    armStill_quiet fun a ha => (mril_not ((only_exec he (parse_only _ _ _)).1 a ha)).2.2
  have H1 : PhasesF cfg L U (text cs) k v (fun mid => ∃ P A, ((∀ i d, Last NamesPose cs i d → P i = coordinate i d) ∧ (cfg.inv P = some A ∨ cfg.inv P = none)) ∧ LineMoved cfg.toRCfg L U P A mid)
      (fun mid r => Lin cfg.toRCfg L U (fun P A => (∀ i d, Last NamesPose cs i d → P i = coordinate i d) ∧ (cfg.inv P = some A ∨ cfg.inv P = none)) mid r) :=
    { step := fun hf h hp => h.step hf hp
      stop := fun h hs => h.stop hs
      skip := fun h ht => h.append (armStill_quiet ht)
      begins := fun hfl hst hH he => by
        obtain ⟨h1, h2, _, h3, h4⟩ := begins hfl hst hH he
        exact .told _ _ h4 h1 h2 rfl rfl h3 (quiets he) }
  have H2 : PhasesF cfg L U (text cs) k v (fun mid => ∃ P, (∀ i d, Last NamesPose cs i d → P i = coordinate i d) ∧ Paced cfg.toRCfg L U (speedOf (cs.foldl spokenBy v)) P mid)
      (fun mid r => LinV cfg.toRCfg L U (speedOf (cs.foldl spokenBy v)) (fun P => ∀ i d, Last NamesPose cs i d → P i = coordinate i d) mid r) :=
    { step := fun hf h hp => h.step hf hp
      stop := fun h hs => h.stop hs
      skip := fun h ht => h.append (armStill_quiet ht)
      begins := fun hfl hst hH he => by
        obtain ⟨h1, h2, h5, h3, h4⟩ := begins hfl hst hH he
        exact .told _ h4.1 h1 h2 h5 rfl h3 (quiets he) }
  refine ⟨?_, soundF H2 h hl hf hs ha hi (pose_directs ht) hm e⟩
  obtain ⟨P, A, ⟨h1, h2⟩, h3⟩ := soundF H1 h hl hf hs ha hi (pose_directs ht) hm e
  exact ⟨P, A, h1, h2, h3⟩

end

theorem speedOf_fin {v : Option (List Byte)} {V : ℚ} (h : SaysSpeed v V) : (Told.speedOf v : XR) = .fin (V : ℝ) := by
  cases v with
  | none => have h : V = 10 := h; subst h; simp [Told.speedOf]
  | some a => obtain ⟨d, h1, rfl, rfl⟩ := h; exact Host.atof_dec h1

open XR

section
variable {w0 : World XR} (hw : w0.servos = Kit.servos) {junk : Nat → Byte} {σ : ℕ → Sys XR} {ev : ℕ → Ev XR} (h : Endless Kit.cfg w0 junk σ ev)
  (hmem : BriskStorage w0.ee) (hc : ∀ n, BrisklySent (w0.rxq ++ arrivals (sofar ev n))) (hu : Unbroken ev) (hi : CalmImmediates ev)
include hw h hmem hc hu hi

/-- **C123**: the robot kit over the exact numbers, with a careful host that asks for no crawling speeds and gives immediate instructions that name a place only while the arm is at rest, and
interrupts that do not fall into the command of a servo. An instruction told all six angles, from queue or storage or begun at once while no move is under way, and reported as finished at time `k`;
M0 and the speed `V` are in force, because the instruction names them or because they were named last in earlier instructions. The arm keeps the speed, and, if the angles are within the ranges, it is
there. -/
theorem C123_told {k0 k : ℕ} {src : Src} {cs : List Cmd} (hb : ev k0 = .act (.out (.ghost src (text cs)))) (hs : src ≠ .immediate ∨ CalmAt ev k0) (ht : TellsAngles cs) (hC : ClearM cs)
    {m : ℕ} {v : Option (List Byte)} (hf : InForce (acts (sofar ev k0)) m v) (hM : cs.foldl chosenBy m = 0) {V : ℚ} (hV : SaysSpeed (cs.foldl spokenBy v) V) (hV0 : 0 < V)
    {d : Fin 6 → Dec} (hd : ∀ i, Last NamesAngle cs i (d i)) (hk : k0 < k) (hr : ReportsAt ev k)
    (hq : ∀ i, k0 < i → i < k → ¬ Directs ev i) {e : ℕ} (hke : k ≤ e) (hn : ∀ i : Fin 6, Untouched ev (armServo i) k e) :
    (∃ c, ArmAt (σ k0).w c ∧ KeepsSpeed σ ev ((V : ℝ) * (Real.pi / 180)) c (fun i => radians (d i)) k0 k e) ∧
    ((KitFits fun i => radians (d i)) → ∃ b, ArmAt (σ e).w b ∧ ∀ i, |kitLogical b i - radians (d i)| < 11 / 100000) := by
  obtain ⟨y, h1, hy⟩ := reportsAt_iff.1 hr
  have hmid := quiet_mid hw h hmem hc hu hi hq
  obtain ⟨⟨t, g1, g2⟩, ⟨t', g3, g4⟩⟩ := C123_angles (h.run (k + 1)).trace (kit_limits hw (h.run (k + 1))) ht hC hf hM hs (acts_between hk hb h1) hmid hy
  have : t = finS fun i => radians (d i) := funext fun i => (g1 i _ (hd i)).trans (angle_fin (last_ok (fun _ _ _ h => h.1) (hd i)))
  subst this
  have : t' = finS fun i => radians (d i) := funext fun i => (g3 i _ (hd i)).trans (angle_fin (last_ok (fun _ _ _ h => h.1) (hd i)))
  subst this
  rw [speedOf_fin hV] at g4
  have r1 := fun i => (rest_begin hw h hmem hc hu hi hb hs i).2
  have r2 := fun i => (rest_begin hw h hmem hc hu hi hb hs i).1
  exact ⟨kit_keeps hw h hmem hc hu hi hk hke hb (by simp) hr r1 r2 hn (by exact_mod_cast hV0) g2 g4, fun hfit => kit_now hw h hmem hc hu hi hk hb (by simp) r1 r2 hr hfit g2 hke hn⟩

/-- **C123**: the same for the six coordinates of a pose within reach, on the way to angles that put the tool at the pose told. -/
theorem C123_pose {k0 k : ℕ} {src : Src} {cs : List Cmd} (hb : ev k0 = .act (.out (.ghost src (text cs)))) (hs : src ≠ .immediate ∨ CalmAt ev k0) (ht : TellsPose cs) (hC : ClearM cs)
    {m : ℕ} {v : Option (List Byte)} (hf : InForce (acts (sofar ev k0)) m v) (hM : cs.foldl chosenBy m = 0) {V : ℚ} (hV : SaysSpeed (cs.foldl spokenBy v) V) (hV0 : 0 < V)
    {d : Fin 6 → Dec} (hd : ∀ i, Last NamesPose cs i (d i)) (hr' : InReach kitG (poseOfDec d)) (hk : k0 < k) (hr : ReportsAt ev k)
    (hq : ∀ i, k0 < i → i < k → ¬ Directs ev i) {e : ℕ} (hke : k ≤ e) (hn : ∀ i : Fin 6, Untouched ev (armServo i) k e) :
    ∃ A : Fin 6 → ℝ, PutsAt kitG A (poseOfDec d) ∧ (∃ c, ArmAt (σ k0).w c ∧ KeepsSpeed σ ev ((V : ℝ) * (Real.pi / 180)) c A k0 k e) ∧
      (KitFits A → ∃ b, ArmAt (σ e).w b ∧ ∀ i, |kitLogical b i - A i| < 11 / 100000) := by
  obtain ⟨y, h1, hy⟩ := reportsAt_iff.1 hr
  have hmid := quiet_mid hw h hmem hc hu hi hq
  obtain ⟨⟨P, g1, g2⟩, ⟨P', g3, g4⟩⟩ := C123_poses (h.run (k + 1)).trace (kit_limits hw (h.run (k + 1))) ht hC hf hM hs (acts_between hk hb h1) hmid hy
  have : P = finS (poseOfDec d) := funext fun i => (g1 i _ (hd i)).trans (coordinate_fin (last_ok (fun _ _ _ h => h.1) (hd i)))
  subst this
  have : P' = finS (poseOfDec d) := funext fun i => (g3 i _ (hd i)).trans (coordinate_fin (last_ok (fun _ _ _ h => h.1) (hd i)))
  subst this
  have r1 := fun i => (rest_begin hw h hmem hc hu hi hb hs i).2
  have r2 := fun i => (rest_begin hw h hmem hc hu hi hb hs i).1
  rcases g2 with g2 | ⟨t, g2, g5⟩
  · exact absurd hr' (kit_inv_none g2)
  · rcases g4 with g4 | ⟨t', g4, g6⟩
    · rw [g2] at g4; cases g4
    rw [g2] at g4; cases g4
    obtain ⟨A, rfl, hA⟩ := kit_puts g2
    rw [speedOf_fin hV] at g6
    exact ⟨A, hA, kit_keeps hw h hmem hc hu hi hk hke hb (by simp) hr r1 r2 hn (by exact_mod_cast hV0) g5 g6, fun hfit => kit_now hw h hmem hc hu hi hk hb (by simp) r1 r2 hr hfit g5 hke hn⟩

/-- **C123**: the same for the six coordinates of a pose with M1 in force: the arm goes the straight way, and the tool keeps the speed. -/
theorem C123_line {k0 k : ℕ} {src : Src} {cs : List Cmd} (hb : ev k0 = .act (.out (.ghost src (text cs)))) (hs : src ≠ .immediate ∨ CalmAt ev k0) (ht : TellsPose cs) (hC : ClearM cs)
    {m : ℕ} {v : Option (List Byte)} (hf : InForce (acts (sofar ev k0)) m v) (hM : cs.foldl chosenBy m = 1) {V : ℚ} (hV : SaysSpeed (cs.foldl spokenBy v) V) (hV0 : 0 < V)
    {d : Fin 6 → Dec} (hd : ∀ i, Last NamesPose cs i (d i)) (hk : k0 < k) (hr : ReportsAt ev k)
    (hq : ∀ i, k0 < i → i < k → ¬ Directs ev i) {e : ℕ} (hke : k ≤ e) (hn : ∀ i : Fin 6, Untouched ev (armServo i) k e) :
    LineWay kitG (poseOfDec d) σ k0 e ∧ KeepsPace kitG V (poseOfDec d) σ ev k0 k := by
  obtain ⟨y, h1, hy⟩ := reportsAt_iff.1 hr
  have hmid := quiet_mid hw h hmem hc hu hi hq
  obtain ⟨⟨P, A, g1, g2, g3⟩, ⟨P', g4, g5⟩⟩ := C123_lines (h.run (k + 1)).trace (kit_limits hw (h.run (k + 1))) ht hC hf hM hs (acts_between hk hb h1) hmid hy
  have : P = finS (poseOfDec d) := funext fun i => (g1 i _ (hd i)).trans (coordinate_fin (last_ok (fun _ _ _ h => h.1) (hd i)))
  subst this
  have : P' = finS (poseOfDec d) := funext fun i => (g4 i _ (hd i)).trans (coordinate_fin (last_ok (fun _ _ _ h => h.1) (hd i)))
  subst this
  rw [speedOf_fin hV] at g5
  exact ⟨kit_way hw h hmem hc hu hi hb hs hk g2 g3 hke hn, kit_pace hw h hmem hc hu hi hb hs hk (by exact_mod_cast hV0) g5⟩

end

/-- something is in force after every history in which all instructions begun are well formed. -/
theorem inForce_exists {F : Type} (tr : List (Act F)) (h : ∀ src x, .out (.ghost src x) ∈ tr → ∃ cs, x = text cs ∧ (∀ c ∈ cs, c.Ok) ∧ cs ≠ [] ∧ ClearM cs) : ∃ k v, InForce tr k v := by
  induction tr using List.reverseRecOn with
  | nil => exact ⟨_, _, .boot⟩
  | append_singleton tr a ih =>
    obtain ⟨k, v, hf⟩ := ih fun src x hx => h src x (by simp [hx])
    by_cases ha : BeginsI a
    · obtain ⟨src, x, rfl⟩ := ha
      obtain ⟨cs, rfl, h1, h2, h3⟩ := h src x (by simp)
      exact ⟨_, _, .instr hf h1 h2 h3⟩
    · exact ⟨_, _, .act hf ha⟩

/-- before anything is begun, M1 and the speed 10 are in force. -/
theorem inForce_boot {F : Type} {tr : List (Act F)} (h : ∀ a ∈ tr, ¬ BeginsI a) : InForce tr 1 none := by
  induction tr using List.reverseRecOn with
  | nil => exact .boot
  | append_singleton tr a ih => exact .act (ih fun x hx => h x (by simp [hx])) (h a (by simp))

end Mrc.Props
