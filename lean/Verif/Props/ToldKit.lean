import Verif.Props.Told
import Verif.Proof.ToldCourse
import Verif.Proof.ToldSeen
import Verif.Props.Host
import Verif.Props.Kinematics
import Verif.Props.Progress
/-
C84, C85, C87 for the robot kit, in numbers: with a careful host the arm is where it was told, to 1e-4 radians, whenever an instruction is reported as finished.
-/
set_option linter.unusedSectionVars false
set_option linter.unusedSimpArgs false
namespace Mrc.Props
open Mrc Mrc.Prog Mrc.Spec Mrc.Told Mrc.Kine XR
open scoped Mrc.Num

section
variable {F : Type} [FloatOps F]

/-- **C87**: courses of point to point moves. After an instruction that told all six angles (or all six pose coordinates), followed by instructions that tell some of the angles or
coordinates, or nothing, in any order and with any timing: whenever an instruction is reported as finished or the next one starts, the arm has moved to the angles that the
instructions together told: each axis to the angle it was given last. -/
theorem C87_course {cfg : Cfg F} {junk : Nat → Byte} {tr : List (Act F)} {p : Prog F (FW F)} (h : Trace cfg junk tr p) {L U : Six F} (hl : Limits L U tr)
    {pre post : List (Act F)} {a : Act F} (ha : reports a) (e : tr = pre ++ a :: post) {A P : Six F} {mid : List (Act F)} (hc : Course cfg.toRCfg L U pre A P mid) :
    Moved cfg.toRCfg L U A mid :=
  (course_sound h hl).1 ha (by match a, ha with | .out _, _ => rfl) e hc
end

/-! ### the numbers -/

theorem angle_fin {d : Dec} (hd : d.Ok) : (angle d : XR) = fin (radians d) := by
  rw [angle, Host.atof_dec hd, degToRad_eq]; rfl

theorem coordinate_fin {i : Fin 6} {d : Dec} (hd : d.Ok) : (coordinate i d : XR) = fin (if i.val < 3 then (d.val : ℝ) else radians d) := by
  unfold coordinate
  rw [Host.atof_dec hd, degToRad_eq]
  split <;> rfl

theorem last_or_none {N : Cmd → Fin 6 → Dec → Prop} (cs : List Cmd) (i : Fin 6) : (∃ d, Last N cs i d) ∨ ∀ c ∈ cs, ∀ d, ¬ N c i d := by
  by_cases h : ∃ c ∈ cs, ∃ d, N c i d
  · obtain ⟨a, c, b, e, ⟨d, hd⟩, hn⟩ := last_split h
    exact .inl ⟨d, a, c, b, e, hd, fun c' hc' d' hn' => hn c' hc' ⟨d', hn'⟩⟩
  · push Not at h; exact .inr h

theorem last_ok {N : Cmd → Fin 6 → Dec → Prop} (hN : ∀ c i d, N c i d → d.Ok) {cs : List Cmd} {i : Fin 6} {d : Dec} (h : Last N cs i d) : d.Ok := by
  obtain ⟨a, c, b, _, h, _⟩ := h
  exact hN c i d h

theorem exists_finS {A : Six XR} (h : ∀ i, ∃ x, A i = fin x) : ∃ a, A = finS a := by
  choose a ha using h
  exact ⟨a, funext ha⟩

/-- what a course tells are numbers. -/
theorem course_fin {cfg : RCfg XR} {lo hi : Fin 6 → ℝ} (H : RobotFin cfg lo hi) {L U : Six XR} {tr mid : List (Act XR)} {A P : Six XR} (h : Course cfg L U tr A P mid) :
    (∃ a, A = finS a) ∧ ∃ p, P = finS p := by
  have hA : ∀ c i d, NamesAngle c i d → d.Ok := fun c i d h => h.1
  have hP : ∀ c i d, NamesPose c i d → d.Ok := fun c i d h => h.1
  induction h with
  | home tr hs ht hm hf =>
    cases ht with
    | angles h1 h2 =>
      obtain ⟨a, rfl⟩ := exists_finS (A := _) fun i => by obtain ⟨d, hd, e⟩ := h2 i; exact ⟨_, e.trans (angle_fin (last_ok hA hd))⟩
      obtain ⟨p, hp, _⟩ := H.fwd a
      exact ⟨⟨a, rfl⟩, p, hp⟩
    | pose h1 h2 h3 =>
      obtain ⟨p, rfl⟩ := exists_finS (A := _) fun i => by obtain ⟨d, hd, e⟩ := h2 i; exact ⟨_, e.trans (coordinate_fin (last_ok hP hd))⟩
      exact ⟨H.inv p _ h3, p, rfl⟩
  | act _ _ ih => exact ih
  | quiet _ _ _ ih => exact ih
  | tell _ _ ht _ _ ih =>
    obtain ⟨⟨a, rfl⟩, p, rfl⟩ := ih
    cases ht with
    | angles h1 h2 h3 =>
      obtain ⟨a', rfl⟩ := exists_finS (A := _) fun i => by
        rcases last_or_none (N := NamesAngle) _ i with ⟨d, hd⟩ | hn
        · exact ⟨_, (h2 i d hd).trans (angle_fin (last_ok hA hd))⟩
        · exact ⟨a i, h3 i hn⟩
      obtain ⟨p, hp, _⟩ := H.fwd a'
      exact ⟨⟨a', rfl⟩, p, hp⟩
    | pose h1 h2 h3 h4 =>
      obtain ⟨p', rfl⟩ := exists_finS (A := _) fun i => by
        rcases last_or_none (N := NamesPose) _ i with ⟨d, hd⟩ | hn
        · exact ⟨_, (h2 i d hd).trans (coordinate_fin (last_ok hP hd))⟩
        · exact ⟨p i, h3 i hn⟩
      exact ⟨H.inv p' _ h4, p', rfl⟩

theorem course_mid {F : Type} [FloatOps F] {cfg : RCfg F} {L U : Six F} {tr mid : List (Act F)} {A P : Six F} (h : Course cfg L U tr A P mid) : Fits cfg L U A ∧ ∃ pre, tr = pre ++ mid := by
  induction h with
  | home tr _ _ _ hf => exact ⟨hf, _, (List.append_nil _).symm⟩
  | act _ _ ih => obtain ⟨h1, p, h2⟩ := ih; exact ⟨h1, p, by rw [h2, List.append_assoc]⟩
  | quiet _ _ _ ih => obtain ⟨h1, p, h2⟩ := ih; exact ⟨h1, p, by rw [h2, List.append_assoc]⟩
  | tell _ _ _ _ hf => exact ⟨hf, _, (List.append_nil _).symm⟩

theorem kit_l2p (a : Fin 6 → ℝ) : (Kit.l2p (finS a) : Six XR) = finS fun i => if i = 2 then a 2 + a 1 else a i := by
  funext i
  simp only [Kit.l2p, RC.upd, finS, fin_add]
  split <;> rfl
theorem kit_p2l (a : Fin 6 → ℝ) : (Kit.p2l (finS a) : Six XR) = finS (kitLogical a) := by
  funext i
  simp only [Kit.p2l, RC.upd, finS, fin_sub, kitLogical]
  split <;> rfl

/-- the limits the firmware of the kit reads from its servos. -/
noncomputable def kitL : Six XR := fun i => fin ((Kit.minDeg (armServo i) : ℝ) * (Real.pi / 180))
noncomputable def kitU : Six XR := fun i => fin ((Kit.maxDeg (armServo i) : ℝ) * (Real.pi / 180))

theorem kit_fits (a : Fin 6 → ℝ) : Fits (Kit.cfg : Cfg XR).toRCfg kitL kitU (finS a) ↔ KitFits a := by
  have e : ∀ i, ((Kit.cfg : Cfg XR).l2p (finS a)) i = fin (if i = 2 then a 2 + a 1 else a i) := fun i => congrFun (kit_l2p a) i
  have lo : ∀ i, (Kit.cfg : Cfg XR).lo i = kitL i := fun i => deg_fin _
  have hi : ∀ i, (Kit.cfg : Cfg XR).hi i = kitU i := fun i => deg_fin _
  simp only [Fits, KitFits, e, lo, hi, kitL, kitU, finS, flt, fgt, ops_lt, decide_eq_false_iff_not, not_lt]
  constructor
  · rintro ⟨h1, h2⟩
    have := h2 2
    simp only [if_true] at this
    exact ⟨h1, this.1, this.2⟩
  · rintro ⟨h1, h2, h3⟩
    refine ⟨h1, fun i => ?_⟩
    by_cases hi : i = 2
    · subst hi; simp only [if_true]; exact ⟨h2, h3⟩
    · simp only [if_neg hi]; exact h1 i

section
variable {w0 : World XR} (hw : w0.servos = Kit.servos) {junk : Nat → Byte} (hmem : CarefulStorage w0.ee) {evs : List (Ev XR)} {s : Sys XR}
include hw

theorem kit_arm : Arm (fun i => (Kit.minDeg (armServo i) : ℝ) * (Real.pi / 180)) (fun i => (Kit.maxDeg (armServo i) : ℝ) * (Real.pi / 180)) w0 := by
  intro i
  obtain ⟨pin, m, home, e, h0, h1, h2⟩ := kit_ready w0 hw i
  refine ⟨pin, m, _, _, home, e, ?_, h1, h2⟩
  obtain ⟨m', e', hm'⟩ := ((kit_servos hw).1 i).2
  rw [e] at e'
  simp only [Servo.new] at e'
  cases e'; exact hm'

theorem kit_limits (h : Sys.Run Kit.cfg w0 junk evs s) : Limits kitL kitU (acts evs) := by
  have := run_limits h
  rw [hw] at this
  intro i sv hm
  have h1 := this i sv hm
  simp only [Kit.servos, Servo.new, deg_fin] at h1
  exact h1

include hmem

theorem kit_noNaN (h : Sys.Run Kit.cfg w0 junk evs s) (hc : WellSent (w0.rxq ++ arrivals evs)) : NoNaN (acts evs) := by
  have hf := (C81_kit hw hmem h hc).2.2.1
  refine fun i => ⟨fun hm => ?_, fun hm => ?_⟩
  · obtain ⟨t, e⟩ := hf _ _ hm; cases e
  · obtain ⟨t, e⟩ := hf _ _ hm; cases e

/-- what a finished move means for the kit. -/
theorem kit_moved (h : Sys.Run Kit.cfg w0 junk evs s) (hc : WellSent (w0.rxq ++ arrivals evs)) {p0 mid rest : List (Act XR)} (e : acts evs = p0 ++ (mid ++ rest)) {a : Fin 6 → ℝ}
    (hm : Moved (Kit.cfg : Cfg XR).toRCfg kitL kitU (finS a) mid) :
    (KitFits a → ∃ b, SeenAt mid b ∧ ∀ i, |kitLogical b i - a i| < 1 / 10000) ∧ (¬ KitFits a → ArmStill mid) := by
  constructor
  · intro hf
    obtain ⟨b, hb, h1⟩ := seen_moved (kit_arm hw) h (kit_noNaN hw hmem h hc) e (kit_l2p a) ((kit_fits a).2 hf) hm
    refine ⟨b, hb, ?_⟩
    rcases h1 with h1 | h1
    · intro i
      have k1 := abs_lt.1 (h1 1)
      have k2 := abs_lt.1 (h1 2)
      have ki := abs_lt.1 (h1 i)
      rw [abs_lt]
      unfold kitLogical
      by_cases hi : i = 2
      · subst hi
        simp only [if_true, show (1 : Fin 6) ≠ 2 by decide, if_false] at k1 k2 ⊢
        constructor <;> linarith [k1.1, k1.2, k2.1, k2.2]
      · simp only [if_neg hi] at ki ⊢
        constructor <;> linarith [ki.1, ki.2]
    · have : RC.anglesEqual (Kit.p2l (finS b)) (finS a) = true := h1
      rw [kit_p2l] at this
      exact (RC.anglesEqual_fin _ _).1 this
  · intro hf
    rw [← kit_fits] at hf
    cases hm with
    | went h1 => exact absurd h1 hf
    | there _ _ _ h => exact h
    | noTime _ _ h1 => exact absurd h1 hf
    | refused _ h => exact h

/-- **C84** for the kit: in every history with a careful host. An instruction that told all six angles (M0): when it is reported as finished, or the next one is started, and
nothing else was started in between, then every servo has been seen where it has to be for these angles, to 1e-4 radians, and has not been touched since; unless the
angles are beyond the ranges: then no servo was touched. -/
theorem C84_kit (h : Sys.Run Kit.cfg w0 junk evs s) (hc : WellSent (w0.rxq ++ arrivals evs)) {cs : List Cmd} (ht : TellsAngles cs) (hM : Chooses 48 cs)
    {d : Fin 6 → Dec} (hd : ∀ i, Last NamesAngle cs i (d i)) {pre mid post : List (Act XR)} {src : Src} {a : Act XR} (hs : src ≠ .immediate)
    (e : acts evs = pre ++ .out (.ghost src (text cs)) :: mid ++ a :: post) (hm : ∀ x ∈ mid, ¬ DirectsI x) (ha : reports a) :
    (KitFits (fun i => radians (d i)) → ∃ b, SeenAt mid b ∧ ∀ i, |kitLogical b i - radians (d i)| < 1 / 10000) ∧
    (¬ KitFits (fun i => radians (d i)) → ArmStill mid) := by
  obtain ⟨t, h1, h2⟩ := C84_angles h.trace (kit_limits hw h) ht hM hs e hm ha
  have : t = finS fun i => radians (d i) := funext fun i => (h1 i _ (hd i)).trans (angle_fin (last_ok (fun _ _ _ h => h.1) (hd i)))
  subst this
  exact kit_moved hw hmem h hc (p0 := pre ++ [.out (.ghost src (text cs))]) (rest := a :: post) (by rw [e]; simp) h2

/-- **C85** for the kit: the same for all six pose coordinates, if the pose is within reach: the servos have been seen at angles that put the tool at the position and
orientation told (exactly the angles, up to 1e-4 radians of the servos; the pose of the angles is exact unless the wrist is straight, see C56). -/
theorem C85_kit (h : Sys.Run Kit.cfg w0 junk evs s) (hc : WellSent (w0.rxq ++ arrivals evs)) {cs : List Cmd} (ht : TellsPose cs) (hM : Chooses 48 cs)
    {d : Fin 6 → Dec} (hd : ∀ i, Last NamesPose cs i (d i)) (hr : InReach kitG (poseOfDec d)) {pre mid post : List (Act XR)} {src : Src} {a : Act XR} (hs : src ≠ .immediate)
    (e : acts evs = pre ++ .out (.ghost src (text cs)) :: mid ++ a :: post) (hm : ∀ x ∈ mid, ¬ DirectsI x) (ha : reports a) :
    ∃ A : Fin 6 → ℝ, (Real.cos (A 4) ≠ 0 → jointPos kitG A 5 = ![poseOfDec d 0, poseOfDec d 1, poseOfDec d 2] ∧ toolFrame A = orientOf (poseOfDec d)) ∧
      (KitFits A → ∃ b, SeenAt mid b ∧ ∀ i, |kitLogical b i - A i| < 1 / 10000) ∧ (¬ KitFits A → ArmStill mid) := by
  obtain ⟨P, h1, h2⟩ := C85_pose h.trace (kit_limits hw h) ht hM hs e hm ha
  have : P = finS (poseOfDec d) := funext fun i => (h1 i _ (hd i)).trans (coordinate_fin (last_ok (fun _ _ _ h => h.1) (hd i)))
  subst this
  have hu : 0 < upperLen kitG := by rw [kitG_upper]; norm_num
  have hl : 0 < foreLen kitG := by have := kitG_fore; linarith
  obtain ⟨A, hA⟩ := (C57_range hu hl (poseOfDec d)).1 hr
  have hA' : (Kit.cfg : Cfg XR).inv (finS (poseOfDec d)) = some (finS A) := by rw [← hA, kitG_eq]; rfl
  obtain ⟨B, hB, h3⟩ := C56_inverse kitG_supported hu hl hA
  have : A = B := funext fun i => XR.fin.inj (congrFun hB i)
  subst this
  refine ⟨A, fun h4 => ⟨(h3 h4).1, (h3 h4).2.1⟩, ?_⟩
  rcases h2 with h2 | ⟨t, h2, h4⟩
  · rw [hA'] at h2; cases h2
  · rw [hA'] at h2; cases h2
    exact kit_moved hw hmem h hc (p0 := pre ++ [.out (.ghost src (text cs))]) (rest := a :: post) (by rw [e]; simp) h4

/-- **C87** for the kit: a course of moves with a careful host: whenever an instruction is reported as finished or the next one starts, every servo has been seen where it has to be
for the angles told so far, to 1e-4 radians, and has not been touched since. -/
theorem C87_kit (h : Sys.Run Kit.cfg w0 junk evs s) (hc : WellSent (w0.rxq ++ arrivals evs)) {pre post : List (Act XR)} {a : Act XR} (ha : reports a)
    (e : acts evs = pre ++ a :: post) {A P : Six XR} {mid : List (Act XR)} (hco : Course (Kit.cfg : Cfg XR).toRCfg kitL kitU pre A P mid) :
    ∃ α b : Fin 6 → ℝ, A = finS α ∧ SeenAt mid b ∧ ∀ i, |kitLogical b i - α i| < 1 / 10000 := by
  obtain ⟨⟨α, rfl⟩, _⟩ := course_fin (robotFin_kit (fun _ => 0) (fun _ => 0)) hco
  obtain ⟨hf, p0, rfl⟩ := course_mid hco
  have hm := C87_course h.trace (kit_limits hw h) ha e hco
  obtain ⟨b, h1, h2⟩ := (kit_moved hw hmem h hc (by rw [e, List.append_assoc]) hm).1 ((kit_fits _).1 hf)
  exact ⟨α, b, rfl, h1, h2⟩
end

/-! ### total correctness -/

section
variable {w0 : World XR} (hw : w0.servos = Kit.servos) {junk : Nat → Byte} {σ : ℕ → Sys XR} {ev : ℕ → Ev XR} (h : Endless Kit.cfg w0 junk σ ev)
  (hmem : CarefulStorage w0.ee) (hc : ∀ n, WellSent (w0.rxq ++ arrivals (sofar ev n)))
include hw h hmem hc

section
variable (hset : ∀ n s, Between σ n s → ∀ i, Settles ((σ n).w.servos (armServo i))) (hf : Fair σ ev)
include hset hf

/-- C88 for servos that settle. -/
theorem C88_settles {k : ℕ} {src : Src} {cs : List Cmd} (hk : ev k = .act (.out (.ghost src (text cs)))) (hs : src ≠ .immediate) (ht : TellsAngles cs) (hM : Chooses 48 cs) {n : Int}
    (hm : Numbered (text cs) n) {d : Fin 6 → Dec} (hd : ∀ i, Last NamesAngle cs i (d i)) (hfit : KitFits fun i => radians (d i)) (hi : OnlyAsksNow ev (k + 1)) :
    ∃ j, k < j ∧ ev j = .act (.out (.msg (.n1 n))) ∧ (∀ i, k < i → i < j → ¬ Orders ev i) ∧
      ∃ b, SeenAt (acts ((sofar ev j).drop (k + 1))) b ∧ ∀ i, |kitLogical b i - radians (d i)| < 1 / 10000 := by
  obtain ⟨j, h1, h2, h3⟩ := C80_reported h parts_XR hk hs hm hi hf fun n s _ hb i => hset n s hb i
  refine ⟨j, h1, h2, h3, ?_⟩
  have hsplit : sofar ev (j + 1) = sofar ev k ++ [ev k] ++ (sofar ev j).drop (k + 1) ++ [ev j] := by
    rw [sofar_succ]
    congr 1
    rw [← sofar_succ]
    have : sofar ev (k + 1) = (sofar ev j).take (k + 1) := by
      rw [sofar, sofar, ← List.map_take, List.take_range, Nat.min_eq_left h1]
    rw [this, List.take_append_drop]
  have e : acts (sofar ev (j + 1)) = acts (sofar ev k) ++ .out (.ghost src (text cs)) :: acts ((sofar ev j).drop (k + 1)) ++ .out (.msg (.n1 n)) :: [] := by
    rw [hsplit, acts_append, acts_append, acts_append, hk, h2]
    simp [acts]
  refine (C84_kit hw hmem (h.run (j + 1)) (hc _) ht hM hd hs e (fun x hx => ?_) trivial).1 hfit
  rintro ⟨src', m', rfl, hm'⟩
  rw [acts_mem] at hx
  obtain ⟨i, hi, hx⟩ := List.getElem_of_mem hx
  simp only [sofar, List.getElem_drop, List.getElem_map, List.getElem_range, List.length_drop, List.length_map, List.length_range] at hx hi
  exact h3 (k + 1 + i) (by omega) (by omega) (orders_of_directs ⟨src', m', hx, hm'⟩)

/-- C88 from the queue on, for servos that settle. -/
theorem C88_queue_settles {n0 : ℕ} (hrun : ∃ k ≤ n0, ev k = .next) (hsel : (view ev n0).sel = .queue) {cs : List Cmd} {q : List (List Byte)} (hq : (view ev n0).queue = text cs :: q)
    (hkq : KeepsQueue ev n0) (ht : TellsAngles cs) (hM : Chooses 48 cs) {n : Int} (hm : Numbered (text cs) n) {d : Fin 6 → Dec} (hd : ∀ i, Last NamesAngle cs i (d i))
    (hfit : KitFits fun i => radians (d i)) (hi : OnlyAsksNow ev n0) :
    ∃ k j, n0 ≤ k ∧ ev k = .act (.out (.ghost .queue (text cs))) ∧ (∀ i, n0 ≤ i → i < k → ¬ Orders ev i) ∧
      k < j ∧ ev j = .act (.out (.msg (.n1 n))) ∧ (∀ i, k < i → i < j → ¬ Orders ev i) ∧
      ∃ b, SeenAt (acts ((sofar ev j).drop (k + 1))) b ∧ ∀ i, |kitLogical b i - radians (d i)| < 1 / 10000 := by
  obtain ⟨k, h1, h2, h3, _⟩ := C78_started h parts_XR hrun hsel hq hkq hi hf fun n s _ hb i => hset n s hb i
  obtain ⟨j, h4⟩ := C88_settles hw h hmem hc hset hf h2 (by decide) ht hM hm hd hfit fun i hk m => hi i (by omega) m
  exact ⟨k, j, h1, h2, h3, h4⟩
end

variable (hv : ∀ n i x, ev n = .act (.micro (armServo i) (.setVel (.fin x))) → x ≤ 0 ∨ 1/1000 ≤ x)
include hv

theorem careful_settles : ∀ n s, Between σ n s → ∀ i, Settles ((σ n).w.servos (armServo i)) := by
  have hfin : ∀ n i m, ev n = .act (.micro i m) → MicroFin m := fun n i m e => by
    refine (C81_kit hw hmem (h.run (n + 1)) (hc _)).2.2.1 i m ?_
    rw [acts_mem]
    exact List.mem_map.2 ⟨n, List.mem_range.2 (Nat.lt_succ_self n), e⟩
  exact fun n _ _ i => settles_kit hw h (fun n i => by
    refine ⟨fun e => ?_, fun e => ?_⟩
    · obtain ⟨t, e⟩ := hfin _ _ _ e; cases e
    · obtain ⟨t, e⟩ := hfin _ _ _ e; cases e) hv n i

variable (hf : Fair σ ev)
include hf

/-- **C88**: total correctness of a move of the kit with a careful host. An instruction that tells all six angles, within the ranges, with M0 and a number, is taken from
the queue or the storage, and no immediate instruction that does more than ask begins after it. Then N1 is sent, before any other instruction begins, and by then every servo has been seen where it
has to be for these angles, to 1e-4 radians, and has not been touched since. (Conditions as for C80: again and again there is a pass in which all inputs waited for have the
required level and the waiting time is over; no positive speed below 1/1000 rad/s is commanded.) -/
theorem C88_kit {k : ℕ} {src : Src} {cs : List Cmd} (hk : ev k = .act (.out (.ghost src (text cs)))) (hs : src ≠ .immediate) (ht : TellsAngles cs) (hM : Chooses 48 cs) {n : Int}
    (hm : Numbered (text cs) n) {d : Fin 6 → Dec} (hd : ∀ i, Last NamesAngle cs i (d i)) (hfit : KitFits fun i => radians (d i)) (hi : OnlyAsksNow ev (k + 1)) :
    ∃ j, k < j ∧ ev j = .act (.out (.msg (.n1 n))) ∧ (∀ i, k < i → i < j → ¬ Orders ev i) ∧
      ∃ b, SeenAt (acts ((sofar ev j).drop (k + 1))) b ∧ ∀ i, |kitLogical b i - radians (d i)| < 1 / 10000 :=
  C88_settles hw h hmem hc (careful_settles hw h hmem hc hv) hf hk hs ht hM hm hd hfit hi

/-- **C88** from the queue on: the oldest instruction in the queue is a move as above, the host sends no frame that clears the queue or switches to the storage, and no immediate
instruction begins from now on. Then it is started, then N1 is sent, and by then the arm has been seen where it was told to be. -/
theorem C88_queue {n0 : ℕ} (hrun : ∃ k ≤ n0, ev k = .next) (hsel : (view ev n0).sel = .queue) {cs : List Cmd} {q : List (List Byte)} (hq : (view ev n0).queue = text cs :: q)
    (hkq : KeepsQueue ev n0) (ht : TellsAngles cs) (hM : Chooses 48 cs) {n : Int} (hm : Numbered (text cs) n) {d : Fin 6 → Dec} (hd : ∀ i, Last NamesAngle cs i (d i))
    (hfit : KitFits fun i => radians (d i)) (hi : OnlyAsksNow ev n0) :
    ∃ k j, n0 ≤ k ∧ ev k = .act (.out (.ghost .queue (text cs))) ∧ (∀ i, n0 ≤ i → i < k → ¬ Orders ev i) ∧
      k < j ∧ ev j = .act (.out (.msg (.n1 n))) ∧ (∀ i, k < i → i < j → ¬ Orders ev i) ∧
      ∃ b, SeenAt (acts ((sofar ev j).drop (k + 1))) b ∧ ∀ i, |kitLogical b i - radians (d i)| < 1 / 10000 :=
  C88_queue_settles hw h hmem hc (careful_settles hw h hmem hc hv) hf hrun hsel hq hkq ht hM hm hd hfit hi
end

end Mrc.Props
