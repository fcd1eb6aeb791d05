import Verif.Proof.Host
import Verif.Proof.Motion
import Verif.Proof.Notice
import Verif.Props.Mril
import Verif.Props.Safety
/- The controller and the instruction parser with a careful host: all numbers stay finite, no undefined behaviour (C81-C83). Over the exact numbers XR. -/
set_option linter.unusedSectionVars false
set_option linter.unusedSimpArgs false
namespace Mrc.Host
open Mrc Mrc.Spec Mrc.Prog Mrc.Props XR
open scoped Mrc.Num

/-- assumed of readings: the arm servos are within their ranges, all positions are numbers. -/
def E (lo hi : Fin 6 → ℝ) : Act XR → Prop
  | .servo i s => IsFin s.cur ∧ ∀ j, i = armServo j → s.minA = fin (lo j) ∧ s.maxA = fin (hi j) ∧ InR (lo j) (hi j) s.cur ∧ ∃ m, s.maxVel = fin m ∧ 0 < m
  | _ => True

/-- demanded of what the firmware does: all numbers stored and sent are finite, arm servos get angles in their range. -/
def O (lo hi : Fin 6 → ℝ) : Act XR → Prop
  | .micro i m => MicroFin m ∧ ∀ j, i = armServo j → goodMicro (lo j) (hi j) m
  | .out (.msg (.reply _ ps)) => ∀ p ∈ ps, PartFin p
  | .out (.raw (.moveInTime t)) => IsFin t
  | _ => True

/-- the controller's numbers. -/
structure RCFin (r : RC XR) : Prop where
  tA : ∃ a, r.targetAngles = finS a
  sA : ∃ a, r.startAngles = finS a
  tP : ∃ p, r.targetPose = finS p ∧ Near p
  sP : ∃ p, r.startPose = finS p ∧ Near p
  vel : ∃ v : ℝ, r.maxVelocity = fin v ∧ v ≠ 0
  meth : r.method ≠ .circular
  tot : r.state = .moving ∨ r.state = .startMove → 0 < r.total

theorem RCFin.trans {r : RC XR} (h : RCFin r) (b : Bool) : RCFin { r with inTransaction := b } := ⟨h.tA, h.sA, h.tP, h.sP, h.vel, h.meth, h.tot⟩

section rc
variable {cfg : RCfg XR} {lo hi : Fin 6 → ℝ}
local notation "LM" => lmon (F := XR) (E lo hi) (O lo hi)

theorem readAngles_fin : (RC.readAngles : Prog XR (Six XR)).wp LM (fun _ a => ∃ x : Fin 6 → ℝ, a = finS x ∧ ∀ i, lo i ≤ x i ∧ x i ≤ hi i) () := by
  refine wp_mono (fun _ a h => ?_) (RC.readAngles_safe (M := LM))
  have : ∀ i, ∃ x : ℝ, a i = fin x ∧ lo i ≤ x ∧ x ≤ hi i := by
    intro i
    obtain ⟨s, he, e⟩ := h i
    obtain ⟨_, _, ⟨x, ex, b⟩, _⟩ := he.2 i rfl
    exact ⟨x, e.trans ex, b⟩
  choose x hx using this
  exact ⟨x, funext fun i => (hx i).1, fun i => (hx i).2⟩

theorem logical_fin (H : RobotFin cfg lo hi) : (RC.getCurrentLogicalAngles cfg).wp LM (fun _ a => ∃ x, a = finS x) () := by
  rw [RC.getCurrentLogicalAngles, bind_def, wp_bind]
  refine wp_mono (fun _ a h => ?_) readAngles_fin
  obtain ⟨x, rfl, hx⟩ := h
  exact H.p2l x hx

theorem pose_fin (H : RobotFin cfg lo hi) : (RC.getCurrentPose cfg).wp LM (fun _ a => ∃ p, a = finS p ∧ Near p) () := by
  rw [RC.getCurrentPose, bind_def, wp_bind]
  refine wp_mono (fun _ a h => ?_) readAngles_fin
  obtain ⟨x, rfl, hx⟩ := h
  obtain ⟨b, hb⟩ := H.p2l x hx
  show ∃ p, cfg.fwd (cfg.p2l _) = finS p ∧ Near p
  rw [hb]
  exact H.fwd b

theorem reject_fin (H : RobotFin cfg lo hi) {r : RC XR} (h : RCFin r) : (RC.reject cfg r).wp LM (fun _ r => RCFin r) () := by
  rw [RC.reject, bind_def, wp_bind]
  refine wp_mono (fun _ p hp => ?_) (pose_fin H)
  rw [bind_def, wp_bind]
  refine wp_mono (fun _ a ha => ?_) (logical_fin H)
  exact ⟨ha, h.sA, hp, h.sP, h.vel, h.meth, fun hh => by simp at hh⟩

theorem physical_fin (t : Fin 6 → ℝ) (is : List (Fin 6)) :
    (RC.violatesPhysical (finS t) is).wp LM (fun _ b => b = false → ∀ i ∈ is, lo i ≤ t i ∧ t i ≤ hi i) () := by
  induction is with
  | nil => intro _ i hi; cases hi
  | cons i is ih =>
    simp only [RC.violatesPhysical, readServo, bind_def, Prog.bind, wp]
    intro x hx
    obtain ⟨e1, e2, _⟩ := hx.2 i rfl
    show Prog.wp _ (if _ then _ else _) _ _
    rw [e1, e2]
    split
    · intro h; cases h
    · rename_i hc
      simp only [finS, flt, fgt, ops_lt, Bool.or_eq_true, decide_eq_true_eq, not_or, not_lt] at hc
      refine wp_mono (fun _ b hb hf j hj => ?_) ih
      rcases List.mem_cons.1 hj with rfl | hj
      · exact hc
      · exact hb hf j hj

theorem minTime_fin (t : Fin 6 → ℝ) (is : List (Fin 6)) (acc : XR) (ha : IsFin acc) : (RC.minTime (finS t) is acc).wp LM (fun _ x => IsFin x) () := by
  induction is generalizing acc with
  | nil => exact ha
  | cons i is ih =>
    simp only [RC.minTime, readServo, bind_def, Prog.bind, wp]
    intro x hx
    obtain ⟨_, _, ⟨c, ec, _⟩, m, em, hm⟩ := hx.2 i rfl
    apply ih
    split
    · rw [ec, em]; simp only [finS, fin_sub, ops_abs]; exact ⟨_, fin_div _ _ hm.ne'⟩
    · exact ha

theorem apply_fin (t : Fin 6 → ℝ) (ht : ∀ i, lo i ≤ t i ∧ t i ≤ hi i) (τ : ℝ) (hτ : τ ≠ 0) (is : List (Fin 6)) :
    (RC.apply (finS t) (fin τ) is).wp LM (fun _ _ => True) () := by
  induction is with
  | nil => trivial
  | cons i is ih =>
    simp only [RC.apply, readServo, doMicro, bind_def, Prog.bind, wp]
    intro x hx
    obtain ⟨_, _, ⟨c, ec, _⟩, _⟩ := hx.2 i rfl
    have ev : (FloatOps.abs (finS t i - x.cur) / fin τ : XR) = fin (|t i - c| / τ) := by
      rw [ec]; simp only [finS, fin_sub, ops_abs]; exact fin_div _ _ hτ
    refine ⟨⟨?_, fun j hj => ?_⟩, fun y hy => ?_⟩
    · rw [ev]; exact ⟨_, rfl⟩
    · rw [ev]; intro e; cases e
    · obtain ⟨_, _, ⟨d, ed, hd⟩, _⟩ := hy.2 i rfl
      refine ⟨⟨⟨d, ed⟩, fun j hj => ?_⟩, ⟨trivial, fun j hj => trivial⟩, ⟨⟨t i, rfl⟩, fun j hj => ?_⟩, ih⟩
      · obtain rfl := armServo_inj hj; exact ⟨d, ed, hd⟩
      · obtain rfl := armServo_inj hj; exact ⟨t i, rfl, ht i⟩

theorem command_fin (H : RobotFin cfg lo hi) {r : RC XR} (h : RCFin r) (h0 : 0 < r.total) (t : Fin 6 → ℝ) (T : Six XR) (hT : T = finS t) (mt : XR) (hm : IsFin mt) :
    (RC.command cfg r T mt).wp LM (fun _ r => RCFin r) () := by
  subst hT
  unfold RC.command
  split
  · exact reject_fin H h
  · rename_i hv
    have hl : ∀ i, flt (fin (t i)) (cfg.lo i) = false ∧ fgt (fin (t i)) (cfg.hi i) = false := by
      intro i
      simp only [RC.violatesLogical, List.any_eq_true, not_exists, not_and, Bool.or_eq_true, not_or, Bool.not_eq_true] at hv
      exact hv i (List.mem_finRange i)
    obtain ⟨b, hb⟩ := H.l2p t hl
    simp only [hb]
    rw [bind_def, wp_bind]
    refine wp_mono (fun _ bad hbad => ?_) (physical_fin b _)
    split
    · exact reject_fin H h
    · rename_i hbf
      have hin : ∀ i, lo i ≤ b i ∧ b i ≤ hi i := fun i => hbad (by simpa using hbf) i (List.mem_finRange i)
      have hend : RCFin { r with state := .moving } := ⟨h.tA, h.sA, h.tP, h.sP, h.vel, h.meth, fun _ => h0⟩
      rw [bind_def, wp_bind]
      refine wp_mono (fun _ time htime => ?_) (minTime_fin b _ _ hm)
      obtain ⟨τ, rfl⟩ := htime
      split
      · exact hend
      · rename_i hz
        have hτ : τ ≠ 0 := by
          rintro rfl
          apply hz
          simp [feq]
        rw [bind_def, wp_bind]
        exact wp_mono (fun _ _ _ => hend) (apply_fin b hin τ hτ _)

theorem startMove_fin (H : RobotFin cfg lo hi) {r : RC XR} (h : RCFin r) (h0 : 0 < r.total) : (RC.startMove cfg r).wp LM (fun _ r => RCFin r) () := by
  have h' : RCFin { r with step := r.step + 1 } := ⟨h.tA, h.sA, h.tP, h.sP, h.vel, h.meth, h.tot⟩
  obtain ⟨a, ea⟩ := h.tA
  obtain ⟨s, es⟩ := h.sA
  obtain ⟨p, ep, hp⟩ := h.tP
  obtain ⟨q, eq, hq⟩ := h.sP
  obtain ⟨v, ev, hv⟩ := h.vel
  have eN : (Servo.ofNat r.total : XR) = fin (r.total : ℝ) := by simp [Servo.ofNat]
  have hN : ((r.total : ℕ) : ℝ) ≠ 0 := by exact_mod_cast h0.ne'
  unfold RC.startMove
  simp only [bind_def, emit, readServo, Prog.bind]
  split
  · obtain ⟨M, eM, _⟩ := RC.maxAngleChange_fin { r with step := r.step + 1 } s a es ea
    have em : (RC.maxAngleChange { r with step := r.step + 1 } / r.maxVelocity * radToDeg : XR) = fin (M / v * (180 / Real.pi)) := by
      rw [eM, ev, fin_div _ _ hv, radToDeg_eq, fin_mul]
    refine ⟨?_, ?_⟩
    · exact ⟨_, em⟩
    · exact command_fin H h' h0 a _ ea _ ⟨_, em⟩
  · have em : IsFin (RC.distance r.startPose r.targetPose / Servo.ofNat r.total / r.maxVelocity) := by
      rw [ep, eq, RC.distance_fin, eN, ev, fin_div _ _ hN, fin_div _ _ hv]; exact ⟨_, rfl⟩
    have ew : ∃ w, RC.waypoint { r with step := r.step + 1 } = finS w := by
      have eS : (Servo.ofNat (r.step + 1) : XR) = fin ((r.step + 1 : ℕ) : ℝ) := by simp [Servo.ofNat]
      refine ⟨fun i => if i.val < 3 then q i + (p i - q i) * (((r.step + 1 : ℕ) : ℝ) / r.total) else p i, ?_⟩
      funext i
      simp only [RC.waypoint, ep, eq, eN, eS, fin_div _ _ hN]
      match i with
      | 0 | 1 | 2 | 3 | 4 | 5 => simp [six, finS]
    obtain ⟨w, ew⟩ := ew
    split
    · exact reject_fin H h'
    · rename_i t ht
      rw [ew] at ht
      obtain ⟨b, rfl⟩ := H.inv w t ht
      split
      · intro x hx y hy
        obtain ⟨_, _, ⟨x3, e3, _⟩, _⟩ := hx.2 3 rfl
        obtain ⟨_, _, ⟨y5, e5, _⟩, _⟩ := hy.2 5 rfl
        have : RC.upd (RC.upd (finS b) 3 x.cur) 5 y.cur = finS (fun i => if i = 5 then y5 else if i = 3 then x3 else b i) := by
          funext i; simp only [RC.upd, finS, e3, e5]; split
          · rfl
          · split <;> rfl
        exact command_fin H h' h0 _ _ this _ em
      · exact command_fin H h' h0 _ _ rfl _ em
  · rename_i hm; exact absurd hm h.meth

theorem dist_near {p q : Fin 6 → ℝ} (hp : Near p) (hq : Near q) : dist3 p q < 1073741823 := by
  have hh : ∀ i : Fin 6, i.val < 3 → (q i - p i) ^ 2 ≤ 200000000 ^ 2 := by
    intro i hi
    have h1 := abs_le.1 (hp i hi)
    have h2 := abs_le.1 (hq i hi)
    apply sq_le_sq'
    · linarith
    · linarith
  have h0 := hh 0 (by decide)
  have h1 := hh 1 (by decide)
  have h2 := hh 2 (by decide)
  unfold dist3
  rw [Real.sqrt_lt' (by norm_num)]
  nlinarith

theorem sync_fin (H : RobotFin cfg lo hi) {r : RC XR} (h : RCFin r) : RCFin (RC.sync cfg r) := by
  unfold RC.sync
  split
  · obtain ⟨a, ea⟩ := h.tA
    refine ⟨h.tA, h.sA, ?_, h.sP, h.vel, h.meth, h.tot⟩
    show ∃ p, cfg.fwd r.targetAngles = finS p ∧ Near p
    rw [ea]; exact H.fwd a
  · split
    · split
      · rename_i t ht
        obtain ⟨p, ep, _⟩ := h.tP
        rw [ep] at ht
        exact ⟨H.inv p t ht, h.sA, h.tP, h.sP, h.vel, h.meth, h.tot⟩
      · exact h
    · exact ⟨h.tA, h.sA, h.tP, h.sP, h.vel, h.meth, fun hh => by simp at hh⟩

theorem prepare_fin (H : RobotFin cfg lo hi) {r : RC XR} (h : RCFin r) (hst : r.state = .prepareMove) : (RC.prepare cfg r).wp LM (fun _ r => RCFin r) () := by
  unfold RC.prepare
  simp only [bind_def, emit, Prog.bind, pure_def]
  split
  · exact h
  · have hs := sync_fin H h
    have key : ∀ p : Prog XR (RC XR), p.wp LM (fun _ r => RCFin r) () →
      (if (!r.anglesChanged && !r.poseChanged) = true then
        (out (.raw (.error "nothing changed, still PREPARE MOVE")) p : Prog XR (RC XR)) else p).wp LM (fun _ r => RCFin r) () := by
      intro p hp; split
      · exact ⟨trivial, hp⟩
      · exact hp
    apply key
    split
    · exact ⟨trivial, hs.tA, hs.sA, hs.tP, hs.sP, hs.vel, hs.meth, fun hh => by simp at hh⟩
    · rw [wp_bind]
      refine wp_mono (fun _ sp hsp => ?_) (pose_fin H)
      rw [wp_bind]
      refine wp_mono (fun _ sa hsa => ?_) (logical_fin H)
      split
      · exact ⟨hs.tA, hsa, hs.tP, hsp, hs.vel, hs.meth, fun hh => by simp at hh⟩
      · split
        · exact startMove_fin H ⟨hs.tA, hsa, hs.tP, hsp, hs.vel, hs.meth, fun _ => Nat.one_pos⟩ Nat.one_pos
        · rename_i hl
          obtain ⟨p, ep, hp⟩ := hs.tP
          obtain ⟨q, rfl, hq⟩ := hsp
          have eL : RC.linearSteps (finS q) (RC.sync cfg r).targetPose = some (⌊2 * dist3 q p⌋₊ + 1) := by
            rw [ep]; exact RC.linearSteps_fin q p (dist_near hq hp)
          split
          · rename_i hn
            rw [eL] at hn; cases hn
          · rename_i n hn
            rw [eL] at hn; cases hn
            exact startMove_fin H ⟨hs.tA, hsa, hs.tP, ⟨q, rfl, hq⟩, hs.vel, hs.meth, fun _ => Nat.succ_pos _⟩ (Nat.succ_pos _)
        · rename_i hm; exact absurd hm hs.meth

theorem process_fin (H : RobotFin cfg lo hi) {r : RC XR} (h : RCFin r) : (RC.process cfg r).wp LM (fun _ r => RCFin r) () := by
  unfold RC.process
  split
  · exact h
  · rename_i hst
    have h0 := h.tot (.inl hst)
    unfold RC.moving
    rw [bind_def, wp_bind]
    refine wp_mono (fun _ b _ => ?_) (RC.allAtTarget_safe _ _)
    split
    · split
      · exact ⟨h.tA, h.sA, h.tP, h.sP, h.vel, h.meth, fun hh => by simp at hh⟩
      · exact startMove_fin H ⟨h.tA, h.sA, h.tP, h.sP, h.vel, h.meth, fun _ => h0⟩ h0
    · exact h
  · rename_i hst; exact prepare_fin H h hst
  · rename_i hst; exact startMove_fin H h (h.tot (.inr hst))

end rc
end Mrc.Host

namespace Mrc.Host
open Mrc Mrc.Spec Mrc.Prog Mrc.Props XR
open scoped Mrc.Num

theorem atof_dec {d : Dec} (hd : d.Ok) : (atof d.text : XR) = fin (d.val : ℝ) := C27_decimal d hd

/-- a numeric argument that is present reads as its value. -/
theorem atof_arg {P : Rat → Prop} {a : List Byte} (h : NumArg P a) (ha : a ≠ []) : ∃ q : Rat, (atof a : XR) = fin (q : ℝ) ∧ P q := by
  rcases h with rfl | ⟨d, hd, rfl, hp⟩
  · exact absurd rfl ha
  · exact ⟨_, atof_dec hd, hp⟩

/-- between two commands. -/
structure InstrInv (n : Nat) (s : Core XR) (l : Loc XR) : Prop where
  rc : RCFin s.rc
  conds : s.conds.length + n ≤ 10
  resp : ∀ p ∈ l.resp, PartFin p

theorem InstrInv.addResp {n : Nat} {s : Core XR} {l : Loc XR} (h : InstrInv n s l) (k : CmdType) {p : Part XR} (hp : PartFin p) :
    InstrInv n s { l with ctype := k, resp := l.resp ++ [p] } :=
  ⟨h.rc, h.conds, fun q hq => by
    rcases List.mem_append.1 hq with hq | hq
    · exact h.resp q hq
    · rw [List.mem_singleton.1 hq]; exact hp⟩

theorem InstrInv.kind {n : Nat} {s : Core XR} {l : Loc XR} (h : InstrInv n s l) (k : CmdType) : InstrInv n s { l with ctype := k } := ⟨h.rc, h.conds, h.resp⟩

section instr
variable {cfg : Cfg XR} {lo hi : Fin 6 → ℝ}
local notation "LM" => lmon (F := XR) (E lo hi) (O lo hi)

theorem exec_other_fin (s : Core XR) (l : Loc XR) (tok : List Byte) {n : Nat} (h : InstrInv n s l) (h1 : tok.headD 0 ≠ 73) (h2 : tok.headD 0 ≠ 79)
    (h3 : tok.headD 0 ≠ 82) (h4 : tok.headD 0 ≠ 86) (h5 : poseIdx (tok.headD 0) = none) : (Mril.exec cfg s l tok).wp LM (fun _ r => InstrInv n r.1 r.2) () := by
  obtain ⟨hr, hc, hs⟩ := h
  have hm : ∀ m, m ≠ Method.circular → RCFin (s.rc.setMovementMethod m) := fun m hm => ⟨hr.tA, hr.sA, hr.tP, hr.sP, hr.vel, hm, hr.tot⟩
  have h5' : ∀ i, poseIdx (tok.headD 0) ≠ some i := fun i => by rw [h5]; simp
  exec_leaves
  all_goals first
    | contradiction
    | exact absurd ‹poseIdx (tok.headD 0) = some _› (h5' _)
    | exact ⟨hm _ (by decide), hc, hs⟩
    | exact ⟨hr, hc, hs⟩
    | exact fun _ _ => ⟨hr, hc, hs⟩
    | exact ⟨trivial, hr, hc, hs⟩
    | exact ⟨hr, hc, fun p hp => (List.mem_append.1 hp).elim (hs p) (fun hp => by rw [List.mem_singleton.1 hp]; trivial)⟩

theorem exec_V_fin (s : Core XR) (l : Loc XR) (arg : List Byte) {n : Nat} (h : InstrInv n s l) (ha : NumArg (fun v => v ≠ 0) arg) :
    (Mril.exec cfg s l (86 :: arg)).wp LM (fun _ r => InstrInv n r.1 r.2) () := by
  cases arg with
  | nil =>
    have e : Mril.exec cfg s l [86] = .ret (s, { l with ctype := .read, resp := l.resp ++ [.velocity s.rc.maxVelocity] }) := by
      simp [Mril.exec]
    rw [e]
    obtain ⟨v, ev, _⟩ := h.rc.vel
    exact h.addResp _ ⟨v, ev⟩
  | cons b bs =>
    obtain ⟨q, eq, hq⟩ := atof_arg ha (by simp)
    have e : Mril.exec cfg s l (86 :: b :: bs) = .micro 6 (.setVel (atof (b :: bs))) (.micro 7 (.setVel (atof (b :: bs)))
        (.ret ({ s with rc := s.rc.setMaxVelocity (atof (b :: bs)) }, { l with ctype := .write }))) := by
      simp [Mril.exec, doMicro, Prog.bind]
    rw [e, eq]
    refine ⟨⟨⟨_, rfl⟩, fun j hj => ?_⟩, ⟨⟨_, rfl⟩, fun j hj => ?_⟩, ⟨⟨h.rc.tA, h.rc.sA, h.rc.tP, h.rc.sP, ⟨_, rfl, by exact_mod_cast hq⟩, h.rc.meth, h.rc.tot⟩, h.conds, h.resp⟩⟩
    · intro e; cases e
    · intro e; cases e

theorem exec_pose_fin (H : RobotFin cfg.toRCfg lo hi) (s : Core XR) (l : Loc XR) (c : Byte) (i : Fin 6) (hi : poseIdx c = some i) (arg : List Byte) {n : Nat}
    (h : InstrInv n s l) (ha : NumArg (fun v => i.val < 3 → -100000000 ≤ v ∧ v ≤ 100000000) arg) :
    (Mril.exec cfg s l (c :: arg)).wp LM (fun _ r => InstrInv n r.1 r.2) () := by
  have h77 : c ≠ 77 := by rintro rfl; simp [poseIdx] at hi
  have h86 : c ≠ 86 := by rintro rfl; simp [poseIdx] at hi
  have h78 : c ≠ 78 := by rintro rfl; simp [poseIdx] at hi
  cases arg with
  | nil =>
    have e : Mril.exec cfg s l [c] = (RC.getCurrentPose cfg.toRCfg).bind fun p =>
        .ret (s, { l with ctype := .read, resp := l.resp ++ [.pose c (if i.val < 3 then p i else p i * radToDeg)] }) := by
      simp [Mril.exec, h77, h86, h78, hi]
    rw [e, wp_bind]
    refine wp_mono (fun _ p hp => ?_) (pose_fin H)
    obtain ⟨p, rfl, _⟩ := hp
    refine h.addResp _ ?_
    show IsFin _
    split
    · exact ⟨_, rfl⟩
    · rw [radToDeg_eq]; simp only [finS, fin_mul]; exact ⟨_, rfl⟩
  | cons b bs =>
    obtain ⟨q, eq, hq⟩ := atof_arg ha (by simp)
    have e : Mril.exec cfg s l (c :: b :: bs) =
        .ret ({ s with rc := (s.rc.setTargetPoseAt i (if i.val < 3 then atof (b :: bs) else atof (b :: bs) * degToRad)) }, { l with ctype := .write }) := by
      simp [Mril.exec, h77, h86, h78, hi]
    rw [e, eq]
    obtain ⟨p, ep, hp⟩ := h.rc.tP
    refine ⟨⟨h.rc.tA, h.rc.sA, ?_, h.rc.sP, h.rc.vel, h.rc.meth, fun hh => by simp [RC.setTargetPoseAt] at hh⟩, h.conds, h.resp⟩
    refine ⟨fun j => if j = i then (if i.val < 3 then (q : ℝ) else (q : ℝ) * (Real.pi / 180)) else p j, ?_, ?_⟩
    · funext j
      simp only [RC.setTargetPoseAt, RC.upd, ep, finS, degToRad_eq, fin_mul]
      split
      · split <;> rfl
      · rfl
    · intro j hj
      show |if j = i then _ else _| ≤ _
      split
      · rename_i e; subst e
        rw [if_pos hj, abs_le]
        have := hq hj
        constructor
        · exact_mod_cast this.1
        · exact_mod_cast this.2
      · exact hp j hj

theorem exec_R_fin (H : RobotFin cfg.toRCfg lo hi) (s : Core XR) (l : Loc XR) (o : Fin 10) (ho : o.val < 8) (rest : List Byte) {n : Nat}
    (h : InstrInv n s l) (ha : NumArg (fun _ => True) rest) :
    (Mril.exec cfg s l (82 :: digitChar o :: rest)).wp LM (fun _ r => InstrInv n r.1 r.2) () := by
  have hopt : optionAt (82 :: digitChar o :: rest) 1 = some o.val := optionAt_digit _ 1 o.val o.isLt rfl
  have hp : poseIdx 82 = none := by decide
  by_cases h6 : 6 ≤ o.val
  · obtain ⟨a, hax⟩ : ∃ a, axisServo o.val = some a := by
      rcases (show o.val = 6 ∨ o.val = 7 by omega) with h | h <;> simp [h, axisServo]
    have hage := axisServo_ge hax
    have hna : ∀ j, a = armServo j → False := by
      rintro j rfl; simp [armServo] at hage; omega
    cases rest with
    | nil =>
      have e : Mril.exec cfg s l [82, digitChar o] = .servo a fun v => .ret (s, { l with ctype := .read, resp := l.resp ++ [.angle o.val (v.cur * radToDeg)] }) := by
        simp [Mril.exec, hopt, hp, h6, hax, readServo, Prog.bind]
      rw [e]
      intro v hv
      obtain ⟨x, ex⟩ := hv.1
      refine h.addResp _ ?_
      show IsFin _
      rw [ex, radToDeg_eq, fin_mul]; exact ⟨_, rfl⟩
    | cons b bs =>
      obtain ⟨q, eq, _⟩ := atof_arg ha (by simp)
      have e : Mril.exec cfg s l (82 :: digitChar o :: b :: bs) = .servo a fun v => .micro a (.setStart v.cur) (.micro a .zeroElapsed
          (.micro a (.setTarget (atof (b :: bs) / lit 180 * FloatOps.pi)) (.ret (s, { l with ctype := .write })))) := by
        simp [Mril.exec, hopt, hp, h6, hax, readServo, doMicro, Mril.setAxis, Prog.bind]
      rw [e]
      intro v hv
      refine ⟨⟨hv.1, fun j hj => (hna j hj).elim⟩, ⟨trivial, fun j hj => (hna j hj).elim⟩, ⟨?_, fun j hj => (hna j hj).elim⟩, h.kind _⟩
      have e180 : ((180 : Rat) : ℝ) ≠ 0 := by norm_num
      show IsFin _
      rw [eq]
      simp only [lit, ops_lit, ops_pi, fin_div _ _ e180, fin_mul]; exact ⟨_, rfl⟩
  · obtain ⟨i, har⟩ : ∃ a, armAxis o.val = some a := by
      rw [armAxis, dif_pos (by omega)]; exact ⟨_, rfl⟩
    cases rest with
    | nil =>
      have e : Mril.exec cfg s l [82, digitChar o] = (RC.getCurrentLogicalAngles cfg.toRCfg).bind fun a =>
          .ret (s, { l with ctype := .read, resp := l.resp ++ [.angle o.val (a i * radToDeg)] }) := by
        simp [Mril.exec, hopt, hp, h6, har]
      rw [e, wp_bind]
      refine wp_mono (fun _ a hx => ?_) (logical_fin H)
      obtain ⟨x, rfl⟩ := hx
      refine h.addResp _ ?_
      show IsFin _
      rw [radToDeg_eq]; simp only [finS, fin_mul]; exact ⟨_, rfl⟩
    | cons b bs =>
      obtain ⟨q, eq, _⟩ := atof_arg ha (by simp)
      have e : Mril.exec cfg s l (82 :: digitChar o :: b :: bs) =
          .ret ({ s with rc := s.rc.setTargetLogicalAngle i (atof (b :: bs) * degToRad) }, { l with ctype := .write }) := by
        simp [Mril.exec, hopt, hp, h6, har]
      rw [e, eq]
      obtain ⟨p, ep⟩ := h.rc.tA
      refine ⟨⟨?_, h.rc.sA, h.rc.tP, h.rc.sP, h.rc.vel, h.rc.meth, fun hh => by simp [RC.setTargetLogicalAngle] at hh⟩, h.conds, h.resp⟩
      refine ⟨fun j => if j = i then (q : ℝ) * (Real.pi / 180) else p j, ?_⟩
      funext j
      simp only [RC.setTargetLogicalAngle, RC.upd, ep, finS, degToRad_eq, fin_mul]
      split <;> rfl

theorem exec_fin (H : RobotFin cfg.toRCfg lo hi) (hm : cfg.pinMap.length = 10) (s : Core XR) (l : Loc XR) (c : Cmd) (cs : List Cmd) (hc : Careful c)
    (h : InstrInv (waits (c :: cs)) s l) : (Mril.exec cfg s l c.text).wp LM (fun _ r => InstrInv (waits cs) r.1 r.2) () := by
  obtain ⟨letter, arg⟩ := c
  have hw : letter ≠ 73 → waits (⟨letter, arg⟩ :: cs) = waits cs := by
    intro hne; simp [waits, List.filter_cons, hne]
  by_cases h73 : letter = 73
  · obtain ⟨p, st, rest, ha⟩ := hc.pin (.inl h73)
    simp only at ha
    subst h73; subst ha
    have hp : cfg.pinMap[p.val]? = some cfg.pinMap[p.val] := List.getElem?_eq_getElem (by rw [hm]; exact p.isLt)
    have := exec_I cfg s l p.val st.val _ rest p.isLt st.isLt hp
    rw [Cmd.text]
    show Prog.wp _ (Mril.exec cfg s l (73 :: digit p.val :: digit st.val :: rest)) _ _
    rw [this]
    have hw' : waits (⟨73, digitChar p :: digitChar st :: rest⟩ :: cs) = waits cs + 1 := by simp [waits]
    obtain ⟨h1, h2, h3⟩ := h
    rw [hw'] at h2
    have hn : ¬ s.conds.length ≥ MAX_PINS := by show ¬ (10 ≤ s.conds.length); omega
    rw [if_neg hn]
    refine ⟨trivial, h1, ?_, h3⟩
    simp only [List.length_append, List.length_cons, List.length_nil]; omega
  · rw [hw h73] at h
    by_cases h79 : letter = 79
    · obtain ⟨p, st, rest, ha⟩ := hc.pin (.inr h79)
      simp only at ha
      subst h79; subst ha
      have hp : cfg.pinMap[p.val]? = some cfg.pinMap[p.val] := List.getElem?_eq_getElem (by rw [hm]; exact p.isLt)
      have := exec_O cfg s l p.val st.val _ rest p.isLt st.isLt hp
      rw [Cmd.text]
      show Prog.wp _ (Mril.exec cfg s l (79 :: digit p.val :: digit st.val :: rest)) _ _
      rw [this]
      refine ⟨trivial, ?_⟩
      split
      · exact ⟨trivial, h.kind _⟩
      · split
        · exact ⟨trivial, h.kind _⟩
        · exact h.kind _
    · by_cases h82 : letter = 82
      · obtain ⟨o, rest, ho, ha, hn⟩ := hc.axis h82
        simp only at ha
        subst h82; subst ha
        exact exec_R_fin H s l o ho rest h hn
      · by_cases h86 : letter = 86
        · subst h86
          exact exec_V_fin s l arg h (hc.speed rfl)
        · cases hi : poseIdx letter with
          | none => exact exec_other_fin s l _ h h73 h79 h82 h86 hi
          | some i =>
            refine exec_pose_fin H s l letter i hi arg h ?_
            have hh : (letter = 88 ∨ letter = 89 ∨ letter = 90) ∨ ((letter = 65 ∨ letter = 66 ∨ letter = 67) ∧ ¬ i.val < 3) := by
              simp only [poseIdx] at hi
              repeat' split at hi
              all_goals first
                | (cases hi; done)
                | (injection hi with hi; subst hi; simp_all)
            rcases hh with hh | ⟨hh, hi⟩
            · rcases hc.position hh with e | ⟨d, h1, h2, h3⟩
              · exact .inl e
              · exact .inr ⟨d, h1, h2, fun _ => h3⟩
            · rcases hc.turn hh with e | ⟨d, h1, h2, h3⟩
              · exact .inl e
              · exact .inr ⟨d, h1, h2, fun h => absurd h hi⟩

/-- the core between two steps of the dispatcher. -/
def CoreFin (c : Core XR) : Prop := RCFin c.rc ∧ c.conds.length ≤ 10

theorem parse_fin (H : RobotFin cfg.toRCfg lo hi) (hm : cfg.pinMap.length = 10) (c : Core XR) (cs : List Cmd) (hcs : ∀ x ∈ cs, Careful x) (h : CoreFin c)
    (hw : c.conds.length + waits cs ≤ 10) : (Mril.parse cfg c (text cs)).wp LM (fun _ c => CoreFin c) () := by
  cases cs with
  | nil => exact h
  | cons x xs =>
    rw [parse_text cfg (x :: xs) (fun c hc => (hcs c hc).ok) (by simp), wp_bind]
    refine wp_mono (fun g r hr => ?_) (execAll_wp LM cfg (fun cs _ s l => (∀ c ∈ cs, Careful c) ∧ InstrInv (waits cs) s l) ?_ (x :: xs) () _ _ ⟨hcs, h.1.trans true, hw, by simp⟩)
    · obtain ⟨_, h1, h2, h3⟩ := hr
      have h2' : r.1.conds.length ≤ 10 := by omega
      simp only [Mril.finish]
      split
      · exact ⟨h3, h1.trans false, h2'⟩
      · exact ⟨h1.trans false, h2'⟩
      · exact ⟨h1.trans false, h2'⟩
    · intro c cs g s l ⟨h1, h2⟩
      exact wp_mono (fun _ r hr => ⟨fun x hx => h1 x (by simp [hx]), hr⟩) (exec_fin H hm s l c cs (h1 c (by simp)) h2)

theorem check_fin (c : Core XR) (h : CoreFin c) : (Mril.process c).wp LM (fun _ c => CoreFin c ∧ (c.done = true → c.conds = [])) () := by
  unfold Mril.process IOL.isDone
  rw [wp_bind, wp_bind]
  refine ioCheck_wp (M := LM) _ _ (fun _ _ => rfl) fun b => ?_
  cases b with
  | false => exact ⟨h, fun hh => by simp at hh⟩
  | true =>
    have hc : RCFin c.rc ∧ ([] : Conds).length ≤ 10 := ⟨h.1, by simp⟩
    show Prog.wp LM (if (true && !c.rc.isMoving) = true then _ else _) _ _
    split
    · intro t _
      show Prog.wp LM (if Wait.isDone t c.waitUntil = true then _ else _) _ _
      split
      · show Prog.wp LM (if 0 < c.commandNumber then _ else _) _ _
        split
        · exact ⟨trivial, hc, fun _ => rfl⟩
        · exact ⟨hc, fun _ => rfl⟩
      · exact ⟨hc, fun _ => rfl⟩
    · exact ⟨hc, fun _ => rfl⟩

theorem tame (H : RobotFin cfg.toRCfg lo hi) (hm : cfg.pinMap.length = 10) : Tame cfg (E lo hi) (O lo hi) CoreFin CarefulNow CarefulInstr where
  rc c h := wp_mono (fun _ _ hr => ⟨hr, h.2⟩) (process_fin H h.1)
  now c m hmm h := by
    obtain ⟨cs, rfl, h1, h2⟩ := hmm
    exact parse_fin H hm c cs h1 h (by rw [h2]; exact h.2)
  instr c m hmm h hc := by
    obtain ⟨cs, rfl, h1, h2⟩ := hmm
    exact parse_fin H hm c cs h1 h (by rw [hc]; simpa using h2)
  check c h := check_fin c h
  disp a h := by
    rcases h with ⟨s, m, rfl⟩ | ⟨n, rfl⟩ | ⟨t, rfl⟩ | ⟨x, y, rfl⟩ <;> trivial
  boot v u hv hu := by
    have read : ∀ w : Fin 6 → Servo XR, (∀ i, E lo hi (.servo (armServo i) (w i))) → ∃ x : Fin 6 → ℝ, (fun i => (w i).cur) = finS x ∧ ∀ i, lo i ≤ x i ∧ x i ≤ hi i := by
      intro w hw
      have : ∀ i, ∃ x : ℝ, (w i).cur = fin x ∧ lo i ≤ x ∧ x ≤ hi i := fun i => ((hw i).2 i rfl).2.2.1
      choose x hx using this
      exact ⟨x, funext fun i => (hx i).1, fun i => (hx i).2⟩
    obtain ⟨x, ex, hx⟩ := read v hv
    obtain ⟨y, ey, hy⟩ := read u hu
    rw [ex, ey]
    obtain ⟨bx, hbx⟩ := H.p2l x hx
    obtain ⟨by_, hby⟩ := H.p2l y hy
    refine ⟨⟨⟨by_, hby⟩, ⟨fun _ => 0, ?_⟩, ?_, ⟨fun _ => 0, ?_, ?_⟩, ⟨10, ?_, by norm_num⟩, ?_, ?_⟩, by simp [CoreInv.boot]⟩
    · funext i; simp [CoreInv.boot, finS]
    · show ∃ p, cfg.fwd (cfg.p2l _) = finS p ∧ Near p
      rw [hbx]; exact H.fwd bx
    · funext i; simp [CoreInv.boot, finS]
    · intro i _; simp
    · simp [CoreInv.boot]
    · simp [CoreInv.boot]
    · intro hh; simp [CoreInv.boot] at hh

end instr

/-! ### the servos -/

/-- additional axes: all numbers finite. -/
structure FinServo (s : Servo XR) : Prop where
  maxV : IsFin s.maxVel
  vel : IsFin s.vel
  cur : IsFin s.cur
  start : IsFin s.start
  target : IsFin s.target

theorem FinServo.tick {s : Servo XR} (h : FinServo s) (dt : Nat) : FinServo (s.tick dt) := by
  obtain ⟨h1, ⟨u, eu⟩, h3, ⟨st, es⟩, ⟨tg, et⟩⟩ := h
  rw [tick_fin s st tg u dt es et eu]
  exact ⟨h1, ⟨u, eu⟩, ⟨_, rfl⟩, ⟨_, rfl⟩, ⟨tg, et⟩⟩

theorem FinServo.micro {s : Servo XR} (h : FinServo s) {m : Servo.Micro XR} (hm : MicroFin m) : FinServo (s.micro m) := by
  obtain ⟨⟨mv, em⟩, h2, h3, h4, h5⟩ := h
  cases m with
  | setStart x => exact ⟨⟨mv, em⟩, h2, h3, hm, h5⟩
  | zeroElapsed => exact ⟨⟨mv, em⟩, h2, h3, h4, h5⟩
  | setTarget x => exact ⟨⟨mv, em⟩, h2, h3, h4, hm⟩
  | setVel v =>
    obtain ⟨v, rfl⟩ := hm
    exact ⟨⟨mv, em⟩, ⟨_, by simp only [Servo.micro]; rw [em]; exact clampVel_fin mv v⟩, h3, h4, h5⟩

/-- what is known of the servos at every moment. -/
structure Servos (lo hi : Fin 6 → ℝ) (w : World XR) : Prop where
  arm : ∀ i, GoodServo (lo i) (hi i) (w.servos (armServo i)) ∧ ∃ m, (w.servos (armServo i)).maxVel = fin m ∧ 0 < m
  all : ∀ i, FinServo (w.servos i)

theorem Servos.micro {lo hi : Fin 6 → ℝ} {w : World XR} (h : Servos lo hi w) {i : Fin 8} {m : Servo.Micro XR} (hm : O lo hi (.micro i m)) :
    Servos lo hi (w.setServo i ((w.servos i).micro m)) := by
  refine ⟨fun j => ⟨allGood_micro (fun j => (h.arm j).1) (fun j e => hm.2 j e) j, ?_⟩, fun j => ?_⟩
  · by_cases e : armServo j = i
    · subst e
      have := congrArg (fun t => t.2.2.2.2.2.2) (fixed_micro (w.servos (armServo j)) m)
      simp only [fixedPart] at this
      simp only [World.setServo, if_true]
      rw [this]; exact (h.arm j).2
    · simp only [World.setServo, e, if_false]; exact (h.arm j).2
  · by_cases e : j = i
    · subst e; simp only [World.setServo, if_true]; exact (h.all j).micro hm.1
    · simp only [World.setServo, e, if_false]; exact h.all j

theorem Servos.isr {lo hi : Fin 6 → ℝ} {w : World XR} (h : Servos lo hi w) : Servos lo hi w.isr := by
  refine ⟨fun j => ⟨(h.arm j).1.tick 20, ?_⟩, fun j => (h.all j).tick 20⟩
  have := congrArg (fun t => t.2.2.2.2.2.2) (fixed_tick (w.servos (armServo j)) 20)
  simp only [fixedPart] at this
  simp only [World.isr]
  rw [this]; exact (h.arm j).2

/-- everything about histories with a careful host. -/
theorem careful_run {cfg : Cfg XR} {lo hi : Fin 6 → ℝ} (H : RobotFin cfg.toRCfg lo hi) (hm : cfg.pinMap.length = 10) {w0 : World XR} {junk : Nat → Byte} (h0 : Servos lo hi w0)
    (hmem : Program CarefulInstr w0.ee) {evs : List (Ev XR)} {s : Sys XR} (h : Sys.Run cfg w0 junk evs s) (hc : WellSent (w0.rxq ++ arrivals evs)) :
    Servos lo hi s.w ∧ (∀ f, s.p ≠ .fault f) ∧ ∀ a ∈ acts evs, a.isInput = false → O lo hi a := by
  obtain ⟨h1, h2, h3⟩ := (tame H hm).run h0 (fun w i hw => ⟨(hw.all i).cur, fun j e => by
      subst e
      exact ⟨(hw.arm j).1.minA, (hw.arm j).1.maxA, (hw.arm j).1.cur, (hw.arm j).2⟩⟩)
    (fun a ha => by cases a with
      | servo i s => exact absurd rfl (ha i s)
      | _ => trivial)
    (fun w i m hw ho => hw.micro ho) (fun w hw => hw.isr) (fun w w' e hw => ⟨fun i => by rw [← e]; exact hw.arm i, fun i => by rw [← e]; exact hw.all i⟩)
    hmem h (clean_of_wellSent hc)
  refine ⟨h1, fun f e => ?_, h3⟩
  rw [e] at h2; exact h2

end Mrc.Host
