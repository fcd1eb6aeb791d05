import Verif.Proof.Careful
import Verif.Proof.Endless
import Verif.Spec.Brisk
/- Moves commanded by a careful host without crawling speeds: every command of a servo fits the time of the move (C100). Over the exact numbers XR. -/
set_option linter.unusedSectionVars false
set_option linter.unusedSimpArgs false
namespace Mrc.Brisk
open Mrc Mrc.Spec Mrc.Prog Mrc.Props Mrc.Host XR
open scoped Mrc.Num

/-- no move takes longer (seconds). -/
def T : ℝ := 2000000

/-- what is recorded: all accesses so far; readings are within the ranges, and the servos' maximum speeds are at least 1/1000 rad/s. -/
def E2 (lo hi : Fin 6 → ℝ) (a : Act XR) : Prop := E lo hi a ∧ ∀ j s, a = .servo (armServo j) s → ∃ m, s.maxVel = fin m ∧ 1/1000 ≤ m

def hmon (lo hi : Fin 6 → ℝ) : Mon XR (List (Act XR)) where
  upd g a := g ++ [a]
  env _ a := E2 lo hi a
  ok _ _ := True
  flt _ := True

/-- an access that does not concern an arm servo's command. -/
def Plain (a : Act XR) : Prop := ∀ i m, a ≠ .micro (armServo i) m

/-- the command of one servo. -/
def Command (g : List (Act XR)) : Prop :=
  ∃ (i : Fin 6) (x y : Servo XR) (c t τ : ℝ), x.cur = fin c ∧ 0 < τ ∧ τ ≤ T ∧
    g = [.servo (armServo i) x, .micro (armServo i) (.setVel (fin (|t - c| / τ))), .servo (armServo i) y, .micro (armServo i) (.setStart y.cur),
      .micro (armServo i) .zeroElapsed, .micro (armServo i) (.setTarget (fin t))]

/-- a sequence of plain accesses and commands. -/
inductive Blocks : List (Act XR) → Prop
  | nil : Blocks []
  | plain {a l} : Plain a → Blocks l → Blocks (a :: l)
  | command {g l} : Command g → Blocks l → Blocks (g ++ l)

theorem Blocks.append {l l' : List (Act XR)} (h : Blocks l) (h' : Blocks l') : Blocks (l ++ l') := by
  induction h with
  | nil => exact h'
  | plain ha _ ih => exact .plain ha ih
  | command hg _ ih => rw [List.append_assoc]; exact .command hg ih

theorem Blocks.snoc {l : List (Act XR)} {a : Act XR} (h : Blocks l) (ha : Plain a) : Blocks (l ++ [a]) := h.append (.plain ha .nil)

theorem blocks_plain {l : List (Act XR)} (h : ∀ a ∈ l, Plain a) : Blocks l := by
  induction l with
  | nil => exact .nil
  | cons a l ih => exact .plain (h a (by simp)) (ih fun b hb => h b (by simp [hb]))

/-- robots of reasonable size: angles of at most 10 rad. -/
structure Compact (cfg : RCfg XR) (lo hi : Fin 6 → ℝ) : Prop where
  p2l : ∀ a, (∀ i, lo i ≤ a i ∧ a i ≤ hi i) → ∃ b, cfg.p2l (finS a) = finS b ∧ ∀ i, |b i| ≤ 10
  lim : ∀ a : Fin 6 → ℝ, (∀ i, flt (fin (a i)) (cfg.lo i) = false ∧ fgt (fin (a i)) (cfg.hi i) = false) → ∀ i, |a i| ≤ 10
  range : ∀ i, -10 ≤ lo i ∧ hi i ≤ 10

/-- the controller between two steps: a sensible speed; the parts of a straight move fit its length. -/
structure BriskRC (r : RC XR) : Prop where
  vel : ∃ v : ℝ, r.maxVelocity = fin v ∧ (v < 0 ∨ 1/1000 ≤ v)
  start : ∃ a, r.startAngles = finS a ∧ ∀ i, |a i| ≤ 10
  state : r.state ≠ .startMove
  parts : r.state = .moving → r.step = r.total ∨ RC.linearSteps r.startPose r.targetPose = some r.total

section rc
variable {cfg : RCfg XR} {lo hi : Fin 6 → ℝ}
local notation "HM" => hmon lo hi

/-- a program that stores into no arm servo. -/
theorem wp_plain {α : Type} {p : Prog XR α} {Q : α → Prop} (hp : p.only Plain (fun _ => True))
    (h : p.wp (⟨fun _ _ => (), fun _ a => E2 lo hi a, fun _ _ => True, fun _ => True⟩ : Mon XR Unit) (fun _ a => Q a) ()) {g : List (Act XR)} (hg : Blocks g) :
    p.wp HM (fun g a => Blocks g ∧ Q a) g := by
  induction p generalizing g with
  | ret a => exact ⟨hg, h⟩
  | fault f => trivial
  | servo i k ih => exact fun v hv => ih v (hp v).2 (h v hv) (hg.snoc (hp v).1)
  | micro i m k ih => exact ⟨trivial, ih hp.2 h.2 (hg.snoc hp.1)⟩
  | now k ih => exact fun v hv => ih v (hp v).2 (h v hv) (hg.snoc (hp v).1)
  | pin p k ih => exact fun v hv => ih v (hp v).2 (h v hv) (hg.snoc (hp v).1)
  | rx k ih => exact fun v hv => ih v (hp v).2 (h v hv) (hg.snoc (hp v).1)
  | eeRead k ih => exact fun v hv => ih v (hp v).2 (h v hv) (hg.snoc (hp v).1)
  | eeWrite a b k ih => exact ⟨trivial, ih hp.2 h.2 (hg.snoc hp.1)⟩
  | out o k ih => exact ⟨trivial, ih hp.2 h.2 (hg.snoc hp.1)⟩

theorem plain_servo (i : Fin 8) (s : Servo XR) : Plain (.servo i s) := fun _ _ h => by cases h
theorem plain_out (o : Out XR) : Plain (.out o) := fun _ _ h => by cases h

theorem readAngles_b {g : List (Act XR)} (hg : Blocks g) :
    (RC.readAngles : Prog XR (Six XR)).wp HM (fun g a => Blocks g ∧ ∃ x : Fin 6 → ℝ, a = finS x ∧ ∀ i, lo i ≤ x i ∧ x i ≤ hi i) g := by
  simp only [RC.readAngles, readServo, bind_def, pure_def, Prog.bind, wp]
  intro v0 e0 v1 e1 v2 e2 v3 e3 v4 e4 v5 e5
  refine ⟨(((((hg.snoc (plain_servo _ _)).snoc (plain_servo _ _)).snoc (plain_servo _ _)).snoc (plain_servo _ _)).snoc (plain_servo _ _)).snoc (plain_servo _ _), ?_⟩
  have this : ∀ i : Fin 6, ∃ x : ℝ, (six v0.cur v1.cur v2.cur v3.cur v4.cur v5.cur : Six XR) i = fin x ∧ lo i ≤ x ∧ x ≤ hi i := by
    intro i
    match i with
    | 0 => exact (e0.1.2 0 rfl).2.2.1
    | 1 => exact (e1.1.2 1 rfl).2.2.1
    | 2 => exact (e2.1.2 2 rfl).2.2.1
    | 3 => exact (e3.1.2 3 rfl).2.2.1
    | 4 => exact (e4.1.2 4 rfl).2.2.1
    | 5 => exact (e5.1.2 5 rfl).2.2.1
  choose x hx using this
  exact ⟨x, funext fun i => (hx i).1, fun i => (hx i).2⟩

theorem logical_b (C : Compact cfg lo hi) {g : List (Act XR)} (hg : Blocks g) :
    (RC.getCurrentLogicalAngles cfg).wp HM (fun g a => Blocks g ∧ ∃ x, a = finS x ∧ ∀ i, |x i| ≤ 10) g := by
  rw [RC.getCurrentLogicalAngles, bind_def, wp_bind]
  refine wp_mono (fun _ a h => ?_) (readAngles_b hg)
  obtain ⟨hg, x, rfl, hx⟩ := h
  exact ⟨hg, C.p2l x hx⟩

theorem pose_b {g : List (Act XR)} (hg : Blocks g) : (RC.getCurrentPose cfg).wp HM (fun g _ => Blocks g) g := by
  rw [RC.getCurrentPose, bind_def, wp_bind]
  exact wp_mono (fun _ a h => h.1) (readAngles_b hg)

theorem reject_b (C : Compact cfg lo hi) {r : RC XR} (h : BriskRC r ∨ (∃ v : ℝ, r.maxVelocity = fin v ∧ (v < 0 ∨ 1/1000 ≤ v)) ∧ ∃ a, r.startAngles = finS a ∧ ∀ i, |a i| ≤ 10)
    {g : List (Act XR)} (hg : Blocks g) : (RC.reject cfg r).wp HM (fun g r => Blocks g ∧ BriskRC r) g := by
  have h' : (∃ v : ℝ, r.maxVelocity = fin v ∧ (v < 0 ∨ 1/1000 ≤ v)) ∧ ∃ a, r.startAngles = finS a ∧ ∀ i, |a i| ≤ 10 := h.elim (fun h => ⟨h.vel, h.start⟩) id
  rw [RC.reject, bind_def, wp_bind]
  refine wp_mono (fun _ p hp => ?_) (pose_b hg)
  rw [bind_def, wp_bind]
  refine wp_mono (fun _ a ha => ?_) (logical_b C hp)
  exact ⟨ha.1, h'.1, h'.2, by simp, by simp⟩

theorem physical_b (t : Fin 6 → ℝ) (is : List (Fin 6)) {g : List (Act XR)} (hg : Blocks g) :
    (RC.violatesPhysical (finS t) is).wp HM (fun g b => Blocks g ∧ (b = false → ∀ i ∈ is, lo i ≤ t i ∧ t i ≤ hi i)) g := by
  induction is generalizing g with
  | nil => exact ⟨hg, fun _ i hi => by cases hi⟩
  | cons i is ih =>
    simp only [RC.violatesPhysical, readServo, bind_def, Prog.bind, wp]
    intro x hx
    obtain ⟨e1, e2, _⟩ := hx.1.2 i rfl
    have hg' : Blocks (g ++ [.servo (armServo i) x]) := hg.snoc (plain_servo _ _)
    show Prog.wp _ (if _ then _ else _) _ _
    rw [e1, e2]
    split
    · exact ⟨hg', fun h => by cases h⟩
    · rename_i hc
      simp only [finS, flt, fgt, ops_lt, Bool.or_eq_true, decide_eq_true_eq, not_or, not_lt] at hc
      refine wp_mono (fun _ b hb => ⟨hb.1, fun hf j hj => ?_⟩) (ih hg')
      rcases List.mem_cons.1 hj with rfl | hj
      · exact hc
      · exact hb.2 hf j hj

theorem minTime_b (C : Compact cfg lo hi) (t : Fin 6 → ℝ) (ht : ∀ i, lo i ≤ t i ∧ t i ≤ hi i) (is : List (Fin 6)) (acc : ℝ) (ha : acc ≤ T) {g : List (Act XR)} (hg : Blocks g) :
    (RC.minTime (finS t) is (fin acc)).wp HM (fun g x => Blocks g ∧ ∃ τ : ℝ, x = fin τ ∧ τ ≤ T ∧ acc ≤ τ ∧ (is ≠ [] → 0 ≤ τ)) g := by
  induction is generalizing acc g with
  | nil => exact ⟨hg, acc, rfl, ha, le_refl _, fun h => absurd rfl h⟩
  | cons i is ih =>
    simp only [RC.minTime, readServo, bind_def, Prog.bind, wp]
    intro x hx
    obtain ⟨_, _, ⟨c, ec, c1, c2⟩, _⟩ := hx.1.2 i rfl
    obtain ⟨m, em, hm⟩ := hx.2 i x rfl
    have hg' : Blocks (g ++ [.servo (armServo i) x]) := hg.snoc (plain_servo _ _)
    have hm0 : 0 < m := by linarith
    have e : (FloatOps.abs (finS t i - x.cur) / x.maxVel : XR) = fin (|t i - c| / m) := by
      rw [ec, em]; simp only [finS, fin_sub, ops_abs]; exact fin_div _ _ hm0.ne'
    have hd : |t i - c| ≤ 20 := by
      have := C.range i; have := ht i
      exact abs_le.2 ⟨by linarith, by linarith⟩
    have hb : |t i - c| / m ≤ T := by
      rw [div_le_iff₀ hm0]
      unfold T
      nlinarith
    have h0 : 0 ≤ |t i - c| / m := by positivity
    rw [e]
    by_cases hlt : acc < |t i - c| / m
    · rw [if_pos (by simp [fgt, hlt])]
      refine wp_mono (fun _ y hy => ?_) (ih _ hb hg')
      obtain ⟨k1, τ, k2, k3, k4, k5⟩ := hy
      exact ⟨k1, τ, k2, k3, by linarith, fun _ => by linarith⟩
    · rw [if_neg (by simp only [fgt, ops_lt, decide_eq_true_eq]; exact hlt)]
      refine wp_mono (fun _ y hy => ?_) (ih _ ha hg')
      obtain ⟨k1, τ, k2, k3, k4, k5⟩ := hy
      exact ⟨k1, τ, k2, k3, k4, fun _ => by linarith⟩

theorem apply_b (t : Fin 6 → ℝ) (τ : ℝ) (h0 : 0 < τ) (h1 : τ ≤ T) (is : List (Fin 6)) {g : List (Act XR)} (hg : Blocks g) :
    (RC.apply (finS t) (fin τ) is).wp HM (fun g _ => Blocks g) g := by
  induction is generalizing g with
  | nil => exact hg
  | cons i is ih =>
    simp only [RC.apply, readServo, doMicro, bind_def, Prog.bind, wp]
    intro x hx
    obtain ⟨_, _, ⟨c, ec, _⟩, _⟩ := hx.1.2 i rfl
    refine ⟨trivial, fun y hy => ⟨trivial, trivial, trivial, ih ?_⟩⟩
    have ev : (FloatOps.abs (finS t i - x.cur) / fin τ : XR) = fin (|t i - c| / τ) := by
      rw [ec]; simp only [finS, fin_sub, ops_abs]; exact fin_div _ _ h0.ne'
    have hb : Blocks (g ++ ([.servo (armServo i) x, .micro (armServo i) (.setVel (fin (|t i - c| / τ))), .servo (armServo i) y, .micro (armServo i) (.setStart y.cur),
        .micro (armServo i) .zeroElapsed, .micro (armServo i) (.setTarget (fin (t i)))] ++ [])) :=
      hg.append (.command ⟨i, x, y, c, t i, τ, ec, h0, h1, rfl⟩ .nil)
    show Blocks ((((((g ++ [.servo (armServo i) x]) ++ [.micro (armServo i) (.setVel _)]) ++ [.servo (armServo i) y]) ++ [.micro (armServo i) (.setStart y.cur)]) ++ [.micro (armServo i) .zeroElapsed]) ++ [.micro (armServo i) (.setTarget (finS t i))])
    rw [ev]
    simpa [finS] using hb

theorem command_b (C : Compact cfg lo hi) (H : RobotFin cfg lo hi) {r : RC XR} (h : (∃ v : ℝ, r.maxVelocity = fin v ∧ (v < 0 ∨ 1/1000 ≤ v)) ∧ ∃ a, r.startAngles = finS a ∧ ∀ i, |a i| ≤ 10)
    (hp : r.step = r.total ∨ RC.linearSteps r.startPose r.targetPose = some r.total) (t : Fin 6 → ℝ) (A : Six XR) (hA : A = finS t) (mt : XR)
    (hm : (∀ i, |t i| ≤ 10) → ∃ μ : ℝ, mt = fin μ ∧ μ ≤ T) {g : List (Act XR)} (hg : Blocks g) :
    (RC.command cfg r A mt).wp HM (fun g r => Blocks g ∧ BriskRC r) g := by
  subst hA
  unfold RC.command
  split
  · exact reject_b C (.inr h) hg
  · rename_i hv
    have hl : ∀ i, flt (fin (t i)) (cfg.lo i) = false ∧ fgt (fin (t i)) (cfg.hi i) = false := by
      intro i
      simp only [RC.violatesLogical, List.any_eq_true, not_exists, not_and, Bool.or_eq_true, not_or, Bool.not_eq_true] at hv
      exact hv i (List.mem_finRange i)
    obtain ⟨μ, rfl, hμ⟩ := hm (C.lim t hl)
    obtain ⟨b, hb⟩ := H.l2p t hl
    simp only [hb]
    rw [bind_def, wp_bind]
    refine wp_mono (fun _ bad hbad => ?_) (physical_b b _ hg)
    obtain ⟨hg, hbad⟩ := hbad
    split
    · exact reject_b C (.inr h) hg
    · rename_i hbf
      have hin : ∀ i, lo i ≤ b i ∧ b i ≤ hi i := fun i => hbad (by simpa using hbf) i (List.mem_finRange i)
      have hend : BriskRC { r with state := .moving } := ⟨h.1, h.2, by simp, fun _ => hp⟩
      rw [bind_def, wp_bind]
      refine wp_mono (fun _ time htime => ?_) (minTime_b C b hin _ _ hμ hg)
      obtain ⟨hg, τ, rfl, h1, _, h2⟩ := htime
      split
      · exact ⟨hg, hend⟩
      · rename_i hz
        have hτ : τ ≠ 0 := by
          rintro rfl
          apply hz
          simp [feq]
        have : 0 < τ := lt_of_le_of_ne (h2 (by decide)) (Ne.symm hτ)
        rw [bind_def, wp_bind]
        exact wp_mono (fun _ _ hg => ⟨hg, hend⟩) (apply_b b τ this h1 _ hg)

/-- the largest change of an angle is the change of some angle. -/
theorem maxAngleChange_le (r : RC XR) (s t : Fin 6 → ℝ) (hs : r.startAngles = finS s) (ht : r.targetAngles = finS t) (B : ℝ) (hB : 0 ≤ B) (h : ∀ i, |s i - t i| ≤ B) :
    ∃ M, r.maxAngleChange = fin M ∧ 0 ≤ M ∧ M ≤ B := by
  have key : ∀ (is : List (Fin 6)) (m : ℝ), 0 ≤ m → m ≤ B → ∃ M, is.foldl (fun m i =>
      let delta := FloatOps.abs (r.startAngles i - r.targetAngles i)
      if fgt delta m then delta else m) (fin m) = fin M ∧ 0 ≤ M ∧ M ≤ B := by
    intro is
    induction is with
    | nil => exact fun m h0 h1 => ⟨m, rfl, h0, h1⟩
    | cons i is ih =>
      intro m h0 h1
      have e : (FloatOps.abs (r.startAngles i - r.targetAngles i) : XR) = fin |s i - t i| := by rw [hs, ht]; simp [finS]
      simp only [List.foldl_cons, e]
      split
      · exact ih _ (abs_nonneg _) (h i)
      · exact ih _ h0 h1
  have e0 : (lit 0 : XR) = fin 0 := by simp
  unfold RC.maxAngleChange
  rw [e0]
  exact key _ 0 (le_refl _) hB

theorem startMove_b (C : Compact cfg lo hi) (H : RobotFin cfg lo hi) {r : RC XR} (hf : RCFin r) (h0 : 0 < r.total)
    (h : (∃ v : ℝ, r.maxVelocity = fin v ∧ (v < 0 ∨ 1/1000 ≤ v)) ∧ ∃ a, r.startAngles = finS a ∧ ∀ i, |a i| ≤ 10)
    (hp : (r.method = .p2p ∧ r.step + 1 = r.total) ∨ RC.linearSteps r.startPose r.targetPose = some r.total) {g : List (Act XR)} (hg : Blocks g) :
    (RC.startMove cfg r).wp HM (fun g r => Blocks g ∧ BriskRC r) g := by
  have hpi := Real.two_le_pi
  obtain ⟨a, ea⟩ := hf.tA
  obtain ⟨s, es, hs⟩ := h.2
  obtain ⟨p, ep, hpn⟩ := hf.tP
  obtain ⟨q, eq, hqn⟩ := hf.sP
  obtain ⟨v, ev, hv⟩ := h.1
  have hv0 : v ≠ 0 := by rintro rfl; rcases hv with h | h <;> linarith
  have eN : (Servo.ofNat r.total : XR) = fin (r.total : ℝ) := by simp [Servo.ofNat]
  have hN : ((r.total : ℕ) : ℝ) ≠ 0 := by exact_mod_cast h0.ne'
  have hp' : (r.step + 1 = r.total ∨ RC.linearSteps r.startPose r.targetPose = some r.total) := hp.imp And.right id
  unfold RC.startMove
  simp only [bind_def, emit, readServo, Prog.bind]
  split
  · refine ⟨trivial, ?_⟩
    refine command_b C H (r := { r with step := r.step + 1 }) h hp' a _ ea _ (fun hb => ?_) (hg.snoc (plain_out _))
    obtain ⟨M, eM, M0, M1⟩ := maxAngleChange_le { r with step := r.step + 1 } s a es ea 20 (by norm_num) fun i => by
      have := abs_le.1 (hs i); have := abs_le.1 (hb i)
      exact abs_le.2 ⟨by linarith, by linarith⟩
    refine ⟨M / v * (180 / Real.pi), ?_, ?_⟩
    · rw [eM, ev, fin_div _ _ hv0, radToDeg_eq, fin_mul]
    · have h90 : 180 / Real.pi ≤ 90 := by rw [div_le_iff₀ (by linarith)]; linarith
      have h00 : 0 ≤ 180 / Real.pi := by positivity
      rcases hv with hv | hv
      · have : M / v ≤ 0 := div_nonpos_of_nonneg_of_nonpos M0 hv.le
        have : M / v * (180 / Real.pi) ≤ 0 := mul_nonpos_of_nonpos_of_nonneg this h00
        unfold T; linarith
      · have : M / v ≤ 20000 := by
          rw [div_le_iff₀ (by linarith)]; nlinarith
        have h3 : 0 ≤ M / v := div_nonneg M0 (by linarith)
        unfold T; nlinarith
  · rename_i hml
    have hlin : RC.linearSteps r.startPose r.targetPose = some r.total := by
      rcases hp with ⟨e, _⟩ | e
      · rw [show r.method = .linear from hml] at e; cases e
      · exact e
    have hmt : ∃ μ : ℝ, (RC.distance r.startPose r.targetPose / Servo.ofNat r.total / r.maxVelocity : XR) = fin μ ∧ μ ≤ T := by
      refine ⟨dist3 q p / r.total / v, ?_, ?_⟩
      · rw [ep, eq, RC.distance_fin, eN, ev, fin_div _ _ hN, fin_div _ _ hv0]
      · rw [eq, ep, RC.linearSteps_fin q p (dist_near hqn hpn)] at hlin
        injection hlin with hlin
        have hd0 : 0 ≤ dist3 q p := Real.sqrt_nonneg _
        have hle : 2 * dist3 q p ≤ (r.total : ℝ) := by
          rw [← hlin]; push_cast
          exact (Nat.lt_floor_add_one (2 * dist3 q p)).le
        have hNp : (0 : ℝ) < r.total := by exact_mod_cast h0
        have h1 : dist3 q p / r.total ≤ 1 := by rw [div_le_iff₀ hNp]; linarith
        have h2 : 0 ≤ dist3 q p / r.total := by positivity
        rcases hv with hv | hv
        · have : dist3 q p / r.total / v ≤ 0 := div_nonpos_of_nonneg_of_nonpos h2 hv.le
          unfold T; linarith
        · rw [div_le_iff₀ (by linarith)]
          unfold T; nlinarith
    have ew : ∃ w, RC.waypoint { r with step := r.step + 1 } = finS w := by
      have eS : (Servo.ofNat (r.step + 1) : XR) = fin ((r.step + 1 : ℕ) : ℝ) := by simp [Servo.ofNat]
      refine ⟨fun i => if i.val < 3 then q i + (p i - q i) * (((r.step + 1 : ℕ) : ℝ) / r.total) else p i, ?_⟩
      funext i
      simp only [RC.waypoint, ep, eq, eN, eS, fin_div _ _ hN]
      match i with
      | 0 | 1 | 2 | 3 | 4 | 5 => simp [six, finS]
    obtain ⟨w, ew⟩ := ew
    split
    · exact reject_b C (r := { r with step := r.step + 1 }) (.inr h) hg
    · rename_i t ht
      rw [ew] at ht
      obtain ⟨b, rfl⟩ := H.inv w t ht
      split
      · intro x hx y hy
        obtain ⟨_, _, ⟨x3, e3, _⟩, _⟩ := hx.1.2 3 rfl
        obtain ⟨_, _, ⟨y5, e5, _⟩, _⟩ := hy.1.2 5 rfl
        have : RC.upd (RC.upd (finS b) 3 x.cur) 5 y.cur = finS (fun i => if i = 5 then y5 else if i = 3 then x3 else b i) := by
          funext i; simp only [RC.upd, finS, e3, e5]; split
          · rfl
          · split <;> rfl
        exact command_b C H (r := { r with step := r.step + 1 }) h hp' _ _ this _ (fun _ => hmt) ((hg.snoc (plain_servo _ _)).snoc (plain_servo _ _))
      · exact command_b C H (r := { r with step := r.step + 1 }) h hp' _ _ rfl _ (fun _ => hmt) hg
  · trivial

theorem sync_b {r : RC XR} : (RC.sync cfg r).maxVelocity = r.maxVelocity ∧ (RC.sync cfg r).startAngles = r.startAngles := by
  unfold RC.sync
  split
  · exact ⟨rfl, rfl⟩
  · split
    · split <;> exact ⟨rfl, rfl⟩
    · exact ⟨rfl, rfl⟩

theorem pose_b2 (H : RobotFin cfg lo hi) {g : List (Act XR)} (hg : Blocks g) : (RC.getCurrentPose cfg).wp HM (fun g a => Blocks g ∧ ∃ p, a = finS p ∧ Near p) g := by
  rw [RC.getCurrentPose, bind_def, wp_bind]
  refine wp_mono (fun _ a h => ?_) (readAngles_b hg)
  obtain ⟨hg, x, rfl, hx⟩ := h
  obtain ⟨b, hb⟩ := H.p2l x hx
  refine ⟨hg, ?_⟩
  show ∃ p, cfg.fwd (cfg.p2l _) = finS p ∧ Near p
  rw [hb]
  exact H.fwd b

theorem prepare_b (C : Compact cfg lo hi) (H : RobotFin cfg lo hi) {r : RC XR} (hf : RCFin r) (h : BriskRC r) {g : List (Act XR)} (hg : Blocks g) :
    (RC.prepare cfg r).wp HM (fun g r => Blocks g ∧ BriskRC r) g := by
  unfold RC.prepare
  simp only [bind_def, emit, Prog.bind, pure_def]
  split
  · exact ⟨hg, h⟩
  · have hs := sync_fin H hf
    have hvel : ∃ v : ℝ, (RC.sync cfg r).maxVelocity = fin v ∧ (v < 0 ∨ 1/1000 ≤ v) := by rw [sync_b.1]; exact h.vel
    have hst : ∃ a, (RC.sync cfg r).startAngles = finS a ∧ ∀ i, |a i| ≤ 10 := by rw [sync_b.2]; exact h.start
    have key : ∀ p : Prog XR (RC XR), (∀ g, Blocks g → p.wp HM (fun g r => Blocks g ∧ BriskRC r) g) →
      (if (!r.anglesChanged && !r.poseChanged) = true then
        (out (.raw (.error "nothing changed, still PREPARE MOVE")) p : Prog XR (RC XR)) else p).wp HM (fun g r => Blocks g ∧ BriskRC r) g := by
      intro p hp; split
      · exact ⟨trivial, hp _ (hg.snoc (plain_out _))⟩
      · exact hp _ hg
    apply key
    intro g hg
    split
    · exact ⟨trivial, hg.snoc (plain_out _), hvel, hst, by simp, by simp⟩
    · rw [wp_bind]
      refine wp_mono (fun _ sp hsp => ?_) (pose_b2 H hg)
      obtain ⟨hg, hsp⟩ := hsp
      rw [wp_bind]
      refine wp_mono (fun _ sa hsa => ?_) (logical_b C hg)
      obtain ⟨hg, hsa⟩ := hsa
      have hsa' : ∃ x, sa = finS x := hsa.imp fun _ h => h.1
      split
      · exact ⟨hg, hvel, hsa, by simp, by simp⟩
      · split
        · rename_i hm
          exact startMove_b C H (r := { RC.sync cfg r with anglesChanged := false, poseChanged := false, startPose := sp, startAngles := sa, step := 0, total := 1, state := .startMove })
            ⟨hs.tA, hsa', hs.tP, hsp, hs.vel, hs.meth, fun _ => Nat.one_pos⟩ Nat.one_pos ⟨hvel, hsa⟩ (.inl ⟨hm, rfl⟩) hg
        · split
          · trivial
          · rename_i n hn
            have hn0 : 0 < n := by
              obtain ⟨p, ep, hp⟩ := hs.tP
              obtain ⟨q, rfl, hq⟩ := hsp
              have eL : RC.linearSteps (finS q) (RC.sync cfg r).targetPose = some (⌊2 * dist3 q p⌋₊ + 1) := by
                rw [ep]; exact RC.linearSteps_fin q p (dist_near hq hp)
              have hn' : RC.linearSteps (finS q) (RC.sync cfg r).targetPose = some n := hn
              rw [eL] at hn'; injection hn' with hn'; omega
            exact startMove_b C H (r := { RC.sync cfg r with anglesChanged := false, poseChanged := false, startPose := sp, startAngles := sa, step := 0, total := n, state := .startMove })
              ⟨hs.tA, hsa', hs.tP, hsp, hs.vel, hs.meth, fun _ => hn0⟩ hn0 ⟨hvel, hsa⟩ (.inr hn) hg
        · rename_i hm; exact absurd hm hs.meth

theorem allAtTarget_b (is : List (Fin 6)) (acc : Bool) {g : List (Act XR)} (hg : Blocks g) : (RC.allAtTarget is acc : Prog XR Bool).wp HM (fun g _ => Blocks g) g := by
  induction is generalizing acc g with
  | nil => exact hg
  | cons i is ih =>
    intro v hv
    exact ih _ (hg.snoc (plain_servo _ _))

theorem process_b (C : Compact cfg lo hi) (H : RobotFin cfg lo hi) {r : RC XR} (hf : RCFin r) (h : BriskRC r) {g : List (Act XR)} (hg : Blocks g) :
    (RC.process cfg r).wp HM (fun g r => Blocks g ∧ BriskRC r) g := by
  unfold RC.process
  split
  · exact ⟨hg, h⟩
  · rename_i hst
    have h0 := hf.tot (.inl hst)
    unfold RC.moving
    rw [bind_def, wp_bind]
    refine wp_mono (fun _ b hg => ?_) (allAtTarget_b _ _ hg)
    split
    · split
      · exact ⟨hg, h.vel, h.start, by simp, by simp⟩
      · rename_i hne
        refine startMove_b C H ⟨hf.tA, hf.sA, hf.tP, hf.sP, hf.vel, hf.meth, fun _ => h0⟩ h0 ⟨h.vel, h.start⟩ (.inr ?_) hg
        exact (h.parts hst).resolve_left hne
    · exact ⟨hg, h⟩
  · exact prepare_b C H hf h hg
  · rename_i hst; exact absurd hst h.state

/-- one step of the controller: its accesses are a sequence of commands, and the state stays sensible. -/
theorem process_blocks (C : Compact cfg lo hi) (H : RobotFin cfg lo hi) {r r' : RC XR} (hf : RCFin r) (h : BriskRC r) {tr : List (Act XR)}
    (hx : Exec (RC.process cfg r) tr (.ret r')) (hE : ∀ a ∈ tr, E2 lo hi a) : Blocks tr ∧ RCFin r' ∧ BriskRC r' := by
  have h1 := (wp_exec hx (process_b C H hf h .nil) fun pre a post e _ => hE a (by rw [e]; simp)).2
  have e : ∀ (l g : List (Act XR)), l.foldl (hmon lo hi).upd g = g ++ l := by
    intro l
    induction l with
    | nil => intro g; simp
    | cons a l ih => intro g; rw [List.foldl_cons, ih]; simp [hmon]
  rw [e] at h1
  have h2 := (wp_exec hx (process_fin H hf) fun pre a post e _ => (hE a (by rw [e]; simp)).1).2
  exact ⟨h1.1, h2, h1.2⟩

end rc

/-! ### the instructions -/

/-- nothing demanded. -/
def fmon (lo hi : Fin 6 → ℝ) : Mon XR Unit where
  upd _ _ := ()
  env _ a := E2 lo hi a

theorem wp_both {α : Type} {lo hi : Fin 6 → ℝ} {p : Prog XR α} {Q R : α → Prop} (h : p.wp (lmon (E lo hi) (O lo hi)) (fun _ a => Q a) ())
    (h' : p.wp (fmon lo hi) (fun _ a => R a) ()) : p.wp (lmon (E2 lo hi) (O lo hi)) (fun _ a => Q a ∧ R a) () := by
  induction p with
  | ret a => exact ⟨h, h'⟩
  | fault f => exact h
  | servo i k ih => exact fun v hv => ih v (h v hv.1) (h' v hv)
  | micro i m k ih => exact ⟨h.1, ih h.2 h'.2⟩
  | now k ih => exact fun v hv => ih v (h v hv.1) (h' v hv)
  | pin p k ih => exact fun v hv => ih v (h v hv.1) (h' v hv)
  | rx k ih => exact fun v hv => ih v (h v hv.1) (h' v hv)
  | eeRead k ih => exact fun v hv => ih v (h v hv.1) (h' v hv)
  | eeWrite a b k ih => exact ⟨h.1, ih h.2 h'.2⟩
  | out o k ih => exact ⟨h.1, ih h.2 h'.2⟩

section instr
variable {cfg : Cfg XR} {lo hi : Fin 6 → ℝ}
local notation "FM" => fmon lo hi

theorem BriskRC.trans {r : RC XR} (h : BriskRC r) (b : Bool) : BriskRC { r with inTransaction := b } := ⟨h.vel, h.start, h.state, h.parts⟩
theorem BriskRC.meth {r : RC XR} (h : BriskRC r) (m : Method) : BriskRC (r.setMovementMethod m) := ⟨h.vel, h.start, h.state, h.parts⟩
theorem BriskRC.speed {r : RC XR} (h : BriskRC r) {x : XR} (hx : ∃ v : ℝ, x = fin v ∧ (v < 0 ∨ 1/1000 ≤ v)) : BriskRC (r.setMaxVelocity x) := ⟨hx, h.start, h.state, h.parts⟩
theorem BriskRC.pose {r : RC XR} (h : BriskRC r) (i : Fin 6) (x : XR) : BriskRC (r.setTargetPoseAt i x) :=
  ⟨h.vel, h.start, by simp [RC.setTargetPoseAt], by simp [RC.setTargetPoseAt]⟩
theorem BriskRC.angle {r : RC XR} (h : BriskRC r) (i : Fin 6) (x : XR) : BriskRC (r.setTargetLogicalAngle i x) :=
  ⟨h.vel, h.start, by simp [RC.setTargetLogicalAngle], by simp [RC.setTargetLogicalAngle]⟩

theorem exec_brisk_other (s : Core XR) (l : Loc XR) (tok : List Byte) (h86 : tok.headD 0 ≠ 86) (h : BriskRC s.rc) :
    (Mril.exec cfg s l tok).wp FM (fun _ r => BriskRC r.1.rc) () := by
  exec_leaves
  all_goals first
    | contradiction
    | exact h
    | trivial
    | exact h.meth _
    | exact h.pose _ _
    | exact h.angle _ _
    | exact ⟨trivial, h⟩
    | exact ⟨trivial, trivial, h⟩
    | exact fun _ _ => h
    | exact fun _ _ => ⟨trivial, trivial, trivial, h⟩
    | exact fun _ _ _ _ _ _ _ _ _ _ _ _ => h

theorem exec_brisk (s : Core XR) (l : Loc XR) (c : Cmd) (hc : Brisk c) (h : BriskRC s.rc) : (Mril.exec cfg s l c.text).wp FM (fun _ r => BriskRC r.1.rc) () := by
  obtain ⟨letter, arg⟩ := c
  by_cases h86 : letter = 86
  · subst h86
    cases arg with
    | nil =>
      have e : Mril.exec cfg s l [86] = .ret (s, { l with ctype := .read, resp := l.resp ++ [.velocity s.rc.maxVelocity] }) := by
        simp [Mril.exec]
      show Prog.wp _ (Mril.exec cfg s l [86]) _ _
      rw [e]; exact h
    | cons b bs =>
      obtain ⟨q, eq, hq⟩ := atof_arg (hc rfl) (by simp)
      have e : Mril.exec cfg s l (86 :: b :: bs) = .micro 6 (.setVel (atof (b :: bs))) (.micro 7 (.setVel (atof (b :: bs)))
          (.ret ({ s with rc := s.rc.setMaxVelocity (atof (b :: bs)) }, { l with ctype := .write }))) := by
        simp [Mril.exec, doMicro, Prog.bind]
      show Prog.wp _ (Mril.exec cfg s l (86 :: b :: bs)) _ _
      rw [e]
      refine ⟨trivial, trivial, h.speed ⟨q, eq, ?_⟩⟩
      rcases hq with hq | hq
      · left; exact_mod_cast hq
      · right
        have : (((1/1000 : ℚ)) : ℝ) ≤ (q : ℝ) := by exact_mod_cast hq
        simpa using this
  · exact exec_brisk_other s l _ h86 h

/-- the core between two steps of the dispatcher. -/
def CoreBrisk (c : Core XR) : Prop := CoreFin c ∧ BriskRC c.rc

theorem parse_brisk (c : Core XR) (cs : List Cmd) (hok : ∀ x ∈ cs, x.Ok) (hcs : ∀ x ∈ cs, Brisk x) (h : BriskRC c.rc) :
    (Mril.parse cfg c (text cs)).wp FM (fun _ c => BriskRC c.rc) () := by
  cases cs with
  | nil => exact h
  | cons x xs =>
    rw [parse_text cfg (x :: xs) hok (by simp), wp_bind]
    refine wp_mono (fun g r hr => ?_) (execAll_wp FM cfg (fun cs _ s l => (∀ c ∈ cs, Brisk c) ∧ BriskRC s.rc) ?_ (x :: xs) () _ _ ⟨hcs, h.trans true⟩)
    · have hr := hr.2.trans false
      simp only [Mril.finish]
      split
      · exact ⟨trivial, hr⟩
      · exact hr
      · exact hr
    · intro c cs g s l ⟨h1, h2⟩
      exact wp_mono (fun _ r hr => ⟨fun x hx => h1 x (by simp [hx]), hr⟩) (exec_brisk s l c (h1 c (by simp)) h2)

theorem process_f (C : Compact cfg.toRCfg lo hi) (H : RobotFin cfg.toRCfg lo hi) {r : RC XR} (hf : RCFin r) (h : BriskRC r) :
    (RC.process cfg.toRCfg r).wp FM (fun _ r => BriskRC r) () := by
  have key : ∀ {α : Type} (p : Prog XR α) (Q : α → Prop) (g : List (Act XR)), p.wp (hmon lo hi) (fun _ a => Q a) g → p.wp (fmon lo hi) (fun _ a => Q a) () := by
    intro α p Q
    induction p with
    | ret a => exact fun g h => h
    | fault f => exact fun g h => h
    | servo i k ih => exact fun g h v hv => ih v _ (h v hv)
    | micro i m k ih => exact fun g h => ⟨h.1, ih _ h.2⟩
    | now k ih => exact fun g h v hv => ih v _ (h v hv)
    | pin p k ih => exact fun g h v hv => ih v _ (h v hv)
    | rx k ih => exact fun g h v hv => ih v _ (h v hv)
    | eeRead k ih => exact fun g h v hv => ih v _ (h v hv)
    | eeWrite a b k ih => exact fun g h => ⟨h.1, ih _ h.2⟩
    | out o k ih => exact fun g h => ⟨h.1, ih _ h.2⟩
  exact key _ _ [] (wp_mono (fun _ _ h => h.2) (process_b C H hf h .nil))

theorem check_f (c : Core XR) (h : BriskRC c.rc) : (Mril.process c).wp FM (fun _ c => BriskRC c.rc) () := by
  have : (Mril.process c).only (fun _ => True) (fun c' => c'.rc = c.rc) :=
    only_mono (fun _ _ => trivial) (fun _ h => h.1) (mrilProcess_only c)
  have key : ∀ {α : Type} (p : Prog XR α) (Q : α → Prop), p.only (fun _ => True) Q → p.wp (fmon lo hi) (fun _ a => Q a) () := by
    intro α p Q
    induction p with
    | ret a => exact fun h => h
    | fault f => exact fun h => trivial
    | servo i k ih => exact fun h v hv => ih v (h v).2
    | micro i m k ih => exact fun h => ⟨trivial, ih h.2⟩
    | now k ih => exact fun h v hv => ih v (h v).2
    | pin p k ih => exact fun h v hv => ih v (h v).2
    | rx k ih => exact fun h v hv => ih v (h v).2
    | eeRead k ih => exact fun h v hv => ih v (h v).2
    | eeWrite a b k ih => exact fun h => ⟨trivial, ih h.2⟩
    | out o k ih => exact fun h => ⟨trivial, ih h.2⟩
  exact wp_mono (fun _ c' e => by rw [e]; exact h) (key _ _ this)

theorem tameBrisk (C : Compact cfg.toRCfg lo hi) (H : RobotFin cfg.toRCfg lo hi) (hm : cfg.pinMap.length = 10) :
    Tame cfg (E2 lo hi) (O lo hi) CoreBrisk BriskNow BriskInstr where
  rc c h := wp_mono (fun _ _ hr => ⟨hr.1, hr.2⟩) (wp_both ((tame H hm).rc c h.1) (process_f C H h.1.1 h.2))
  now c m hmm h := by
    obtain ⟨cs, rfl, h1, h2⟩ := hmm
    exact wp_both ((tame H hm).now c _ ⟨cs, rfl, fun x hx => (h1 x hx).1, h2⟩ h.1) (parse_brisk c cs (fun x hx => (h1 x hx).1.ok) (fun x hx => (h1 x hx).2) h.2)
  instr c m hmm h hc := by
    obtain ⟨cs, rfl, h1, h2⟩ := hmm
    exact wp_both ((tame H hm).instr c _ ⟨cs, rfl, fun x hx => (h1 x hx).1, h2⟩ h.1 hc) (parse_brisk c cs (fun x hx => (h1 x hx).1.ok) (fun x hx => (h1 x hx).2) h.2)
  check c h := wp_mono (fun _ _ hr => ⟨⟨hr.1.1, hr.2⟩, hr.1.2⟩) (wp_both ((tame H hm).check c h.1) (check_f c h.2))
  disp a h := (tame H hm).disp a h
  boot v u hv hu := by
    refine ⟨(tame H hm).boot v u (fun i => (hv i).1) (fun i => (hu i).1), ⟨10, by simp [CoreInv.boot], .inr (by norm_num)⟩, ⟨fun _ => 0, by funext i; simp [CoreInv.boot, finS], by simp⟩, ?_, ?_⟩
    · simp [CoreInv.boot]
    · simp [CoreInv.boot]

/-- frames are acceptable when the host is careful and not crawling. -/
theorem clean_of_brisk {r : List Byte} (h : BrisklySent r) : Clean (FrameOK BriskNow BriskInstr) r := by
  obtain ⟨h1, h2⟩ := clean_of_wellSent h.well
  refine ⟨h1, fun p hp => ?_⟩
  obtain ⟨a, b, _⟩ := h2 p hp
  refine ⟨a, b, ?_⟩
  have hd : p ∈ decode r := by
    rw [← nrun_decode r.length r (Nat.le_refl _)]
    exact List.mem_filterMap.2 ⟨_, hp, rfl⟩
  have hc := h.brisk p hd
  cases hf : frame p with
  | now m => rw [hf] at hc; exact hc
  | put m => rw [hf] at hc; exact hc
  | store m => rw [hf] at hc; exact hc
  | _ => trivial

/-- what is known of the servos at every moment. -/
structure Servos2 (lo hi : Fin 6 → ℝ) (w : World XR) : Prop where
  servos : Servos lo hi w
  fast : ∀ i, ∃ m, (w.servos (armServo i)).maxVel = fin m ∧ 1/1000 ≤ m

theorem maxVel_micro (s : Servo XR) (m : Servo.Micro XR) : (s.micro m).maxVel = s.maxVel := by cases m <;> rfl
theorem maxVel_tick (s : Servo XR) (d : ℕ) : (s.tick d).maxVel = s.maxVel :=
  congrArg (fun x : Int × XR × Nat × Nat × XR × XR × XR => x.2.2.2.2.2.2) (fixed_tick s d)

/-- everything about histories with such a host. -/
theorem brisk_run (C : Compact cfg.toRCfg lo hi) (H : RobotFin cfg.toRCfg lo hi) (hm : cfg.pinMap.length = 10) {w0 : World XR} {junk : Nat → Byte} (h0 : Servos2 lo hi w0)
    (hmem : Program BriskInstr w0.ee) {evs : List (Ev XR)} {s : Sys XR} (h : Sys.Run cfg w0 junk evs s) (hc : BrisklySent (w0.rxq ++ arrivals evs)) :
    Servos2 lo hi s.w ∧ (∀ f, s.p = .ret f → CoreBrisk f.core) ∧ ∀ a ∈ acts evs, a.isInput = false → O lo hi a := by
  obtain ⟨h1, h2, h3⟩ := (tameBrisk C H hm).run h0 (fun w i hw => ⟨⟨(hw.servos.all i).cur, fun j e => by
      subst e
      exact ⟨(hw.servos.arm j).1.minA, (hw.servos.arm j).1.maxA, (hw.servos.arm j).1.cur, (hw.servos.arm j).2⟩⟩, fun j s e => by
      injection e with e1 e2; subst e1; subst e2; exact hw.fast j⟩)
    (fun a ha => by cases a with
      | servo i s => exact absurd rfl (ha i s)
      | _ => exact ⟨trivial, fun j s e => by cases e⟩)
    (fun w i m hw ho => ⟨hw.servos.micro ho, fun j => by
      by_cases e : armServo j = i
      · subst e; simp only [World.setServo, if_true, maxVel_micro]; exact hw.fast j
      · simp only [World.setServo, e, if_false]; exact hw.fast j⟩)
    (fun w hw => ⟨hw.servos.isr, fun j => by simp only [World.isr, maxVel_tick]; exact hw.fast j⟩)
    (fun w w' e hw => ⟨⟨fun i => by rw [← e]; exact hw.servos.arm i, fun i => by rw [← e]; exact hw.servos.all i⟩, fun i => by rw [← e]; exact hw.fast i⟩)
    hmem h (clean_of_brisk hc)
  refine ⟨h1, fun f e => ?_, h3⟩
  rw [e] at h2; exact h2.core

end instr
end Mrc.Brisk
