import Verif.Proof.Pace
import Verif.Spec.Pace
import Verif.Props.Speed
import Verif.Props.WayLine
/-
C122: the tool moves along a straight line at the speed told.
-/
set_option linter.unusedSectionVars false
set_option linter.unusedSimpArgs false
namespace Mrc.Props
open Mrc Mrc.Prog Mrc.Spec Mrc.Demo Mrc.Rest Mrc.Kine Mrc.Lip XR Mrc.Host
open Mrc.Brisk (servo_step brisk_run next_act span_cons)
open scoped Mrc.Num

section
variable {F : Type} [FloatOps F]
open Told

/-- **C122**: in every history, whatever the arithmetic: an instruction that gives a pose (M1) and a speed. When it is reported as finished, and nothing else that concerns the arm was started in between,
the arm has been left alone, or every servo was sent to way point after way point, so that all take the same time for a part: the time the part needs at the speed told, or the time the slowest servo
needs. -/
theorem C122_trace {cfg : Cfg F} {junk : Nat → Byte} {tr : List (Act F)} {p : Prog F (FW F)} (h : Trace cfg junk tr p) {L U : Six F} (hl : Limits L U tr)
    {cs : List Cmd} (ht : TellsPose cs) (hM : Chooses 49 cs) {v : Dec} (hv : LastSpeed cs v) {pre mid post : List (Act F)} {src : Src} {a : Act F} (hs : src ≠ .immediate ∨ Calm pre)
    (e : tr = pre ++ .out (.ghost src (text cs)) :: mid ++ a :: post) (hm : ∀ x ∈ mid, ¬ DirectsI x) (ha : reports a) :
    ∃ P : Six F, (∀ i d, Last NamesPose cs i d → P i = coordinate i d) ∧ Paced cfg.toRCfg L U (atof v.text) P mid := by
  have hi : a.isInput = false := by
    match a, ha with
    | .out _, _ => rfl
  have H := pace_phases (cfg := cfg) (L := L) (U := U) (m := text cs) (V := atof v.text) (T := fun P => ∀ i d, Last NamesPose cs i d → P i = coordinate i d) (fun {c c' tr} hf hst he => by
    have hT := (only_exec he (parse_tell cfg cs ht.toPlain (tells_ne ht.some) c (hf.same (by rw [hst]; decide)))).2
    have hV := (only_exec he (parse_vel cfg cs ht.ok c hv)).2
    obtain ⟨c0, hc0, i, d, hn⟩ := ht.some
    have ha : c'.rc.anglesChanged = false := by
      rw [← Bool.not_eq_true, hT.angC]
      rintro ⟨x, hx, i, d, hn⟩; exact ht.noAngle x hx i d hn
    have hp := hT.posC.2 ht.some
    refine ⟨hT.st ⟨c0, hc0, .inr ⟨i, d, hn⟩⟩, hT.m1 hM, hV, by simp [ha], ?_⟩
    cases hv : cfg.inv c'.rc.targetPose with
    | none => simp only [RC.sync, ha, hp, hv, Bool.false_eq_true, if_false, if_true]; exact hT.pos
    | some t => simp only [RC.sync, ha, hp, hv, Bool.false_eq_true, if_false, if_true]; exact hT.pos)
  exact sound H h hl hs ha hi (pose_directs ht) hm e

end

theorem portion_fin {V : ℝ} (hV : V ≠ 0) (S P : Fin 6 → ℝ) {n : ℕ} (hn : 0 < n) : Told.portion (fin V) (finS S) (finS P) n = fin (dist3 S P / n / V) := by
  have eN : (Servo.ofNat n : XR) = fin (n : ℝ) := by simp [Servo.ofNat]
  have hN : (n : ℝ) ≠ 0 := by exact_mod_cast hn.ne'
  unfold Told.portion
  rw [RC.distance_fin, eN, ops_div, ops_div, fin_div _ _ hN, fin_div _ _ hV]

section
variable {ev : ℕ → Ev XR}

theorem armStill_split {a b c : ℕ} (h1 : a ≤ b) (h2 : b ≤ c) (hs : ∀ i : Fin 6, Untouched ev (armServo i) b c) : ∃ x, ArmStill x ∧ acts (span ev a (c - a)) = acts (span ev a (b - a)) ++ x := by
  refine ⟨acts (span ev b (c - b)), fun i m hm => ?_, ?_⟩
  · obtain ⟨j, j1, j2, j3⟩ := mem_span.1 (acts_mem.1 hm)
    exact hs i j j1 (by omega) m j3
  · have : span ev a (c - a) = span ev a (b - a) ++ span ev b (c - b) := by
      have e : c - a = (b - a) + (c - b) := by omega
      unfold span
      rw [e, List.range_add, List.map_append, List.map_map]
      congr 1
      refine List.map_congr_left fun j _ => ?_
      simp only [Function.comp]
      congr 1; omega
    rw [this, acts, List.filterMap_append]; rfl

/-- when the parts of a straight move are commanded. -/
theorem pace_times {k0 : ℕ} {z : Act XR} (h0 : ev k0 = .act z) (hz : ∀ (i : Fin 6) m, z ≠ .micro (armServo i) m) {cfg : RCfg XR} {L U : Six XR} {V : XR} {S P : Six XR} {n k : ℕ} {mid : List (Act XR)}
    (hl : Told.Pace cfg L U V S P n k mid) {d : ℕ} (hm : acts (span ev (k0 + 1) d) = mid) :
    ∃ r : ℕ → ℕ, r 0 = k0 ∧ (k = 0 → ArmStill mid) ∧ (0 < k → r k = k0 + 1 + d) ∧ (∀ j < k, r j < r (j + 1)) ∧ (∀ j ≤ k, r j ≤ k0 + 1 + d) ∧
      (∀ j < k, Told.Part cfg L U V S P n (j + 1) (acts (span ev (r j) (r (j + 1) - r j)))) ∧
      ∀ j < k, 0 < j → k0 < r j ∧ Spec.Arrived (acts (span ev (k0 + 1) (r j - (k0 + 1)))) := by
  have hzs : ArmStill [z] := fun i m hm => hz i m (List.mem_singleton.1 hm).symm
  induction hl generalizing d with
  | begin h1 _ _ =>
    exact ⟨fun _ => k0, rfl, fun _ => h1, fun h => absurd h (lt_irrefl _), fun j hj => by omega, fun j hj => by show k0 ≤ _; omega, fun j hj => by omega, fun j hj => by omega⟩
  | @wait k mid tr h1 h2 ih =>
    obtain ⟨d1, hd, e1, e2⟩ := span_cut hm
    obtain ⟨r, r0, rs, re, rm, rl, rp, ra⟩ := ih e1
    rcases Nat.eq_zero_or_pos k with rfl | hk
    · exact ⟨r, r0, fun _ => Told.armStill_append.2 ⟨rs rfl, h2⟩, fun h => absurd h (lt_irrefl _), fun j hj => by omega, fun j hj => (rl j hj).trans (by omega), fun j hj => by omega, fun j hj => by omega⟩
    · have hne : ∀ {j}, j < k → j ≠ k := fun h => h.ne
      have hk1 : r (k - 1) ≤ k0 + 1 + d1 := rl _ (by omega)
      obtain ⟨q, qk, q'⟩ : ∃ q : ℕ → ℕ, q k = k0 + 1 + d ∧ ∀ j, j < k → q j = r j := ⟨fun j => if j = k then k0 + 1 + d else r j, if_pos rfl, fun j hj => if_neg hj.ne⟩
      refine ⟨q, by rw [q' 0 hk]; exact r0, fun h => by omega, fun _ => qk, fun j hj => ?_, fun j hj => ?_, fun j hj => ?_, fun j hj hj0 => ?_⟩
      · rw [q' j hj]
        rcases Nat.lt_or_ge (j + 1) k with g | g
        · rw [q' _ g]; exact rm j hj
        · have g : j + 1 = k := by omega
          have := rm j hj
          rw [g, re hk] at this
          rw [g, qk]; omega
      · rcases Nat.lt_or_ge j k with g | g
        · rw [q' j g]; exact (rl j hj).trans (by omega)
        · rw [show j = k by omega, qk]
      · rw [q' j hj]
        rcases Nat.lt_or_ge (j + 1) k with g | g
        · rw [q' _ g]; exact rp j hj
        · have g : j + 1 = k := by omega
          have hrm := rm j hj
          have hp := rp j hj
          rw [g, re hk] at hrm hp
          obtain ⟨x, hx, e⟩ := armStill_split (ev := ev) (a := r j) (b := k0 + 1 + d1) (c := k0 + 1 + d) (by omega) (by omega) fun i l l1 l2 m el =>
            h2 i m (by rw [← e2]; exact acts_mem.2 (mem_span.2 ⟨l, l1, by omega, el⟩))
          rw [g, qk, e]
          exact hp.append hx
      · rw [q' j hj]; exact ra j hj hj0
  | @next k mid tr h1 h2 h3 ih =>
    obtain ⟨d1, hd, e1, e2⟩ := span_cut hm
    obtain ⟨r, r0, rs, re, rm, rl, rp, ra⟩ := ih e1
    have hlt : d1 < d := by
      rcases Nat.lt_or_ge d1 d with g | g
      · exact g
      · exfalso
        rw [show d - d1 = 0 by omega] at e2
        have : tr = [] := by rw [← e2]; rfl
        subst this
        obtain ⟨t, _, _, g3⟩ := h3
        rcases g3 with ⟨_, m, g4, _⟩ | ⟨pre, post, m, x, y, _, _, g4, e⟩
        · exact absurd (g4 0) (by simp)
        · have := g4 0
          have h := List.append_eq_nil_iff.1 e.symm
          rw [(List.append_eq_nil_iff.1 h.1).1] at this
          simp at this
    obtain ⟨q, qk, q'⟩ : ∃ q : ℕ → ℕ, q (k + 1) = k0 + 1 + d ∧ ∀ j, j ≤ k → q j = r j := ⟨fun j => if j = k + 1 then k0 + 1 + d else r j, if_pos rfl, fun j hj => if_neg (by omega)⟩
    refine ⟨q, by rw [q' 0 (by omega)]; exact r0, fun h => by omega, fun _ => qk, fun j hj => ?_, fun j hj => ?_, fun j hj => ?_, fun j hj hj0 => ?_⟩
    · rw [q' j (by omega)]
      rcases Nat.lt_or_ge j k with g | g
      · rw [q' _ (by omega)]; exact rm j g
      · have := rl j (by omega)
        rw [show j = k by omega] at this ⊢
        rw [qk]; omega
    · rcases Nat.lt_or_ge j (k + 1) with g | g
      · rw [q' j (by omega)]; exact (rl j (by omega)).trans (by omega)
      · rw [show j = k + 1 by omega, qk]
    · rw [q' j (by omega)]
      rcases Nat.lt_or_ge j k with g | g
      · rw [q' _ (by omega)]; exact rp j g
      · have g : j = k := by omega
        subst g
        rw [qk]
        rcases Nat.eq_zero_or_pos j with rfl | hk
        · have e : acts (span ev (r 0) (k0 + 1 + d - r 0)) = ([z] ++ mid) ++ tr := by
            rw [r0, show k0 + 1 + d - k0 = d + 1 by omega, span_cons, h0, List.append_assoc, ← hm]; rfl
          rw [e]
          exact h3.prepend (Told.armStill_append.2 ⟨hzs, rs rfl⟩)
        · rw [re hk, show k0 + 1 + d - (k0 + 1 + d1) = d - d1 by omega, e2]; exact h3
    · rw [q' j (by omega)]
      rcases Nat.lt_or_ge j k with g | g
      · exact ra j g hj0
      · have g : j = k := by omega
        subst g
        rw [re hj0, show k0 + 1 + d1 - (k0 + 1) = d1 by omega, e1]
        exact ⟨by omega, h2⟩

end

/-- no more parts than one for each half unit. -/
theorem linearSteps_most {S P : Fin 6 → ℝ} {n : ℕ} (h : RC.linearSteps (finS S) (finS P) = some n) : n ≤ 2 * dist3 S P + 1 := by
  obtain ⟨a, ha, h0, hpi⟩ := RC.rotationAngle_fin S P
  have hd0 : 0 ≤ dist3 S P := Real.sqrt_nonneg _
  unfold RC.linearSteps at h
  rw [RC.distance_fin, ha] at h
  have e1 : (fin (dist3 S P) / lit (1/2) + lit 1 : XR) = fin (2 * dist3 S P + 1) := by
    have : ((1 / 2 : Rat) : ℝ) ≠ 0 := by norm_num
    simp only [lit, ops_lit, fin_div _ _ this, fin_add]
    congr 1; push_cast; ring
  have e2 : (fin a / lit 15 + lit 1 : XR) = fin (a / 15 + 1) := by
    have : ((15 : Rat) : ℝ) ≠ 0 := by norm_num
    simp only [lit, ops_lit, fin_div _ _ this, fin_add]
    congr 1; push_cast; ring
  have hpi4 := Real.pi_le_four
  have t2 : FloatOps.toInt (fin (a / 15 + 1)) = some 1 := by
    show XR.toInt _ = _
    have : ⌊a / 15 + 1⌋ = 1 := by
      rw [Int.floor_eq_iff]; push_cast; constructor <;> linarith
    simp only [XR.toInt, trunc, if_pos (show (0:ℝ) ≤ a / 15 + 1 by positivity), this]
    rw [if_pos (by omega)]
  have t1 : FloatOps.toInt (fin (2 * dist3 S P + 1)) = if -2147483648 ≤ ⌊2 * dist3 S P + 1⌋ ∧ ⌊2 * dist3 S P + 1⌋ ≤ 2147483647 then some ⌊2 * dist3 S P + 1⌋ else none := by
    show XR.toInt _ = _
    simp only [XR.toInt, trunc, if_pos (show (0:ℝ) ≤ 2 * dist3 S P + 1 by linarith)]
  rw [e1, e2, t1, t2] at h
  have hf := Int.floor_le (2 * dist3 S P + 1)
  have hf0 : 1 ≤ ⌊2 * dist3 S P + 1⌋ := Int.le_floor.2 (by push_cast; linarith)
  generalize ⌊2 * dist3 S P + 1⌋ = f at h hf hf0
  split_ifs at h with hc
  · have h : some (u32OfInt (if f > 1 then f else 1)) = some n := h
    injection h with h
    have : (n : ℤ) = f := by
      rw [← h]
      unfold u32OfInt
      split <;> omega
    have : (n : ℝ) = (f : ℝ) := by exact_mod_cast this
    linarith

/-- the wrist of the kit. -/
theorem near_wrist {A B : Fin 6 → ℝ} {e : ℝ} (h : ∀ i, |A i - B i| ≤ e) : len3 (jointPos kitG A 4 - jointPos kitG B 4) ≤ 102 * e := by
  have he : 0 ≤ e := (abs_nonneg _).trans (h 0)
  have key : ∀ C, jointPos (fun k => if k = 4 then 0 else kitG k) C 5 = jointPos kitG C 4 := fun C => by
    unfold jointPos
    refine Finset.sum_congr rfl fun k _ => ?_
    by_cases g : k = 4
    · subst g; simp
    · have : k.val < 4 := by omega
      simp [g, this]
  have := near_tool (fun k => if k = 4 then 0 else kitG k) h
  rw [key, key] at this
  refine this.trans (mul_le_mul_of_nonneg_right (le_trans (Finset.sum_le_sum fun k _ => ?_) kit_weight) he)
  refine mul_le_mul_of_nonneg_left ?_ (by positivity)
  split
  · rw [len3_zero]; exact len3_nonneg _
  · exact le_refl _

theorem logical_servo (A : Fin 6 → ℝ) : kitLogical (kitServo A) = A := by
  funext i
  unfold kitLogical kitServo
  by_cases g : i = 2
  · subst g; simp
  · simp [g]

/-- neighbouring points of the line. -/
theorem wrist_step (S P : Fin 6 → ℝ) {n : ℕ} (hn : 0 < n) (i : ℕ) : len3 (wristOf kitG (onLine S P (i + 1) n) - wristOf kitG (onLine S P i n)) = dist3 S P / n := by
  have hN : (0 : ℝ) < n := by exact_mod_cast hn
  have ho : orientOf (onLine S P (i + 1) n) = orientOf (onLine S P i n) := by
    unfold orientOf onLine; simp
  unfold wristOf
  rw [ho, sub_sub_sub_cancel_right]
  have h0 : ∀ k, onLine S P k n 0 = S 0 + (P 0 - S 0) * (k / n) := fun k => by simp [onLine]
  have h1 : ∀ k, onLine S P k n 1 = S 1 + (P 1 - S 1) * (k / n) := fun k => by simp [onLine]
  have h2 : ∀ k, onLine S P k n 2 = S 2 + (P 2 - S 2) * (k / n) := fun k => by simp [onLine]
  simp only [h0, h1, h2]
  unfold len3 dist3
  rw [← Real.sqrt_sq hN.le, ← Real.sqrt_div' _ (by positivity), Real.sqrt_sq hN.le]
  congr 1
  simp only [Pi.sub_apply, Matrix.cons_val_zero, Matrix.cons_val_one, Matrix.cons_val]
  push_cast
  field_simp
  ring

theorem tool_first (S P : Fin 6 → ℝ) {n : ℕ} (hn : 0 < n) : len3 ((![onLine S P 1 n 0, onLine S P 1 n 1, onLine S P 1 n 2] : Vec3) - ![S 0, S 1, S 2]) = dist3 S P / n := by
  have hN : (0 : ℝ) < n := by exact_mod_cast hn
  have h0 : onLine S P 1 n 0 = S 0 + (P 0 - S 0) * (1 / n) := by simp [onLine]
  have h1 : onLine S P 1 n 1 = S 1 + (P 1 - S 1) * (1 / n) := by simp [onLine]
  have h2 : onLine S P 1 n 2 = S 2 + (P 2 - S 2) * (1 / n) := by simp [onLine]
  simp only [h0, h1, h2]
  unfold len3 dist3
  rw [← Real.sqrt_sq hN.le, ← Real.sqrt_div' _ (by positivity), Real.sqrt_sq hN.le]
  congr 1
  simp only [Pi.sub_apply, Matrix.cons_val_zero, Matrix.cons_val_one, Matrix.cons_val]
  field_simp
  ring

section
variable {w0 : World XR} (hw : w0.servos = Kit.servos) {junk : Nat → Byte} {σ : ℕ → Sys XR} {ev : ℕ → Ev XR} (h : Endless Kit.cfg w0 junk σ ev)
  (hmem : BriskStorage w0.ee) (hc : ∀ n, BrisklySent (w0.rxq ++ arrivals (sofar ev n))) (hu : Unbroken ev)
include hw h hmem hc hu

/-- how far a commanded servo turns in one step. -/
theorem runs_paced {a b e : ℕ} {i : Fin 6} {c0 p τ : ℝ} (hτ : 0 < τ) {n2 n6 : ℕ} {x y v : ℝ} (R : Runs σ a b e i c0 p τ n2 n6 x y v) (hbe : b ≤ e) {n : ℕ} (h1 : a ≤ n) (h2 : n < e) :
    ∃ c c', ((σ n).w.servos (armServo i)).cur = fin c ∧ ((σ (n + 1)).w.servos (armServo i)).cur = fin c' ∧ |c' - c| ≤ (|p - c0| + 1 / 1000000) / τ * (20 / 1000) + 2 / 1000000 := by
  obtain ⟨t', c, c', e1, e2, e3, e4, _⟩ := kit_step hw h hmem hc hu n i
  refine ⟨c, c', e2, e3, ?_⟩
  have hsh : 0 ≤ (|p - c0| + 1 / 1000000) / τ := by have := abs_nonneg (p - c0); positivity
  have o2 := R.o2; have o6 := R.o6; have ok := R.ok
  have two : ∀ {b b' : ℝ}, ((σ n).w.servos (armServo i)).cur = fin b → |b - c0| ≤ 1 / 1000000 → ((σ (n + 1)).w.servos (armServo i)).cur = fin b' → |b' - c0| ≤ 1 / 1000000 →
      |c' - c| ≤ (|p - c0| + 1 / 1000000) / τ * (20 / 1000) + 2 / 1000000 := fun b1 b2 b3 b4 => by
    rw [e2] at b1; injection b1 with b1; subst b1
    rw [e3] at b3; injection b3 with b3; subst b3
    have := abs_sub_le c' c0 c
    rw [abs_sub_comm c0 c] at this
    linarith
  rcases Nat.lt_or_ge n (n6 + 1) with g | g
  · obtain ⟨b, b1, b2⟩ := R.still n h1 (by omega)
    obtain ⟨b', b3, b4⟩ := R.still (n + 1) (by omega) (by omega)
    exact two b1 b2.le b3 b4.le
  · have hv : ((σ n).w.servos (armServo i)).vel = fin v := R.vel n (by omega) (by omega)
    have hx : |p - x| ≤ |p - c0| + 1 / 1000000 := by
      have := abs_sub_le p c0 x
      have := R.nx
      rw [abs_sub_comm] at this
      linarith
    have hq : |p - x| / τ ≤ (|p - c0| + 1 / 1000000) / τ := by gcongr
    rcases R.how with g' | ⟨_, g'⟩ | ⟨g', _⟩
    · rcases e4 with rfl | ⟨v', k1, _, _, k2⟩
      · rw [sub_self, abs_zero]; linarith
      · rw [hv] at k1; injection k1 with k1; subst k1
        rw [g'] at k2
        linarith
    · rcases e4 with rfl | ⟨v', k1, _, _, k2⟩
      · rw [sub_self, abs_zero]; linarith
      · rw [hv] at k1; injection k1 with k1; subst k1
        linarith
    · -- it is there already
      obtain ⟨b, b1, b2⟩ := R.still (n6 + 1) (by omega) (le_refl _)
      have hp := R.nx
      rw [← g'] at hp
      have key : ∀ m, n6 + 1 ≤ m → m ≤ e → ∃ b', ((σ m).w.servos (armServo i)).cur = fin b' ∧ |b' - c0| ≤ 1 / 1000000 := fun m m1 m2 => by
        have := abs_lt.1 b2
        have := abs_lt.1 hp
        obtain ⟨⟨b', k1, k2, k3⟩, _⟩ := kit_within hw h hmem hc hu (k0 := n6 + 1) (e := e) (i := i) (lo := c0 - 1 / 1000000) (hi := c0 + 1 / 1000000) ⟨b, b1, by linarith, by linarith⟩
          ⟨_, R.tgt (n6 + 1) (by omega) (by omega), by linarith, by linarith⟩ (fun j j1 j2 t' ej => by
            have e6 : ((σ (j + 1)).w.servos (armServo i)).target = t' := by rw [servo_step h, ej]; simp [evServo, Servo.micro]
            rw [R.tgt (j + 1) (by omega) (by omega)] at e6
            exact ⟨_, e6.symm, by linarith, by linarith⟩) m1 m2
        exact ⟨b', k1, abs_le.2 ⟨by linarith, by linarith⟩⟩
      obtain ⟨b, b1, b2⟩ := key n g (by omega)
      obtain ⟨b', b3, b4⟩ := key (n + 1) (by omega) (by omega)
      exact two b1 b2 b3 b4

/-- the time a commanded servo needs to be there. -/
theorem runs_least {a b : ℕ} {i : Fin 6} {c0 p τ : ℝ} (hτ : 0 < τ) {n2 n6 : ℕ} {x y v : ℝ} (R : Runs σ a b b i c0 p τ n2 n6 x y v) {c1 : ℝ} (f1 : ((σ b).w.servos (armServo i)).cur = fin c1)
    (f3 : |c1 - p| < 1 / 1000000) : |p - c0| ≤ (|p - c0| + 1 / 1000000) / τ * (20 / 1000 * interrupts ev a b) + 2 / 1000000 := by
  have ho := R.o2; have ho' := R.o6; have ho'' := R.ok
  obtain ⟨b', b1, b2⟩ := R.still (n2 + 1) (by omega) (by omega)
  obtain ⟨c2, g1, g2⟩ := kit_crawl hw h hmem hc hu (a := n2 + 1) (b := b) (by omega) (fun n m1 m2 => R.vel n (by omega) (by omega)) b1
  rw [f1] at g1; injection g1 with g1; subst g1
  have hx : |p - x| ≤ |p - c0| + 1 / 1000000 := by
    have := abs_sub_le p c0 x
    have := R.nx
    rw [abs_sub_comm] at this
    linarith
  have hq : |p - x| / τ ≤ (|p - c0| + 1 / 1000000) / τ := by gcongr
  have hsh : 0 ≤ (|p - c0| + 1 / 1000000) / τ := le_trans (by positivity) hq
  have hN : (0 : ℝ) ≤ 20 / 1000 * (interrupts ev (n2 + 1) b : ℝ) := by positivity
  have hNN : 20 / 1000 * (interrupts ev (n2 + 1) b : ℝ) ≤ 20 / 1000 * (interrupts ev a b : ℝ) := by
    have : interrupts ev (n2 + 1) b ≤ interrupts ev a b := interrupts_anti (by omega) b
    have : (interrupts ev (n2 + 1) b : ℝ) ≤ (interrupts ev a b : ℝ) := by exact_mod_cast this
    linarith
  have hall := mul_le_mul_of_nonneg_left hNN hsh
  have s1 := abs_sub_le p c1 c0
  have s2 := abs_sub_le c1 b' c0
  rw [abs_sub_comm] at f3
  rcases R.how with g' | ⟨_, g'⟩ | ⟨g', _⟩
  · have : v * (20 / 1000 * (interrupts ev (n2 + 1) b : ℝ)) ≤ (|p - c0| + 1 / 1000000) / τ * (20 / 1000 * (interrupts ev (n2 + 1) b : ℝ)) :=
      mul_le_mul_of_nonneg_right (by rw [g']; exact hq) hN
    linarith
  · have : v * (20 / 1000 * (interrupts ev (n2 + 1) b : ℝ)) ≤ (|p - c0| + 1 / 1000000) / τ * (20 / 1000 * (interrupts ev (n2 + 1) b : ℝ)) :=
      mul_le_mul_of_nonneg_right (g'.le.trans hq) hN
    linarith
  · have := R.nx
    rw [← g'] at this
    have := mul_nonneg hsh (hN.trans hNN)
    linarith

/-- one part of a straight move. -/
theorem kit_part {a b : ℕ} (hab : a < b) {c t : Fin 6 → ℝ} (hc0 : ArmAt (σ a).w c) (et : ∀ i : Fin 6, ((σ a).w.servos (armServo i)).target = fin (t i)) (hct : ∀ i, |c i - t i| < 1 / 1000000)
    {S P : Fin 6 → ℝ} {n k : ℕ} (hn : 0 < n) {V : ℝ} (hV : 0 < V) (hp : Told.Part (Kit.cfg : Cfg XR).toRCfg kitL kitU (fin V) (finS S) (finS P) n k (acts (span ev a (b - a)))) :
    ∃ A, PutsAt kitG A (onLine S P k n) ∧ KitFits A ∧ (∀ i : Fin 6, ∃ t', ((σ b).w.servos (armServo i)).target = fin t' ∧ |t' - kitServo A i| < 1 / 1000000) ∧
      (0 < dist3 S P → ∃ τ : ℝ, 0 < τ ∧ dist3 S P / n / V ≤ τ ∧ ∀ i, ((σ b).w.servos (armServo i)).target = fin (kitServo A i) ∧ ∃ n2 n6 x y v, Runs σ a b b i (c i) (kitServo A i) τ n2 n6 x y v) := by
  obtain ⟨t0, h1, h2, h3⟩ := hp
  have hin : ∀ z ∈ acts (span ev a (b - a)), z ∈ acts (sofar ev b) := fun z hz => by
    obtain ⟨j, j1, j2, j3⟩ := mem_span.1 (acts_mem.1 hz)
    exact acts_mem.2 (by rw [sofar_span]; exact mem_span.2 ⟨j, by omega, by omega, j3⟩)
  obtain ⟨A, rfl, hA⟩ := kit_wayPoint hw (careful_of_briskStorage hmem) (h.run b) (hc _).well hin hn h1
  have hl2p : (Kit.cfg : Cfg XR).toRCfg.l2p (finS A) = finS (kitServo A) := kit_l2p A
  rw [hl2p, portion_fin hV.ne' S P hn] at h3
  have hmv : ∀ i : Fin 6, (0 : ℝ) < (Kit.velDeg (armServo i) : ℝ) * (Real.pi / 180) := fun i => by
    have hp := Real.pi_pos
    have : (0 : ℝ) < (Kit.velDeg (armServo i) : ℝ) := by
      have : 0 < Kit.velDeg (armServo i) := by fin_cases i <;> decide
      exact_mod_cast this
    positivity
  have hN : (0 : ℝ) < n := by exact_mod_cast hn
  refine ⟨A, hA, (kit_fits A).1 h2, ?_⟩
  rcases h3 with ⟨g1, m, g2, g3⟩ | ⟨pre, post, m, x, y, g1, g2, g3, g4⟩
  · have hun : ∀ i : Fin 6, Untouched ev (armServo i) a b := fun i j j1 j2 q ej => g1 i q (acts_mem.2 (mem_span.2 ⟨j, j1, by omega, ej⟩))
    have early := kit_early hw h hmem hc hu (a := a) (d := b - a) hc0 et hct (pre := acts (span ev a (b - a))) (rest := []) (by simp) g1
    choose mc m1 m2 using fun i => (early i (m i) (g2 i)).1
    refine ⟨fun i => ⟨t i, (kit_still hw h hmem hc hu (hc0 i) (et i) (hun i) hab.le (le_refl _)).2, ?_⟩, fun hd => ?_⟩
    · have h8 := Told.timeFor_zero m1 (fun i => (early i (m i) (g2 i)).2) hmv g3 i
      have hv := g2 i
      obtain ⟨r', r1, r2, r3⟩ := mem_span.1 (acts_mem.1 hv)
      obtain ⟨⟨c', k1, k2⟩, _⟩ := kit_still hw h hmem hc hu (hc0 i) (et i) (hun i) (n := r') r1 (by omega)
      rw [← h.read r3, m1 i] at k1
      injection k1 with k1
      rw [← h8, k1, abs_sub_comm]
      exact lt_of_le_of_lt k2 (hct i)
    · exfalso
      obtain ⟨T, e1, e2, _⟩ := slowest_fin' (kitServo A) mc _ m m1 (fun i => (early i (m i) (g2 i)).2) hmv (dist3 S P / n / V)
      rw [e1] at g3
      have : T ≤ 0 ∧ 0 ≤ T := by simpa [feq, lit] using g3
      have : 0 < dist3 S P / n / V := by positivity
      linarith
  · have early := kit_early hw h hmem hc hu (a := a) (d := b - a) hc0 et hct (pre := pre) (rest := _) (by rw [g4, List.append_assoc]) g1
    choose mc m1 m2 using fun i => (early i (m i) (g3 i)).1
    obtain ⟨T, e1, e2, e3⟩ := slowest_fin' (kitServo A) mc _ m m1 (fun i => (early i (m i) (g3 i)).2) hmv (dist3 S P / n / V)
    rw [e1] at g4
    have tgt : ∀ i, ((σ b).w.servos (armServo i)).target = fin (kitServo A i) := fun i => by
      obtain ⟨n1, n2, n3, n4, n5, n6, l1, l2, l3, l4, l5, l6, l7, f1, f2, f3, f4, f5, f6, only⟩ := sped_times g4 g1 g2 i
      have htt : ((σ (n6 + 1)).w.servos (armServo i)).target = fin (kitServo A i) := by
        rw [servo_step h, f6]; simp [evServo, Servo.micro, finS]
      rw [← htt]
      exact keep_stays (P := fun s => s.target = ((σ (n6 + 1)).w.servos (armServo i)).target) h (fun s hs => by rw [tick_target]; exact hs) (by omega)
        (fun j j1 j2 q ej => by rcases only j (by omega) (by omega) _ ej with g | g | g | g <;> omega) rfl
    refine ⟨fun i => ⟨_, tgt i, by rw [sub_self, abs_zero]; norm_num⟩, fun hd => ?_⟩
    have hT : 0 < T := lt_of_lt_of_le (by positivity) e2
    refine ⟨T, hT, e2, fun i => ⟨tgt i, ?_⟩⟩
    obtain ⟨n2, n6, x', y', v, R, _⟩ := kit_runs hw h hmem hc hu hab.le (le_refl b) hc0 et hct (fun i j j1 j2 => by omega) hT g4 g1 g2 i
    exact ⟨n2, n6, x', y', v, R⟩

variable (hi : CalmImmediates ev)
include hi

/-- the commands of `Paced` make the arm keep the speed. -/
theorem kit_pace {k0 k : ℕ} {src : Src} {x : List Byte} (hb : ev k0 = .act (.out (.ghost src x))) (hs : src ≠ .immediate ∨ CalmAt ev k0) (hk : k0 < k) {P : Fin 6 → ℝ} {V : ℝ} (hV : 0 < V)
    (g2 : Told.Paced (Kit.cfg : Cfg XR).toRCfg kitL kitU (fin V) (finS P) (acts (span ev (k0 + 1) (k - (k0 + 1))))) : KeepsPace kitG V P σ ev k0 k := by
  have rest := rest_begin hw h hmem hc hu hi hb hs
  choose c0 t0 ec0 et0 hct0 using fun i => rest_fin hw h hmem hc hu (rest i).2
  have hc0 : ArmAt (σ k0).w c0 := ec0
  have hend : k0 + 1 + (k - (k0 + 1)) = k := by omega
  have hz : ∀ (i : Fin 6) m, (Act.out (.ghost src x) : Act XR) ≠ .micro (armServo i) m := by simp
  -- an arm that is left alone
  have stay : ArmStill (acts (span ev (k0 + 1) (k - (k0 + 1)))) → KeepsPace kitG V P σ ev k0 k := fun hstill => by
    refine .stays c0 hc0 fun n n1 n2 => ?_
    choose b b1 b2 using fun i : Fin 6 => kit_idle hw h hmem hc hu (hc0 i) (et0 i) (hct0 i) (e := k) (fun j j1 j2 t' ej => by
      rcases Nat.eq_or_lt_of_le j1 with rfl | j1
      · rw [hb] at ej; injection ej with ej; exact hz i _ ej
      · exact hstill i _ (acts_mem.2 (mem_span.2 ⟨j, by omega, by omega, ej⟩))) n1 n2
    exact ⟨b, b1, fun i => (b2 i).le.trans (by norm_num)⟩
  rcases g2 with g2 | ⟨S, m, j, l1, l2, l3, l4, l5⟩
  · exact stay g2
  obtain ⟨o, hl⟩ := l3.line
  obtain ⟨a, s, ha, rfl, hS⟩ := kit_line_start hw h hmem hc hu hi hk hb hz (fun i => (rest i).1) hl
  obtain ⟨m0, m1⟩ := linearSteps_len l1
  have hN : (0 : ℝ) < m := by exact_mod_cast m0
  obtain ⟨r, r0, rs, re, rm, rl, rp, ra⟩ := pace_times hb hz l3 rfl
  rw [hend] at re rl
  rcases Nat.eq_zero_or_pos j with hj | hj
  · exact stay (rs hj)
  have rmono : ∀ i i', i ≤ i' → i' ≤ j → r i ≤ r i' := by
    intro i i' hii
    induction i', hii using Nat.le_induction with
    | base => exact fun _ => le_refl _
    | succ i' hii ih => exact fun hj => (ih (by omega)).trans (rm i' (by omega)).le
  -- at rest at every point
  have hrest : ∀ i, ∃ c t : Fin 6 → ℝ, i ≤ j → ArmAt (σ (r i)).w c ∧ (∀ s : Fin 6, ((σ (r i)).w.servos (armServo s)).target = fin (t s)) ∧ ∀ s, |c s - t s| < 1 / 1000000 := fun i => by
    by_cases hij : i ≤ j
    · rcases Nat.eq_zero_or_pos i with rfl | hi0
      · exact ⟨c0, t0, fun _ => by rw [r0]; exact ⟨hc0, et0, hct0⟩⟩
      · have har : k0 < r i ∧ Spec.Arrived (acts (span ev (k0 + 1) (r i - (k0 + 1)))) := by
          rcases Nat.lt_or_ge i j with g | g
          · exact ra i g hi0
          · rw [show i = j by omega, re hj]; exact ⟨hk, l4⟩
        choose c t e1 e2 e3 using kit_arrived hw h hmem hc hu har.1 hb hz (fun i => (rest i).2) har.2
        exact ⟨c, t, fun _ => ⟨e1, e2, e3⟩⟩
    · exact ⟨c0, t0, fun h => absurd h hij⟩
  choose c t hct using hrest
  have hpart := fun i (hij : i < j) => kit_part hw h hmem hc hu (rm i hij) (hct i hij.le).1 (hct i hij.le).2.1 (hct i hij.le).2.2 m0 hV (rp i hij)
  have hpart' : ∀ i, ∃ A : Fin 6 → ℝ, i < j → PutsAt kitG A (onLine s P (i + 1) m) ∧ KitFits A ∧
      (∀ q : Fin 6, ∃ t', ((σ (r (i + 1))).w.servos (armServo q)).target = fin t' ∧ |t' - kitServo A q| < 1 / 1000000) ∧
      (0 < dist3 s P → ∃ τ : ℝ, 0 < τ ∧ dist3 s P / m / V ≤ τ ∧ ∀ q, ((σ (r (i + 1))).w.servos (armServo q)).target = fin (kitServo A q) ∧
        ∃ n2 n6 x y v, Runs σ (r i) (r (i + 1)) (r (i + 1)) q (c i q) (kitServo A q) τ n2 n6 x y v) := fun i => by
    by_cases hij : i < j
    · obtain ⟨A, hA⟩ := hpart i hij
      exact ⟨A, fun _ => hA⟩
    · exact ⟨c0, fun h => absurd h hij⟩
  choose A hA using hpart'
  obtain ⟨B, B0, BS⟩ : ∃ B : ℕ → Fin 6 → ℝ, B 0 = c 0 ∧ ∀ i, B (i + 1) = kitServo (A i) := ⟨fun i => Nat.casesOn i (c 0) fun i => kitServo (A i), rfl, fun _ => rfl⟩
  have near : ∀ i ≤ j, ∀ q, |c i q - B i q| ≤ 2 / 1000000 := fun i hij q => by
    cases i with
    | zero => rw [B0, sub_self, abs_zero]; norm_num
    | succ i =>
      rw [BS]
      obtain ⟨t', e1, e2⟩ := (hA i (by omega)).2.2.1 q
      rw [(hct (i + 1) hij).2.1 q] at e1; injection e1 with e1; subst e1
      have := abs_sub_le (c (i + 1) q) (t (i + 1) q) (kitServo (A i) q)
      have := (hct (i + 1) hij).2.2 q
      linarith
  have hB0 : ArmAt (σ k0).w (B 0) := by rw [B0, ← r0]; exact (hct 0 (by omega)).1
  have hL : 0 ≤ dist3 s P / m := by
    have : 0 ≤ dist3 s P := Real.sqrt_nonneg _
    positivity
  have htool : len3 (toolOf kitG (B 0) - ![s 0, s 1, s 2]) ≤ 5 / 10000 := by
    have hab : ∀ i, |B 0 i - a i| < 2 / 1000000 := fun i => by
      obtain ⟨x, y, e1, e2, e3⟩ := ha i
      rw [hB0 i] at e1; injection e1 with e1; subst e1
      have hx := (hct 0 (by omega)).2.2 i
      have ht := (hct 0 (by omega)).2.1 i
      rw [r0, e2] at ht; injection ht with ht
      rw [← B0, ← ht] at hx
      have := abs_sub_le (B 0 i) y (a i)
      rw [abs_sub_comm y (a i)] at this
      linarith
    rw [← hS]
    refine (near_tool kitG fun i => (logical_near hab i).le).trans ?_
    have := mul_le_mul_of_nonneg_right kit_weight (show (0 : ℝ) ≤ 2 * (2 / 1000000) by norm_num)
    linarith
  have hin : ∀ z ∈ acts (span ev (k0 + 1) (k - (k0 + 1))), z ∈ acts (sofar ev k) := fun z hz => by
    rw [sofar_span, span_split (c := k0) (Nat.zero_le _) (by omega) hb, Nat.zero_add]; simp [hz]
  refine .parts s m j B r m1 (linearSteps_most l1) hj (l2 m0) (l5.imp id fun l5 => ?_) hB0 htool ?_ r0 (re hj) rm (fun i hij => ⟨c i, (hct i hij).1, near i hij⟩) ?_ ?_
  · rcases l5 with l5 | ⟨m', x, t, e, l5, l6⟩
    · have l5 : (Kit.cfg : Cfg XR).inv (linePoint (finS s) (finS P) (j + 1) m) = none := l5
      rw [linePoint_fin _ _ _ _ m0] at l5
      exact .inl (kit_inv_none l5)
    · obtain ⟨A, rfl, hA⟩ := kit_wayPoint hw (careful_of_briskStorage hmem) (h.run k) (hc k).well (fun z hz => hin z (by rw [e]; simp [hz])) m0 l5
      exact .inr ⟨A, hA, fun hf => l6 ((kit_fits A).2 hf)⟩
  · intro i i0 hij
    obtain ⟨i, rfl⟩ : ∃ i', i = i' + 1 := ⟨i - 1, by omega⟩
    exact ⟨A i, (hA i (by omega)).1, (hA i (by omega)).2.1, BS i⟩
  · intro i hij n n1 n2 q
    rcases (show 0 ≤ dist3 s P from Real.sqrt_nonneg _).eq_or_lt with g | g
    · obtain ⟨t', x, x', _, e2, e3, _⟩ := kit_step hw h hmem hc hu n q
      refine ⟨x, x', e2, e3, ?_⟩
      rw [← g, zero_div, mul_zero, mul_zero, add_zero]
      have := abs_nonneg (B (i + 1) q - B i q)
      positivity
    · obtain ⟨τ, hτ, hτ', hR⟩ := (hA i hij).2.2.2 g
      obtain ⟨_, n2', n6', x'', y'', v'', R⟩ := hR q
      obtain ⟨x, x', e2, e3, e4⟩ := runs_paced hw h hmem hc hu hτ R (le_refl _) n1 n2
      refine ⟨x, x', e2, e3, ?_⟩
      rw [BS]
      have hn := near i hij.le q
      have tri := abs_sub_le (kitServo (A i) q) (B i q) (c i q)
      rw [abs_sub_comm (B i q)] at tri
      rw [div_le_iff₀ hV] at hτ'
      have hX := abs_nonneg (kitServo (A i) q - c i q)
      have hX' : |kitServo (A i) q - c i q| + 1 / 1000000 ≤ |kitServo (A i) q - B i q| + 3 / 1000000 := by linarith
      have hX0 : 0 ≤ |kitServo (A i) q - c i q| + 1 / 1000000 := by linarith
      generalize |kitServo (A i) q - c i q| + 1 / 1000000 = X at *
      generalize |kitServo (A i) q - B i q| + 3 / 1000000 = Y at *
      have h5 : X / τ * (dist3 s P / m) ≤ Y * V := by
        rw [div_mul_eq_mul_div, div_le_iff₀ hτ]
        have := mul_le_mul hX' hτ' hL (hX0.trans hX')
        linarith
      have h6 := mul_le_mul_of_nonneg_right e4 hL
      linarith
  · intro hL1 i hij hfirst
    have hd : 0 < dist3 s P := by
      rcases (show 0 ≤ dist3 s P from Real.sqrt_nonneg _).eq_or_lt with g | g
      · rw [← g, zero_div] at hL1; linarith
      · exact g
    obtain ⟨τ, hτ, hτ', hR⟩ := (hA i hij).2.2.2 hd
    -- some servo turns
    obtain ⟨q, hq⟩ : ∃ q, 48 / 100000 ≤ |B (i + 1) q - B i q| := by
      by_contra hcon
      push Not at hcon
      have hlog : ∀ q, |kitLogical (B (i + 1)) q - kitLogical (B i) q| ≤ 2 * (48 / 100000) := fun q => (logical_near hcon q).le
      cases i with
      | zero =>
        have h5 := near_tool kitG hlog
        have h6 := mul_le_mul_of_nonneg_right kit_weight (show (0 : ℝ) ≤ 2 * (48 / 100000) by norm_num)
        have h7 := tool_first s P m0
        rw [← hfirst rfl] at h7
        have h8 := len3_add (toolOf kitG (B 1) - toolOf kitG (B 0)) (toolOf kitG (B 0) - ![s 0, s 1, s 2])
        rw [sub_add_sub_cancel, h7] at h8
        have h9 : len3 (toolOf kitG (B 1) - toolOf kitG (B 0)) ≤ 102 * (2 * (48 / 100000)) := h5.trans h6
        linarith
      | succ i =>
        rw [BS, BS, logical_servo, logical_servo] at hlog
        have h5 := near_wrist hlog
        rw [(hA (i + 1) hij).1.wrist, (hA i (by omega)).1.wrist, wrist_step s P m0] at h5
        linarith
    obtain ⟨htg, n2', n6', x'', y'', v'', R⟩ := hR q
    have hlast := (hct (i + 1) hij).2.2 q
    have e1 := (hct (i + 1) hij).2.1 q
    rw [htg] at e1; injection e1 with e1
    rw [← e1] at hlast
    have h5 := runs_least hw h hmem hc hu hτ R ((hct (i + 1) hij).1 q) hlast
    rw [BS] at hq
    have hn := near i hij.le q
    have tri := abs_sub_le (kitServo (A i) q) (c i q) (B i q)
    have hx : 47 / 100000 ≤ |kitServo (A i) q - c i q| := by linarith
    generalize |kitServo (A i) q - c i q| = X at h5 hx
    generalize 20 / 1000 * (interrupts ev (r i) (r (i + 1)) : ℝ) = N at h5 ⊢
    rw [div_mul_eq_mul_div, ← sub_le_iff_le_add, le_div_iff₀ hτ] at h5
    rw [div_le_iff₀ hV] at hτ'
    generalize dist3 s P / m = L at *
    have h6 : 99 / 100 * (X + 1 / 1000000) * L ≤ (X - 2 / 1000000) * (τ * V) := mul_le_mul (by linarith) hτ' hL (by linarith)
    have h7 : (X - 2 / 1000000) * (τ * V) ≤ (X + 1 / 1000000) * N * V := by
      have := mul_le_mul_of_nonneg_right h5 hV.le
      linarith
    have h8 : (X + 1 / 1000000) * (99 / 100 * L) ≤ (X + 1 / 1000000) * (V * N) := by linarith
    exact le_of_mul_le_mul_left h8 (by linarith)

/-- **C122**: the robot kit over the exact numbers, with a careful host that asks for no crawling speeds and gives immediate instructions that name a place only while the arm is at rest, and
interrupts that do not fall into the command of a servo. An instruction told all six coordinates of a pose with M1 and a speed (V, units of length per second, positive), from queue or storage or
begun at once while no move is under way, and reported as finished at time `k`. The tool keeps the speed: the arm passes the way points on the straight line one after the other, no servo turns faster
than its share of a part, and no part takes less time than it takes at the speed told. -/
theorem C122_line {k0 k : ℕ} {src : Src} {cs : List Cmd} (hb : ev k0 = .act (.out (.ghost src (text cs)))) (hs : src ≠ .immediate ∨ CalmAt ev k0) (ht : TellsPose cs) (hM : Chooses 49 cs)
    {d : Fin 6 → Dec} (hd : ∀ i, Last NamesPose cs i (d i)) {v : Dec} (hv : LastSpeed cs v) (hv0 : 0 < v.val) (hk : k0 < k) (hr : ReportsAt ev k) (hq : ∀ i, k0 < i → i < k → ¬ Directs ev i) :
    KeepsPace kitG v.val (poseOfDec d) σ ev k0 k := by
  obtain ⟨y, h1, hy⟩ := reportsAt_iff.1 hr
  obtain ⟨P, g1, g2⟩ := C122_trace (h.run (k + 1)).trace (kit_limits hw (h.run (k + 1))) ht hM hv hs (acts_between hk hb h1) (quiet_mid hw h hmem hc hu hi hq) hy
  have : P = finS (poseOfDec d) := funext fun i => (g1 i _ (hd i)).trans (coordinate_fin (last_ok (fun _ _ _ h => h.1) (hd i)))
  subst this
  rw [Host.atof_dec hv.1] at g2
  exact kit_pace hw h hmem hc hu hi hb hs hk (by exact_mod_cast hv0) g2

end
end Mrc.Props
