import Verif.Props.Liveness
import Verif.Props.Safety
/-
C77 in exact arithmetic: the hypotheses of `C77_rest` discharged.
-/
set_option linter.unusedSectionVars false
set_option linter.unusedSimpArgs false
namespace Mrc.Props
open Mrc Mrc.Prog Mrc.Spec XR
open scoped Mrc.Num

/-- in exact arithmetic a straight move has at least one part. -/
theorem parts_XR : Parts XR := by
  intro p q n h
  unfold RC.linearSteps at h
  split at h
  · rename_i d a hd ha
    injection h with h
    have h2 : (((1/2 : Rat)) : ℝ) ≠ 0 := by norm_num
    -- the distance is a non-negative number
    have key : 1 ≤ d ∧ d ≤ 2147483647 := by
      have hds : (∃ x : ℝ, 0 ≤ x ∧ RC.distance p q = fin x) ∨ RC.distance p q = inf false ∨ RC.distance p q = nan := by
        unfold RC.distance
        simp only
        generalize (q 0 - p 0) * (q 0 - p 0) + (q 1 - p 1) * (q 1 - p 1) + (q 2 - p 2) * (q 2 - p 2) = z
        show (∃ x : ℝ, 0 ≤ x ∧ XR.sqrt z = fin x) ∨ XR.sqrt z = inf false ∨ XR.sqrt z = nan
        cases z with
        | nan => exact .inr (.inr rfl)
        | inf b => cases b <;> simp [XR.sqrt]
        | fin z =>
          simp only [XR.sqrt]
          split
          · exact .inr (.inr rfl)
          · exact .inl ⟨_, Real.sqrt_nonneg _, rfl⟩
      rcases hds with ⟨x, hx, e⟩ | e | e
      · rw [e] at hd
        simp only [lit, ops_lit, fin_div _ _ h2, fin_add] at hd
        have hd : XR.toInt _ = some d := hd
        unfold XR.toInt at hd
        simp only at hd
        split at hd
        · rename_i hb
          injection hd with hd
          rw [← hd]
          refine ⟨?_, hb.2⟩
          have h1 : (1 : ℝ) ≤ x / ((1/2 : Rat) : ℝ) + ((1 : Rat) : ℝ) := by
            have : 0 ≤ x / ((1/2 : Rat) : ℝ) := div_nonneg hx (by norm_num)
            push_cast; push_cast at this; linarith
          unfold XR.trunc
          rw [if_pos (by linarith)]
          exact Int.le_floor.2 (by exact_mod_cast h1)
        · cases hd
      · rw [e] at hd; exfalso
        have : XR.toInt _ = some d := hd
        simp [lit, ops_lit, FloatOps.add, FloatOps.div, HAdd.hAdd, HDiv.hDiv, Add.add, Div.div, XR.add, XR.div, XR.toInt] at this
      · rw [e] at hd; exfalso
        have : XR.toInt _ = some d := hd
        simp [lit, ops_lit, FloatOps.add, FloatOps.div, HAdd.hAdd, HDiv.hDiv, Add.add, Div.div, XR.add, XR.div, XR.toInt] at this
    have ka : a ≤ 2147483647 := by
      have ha : XR.toInt _ = some a := ha
      unfold XR.toInt at ha
      split at ha
      · split at ha
        · rename_i hb; injection ha with ha; rw [← ha]; exact hb.2
        · cases ha
      · cases ha
    rw [← h]
    unfold u32OfInt
    split <;> omega
  · cases h

/-- in exact arithmetic a servo arrives if its timer does not overflow before. -/
theorem settles_XR {s : Servo XR} {a t v : ℝ} (h1 : s.start = fin a) (h2 : s.target = fin t) (h3 : s.vel = fin v) (hv : 0 < v)
    (hd : |t - a| < v * 4294967276 / 1000) : Settles s := by
  -- arrived means arrived for ever
  have there : ∀ k (s : Servo XR), s.start = fin t → s.cur = fin t → s.target = fin t → s.vel = fin v →
      ((fun s => s.tick 20)^[k] s).cur = fin t ∧ ((fun s => s.tick 20)^[k] s).target = fin t := by
    intro k
    induction k with
    | zero => intro s _ h h' _; exact ⟨h, h'⟩
    | succ k ih =>
      intro s g1 g2 g3 g4
      rw [Function.iterate_succ_apply]
      have e := tick_fin s t t v 20 g1 g3 g4
      refine ih (s.tick 20) ?_ ?_ ?_ ?_ <;> rw [e]
      · simp
      · simp only [sub_self, abs_zero, lt_irrefl, if_false]
        congr 1
        split
        · rfl
        · rename_i h
          have : v * ((u32 (s.elapsed + 20) : ℕ) : ℝ) / 1000 = 0 := by
            by_contra hne; exact h (abs_pos.2 hne)
          rw [this, sub_zero]
      · exact g3
      · exact g4
  -- on the way
  have go : ∀ j (s : Servo XR), s.start = fin a → s.target = fin t → s.vel = fin v → s.elapsed + 20 * j < 4294967276 → 4294967276 ≤ s.elapsed + 20 * (j + 1) →
      ∃ k, ((fun s => s.tick 20)^[k] s).start = fin t ∧ ((fun s => s.tick 20)^[k] s).cur = fin t ∧ ((fun s => s.tick 20)^[k] s).target = fin t ∧ ((fun s => s.tick 20)^[k] s).vel = fin v := by
    intro j
    induction j with
    | zero =>
      intro s g1 g2 g3 hlt hge
      refine ⟨1, ?_⟩
      rw [Function.iterate_one]
      rw [tick_fin s a t v 20 g1 g2 g3]
      have eu : u32 (s.elapsed + 20) = s.elapsed + 20 := Nat.mod_eq_of_lt (by omega)
      have hge' : (4294967276 : ℝ) ≤ ((s.elapsed + 20 : ℕ) : ℝ) := by exact_mod_cast (by omega)
      have hc : |t - a| < |v * ((u32 (s.elapsed + 20) : ℕ) : ℝ) / 1000| := by
        rw [eu, abs_of_nonneg (a := v * _ / 1000) (by positivity)]
        have := mul_le_mul_of_nonneg_left hge' hv.le
        linarith
      simp only [if_pos hc]
      exact ⟨trivial, trivial, g2, g3⟩
    | succ j ih =>
      intro s g1 g2 g3 hlt hge
      have eu : u32 (s.elapsed + 20) = s.elapsed + 20 := Nat.mod_eq_of_lt (by omega)
      have e := tick_fin s a t v 20 g1 g2 g3
      by_cases hc : |t - a| < |v * ((u32 (s.elapsed + 20) : ℕ) : ℝ) / 1000|
      · refine ⟨1, ?_⟩
        rw [Function.iterate_one]
        rw [e]
        simp only [if_pos hc]
        exact ⟨trivial, trivial, g2, g3⟩
      · obtain ⟨k, hk⟩ := ih (s.tick 20) (by rw [e]; simp [hc]) (by rw [e]; exact g2) (by rw [e]; exact g3) (by rw [e]; simp only [eu]; omega) (by rw [e]; simp only [eu]; omega)
        exact ⟨k + 1, by rw [Function.iterate_succ_apply]; exact hk⟩
  have fin_ : ∀ (s : Servo XR), (∃ k, ((fun s => s.tick 20)^[k] s).start = fin t ∧ ((fun s => s.tick 20)^[k] s).cur = fin t ∧ ((fun s => s.tick 20)^[k] s).target = fin t ∧ ((fun s => s.tick 20)^[k] s).vel = fin v) → Settles s := by
    rintro s ⟨k, g1, g2, g3, g4⟩
    refine ⟨k, fun m hm => ?_⟩
    obtain ⟨d, rfl⟩ := Nat.exists_eq_add_of_le hm
    rw [Nat.add_comm k d, Function.iterate_add_apply]
    obtain ⟨e1, e2⟩ := there d _ g1 g2 g3 g4
    simp [Servo.atTarget, flt, e1, e2, lit]
  have small : ∀ (s : Servo XR), s.start = fin a → s.target = fin t → s.vel = fin v → s.elapsed < 4294967276 → Settles s := fun s g1 g2 g3 hlt =>
    fin_ s (go ((4294967275 - s.elapsed) / 20) s g1 g2 g3 (by omega) (by omega))
  by_cases hlt : s.elapsed < 4294967276
  · exact small s h1 h2 h3 hlt
  · -- the timer overflows at the next interrupt, or the servo arrives
    have e := tick_fin s a t v 20 h1 h2 h3
    by_cases hc : |t - a| < |v * ((u32 (s.elapsed + 20) : ℕ) : ℝ) / 1000|
    · refine fin_ s ⟨1, ?_⟩
      rw [Function.iterate_one]
      rw [e]
      simp only [if_pos hc]
      exact ⟨trivial, trivial, h2, h3⟩
    · have hlt2 : (s.tick 20).elapsed < 4294967276 ∨ 4294967276 ≤ (s.tick 20).elapsed := Nat.lt_or_ge _ _
      rcases hlt2 with hlt2 | hge
      · obtain ⟨K, hK⟩ := small (s.tick 20) (by rw [e]; simp [hc]) (by rw [e]; exact h2) (by rw [e]; exact h3) hlt2
        exact ⟨K + 1, fun k hk => by
          obtain ⟨d, rfl⟩ := Nat.exists_eq_add_of_le hk
          rw [show K + 1 + d = (K + d) + 1 by omega, Function.iterate_succ_apply]
          exact hK _ (by omega)⟩
      · exfalso
        rw [e] at hge
        have hge' : (4294967276 : ℝ) ≤ ((u32 (s.elapsed + 20) : ℕ) : ℝ) := by exact_mod_cast hge
        apply hc
        rw [abs_of_nonneg (a := v * _ / 1000) (by positivity)]
        have := mul_le_mul_of_nonneg_left hge' hv.le
        linarith

/-- the speed of a servo, never below `c` after speeds that are not positive or at least `c`. -/
structure Fast (c : ℝ) (s : Servo XR) : Prop where
  maxV : ∃ m, s.maxVel = fin m ∧ c ≤ m
  vel : ∃ u, s.vel = fin u ∧ c ≤ u

theorem Fast.tick {c : ℝ} {s : Servo XR} (h : Fast c s) (d : ℕ) : Fast c (s.tick d) := by
  have e1 : (s.tick d).maxVel = s.maxVel := congrArg (fun x : Int × XR × Nat × Nat × XR × XR × XR => x.2.2.2.2.2.2) (fixed_tick s d)
  have e2 : (s.tick d).vel = s.vel := by
    unfold Servo.tick; simp only; split
    · rfl
    · split <;> rfl
  exact ⟨by rw [e1]; exact h.maxV, by rw [e2]; exact h.vel⟩

theorem Fast.micro {c : ℝ} {s : Servo XR} (h : Fast c s) (hc : c ≤ 1/10) {m : Servo.Micro XR} (hm : ∀ v, m = .setVel v → v ≠ nan ∧ ∀ x, v = fin x → x ≤ 0 ∨ c ≤ x) : Fast c (s.micro m) := by
  obtain ⟨⟨mv, emv, hmv⟩, hu⟩ := h
  cases m with
  | setStart x => exact ⟨⟨mv, emv, hmv⟩, hu⟩
  | zeroElapsed => exact ⟨⟨mv, emv, hmv⟩, hu⟩
  | setTarget x => exact ⟨⟨mv, emv, hmv⟩, hu⟩
  | setVel v =>
    refine ⟨⟨mv, emv, hmv⟩, ?_⟩
    obtain ⟨h1, h2⟩ := hm v rfl
    show ∃ u, Servo.clampVel s.maxVel v = fin u ∧ c ≤ u
    rw [emv]
    unfold Servo.clampVel
    cases v with
    | nan => exact absurd rfl h1
    | inf b =>
      cases b
      · exact ⟨mv, by simp [fgt, FloatOps.lt, XR.lt], hmv⟩
      · exact ⟨1/10, by simp [fgt, fle, FloatOps.lt, FloatOps.le, XR.lt, XR.le, lit], hc⟩
    | fin x =>
      by_cases g1 : mv < x
      · exact ⟨mv, by simp [fgt, g1], hmv⟩
      · by_cases g2 : x ≤ 0
        · exact ⟨1/10, by simp [fgt, fle, g1, g2, lit], hc⟩
        · exact ⟨x, by simp [fgt, fle, g1, g2, lit], (h2 x rfl).resolve_left g2⟩

/-- the servos settle. -/
theorem settles_exact {cfg : Cfg XR} {w0 : World XR} {junk : Nat → Byte} {σ : ℕ → Sys XR} {ev : ℕ → Ev XR} {lo hi : Fin 6 → ℝ} {c : ℝ} (hc0 : 0 < c) (hc1 : c ≤ 1/10)
    (hr : ∀ i, hi i - lo i < c * 4294967)
    (h0 : ∀ i, ∃ pin m f1 f2 home, w0.servos (armServo i) = Servo.new pin (fin m) f1 f2 (fin (lo i)) (fin (hi i)) (fin home) ∧
      c ≤ m ∧ lo i ≤ home ∧ home ≤ hi i)
    (h : Endless cfg w0 junk σ ev)
    (hn : ∀ n i, ev n ≠ .act (.micro (armServo i) (.setTarget nan)) ∧ ev n ≠ .act (.micro (armServo i) (.setVel nan)))
    (hv : ∀ n i x, ev n = .act (.micro (armServo i) (.setVel (fin x))) → x ≤ 0 ∨ c ≤ x)
    (n : ℕ) (i : Fin 6) : Settles ((σ n).w.servos (armServo i)) := by
  have hg : AllGood lo hi (σ n).w := by
    refine (allGood_run (fun i => ?_) (h.run n) fun i => ⟨fun hm => ?_, fun hm => ?_⟩).1
    · obtain ⟨pin, m, f1, f2, home, e, hm, h1, h2⟩ := h0 i
      rw [e]; exact goodServo_new (by linarith) h1 h2
    · rw [acts_mem] at hm
      obtain ⟨k, _, hk⟩ := List.mem_map.1 hm
      exact (hn k i).1 hk
    · rw [acts_mem] at hm
      obtain ⟨k, _, hk⟩ := List.mem_map.1 hm
      exact (hn k i).2 hk
  have hf : ∀ n, Fast c ((σ n).w.servos (armServo i)) := by
    intro n
    induction n with
    | zero =>
      rw [h.boot]
      obtain ⟨pin, m, f1, f2, home, e, hm, h1, h2⟩ := h0 i
      rw [show (Sys.mk w0 (setup cfg junk)).w = w0 from rfl, e]
      exact ⟨⟨m, rfl, hm⟩, ⟨m, rfl, hm⟩⟩
    | succ n ih =>
      rw [do_servos (h.step n) (armServo i)]
      have hvn := hv n i
      have hnn := (hn n i).2
      generalize ev n = e at hvn hnn
      match e, hvn, hnn with
      | .isr, _, _ => exact ih.tick 20
      | .act (.micro j m), hvn, hnn =>
        simp only [evServo]
        split
        · rename_i e; subst e
          refine ih.micro hc1 fun v e => ?_
          subst e
          exact ⟨fun e => hnn (by rw [e]), fun x e => hvn x (by rw [e])⟩
        · exact ih
      | .act (.servo _ _), _, _ | .act (.now _), _, _ | .act (.pin _ _), _, _ | .act (.rx _), _, _ | .act (.eeRead _), _, _ | .act (.eeWrite _ _), _, _
      | .act (.out _), _, _ | .next, _, _ | .clock _, _, _ | .pins _, _, _ | .arrive _, _, _ => exact ih
  obtain ⟨u, eu, hu⟩ := (hf n).vel
  obtain ⟨a, ea, a1, a2⟩ := (hg i).start
  obtain ⟨t, et, t1, t2⟩ := (hg i).target
  refine settles_XR ea et eu (by linarith) ?_
  have : |t - a| ≤ hi i - lo i := abs_le.2 ⟨by linarith, by linarith⟩
  have h3 := hr i
  have : c * 4294967276 ≤ u * 4294967276 := by linarith
  linarith

/-- **C77/2**: in exact arithmetic, for any robot whose arm servos start at a home position in their range. Suppose the firmware never stores a
NaN as target or speed of an arm servo, and every positive speed it stores is at least `c` (`0 < c ≤ 1/10`, servo limits at least `c`, and fast enough
for the ranges: 49 days' way at speed `c`). If from some time on no instruction begins, the arm comes to rest. -/
theorem C77_exact {cfg : Cfg XR} {w0 : World XR} {junk : Nat → Byte} {σ : ℕ → Sys XR} {ev : ℕ → Ev XR} {lo hi : Fin 6 → ℝ} {c : ℝ} (hc0 : 0 < c) (hc1 : c ≤ 1/10)
    (hr : ∀ i, hi i - lo i < c * 4294967)
    (h0 : ∀ i, ∃ pin m f1 f2 home, w0.servos (armServo i) = Servo.new pin (fin m) f1 f2 (fin (lo i)) (fin (hi i)) (fin home) ∧
      c ≤ m ∧ lo i ≤ home ∧ home ≤ hi i)
    (h : Endless cfg w0 junk σ ev)
    (hn : ∀ n i, ev n ≠ .act (.micro (armServo i) (.setTarget nan)) ∧ ev n ≠ .act (.micro (armServo i) (.setVel nan)))
    (hv : ∀ n i x, ev n = .act (.micro (armServo i) (.setVel (fin x))) → x ≤ 0 ∨ c ≤ x)
    (n0 : ℕ) (hq : ∀ n, n0 ≤ n → ¬ Orders ev n) :
    ∃ n1, n0 ≤ n1 ∧ ∀ n, n1 ≤ n → (∀ (i : Fin 6) m, ev n ≠ .act (.micro (armServo i) m)) ∧ (∀ i, ((σ n).w.servos (armServo i)).atTarget = true) ∧
      ∀ s, Between σ n s → s.core.rc.isMoving = false := by
  exact C77_rest h parts_XR n0 hq fun n s _ _ i => settles_exact hc0 hc1 hr h0 h hn hv n i

end Mrc.Props
