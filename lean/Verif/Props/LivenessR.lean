import Verif.Props.Liveness
import Verif.Props.Rounding32
import Verif.Props.Progress
import Verif.Props.ProgramLive
import Verif.Props.FlowLive
import Verif.Proof.Schedule
/-
C77 (and with it C78, C79, C80, C90, C95) with ROUNDED arithmetic: a servo left alone arrives, in every float format (in particular binary32).
-/
set_option linter.unusedSectionVars false
set_option linter.unusedSimpArgs false
namespace Mrc.Props
open Mrc Mrc.Prog Mrc.Spec Mrc.Demo XR
open scoped Mrc.Num
variable {R : Rounding} [L : RX.Libm R]

/-- `sqrt` of libm gives no negative number. -/
def SqrtNonneg (R : Rounding) [L : RX.Libm R] : Prop := ∀ (x : RX R) (y : ℝ), (L.sqrt x).val = fin y → 0 ≤ y

theorem rnd_lower (x : ℝ) (h : 0 ≤ x) : x * (1 - 1 / 1000) - 1 / 1000 ≤ R.rnd x := by
  have h1 := (abs_le.1 (R.err x)).1
  rw [abs_of_nonneg h] at h1
  have := mul_le_mul_of_nonneg_right R.u_le h
  have := R.e_le
  linarith

theorem rnd_upper (x : ℝ) (h : 0 ≤ x) : R.rnd x ≤ x * (1 + 1 / 1000) + 1 / 1000 := by
  have h1 := (abs_le.1 (R.err x)).2
  rw [abs_of_nonneg h] at h1
  have := mul_le_mul_of_nonneg_right R.u_le h
  have := R.e_le
  linarith

/-- in rounded arithmetic a straight move has at least one part. -/
theorem parts_RX (hone : R.rnd 1 = 1) (hsq : SqrtNonneg R) : Parts (RX R) := by
  intro p q n h
  unfold RC.linearSteps at h
  split at h
  · rename_i d a hd ha
    injection h with h
    have hb := R.big_ge
    have key : 1 ≤ d ∧ d ≤ 2147483647 := by
      have hd : XR.toInt _ = some d := hd
      have hds : ∀ y, (RC.distance p q).val = fin y → 0 ≤ y := fun y hy => hsq _ y hy
      generalize RC.distance p q = D at *
      have h2 : ∃ t : ℝ, (lit (1/2) : RX R).val = fin t ∧ 0 < t := by
        have h := rnd_lower (R := R) (1/2) (by norm_num)
        refine ⟨R.rnd (1/2), ?_, by linarith⟩
        rw [RX.lit_val, show (((1 / 2 : Rat)) : ℝ) = (1 / 2 : ℝ) by norm_num, R.post_fin]
        rw [abs_of_pos (by norm_num)]; linarith
      have h1 : (lit 1 : RX R).val = fin 1 := by
        rw [RX.lit_val, show (((1 : Rat)) : ℝ) = (1 : ℝ) by norm_num, R.post_fin, hone]
        rw [abs_of_pos (by norm_num)]; linarith
      obtain ⟨t, et, t0⟩ := h2
      rw [RX.add_val, RX.div_val, et, h1] at hd
      have pos : ∀ {z : ℝ}, 0 ≤ z → R.post (fin z) = fin (R.rnd z) ∨ R.post (fin z) = inf false := R.post_pos
      cases hD : D.val with
      | nan => rw [hD] at hd; simp [XR.div, Rounding.post, XR.add, XR.toInt] at hd
      | inf b => rw [hD] at hd; cases b <;> simp [XR.div, Rounding.post, XR.add, XR.toInt] at hd
      | fin y =>
        have hy := hds y hD
        rw [hD] at hd
        simp only [XR.div, if_neg t0.ne'] at hd
        have hq : 0 ≤ y / t := div_nonneg hy t0.le
        rcases pos hq with e | e
        · rw [e] at hd
          simp only [XR.add] at hd
          have hz : 0 ≤ R.rnd (y / t) := R.rnd_nonneg hq
          have hw : 1 ≤ R.rnd (R.rnd (y / t) + 1) := by
            have := R.mono (show (1 : ℝ) ≤ R.rnd (y / t) + 1 by linarith)
            rwa [hone] at this
          rcases pos (show 0 ≤ R.rnd (y / t) + 1 by linarith) with e | e
          · rw [e] at hd
            unfold XR.toInt at hd
            simp only at hd
            split at hd
            · rename_i hb
              injection hd with hd
              rw [← hd]
              refine ⟨?_, hb.2⟩
              unfold XR.trunc
              rw [if_pos (by linarith)]
              exact Int.le_floor.2 (by exact_mod_cast hw)
            · cases hd
          · rw [e] at hd; cases hd
        · rw [e] at hd; cases hd
    have ka : a ≤ 2147483647 := by
      have ha : XR.toInt _ = some a := ha
      unfold XR.toInt at ha
      split at ha
      · split at ha
        · rename_i hb; injection ha with ha; rw [← ha]; exact hb.2
        · cases ha
      · cases ha
    rw [← h]
    unfold u32OfInt
    split <;> omega
  · cases h

/-- after 49 days every move is over. -/
theorem deltaR_end {v d : ℝ} (hv : 0 < v) (h0 : 0 ≤ d) (hd : 2 * d + 1 ≤ v * 4000000) {n : ℕ} (hn : 4294967276 ≤ n) : R.rnd d < RX.deltaR R v n := by
  have hn' : (4294967276 : ℝ) ≤ n := by exact_mod_cast hn
  have k2 := rnd_upper (R := R) 1000 (by norm_num)
  have k1 := rnd_lower (R := R) 1000 (by norm_num)
  have a1 := rnd_lower (R := R) (n : ℝ) (by linarith)
  have a2 : (4200000000 : ℝ) ≤ R.rnd n := by linarith
  have a3 : v * 4200000000 ≤ v * R.rnd n := mul_le_mul_of_nonneg_left a2 hv.le
  have b1 := rnd_lower (R := R) (v * R.rnd n) (by linarith [mul_pos hv (show (0:ℝ) < 4200000000 by norm_num)])
  have b2 : v * 4100000000 - 1 / 1000 ≤ R.rnd (v * R.rnd n) := by linarith
  have c1 : v * 4080000 - 1 / 900 ≤ R.rnd (v * R.rnd n) / R.rnd 1000 := by
    rw [le_div_iff₀ (by linarith)]
    have : (v * 4080000 - 1 / 900) * R.rnd 1000 ≤ (v * 4080000 - 1 / 900) * 1002 := mul_le_mul_of_nonneg_left (by linarith) (by linarith)
    linarith
  have d1 := rnd_lower (R := R) (R.rnd (v * R.rnd n) / R.rnd 1000) (by linarith)
  have e1 := rnd_upper (R := R) d h0
  unfold RX.deltaR
  linarith

/-- in rounded arithmetic a servo arrives if its timer does not overflow before. -/
theorem settles_timer (heps : 0 < R.rnd (1/1000000)) {s : Servo (RX R)} {a t v : ℝ} (h1 : s.start.val = fin a) (h2 : s.target.val = fin t) (h3 : s.vel.val = fin v) (hv : 0 < v)
    (hb : |t - a| ≤ R.big) (hend : ∀ n : ℕ, 4294967276 ≤ n → n < 4294967296 → R.rnd |t - a| < RX.deltaR R v n) : Settles s := by
  have hbig := R.big_ge
  -- arrived means arrived for ever
  have there : ∀ k (s : Servo (RX R)), s.start = s.target → s.cur = s.target → s.target.val = fin t → s.vel.val = fin v →
      ((fun s => s.tick 20)^[k] s).cur = ((fun s => s.tick 20)^[k] s).target ∧ ((fun s => s.tick 20)^[k] s).target.val = fin t := by
    intro k
    induction k with
    | zero => intro s _ h h' _; exact ⟨h, h'⟩
    | succ k ih =>
      intro s g1 g2 g3 g4
      rw [Function.iterate_succ_apply]
      have g1' : s.start.val = fin t := by rw [g1]; exact g3
      rcases RX.tick_rx g1' g3 g4 hv.le (by rw [sub_self, abs_zero]; linarith) 20 with ⟨e, _⟩ | ⟨d0, d1, e⟩
      · refine ih (s.tick 20) ?_ ?_ ?_ ?_ <;> rw [e]
        · exact g3
        · exact g4
      · rw [sub_self, abs_zero, R.rnd_zero] at d1
        have d2 : RX.deltaR R v (u32 (s.elapsed + 20)) = 0 := le_antisymm d1 d0
        refine ih (s.tick 20) ?_ ?_ ?_ ?_ <;> rw [e]
        · exact g1
        · apply RX.ext
          rw [d2, if_neg (lt_irrefl _), sub_zero]
          show R.post (fin t) = s.target.val
          rw [g3, R.post_fin (rx_grid g3).2, (rx_grid g3).1]
        · exact g3
        · exact g4
  have step : ∀ (s : Servo (RX R)), s.start.val = fin a → s.target.val = fin t → s.vel.val = fin v →
      ((s.tick 20).start = (s.tick 20).target ∧ (s.tick 20).cur = (s.tick 20).target ∧ (s.tick 20).target.val = fin t ∧ (s.tick 20).vel.val = fin v) ∨
      ((s.tick 20).start.val = fin a ∧ (s.tick 20).target.val = fin t ∧ (s.tick 20).vel.val = fin v ∧ (s.tick 20).elapsed = u32 (s.elapsed + 20) ∧ u32 (s.elapsed + 20) < 4294967276) := by
    intro s g1 g2 g3
    rcases RX.tick_rx g1 g2 g3 hv.le hb 20 with ⟨e, _⟩ | ⟨d0, d1, e⟩
    · left; rw [e]; exact ⟨rfl, rfl, g2, g3⟩
    · right; rw [e]
      refine ⟨g1, g2, g3, rfl, ?_⟩
      by_contra hc
      have := hend _ (not_lt.1 hc) (Nat.mod_lt _ (by norm_num))
      linarith
  have fin_ : ∀ (s : Servo (RX R)), (∃ k, ((fun s => s.tick 20)^[k] s).start = ((fun s => s.tick 20)^[k] s).target ∧ ((fun s => s.tick 20)^[k] s).cur = ((fun s => s.tick 20)^[k] s).target ∧
      ((fun s => s.tick 20)^[k] s).target.val = fin t ∧ ((fun s => s.tick 20)^[k] s).vel.val = fin v) → Settles s := by
    rintro s ⟨k, g1, g2, g3, g4⟩
    refine ⟨k, fun m hm => ?_⟩
    obtain ⟨d, rfl⟩ := Nat.exists_eq_add_of_le hm
    rw [Nat.add_comm k d, Function.iterate_add_apply]
    obtain ⟨e1, e2⟩ := there d _ g1 g2 g3 g4
    unfold Servo.atTarget
    rw [e1]
    show XR.lt (XR.abs (R.post (XR.sub _ _))) (lit (1/1000000) : RX R).val = true
    rw [e2, RX.sub_fin, sub_self, R.post_fin (by rw [abs_zero]; linarith), R.rnd_zero]
    have he : (lit (1/1000000) : RX R).val = fin (R.rnd (1/1000000)) := by
      rw [RX.lit_val, show (((1 / 1000000 : Rat)) : ℝ) = (1 / 1000000 : ℝ) by norm_num, R.post_fin]
      rw [abs_of_pos (by norm_num)]; linarith
    rw [he]
    simpa [XR.abs, XR.lt] using heps
  -- on the way
  have go : ∀ j (s : Servo (RX R)), s.start.val = fin a → s.target.val = fin t → s.vel.val = fin v → s.elapsed + 20 * j < 4294967276 → 4294967276 ≤ s.elapsed + 20 * (j + 1) → Settles s := by
    intro j
    induction j with
    | zero =>
      intro s g1 g2 g3 hlt hge
      rcases step s g1 g2 g3 with h | ⟨_, _, _, _, h⟩
      · exact fin_ s ⟨1, h⟩
      · have eu : u32 (s.elapsed + 20) = s.elapsed + 20 := Nat.mod_eq_of_lt (by omega)
        omega
    | succ j ih =>
      intro s g1 g2 g3 hlt hge
      rcases step s g1 g2 g3 with h | ⟨k1, k2, k3, k4, h⟩
      · exact fin_ s ⟨1, h⟩
      · have eu : u32 (s.elapsed + 20) = s.elapsed + 20 := Nat.mod_eq_of_lt (by omega)
        obtain ⟨K, hK⟩ := ih (s.tick 20) k1 k2 k3 (by omega) (by omega)
        exact ⟨K + 1, fun k hk => by
          obtain ⟨d, rfl⟩ := Nat.exists_eq_add_of_le hk
          rw [show K + 1 + d = (K + d) + 1 by omega, Function.iterate_succ_apply]
          exact hK _ (by omega)⟩
  have small : ∀ (s : Servo (RX R)), s.start.val = fin a → s.target.val = fin t → s.vel.val = fin v → s.elapsed < 4294967276 → Settles s := fun s g1 g2 g3 hlt =>
    go ((4294967275 - s.elapsed) / 20) s g1 g2 g3 (by omega) (by omega)
  rcases step s h1 h2 h3 with h | ⟨k1, k2, k3, k4, h⟩
  · exact fin_ s ⟨1, h⟩
  · obtain ⟨K, hK⟩ := small (s.tick 20) k1 k2 k3 (by omega)
    exact ⟨K + 1, fun k hk => by
      obtain ⟨d, rfl⟩ := Nat.exists_eq_add_of_le hk
      rw [show K + 1 + d = (K + d) + 1 by omega, Function.iterate_succ_apply]
      exact hK _ (by omega)⟩

/-- in rounded arithmetic a servo that is fast enough arrives. -/
theorem settles_RX (heps : 0 < R.rnd (1/1000000)) {s : Servo (RX R)} {a t v : ℝ} (h1 : s.start.val = fin a) (h2 : s.target.val = fin t) (h3 : s.vel.val = fin v) (hv : 0 < v)
    (hb : |t - a| ≤ R.big) (hd : 2 * |t - a| + 1 ≤ v * 4000000) : Settles s :=
  settles_timer heps h1 h2 h3 hv hb fun n hn _ => deltaR_end (R := R) hv (abs_nonneg _) hd hn

/-- the speed of a servo, never below `c` after speeds that are not positive or at least `c`. -/
structure FastRX (c : ℝ) (s : Servo (RX R)) : Prop where
  maxV : ∃ m, s.maxVel.val = fin m ∧ c ≤ m
  vel : ∃ u, s.vel.val = fin u ∧ c ≤ u

theorem FastRX.tick {c : ℝ} {s : Servo (RX R)} (h : FastRX c s) (d : ℕ) : FastRX c (s.tick d) :=
  ⟨by rw [(tick_vel _ _).2]; exact h.maxV, by rw [(tick_vel _ _).1]; exact h.vel⟩

theorem FastRX.micro {c : ℝ} {s : Servo (RX R)} (h : FastRX c s) (hc : c ≤ 9/100) {m : Servo.Micro (RX R)}
    (hm : ∀ v, m = .setVel v → v ≠ nanRX ∧ ∀ x, v.val = fin x → x ≤ 0 ∨ c ≤ x) : FastRX c (s.micro m) := by
  obtain ⟨⟨mv, emv, hmv⟩, hu⟩ := h
  cases m with
  | setStart x => exact ⟨⟨mv, emv, hmv⟩, hu⟩
  | zeroElapsed => exact ⟨⟨mv, emv, hmv⟩, hu⟩
  | setTarget x => exact ⟨⟨mv, emv, hmv⟩, hu⟩
  | setVel v =>
    refine ⟨⟨mv, emv, hmv⟩, ?_⟩
    obtain ⟨h1, h2⟩ := hm v rfl
    show ∃ u, (Servo.clampVel s.maxVel v).val = fin u ∧ c ≤ u
    have ht : ∃ t, (lit (1/10) : RX R).val = fin t ∧ c ≤ t := by
      have h := rnd_lower (R := R) (1/10) (by norm_num)
      refine ⟨R.rnd (1/10), ?_, by linarith⟩
      rw [RX.lit_val, show (((1 / 10 : Rat)) : ℝ) = (1 / 10 : ℝ) by norm_num, R.post_fin]
      rw [abs_of_pos (by norm_num)]; have := R.big_ge; linarith
    unfold Servo.clampVel
    split
    · exact ⟨mv, emv, hmv⟩
    · rename_i k1
      split
      · exact ht
      · rename_i k2
        have k1' : XR.lt s.maxVel.val v.val ≠ true := k1
        have k2' : XR.le v.val (lit 0 : RX R).val ≠ true := k2
        rw [zero_val] at k2'
        rw [emv] at k1'
        cases hv' : v.val with
        | fin x =>
          rw [hv'] at k2'
          refine ⟨x, rfl, (h2 x hv').resolve_left fun hx => ?_⟩
          simp [XR.le] at k2'; linarith
        | inf b => rw [hv'] at k1' k2'; cases b <;> simp [XR.lt, XR.le] at k1' k2'
        | nan => exact absurd (eq_nanRX hv') h1

/-- the servos settle. -/
theorem settles_rounded {cfg : Cfg (RX R)} {w0 : World (RX R)} {junk : Nat → Byte} {σ : ℕ → Sys (RX R)} {ev : ℕ → Ev (RX R)} {l h : Fin 6 → ℝ} {M c : ℝ} (heps : 0 < R.rnd (1/1000000))
    (hc0 : 0 < c) (hc1 : c ≤ 9/100) (hM : M ≤ 1000000) (hl : ∀ i, |l i| ≤ M) (hh : ∀ i, |h i| ≤ M) (hr : ∀ i, 2 * (h i - l i + R.slack M) + 1 ≤ c * 4000000)
    (h0 : ∀ i, ∃ pin m mr f1 f2 lo hi home, w0.servos (armServo i) = Servo.new pin m f1 f2 lo hi home ∧
      m.val = fin mr ∧ c ≤ mr ∧ lo.val = fin (l i) ∧ hi.val = fin (h i) ∧ InRX (l i) (h i) home)
    (hE : Endless cfg w0 junk σ ev)
    (hn : ∀ n i, ev n ≠ .act (.micro (armServo i) (.setTarget nanRX)) ∧ ev n ≠ .act (.micro (armServo i) (.setVel nanRX)))
    (hv : ∀ n i v x, ev n = .act (.micro (armServo i) (.setVel v)) → v.val = fin x → x ≤ 0 ∨ c ≤ x)
    (n : ℕ) (i : Fin 6) : Settles ((σ n).w.servos (armServo i)) := by
  have hM0 : 0 ≤ M := le_trans (abs_nonneg _) (hl 0)
  have hS := R.slack_nonneg hM0
  have hSl := R.slack_le hM0
  have hbig := R.big_ge
  have hg := (allGoodRX_run (lo := fun i => (w0.servos (armServo i)).minA) (hi := fun i => (w0.servos (armServo i)).maxA) (l := l) (h := h) (M := M)
    (fun i => by obtain ⟨pin, m, mr, f1, f2, lo, hi, home, e, _, _, e1, _⟩ := h0 i; rw [e]; exact e1)
    (fun i => by obtain ⟨pin, m, mr, f1, f2, lo, hi, home, e, _, _, _, e1, _⟩ := h0 i; rw [e]; exact e1) hM hl hh
    (fun i => by
      obtain ⟨pin, m, mr, f1, f2, lo, hi, home, e, em, m0, e1, e2, hhome⟩ := h0 i
      have hw := hhome.wide (lo' := l i - R.slack M) (hi' := h i + R.slack M) (by linarith) (by linarith)
      refine ⟨?_, rfl, rfl⟩
      rw [e]
      exact ⟨e1, e2, ⟨mr, em, by linarith⟩, ⟨mr, em, by linarith⟩, hw, hw, hhome⟩) (hE.run n) (fun i => ⟨fun hm => by
        rw [acts_mem] at hm
        obtain ⟨k, _, hk⟩ := List.mem_map.1 hm
        exact (hn k i).1 hk, fun hm => by
        rw [acts_mem] at hm
        obtain ⟨k, _, hk⟩ := List.mem_map.1 hm
        exact (hn k i).2 hk⟩)).1 i
  have hf : ∀ n, FastRX c ((σ n).w.servos (armServo i)) := by
    intro n
    induction n with
    | zero =>
      rw [hE.boot]
      obtain ⟨pin, m, mr, f1, f2, lo, hi, home, e, em, m0, e1, e2, hhome⟩ := h0 i
      rw [show (Sys.mk w0 (setup cfg junk)).w = w0 from rfl, e]
      exact ⟨⟨mr, em, m0⟩, ⟨mr, em, m0⟩⟩
    | succ n ih =>
      rw [do_servos (hE.step n) (armServo i)]
      have hvn := hv n i
      have hnn := (hn n i).2
      generalize ev n = e at hvn hnn
      match e, hvn, hnn with
      | .isr, _, _ => exact ih.tick 20
      | .act (.micro j m), hvn, hnn =>
        simp only [evServo]
        split
        · rename_i e; subst e
          refine ih.micro hc1 fun v e => ?_
          subst e
          exact ⟨fun e => hnn (by rw [e]), fun x e => hvn v x rfl e⟩
        · exact ih
      | .act (.servo _ _), _, _ | .act (.now _), _, _ | .act (.pin _ _), _, _ | .act (.rx _), _, _ | .act (.eeRead _), _, _ | .act (.eeWrite _ _), _, _
      | .act (.out _), _, _ | .next, _, _ | .clock _, _, _ | .pins _, _, _ | .arrive _, _, _ => exact ih
  obtain ⟨u, eu, hu⟩ := (hf n).vel
  obtain ⟨a, ea, a1, a2⟩ := hg.1.start
  obtain ⟨t, et, t1, t2⟩ := hg.1.target
  have h3 : |t - a| ≤ h i - l i + R.slack M := abs_le.2 ⟨by linarith, by linarith⟩
  have h4 := hr i
  have hl' := abs_le.1 (hl i)
  have hh' := abs_le.1 (hh i)
  refine settles_RX heps ea et eu (by linarith) (by linarith) ?_
  have : c * 4000000 ≤ u * 4000000 := by linarith
  linarith

/-- **C77 with rounding**: any float format (with 1 as a number, a hundred-thousandth not rounded to zero, and no negative square roots), any robot whose arm
servos start at a home position in their range [l, h], angles up to `M`. Suppose the firmware never stores a NaN as target or speed of an arm servo, and
every positive speed it stores is at least `c` (fast enough for the ranges). If from some time on no instruction begins, the arm comes to rest. -/
theorem C77_rounded {cfg : Cfg (RX R)} {w0 : World (RX R)} {junk : Nat → Byte} {σ : ℕ → Sys (RX R)} {ev : ℕ → Ev (RX R)} {l h : Fin 6 → ℝ} {M c : ℝ} (heps : 0 < R.rnd (1/1000000))
    (hone : R.rnd 1 = 1) (hsq : SqrtNonneg R)
    (hc0 : 0 < c) (hc1 : c ≤ 9/100) (hM : M ≤ 1000000) (hl : ∀ i, |l i| ≤ M) (hh : ∀ i, |h i| ≤ M) (hr : ∀ i, 2 * (h i - l i + R.slack M) + 1 ≤ c * 4000000)
    (h0 : ∀ i, ∃ pin m mr f1 f2 lo hi home, w0.servos (armServo i) = Servo.new pin m f1 f2 lo hi home ∧
      m.val = fin mr ∧ c ≤ mr ∧ lo.val = fin (l i) ∧ hi.val = fin (h i) ∧ InRX (l i) (h i) home)
    (hE : Endless cfg w0 junk σ ev)
    (hn : ∀ n i, ev n ≠ .act (.micro (armServo i) (.setTarget nanRX)) ∧ ev n ≠ .act (.micro (armServo i) (.setVel nanRX)))
    (hv : ∀ n i v x, ev n = .act (.micro (armServo i) (.setVel v)) → v.val = fin x → x ≤ 0 ∨ c ≤ x)
    (n0 : ℕ) (hq : ∀ n, n0 ≤ n → ¬ Orders ev n) :
    ∃ n1, n0 ≤ n1 ∧ ∀ n, n1 ≤ n → (∀ (i : Fin 6) m, ev n ≠ .act (.micro (armServo i) m)) ∧ (∀ i, ((σ n).w.servos (armServo i)).atTarget = true) ∧
      ∀ s, Between σ n s → s.core.rc.isMoving = false :=
  C77_rest hE (parts_RX hone hsq) n0 hq fun n _ _ _ i => settles_rounded heps hc0 hc1 hM hl hh hr h0 hE hn hv n i

/-! ### the robot kit in binary32 -/

theorem one32 : binary32.rnd 1 = 1 := by have := b32_int (n := 1) (by norm_num); simpa using this

theorem eps32 : 0 < binary32.rnd (1/1000000) := by
  have := (b32_bounds (x := 1/1000000) (by norm_num)).1
  linarith

variable [L32 : RX.Libm binary32]

/-- the arm servos of the kit settle in binary32. -/
theorem settles_kit32 {cfg : Cfg F32} {w0 : World F32} (hw : w0.servos = Kit.servos) {junk : Nat → Byte} {σ : ℕ → Sys F32} {ev : ℕ → Ev F32} (h : Endless cfg w0 junk σ ev)
    (hn : ∀ n i, ev n ≠ .act (.micro (armServo i) (.setTarget nanRX)) ∧ ev n ≠ .act (.micro (armServo i) (.setVel nanRX)))
    (hv : ∀ n i v x, ev n = .act (.micro (armServo i) (.setVel v)) → v.val = fin x → x ≤ 0 ∨ 1/1000 ≤ x)
    (n : ℕ) (i : Fin 6) : Settles ((σ n).w.servos (armServo i)) := by
  have hpi0 := Real.two_le_pi
  have hpi1 := Real.pi_le_four
  choose lo hi v k1 k2 k3 k4 k5 k6 k7 k8 k9 using kit_ints
  choose l el hl using fun i => deg32 (lo i) (by have := k4 i; have := k5 i; rw [abs_le]; constructor <;> omega)
  choose h el' hh using fun i => deg32 (hi i) (by have := k6 i; have := k7 i; rw [abs_le]; constructor <;> omega)
  obtain ⟨vr, ev', hv'⟩ := deg32 300 (by norm_num)
  have c4 : ∀ i, (-140 : ℝ) ≤ lo i := fun i => by exact_mod_cast k4 i
  have c5 : ∀ i, (lo i : ℝ) ≤ -45 := fun i => by exact_mod_cast k5 i
  have c6 : ∀ i, (15 : ℝ) ≤ hi i := fun i => by exact_mod_cast k6 i
  have c7 : ∀ i, (hi i : ℝ) ≤ 135 := fun i => by exact_mod_cast k7 i
  have r : 0 < Real.pi / 180 := by linarith
  have hl' : ∀ i, |l i| ≤ 4 := fun i => by
    have := (abs_le.1 (hl i))
    have := c4 i
    have := c5 i
    rw [abs_le]; constructor <;> nlinarith
  have hh' : ∀ i, |h i| ≤ 4 := fun i => by
    have := (abs_le.1 (hh i))
    have := c6 i
    have := c7 i
    rw [abs_le]; constructor <;> nlinarith
  have l0 : ∀ i, l i ≤ 0 := fun i => by
    have := (abs_le.1 (hl i)).2
    have := c5 i
    nlinarith
  have h0 : ∀ i, 0 ≤ h i := fun i => by
    have := (abs_le.1 (hh i)).1
    have := c6 i
    nlinarith
  have hS := slack32
  refine settles_rounded (l := l) (h := h) (M := 4) (c := 1/1000) eps32 (by norm_num) (by norm_num) (by norm_num) hl' hh' (fun i => ?_) (fun i => ?_) ‹_› hn hv n i
  · have := abs_le.1 (hl' i)
    have := abs_le.1 (hh' i)
    linarith
  · refine ⟨Kit.pin (armServo i), deg (300 : ℤ), vr, (Kit.freq (armServo i)).1, (Kit.freq (armServo i)).2, deg (lo i), deg (hi i), lit 0, ?_, ev', ?_, el i, el' i, 0, zero_val, l0 i, h0 i⟩
    · rw [hw]; unfold Kit.servos; rw [k1, k2, k3, k8]
    · have := (abs_le.1 hv').1
      push_cast at this
      nlinarith

section
variable {cfg : Cfg F32} {w0 : World F32} {junk : Nat → Byte} {σ : ℕ → Sys F32} {ev : ℕ → Ev F32}

/-- the assumptions of this part: the kit, in binary32; `sqrt` gives no negative number; the firmware never stores a NaN as target or speed of an arm servo,
nor a positive speed below 1/1000 rad/s. -/
structure Kit32 (cfg : Cfg F32) (w0 : World F32) (junk : Nat → Byte) (σ : ℕ → Sys F32) (ev : ℕ → Ev F32) : Prop where
  servos : w0.servos = Kit.servos
  run : Endless cfg w0 junk σ ev
  sqrt : SqrtNonneg binary32
  nums : ∀ n i, ev n ≠ .act (.micro (armServo i) (.setTarget nanRX)) ∧ ev n ≠ .act (.micro (armServo i) (.setVel nanRX))
  fast : ∀ n i v x, ev n = .act (.micro (armServo i) (.setVel v)) → v.val = fin x → x ≤ 0 ∨ 1/1000 ≤ x

theorem Kit32.settles (h : Kit32 cfg w0 junk σ ev) (n : ℕ) (i : Fin 6) : Settles ((σ n).w.servos (armServo i)) := settles_kit32 h.servos h.run h.nums h.fast n i
theorem Kit32.parts (h : Kit32 cfg w0 junk σ ev) : Parts F32 := parts_RX one32 h.sqrt

/-- **C77/4 (binary32)**: the kit comes to rest whenever no instruction begins any more. -/
theorem C77_kit_rounded (h : Kit32 cfg w0 junk σ ev) (n0 : ℕ) (hq : ∀ n, n0 ≤ n → ¬ Orders ev n) :
    ∃ n1, n0 ≤ n1 ∧ ∀ n, n1 ≤ n → (∀ (i : Fin 6) m, ev n ≠ .act (.micro (armServo i) m)) ∧ (∀ i, ((σ n).w.servos (armServo i)).atTarget = true) ∧
      ∀ s, Between σ n s → s.core.rc.isMoving = false :=
  C77_rest h.run h.parts n0 hq fun n _ _ _ i => h.settles n i

/-- **C79 (binary32)**: the kit starts all instructions that are in the queue, in their order. -/
theorem C79_kit_rounded (h : Kit32 cfg w0 junk σ ev) (hf : Fair σ ev) (q : List (List Byte)) {n0 : ℕ} (h1 : ∃ k ≤ n0, ev k = .next) (h2 : (view ev n0).sel = .queue)
    (h3 : ∃ x, (view ev n0).queue = q ++ x) (h4 : KeepsQueue ev n0) (h5 : OnlyAsksNow ev n0) :
    ∃ n, n0 ≤ n ∧ (view ev n).started = (view ev n0).started ++ q :=
  C79_drained h.run h.parts hf q h1 h2 h3 h4 h5 fun n _ _ _ i => h.settles n i

/-- **C80 (binary32)**: the kit reports every numbered instruction it starts. -/
theorem C80_kit_rounded (h : Kit32 cfg w0 junk σ ev) {k : ℕ} {src : Src} {m : List Byte} {n : Int} (hk : ev k = .act (.out (.ghost src m))) (hsrc : src ≠ .immediate)
    (hm : Numbered m n) (hi : OnlyAsksNow ev (k + 1)) (hf : Fair σ ev) :
    ∃ j, k < j ∧ ev j = .act (.out (.msg (.n1 n))) ∧ ∀ i, k < i → i < j → ¬ Orders ev i :=
  C80_reported h.run h.parts hk hsrc hm hi hf fun n _ _ _ i => h.settles n i

/-- **C90 (binary32)**: the kit executes everything a counting host sends. -/
theorem C90_kit_rounded (h : Kit32 cfg w0 junk σ ev) (hf : Fair σ ev) (hc : ∀ n, CountingHost w0.rxq (sofar ev n)) (hq : ∀ n, QueueOnly (sent w0.rxq (sofar ev n))) (n : ℕ) :
    ∃ m, n ≤ m ∧ puts (sent w0.rxq (sofar ev n)) <+: (view ev m).started :=
  C90_executed h.run h.parts hf hc hq (fun n _ _ i => h.settles n i) n

/-- **C95 (binary32)**: the kit repeats its stored program for ever. -/
theorem C95_kit_rounded (h : Kit32 cfg w0 junk σ ev) {L : List (List Byte)} (h0 : HasProgram w0.ee L) {n0 : ℕ} (hrun : ∃ k ≤ n0, ev k = .next) (hsel : (view ev n0).sel = .storage)
    (hL : 2 ≤ (program L (rxBytes (acts (sofar ev n0)))).length) (hk : KeepsStorage ev n0) (hi : OnlyAsksNow ev n0) (hf : Fair σ ev)
    {m : List Byte} (hm : m ∈ (program L (rxBytes (acts (sofar ev n0)))).tail) (n1 : ℕ) : ∃ n, n1 ≤ n ∧ ev n = .act (.out (.ghost .eeprom m)) :=
  C95_again h.run h.parts h0 hrun hsel hL hk hi hf (fun n _ _ _ i => h.settles n i) hm n1
end

/-- non-vacuous: a servo of the kit standing at 0 with target 1 rad at 1 rad/s settles in binary32. -/
example : ∃ s : Servo F32, s.atTarget = false ∧ Settles s := by
  have hbig := b32_big
  have h0 : (i32 0 (by norm_num) : F32).val = fin 0 := by show fin _ = _; norm_num
  have h1 : (i32 1 (by norm_num) : F32).val = fin 1 := by show fin _ = _; norm_num
  refine ⟨{ Servo.new 3 (i32 1 (by norm_num)) 700 2380 (i32 (-1) (by norm_num)) (i32 1 (by norm_num)) (i32 0 (by norm_num)) with target := i32 1 (by norm_num) }, ?_,
    settles_RX (a := 0) (t := 1) (v := 1) eps32 h0 h1 h1 (by norm_num) (by norm_num; linarith) (by norm_num)⟩
  unfold Servo.atTarget
  show XR.lt (XR.abs (binary32.post (XR.sub (i32 0 (by norm_num) : F32).val (i32 1 (by norm_num) : F32).val))) (lit (1/1000000) : F32).val = false
  have he : (lit (1/1000000) : F32).val = fin (binary32.rnd (1/1000000)) := by
    rw [RX.lit_val, show (((1 / 1000000 : Rat)) : ℝ) = (1 / 1000000 : ℝ) by norm_num, binary32.post_fin]
    rw [abs_of_pos (by norm_num)]; linarith
  have h3 := (b32_bounds (x := 1/1000000) (by norm_num)).2
  rw [h0, h1, he, RX.sub_fin, binary32.post_fin (by norm_num; linarith), show (0 : ℝ) - 1 = -1 by norm_num, binary32.odd, one32]
  simp only [XR.abs, XR.lt, abs_neg, abs_one, decide_eq_false_iff_not, not_lt]
  linarith

/-- non-vacuous: the kit in binary32, powered up with an empty storage and nothing on the line. -/
example (hsq : SqrtNonneg binary32) : ∃ (w0 : World F32) (σ : ℕ → Sys F32) (ev : ℕ → Ev F32), Kit32 Kit.cfg w0 (fun _ => 0) σ ev ∧ ∀ n, ¬ Begins ev n := by
  let w0 : World F32 := { servos := Kit.servos, now := 1, pins := fun _ => false, rxq := [], ee := fun _ => 0, outs := [] }
  have hc : StaysCalm (after (Kit.cfg : Cfg F32) ⟨w0, setup Kit.cfg fun _ => 0⟩ 0) := ⟨rfl, rfl, calm_setup Kit.cfg fun _ => 0⟩
  have hstay := fun n => (calm_after (Kit.cfg : Cfg F32) ⟨w0, setup Kit.cfg fun _ => 0⟩ hc n (Nat.zero_le n)).1
  have hs := fun n => (calm_sched (Kit.cfg : Cfg F32) _ (hstay n)).2
  refine ⟨w0, _, _, ⟨rfl, endless (Kit.cfg : Cfg F32) w0 (fun _ => 0) fun n f hf => ?_, hsq, fun n i => ⟨(hs n).2.2.1 _ _, (hs n).2.2.1 _ _⟩, fun n i v x e => absurd e ((hs n).2.2.1 _ _)⟩, fun n hb => ?_⟩
  · have := (hstay n).prog
    rw [show (after (Kit.cfg : Cfg F32) ⟨w0, setup Kit.cfg fun _ => 0⟩ n).1.p = .fault f from hf] at this
    exact this
  · obtain ⟨src, m, e⟩ := hb
    exact (hs n).1 src m e

/-- such a libm exists: the exact square root, rounded. -/
noncomputable example : ∃ L : RX.Libm binary32, @SqrtNonneg binary32 L := by
  refine ⟨⟨fun x => RX.of (XR.sqrt x.val), id, id, id, id, fun x _ => x, fun x _ => x, fun _ => ⟨.nan, trivial⟩⟩, fun x y h => ?_⟩
  have h : binary32.post (XR.sqrt x.val) = fin y := h
  cases hx : x.val with
  | nan => rw [hx] at h; cases h
  | inf b => rw [hx] at h; cases b <;> cases h
  | fin z =>
    rw [hx] at h
    simp only [XR.sqrt] at h
    split at h
    · cases h
    · rcases binary32.post_pos (Real.sqrt_nonneg z) with e | e
      · rw [e] at h; injection h with h; rw [← h]; exact binary32.rnd_nonneg (Real.sqrt_nonneg z)
      · rw [e] at h; cases h

end Mrc.Props
