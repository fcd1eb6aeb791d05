import Verif.Proof.Brisk32
import Verif.Proof.Brisk
/-
C107: in binary32, with a host that moves the arm by joint angles and does not ask for crawling speeds, the arm servos settle, provided the servo interrupt does not
fall into the command of a slow servo.
-/
set_option linter.unusedSimpArgs false
set_option linter.unusedSectionVars false
namespace Mrc.Brisk32
open Mrc Mrc.Spec Mrc.Prog Mrc.Props Mrc.Ang XR
open Mrc.Brisk (servo_step proj_stays next_act no_act last_next)
open scoped Mrc.Num
variable [L : RX.Libm binary32]

/-- the way of the servo fits its speed. -/
def Fit (s : Servo F32) : Prop := ∃ a t v : ℝ, s.start.val = fin a ∧ s.target.val = fin t ∧ s.vel.val = fin v ∧ 0 < v ∧ |t| ≤ 4 ∧ |t - a| ≤ 10 ∧ (|t - a| ≤ 1/10000000 ∨ |t - a| ≤ v * T')

/-- a fast enough servo has arrived when the timer overflows. -/
theorem timer32 {v d : ℝ} (h0 : 1/10000000 < d) (hd : d ≤ v * T') {n : ℕ} (hn : 4294967276 ≤ n) : binary32.rnd d < RX.deltaR binary32 v n := by
  have hv : 0 < v := by unfold T' at hd; linarith
  have hn' : (4294967276 : ℝ) ≤ n := by exact_mod_cast hn
  have e1000 : binary32.rnd 1000 = 1000 := by have := b32_nat (n := 1000) (by norm_num); simpa using this
  have a1 := (b32_bounds (x := (n : ℝ)) (by linarith)).1
  have a2 : (4290000000 : ℝ) ≤ binary32.rnd n := by linarith
  have a3 : v * 4290000000 ≤ v * binary32.rnd n := mul_le_mul_of_nonneg_left a2 hv.le
  have b1 := (b32_bounds (x := v * binary32.rnd n) (by linarith [mul_pos hv (show (0:ℝ) < 4290000000 by norm_num)])).1
  have b2 : v * 4280000000 - 1 / 10 ^ 40 ≤ binary32.rnd (v * binary32.rnd n) := by linarith
  have e40 : (1 : ℝ) / 10 ^ 40 ≤ 1 / 10 ^ 20 := by norm_num
  have e20 : (1 : ℝ) / 10 ^ 20 ≤ 1/10000000000 := by norm_num
  have v1 : 1/10000000 < v * 2100000 := by unfold T' at hd; linarith
  have d1 := (b32_bounds (x := binary32.rnd (v * binary32.rnd n) / 1000) (by linarith)).1
  have f1 := (b32_bounds (x := d) (by linarith)).2
  unfold RX.deltaR
  rw [e1000]
  unfold T' at hd
  linarith

/-- a servo whose way is negligible is there, whatever its timer. -/
theorem near_tick {s : Servo F32} {a t v : ℝ} (h1 : s.start.val = fin a) (h2 : s.target.val = fin t) (h3 : s.vel.val = fin v) (hv : 0 < v) (ht : |t| ≤ 4) (hd : |t - a| ≤ 1/10000000) :
    (s.tick 20).atTarget = true ∧ ∃ a', (s.tick 20).start.val = fin a' ∧ (s.tick 20).target.val = fin t ∧ (s.tick 20).vel.val = fin v ∧ |t - a'| ≤ 1/10000000 := by
  have hb := b32_big
  have el : ∃ y, (lit (1/1000000) : F32).val = fin y ∧ 99/100000000 ≤ y := by
    have := (b32_bounds (x := 1/1000000) (by norm_num)).1
    refine ⟨binary32.rnd (1/1000000), ?_, by norm_num at this ⊢; linarith⟩
    rw [RX.lit_val, show (((1 / 1000000 : Rat)) : ℝ) = (1 / 1000000 : ℝ) by norm_num, binary32.post_fin]
    rw [abs_of_pos (by norm_num)]; norm_num at hb ⊢; linarith
  obtain ⟨y, ey, hy⟩ := el
  have at_ : ∀ (s : Servo F32) (c : ℝ), s.cur.val = fin c → s.target.val = fin t → |c - t| ≤ 9/10000000 → s.atTarget = true := by
    intro s c e1 e2 hc
    unfold Servo.atTarget
    show XR.lt (XR.abs (binary32.post (XR.sub s.cur.val s.target.val))) (lit (1/1000000) : F32).val = true
    rw [e1, e2, ey, RX.sub_fin, binary32.post_fin (by norm_num at hb ⊢; linarith)]
    have := (b32_bounds (abs_nonneg (c - t))).2
    simp only [XR.abs, XR.lt, binary32.abs_rnd, decide_eq_true_eq]
    norm_num at this ⊢
    linarith
  rcases RX.tick_rx h1 h2 h3 hv.le (by norm_num at hb ⊢; linarith) 20 with ⟨e, _⟩ | ⟨d0, d1, e⟩
  · rw [e]
    exact ⟨at_ _ t h2 h2 (by rw [sub_self, abs_zero]; norm_num), t, h2, h2, h3, by rw [sub_self, abs_zero]; norm_num⟩
  · rw [e]
    have f1 := (b32_bounds (abs_nonneg (t - a))).2
    generalize RX.deltaR binary32 v (u32 (s.elapsed + 20)) = δ at *
    have hδ : δ ≤ 11/100000000 := by norm_num at f1 ⊢; linarith
    have hza : |(if a < t then a + δ else a - δ) - a| ≤ 11/100000000 := by
      split
      · rw [add_sub_cancel_left, abs_of_nonneg d0]; exact hδ
      · rw [sub_sub_cancel_left, abs_neg, abs_of_nonneg d0]; exact hδ
    generalize (if a < t then a + δ else a - δ) = z at *
    have A := abs_le.1 hza
    have B := abs_le.1 hd
    have B' := abs_le.1 ht
    have hz5 : |z| ≤ 5 := abs_le.2 ⟨by linarith, by linarith⟩
    have hr := abs_le.1 ((b32_err z).trans (show _ ≤ (3:ℝ)/10000000 + 1/10000000 by norm_num at *; linarith))
    refine ⟨at_ _ (binary32.rnd z) ?_ h2 (abs_le.2 ⟨by linarith [hr.1], by linarith [hr.2]⟩), a, h1, h2, h3, hd⟩
    show binary32.post (fin _) = _
    rw [binary32.post_fin (by norm_num at hb ⊢; linarith)]

theorem Fit.settles {s : Servo F32} (h : Fit s) : Settles s := by
  obtain ⟨a, t, v, h1, h2, h3, h4, h5, h6, h7⟩ := h
  by_cases hs : |t - a| ≤ 1/10000000
  · have key : ∀ k (s : Servo F32) (a : ℝ), s.start.val = fin a → s.target.val = fin t → s.vel.val = fin v → |t - a| ≤ 1/10000000 → ((fun s => s.tick 20)^[k + 1] s).atTarget = true := by
      intro k
      induction k with
      | zero => intro s a g1 g2 g3 g4; exact (near_tick g1 g2 g3 h4 h5 g4).1
      | succ k ih =>
        intro s a g1 g2 g3 g4
        obtain ⟨_, a', e1, e2, e3, e4⟩ := near_tick g1 g2 g3 h4 h5 g4
        rw [Function.iterate_succ_apply]
        exact ih _ a' e1 e2 e3 e4
    refine ⟨1, fun k hk => ?_⟩
    obtain ⟨d, rfl⟩ := Nat.exists_eq_add_of_le hk
    rw [Nat.add_comm]
    exact key d s a h1 h2 h3 hs
  · have h7 := h7.resolve_left hs
    have hb := b32_big
    exact settles_timer eps32 h1 h2 h3 h4 (by norm_num at hb ⊢; linarith) fun n hn _ => timer32 (not_le.1 hs) h7 hn

theorem Fit.tick {s : Servo F32} (h : Fit s) (d : ℕ) : Fit (s.tick d) := by
  obtain ⟨a, t, v, h1, h2, h3, h4, h5, h6, h7⟩ := h
  have hb := b32_big
  rcases RX.tick_rx h1 h2 h3 h4.le (by norm_num at hb ⊢; linarith) d with ⟨e, _⟩ | ⟨_, _, e⟩ <;> rw [e]
  · exact ⟨t, t, v, h2, h2, h3, h4, h5, by rw [sub_self, abs_zero]; norm_num, .inl (by rw [sub_self, abs_zero]; norm_num)⟩
  · exact ⟨a, t, v, h1, h2, h3, h4, h5, h6, h7⟩

/-- the speed a servo takes. -/
theorem clamp32 {m v : F32} {mr : ℝ} (hm : m.val = fin mr) (h0 : 1/1000 ≤ mr) (hv : NN v) :
    ∃ u, (Servo.clampVel m v).val = fin u ∧ (1/1000 ≤ u ∨ v.val = fin u ∧ 0 < u) := by
  have ht : ∃ t, (lit (1/10) : F32).val = fin t ∧ 1/1000 ≤ t := by
    have h := (b32_bounds (x := 1/10) (by norm_num)).1
    have hb := b32_big
    refine ⟨binary32.rnd (1/10), ?_, by norm_num at h ⊢; linarith⟩
    rw [RX.lit_val, show (((1 / 10 : Rat)) : ℝ) = (1 / 10 : ℝ) by norm_num, binary32.post_fin]
    rw [abs_of_pos (by norm_num)]; norm_num at hb ⊢; linarith
  unfold Servo.clampVel
  split
  · exact ⟨mr, hm, .inl h0⟩
  · rename_i k1
    split
    · obtain ⟨t, e, h⟩ := ht; exact ⟨t, e, .inl h⟩
    · rename_i k2
      have k1' : XR.lt m.val v.val ≠ true := k1
      have k2' : XR.le v.val (lit 0 : F32).val ≠ true := k2
      rw [zero_val] at k2'
      rw [hm] at k1'
      cases hv' : v.val with
      | fin x =>
        rw [hv'] at k2'
        simp [XR.le] at k2'
        exact ⟨x, rfl, .inr ⟨rfl, k2'⟩⟩
      | inf b => rw [hv'] at k1' k2'; cases b <;> simp [XR.lt, XR.le] at k1' k2'
      | nan => exact absurd hv' hv

variable {cfg : Cfg F32} {w0 : World F32} {junk : Nat → Byte} {σ : ℕ → Sys F32} {ev : ℕ → Ev F32} {lo hi : Fin 6 → F32} {l h : Fin 6 → ℝ}

section
variable (hE : Endless cfg w0 junk σ ev)
include hE

/-- without a store into servo `i` it stays fit. -/
theorem fit_step {n : ℕ} {i : Fin 6} (hn : ∀ m, ev n ≠ .act (.micro (armServo i) m)) (hf : Fit ((σ n).w.servos (armServo i))) : Fit ((σ (n + 1)).w.servos (armServo i)) := by
  rw [do_servos (hE.step n) (armServo i)]
  generalize he : ev n = e at hn
  match e, hn with
  | .isr, _ => exact hf.tick 20
  | .act (.micro j m), hn =>
    simp only [evServo]
    rw [if_neg (fun e => hn m (by rw [e]))]; exact hf
  | .act (.servo _ _), _ | .act (.now _), _ | .act (.pin _ _), _ | .act (.rx _), _ | .act (.eeRead _), _ | .act (.eeWrite _ _), _
  | .act (.out _), _ | .next, _ | .clock _, _ | .pins _, _ | .arrive _, _ => exact hf

theorem fit_stays {a b : ℕ} {i : Fin 6} (hab : a ≤ b) (hn : ∀ j, a ≤ j → j < b → ∀ m, ev j ≠ .act (.micro (armServo i) m)) (hf : Fit ((σ a).w.servos (armServo i))) :
    Fit ((σ b).w.servos (armServo i)) := by
  induction b, hab using Nat.le_induction with
  | base => exact hf
  | succ b hb ih => exact fit_step hE (hn b hb (by omega)) (ih fun j h1 h2 => hn j h1 (by omega))

/-- a command leaves the servo fit. -/
theorem fit_command (hS : ∀ n, Servos2 lo hi l h (σ n).w) (C : Compact cfg.toRCfg l h) (hu : Undivided32 ev) {i : Fin 6} {x y : Servo F32} {c tr : ℝ} {t v : F32} (hc : x.cur.val = fin c)
    (htv : t.val = fin tr) (hsuit : Suits c tr v) {n1 n2 n3 n4 n5 n6 : ℕ} (o12 : n1 < n2) (o23 : n2 < n3) (o34 : n3 < n4) (o45 : n4 < n5) (o56 : n5 < n6)
    (e1 : ev n1 = .act (.servo (armServo i) x)) (e2 : ev n2 = .act (.micro (armServo i) (.setVel v))) (e3 : ev n3 = .act (.servo (armServo i) y))
    (e4 : ev n4 = .act (.micro (armServo i) (.setStart y.cur))) (e5 : ev n5 = .act (.micro (armServo i) .zeroElapsed)) (e6 : ev n6 = .act (.micro (armServo i) (.setTarget t)))
    (q12 : ∀ j, n1 + 1 ≤ j → j < n2 → ∀ z, ev j ≠ .act z) (q23 : ∀ j, n2 + 1 ≤ j → j < n3 → ∀ z, ev j ≠ .act z) (q34 : ∀ j, n3 + 1 ≤ j → j < n4 → ∀ z, ev j ≠ .act z)
    (q45 : ∀ j, n4 + 1 ≤ j → j < n5 → ∀ z, ev j ≠ .act z) (q56 : ∀ j, n5 + 1 ≤ j → j < n6 → ∀ z, ev j ≠ .act z)
    (qn : ∀ j, n1 < j → j < n6 → ev j ≠ .next) : Fit ((σ (n6 + 1)).w.servos (armServo i)) := by
  -- where the accesses between the stores are
  have hall : ∀ j, n1 < j → j < n6 → ∀ z, ev j = .act z → j = n2 ∨ j = n3 ∨ j = n4 ∨ j = n5 := by
    intro j g1 g2 z hz
    by_contra hcon
    simp only [not_or] at hcon
    rcases Nat.lt_or_ge j n2 with g | g
    · exact q12 j (by omega) g z hz
    rcases Nat.lt_or_ge j n3 with g | g
    · exact q23 j (by omega) g z hz
    rcases Nat.lt_or_ge j n4 with g | g
    · exact q34 j (by omega) g z hz
    rcases Nat.lt_or_ge j n5 with g | g
    · exact q45 j (by omega) g z hz
    · exact q56 j (by omega) g2 z hz
  obtain ⟨m, em, hm⟩ := (hS n2).fast i
  obtain ⟨u, eu, hu'⟩ := clamp32 em hm hsuit.1
  -- the speed
  have ev6 : ((σ n6).w.servos (armServo i)).vel.val = fin u := by
    have ha : ((σ (n2 + 1)).w.servos (armServo i)).vel.val = fin u := by
      rw [servo_step hE, e2]
      simp only [evServo, if_true, Servo.micro]
      exact eu
    rw [← ha]
    congr 1
    refine proj_stays hE Servo.vel (by omega) fun j g1 g2 => ?_
    cases hj : ev j with
    | isr => simp only [evServo]; exact (tick_vel _ _).1
    | act z =>
      rcases hall j (by omega) g2 z hj with e | e | e | e
      · omega
      · rw [e, e3] at hj; injection hj with hj; subst hj; rfl
      · rw [e, e4] at hj; injection hj with hj; subst hj; simp [evServo, Servo.micro]
      · rw [e, e5] at hj; injection hj with hj; subst hj; simp [evServo, Servo.micro]
    | _ => rfl
  -- the rest of the record after the last store
  obtain ⟨a, ea, a1, a2⟩ := ((hS n6).good i).1.start
  have hlast : (σ (n6 + 1)).w.servos (armServo i) = { (σ n6).w.servos (armServo i) with target := t } := by
    rw [servo_step hE, e6]; simp [evServo, Servo.micro]
  obtain ⟨t', et', t1, t2⟩ := ((hS (n6 + 1)).good i).1.target
  have : t' = tr := by
    rw [hlast] at et'
    have et' : t.val = fin t' := et'
    rw [htv] at et'; injection et' with et'; exact et'.symm
  subst this
  have hab : |t' - a| ≤ 10 := way C t1 t2 a1 a2
  have ht4 : |t'| ≤ 4 := by
    have h1 := abs_le.1 (C.l i)
    have h2 := abs_le.1 (C.h i)
    exact abs_le.2 ⟨by linarith, by linarith⟩
  rw [hlast]
  by_cases g3 : 1/1000 ≤ u
  · exact ⟨a, t', u, ea, htv, ev6, by linarith, ht4, hab, .inr (by unfold T'; linarith)⟩
  · obtain ⟨g1, g2⟩ := hu'.resolve_left g3
    rw [not_le] at g3
    -- a slow servo: nothing moved it between the readings
    have hno := hu i x v u t n1 n2 n6 o12 (by omega) g1 g2 g3 e1 e2 e6 (fun j k1 k2 => q12 j (by omega) k2) (fun j k1 k2 z hz => by
      rcases hall j (by omega) k2 z hz with e | e | e | e
      · omega
      · rw [e, e3] at hz; injection hz with hz; exact .inl ⟨y, hz.symm⟩
      · rw [e, e4] at hz; injection hz with hz; exact .inr (.inl ⟨_, hz.symm⟩)
      · rw [e, e5] at hz; injection hz with hz; exact .inr (.inr hz.symm)) qn
    have ex := hE.read e1
    have ey := hE.read e3
    have hcur : y.cur = x.cur := by
      rw [ex, ey]
      refine proj_stays hE Servo.cur (by omega) fun j k1 k2 => ?_
      cases hj : ev j with
      | isr =>
        rcases Nat.eq_or_lt_of_le k1 with rfl | k1
        · rw [e1] at hj; cases hj
        · exact absurd hj (hno j k1 (by omega))
      | act z =>
        rcases Nat.eq_or_lt_of_le k1 with rfl | k1
        · rw [e1] at hj; injection hj with hj; subst hj; rfl
        · rcases hall j k1 (by omega) z hj with e | e | e | e
          · rw [e, e2] at hj; injection hj with hj; subst hj; simp [evServo, Servo.micro]
          all_goals omega
      | _ => rfl
    have hstart : ((σ n6).w.servos (armServo i)).start = x.cur := by
      have ha : ((σ (n4 + 1)).w.servos (armServo i)).start = x.cur := by
        rw [servo_step hE, e4]
        simp only [evServo, if_true, Servo.micro]
        rw [hcur]
      rw [← ha]
      refine proj_stays hE Servo.start (by omega) fun j k1 k2 => ?_
      cases hj : ev j with
      | isr => exact absurd hj (hno j (by omega) k2)
      | act z =>
        rcases hall j (by omega) k2 z hj with e | e | e | e
        · omega
        · omega
        · omega
        · rw [e, e5] at hj; injection hj with hj; subst hj; simp [evServo, Servo.micro]
      | _ => rfl
    have eac : a = c := by
      rw [hstart, hc] at ea; injection ea with ea; exact ea.symm
    subst eac
    exact ⟨a, t', u, ea, htv, ev6, g2, ht4, hab, (hsuit.2 u g1).resolve_left (by linarith)⟩

/-- a sequence of commands leaves the servos fit. -/
theorem fit_blocks (hS : ∀ n, Servos2 lo hi l h (σ n).w) (C : Compact cfg.toRCfg l h) (hu : Undivided32 ev) {al : List (Act F32)} (hl : Blocks al) {a k : ℕ}
    (he : acts (span ev a k) = al) (hx : ∀ j, a ≤ j → j < a + k → ev j ≠ .next) (i : Fin 6) (hf : Fit ((σ a).w.servos (armServo i))) : Fit ((σ (a + k)).w.servos (armServo i)) := by
  induction hl generalizing a k with
  | nil => exact fit_stays hE (by omega) (fun j h1 h2 m => no_act he j h1 h2 _) hf
  | @plain x l hp _ ih =>
    obtain ⟨n, h1, h2, h3, h4, h5⟩ := next_act he
    have := ih h5 (fun j g1 g2 => hx j (by omega) (by omega)) (fit_stays hE (by omega) (fun j g1 g2 m => ?_) hf)
    · rwa [show n + 1 + (a + k - (n + 1)) = a + k by omega] at this
    · rcases Nat.lt_or_ge j n with g | g
      · exact h4 j g1 g _
      · rw [show j = n by omega, h3]; intro e; injection e with e; exact hp i m e
  | @command g l hg _ ih =>
    obtain ⟨i', x, y, c, t, tr, v, hc, ht, hs, rfl⟩ := hg
    obtain ⟨n1, a1, b1, e1, q1, r1⟩ := next_act he
    obtain ⟨n2, a2, b2, e2, q2, r2⟩ := next_act r1
    obtain ⟨n3, a3, b3, e3, q3, r3⟩ := next_act r2
    obtain ⟨n4, a4, b4, e4, q4, r4⟩ := next_act r3
    obtain ⟨n5, a5, b5, e5, q5, r5⟩ := next_act r4
    obtain ⟨n6, a6, b6, e6, q6, r6⟩ := next_act r5
    have key : Fit ((σ (n6 + 1)).w.servos (armServo i)) := by
      by_cases hi : i = i'
      · subst hi
        exact fit_command hE hS C hu hc ht hs (by omega) (by omega) (by omega) (by omega) (by omega) e1 e2 e3 e4 e5 e6 q2 q3 q4 q5 q6
          fun j g1 g2 => hx j (by omega) (by omega)
      · refine fit_stays hE (by omega) (fun j g1 g2 m hm => ?_) hf
        have hne : armServo i ≠ armServo i' := fun e => hi (armServo_inj e)
        rcases Nat.lt_or_ge j n1 with g | g
        · exact q1 j g1 g _ hm
        rcases Nat.eq_or_lt_of_le g with rfl | g
        · rw [e1] at hm; cases hm
        rcases Nat.lt_or_ge j n2 with g' | g'
        · exact q2 j (by omega) g' _ hm
        rcases Nat.eq_or_lt_of_le g' with rfl | g'
        · rw [e2] at hm; injection hm with hm; injection hm with hm; exact hne hm.symm
        rcases Nat.lt_or_ge j n3 with g' | g'
        · exact q3 j (by omega) g' _ hm
        rcases Nat.eq_or_lt_of_le g' with rfl | g'
        · rw [e3] at hm; cases hm
        rcases Nat.lt_or_ge j n4 with g' | g'
        · exact q4 j (by omega) g' _ hm
        rcases Nat.eq_or_lt_of_le g' with rfl | g'
        · rw [e4] at hm; injection hm with hm; injection hm with hm; exact hne hm.symm
        rcases Nat.lt_or_ge j n5 with g' | g'
        · exact q5 j (by omega) g' _ hm
        rcases Nat.eq_or_lt_of_le g' with rfl | g'
        · rw [e5] at hm; injection hm with hm; injection hm with hm; exact hne hm.symm
        rcases Nat.lt_or_ge j n6 with g' | g'
        · exact q6 j (by omega) g' _ hm
        · rw [show j = n6 by omega, e6] at hm; injection hm with hm; injection hm with hm; exact hne hm.symm
    have := ih r6 (fun j g1 g2 => hx j (by omega) (by omega)) key
    rwa [show n6 + 1 + (n5 + 1 + (n4 + 1 + (n3 + 1 + (n2 + 1 + (n1 + 1 + (a + k - (n1 + 1)) - (n2 + 1)) - (n3 + 1)) - (n4 + 1)) - (n5 + 1)) - (n6 + 1)) = a + k by omega] at this
end

/-- the accesses of a pass. -/
theorem pass_blocks (C : Compact cfg.toRCfg l h) (H : AngleRobot cfg.toRCfg l h 4) (el : ∀ i, (lo i).val = fin (l i)) (eh : ∀ i, (hi i).val = fin (h i)) {s s' : FW F32} {tr : List (Act F32)}
    (hx : Exec (loopBody cfg s) tr (.ret s')) (hc : CoreBrisk s.core) (hE : ∀ a ∈ tr, E2 lo hi l h a) : Blocks tr := by
  unfold loopBody at hx
  simp only [bind_def] at hx
  obtain ⟨a, t1, u, rfl, h1, hx⟩ := exec_bind_ret hx
  obtain ⟨b, t2, u, rfl, h2, hx⟩ := exec_bind_ret hx
  obtain ⟨s2, t3, u, rfl, h3, hx⟩ := exec_bind_ret hx
  obtain ⟨c3, t4, t5, rfl, h4, h5⟩ := exec_bind_ret hx
  obtain ⟨r1, t1', u1, rfl, k1, h1'⟩ := exec_bind_ret h1
  obtain ⟨rfl, e1⟩ := exec_ret h1'
  have e1 : a = { s with core := { s.core with rc := r1 } } := by simpa using e1
  subst e1
  obtain ⟨r2, t2', u2, rfl, k2, h2'⟩ := exec_bind_ret h2
  obtain ⟨rfl, e2⟩ := exec_ret h2'
  obtain ⟨b1, f1, g1⟩ := process_blocks C H el eh hc.1.2 hc.2 k1 fun a ha => hE a (by simp [ha])
  obtain ⟨b2, f2, g2⟩ := process_blocks C H el eh f1 g1 k2 fun a ha => hE a (by simp [ha])
  have p3 : Blocks t3 := blocks_plain fun x hx i m => (only_exec h3 (serial_arm cfg SERIAL_BYTES _)).1 x hx i m
  have p4 : Blocks t4 := blocks_plain fun x hx i m he => by
    have := (only_exec h4 (mrilProcess_only _)).1 x hx
    rw [he] at this; exact this
  have p5 : Blocks t5 := blocks_plain fun x hx i m => (only_exec h5 (process_arm cfg _)).1 x hx i m
  exact (b1.append .nil).append ((b2.append .nil).append (p3.append (p4.append p5)))

/-- between two passes all arm servos are fit. -/
theorem fit_between (C : Compact cfg.toRCfg l h) (H : AngleRobot cfg.toRCfg l h 4) (hm : cfg.pinMap.length = 10) (el : ∀ i, (lo i).val = fin (l i)) (eh : ∀ i, (hi i).val = fin (h i))
    (h0 : Servos2 lo hi l h w0) (hf0 : ∀ i, Fit (w0.servos (armServo i))) (hmem : Program InstrText w0.ee) (hE : Endless cfg w0 junk σ ev)
    (hc : ∀ n, Clean (FrameOK NowText InstrText) (w0.rxq ++ arrivals (sofar ev n))) (hu : Undivided32 ev) (n : ℕ) : ∀ s, Between σ n s → ∀ i, Fit ((σ n).w.servos (armServo i)) := by
  have hrun := fun n => brisk_run hm C H el eh h0 hmem (hE.run n) (hc n)
  have hS := fun n => (hrun n).1
  have hEv : ∀ n x, ev n = .act x → E2 lo hi l h x := by
    intro n x hx
    cases x with
    | servo i s =>
      have := hE.read hx
      subst this
      exact (hS n).env i
    | _ => exact env_other (fun i s e => by cases e)
  induction n using Nat.strong_induction_on with
  | _ n ih =>
    intro s hs i
    rcases last_next ev n with ⟨a, h1, h2, h3⟩ | h1
    · obtain ⟨s0, hb, hp, hw⟩ := hE.atNext h2
      have hfa := ih a h1 s0 hb i
      have hx := hE.exec (a + 1) (n - (a + 1)) fun j g1 g2 => h3 j (by omega) (by omega)
      rw [hp, show a + 1 + (n - (a + 1)) = n by omega, show (σ n).p = .ret s from hs] at hx
      have hbl := pass_blocks C H el eh hx ((hrun a).2 s0 hb) fun x hx => by
        obtain ⟨j, _, _, e⟩ := mem_span.1 (acts_mem.1 hx)
        exact hEv j x e
      have := fit_blocks hE hS C hu hbl rfl (fun j g1 g2 => h3 j (by omega) (by omega)) i (by rw [hw]; exact hfa)
      rwa [show a + 1 + (n - (a + 1)) = n by omega] at this
    · have hx := hE.exec 0 n fun j g1 g2 => h1 j (by omega)
      rw [hE.boot] at hx
      have ho : (setup cfg junk).only (fun a : Act F32 => ∀ i m, a ≠ .micro i m) (fun _ => True) := by
        simp only [setup, RC.new, RC.getCurrentPose, RC.getCurrentLogicalAngles, RC.readAngles, readServo, bind_def, pure_def, Prog.bind, Prog.only]
        simp
      have hno := (only_exec hx ho).1
      have hfz : Fit ((σ 0).w.servos (armServo i)) := by rw [hE.boot]; exact hf0 i
      refine fit_stays hE (Nat.zero_le n) (fun j g1 g2 m e => ?_) hfz
      exact hno _ (acts_mem.2 (mem_span.2 ⟨j, g1, by omega, e⟩)) _ m rfl

end Mrc.Brisk32
