import Verif.Props.Rounding
/-
The servo and the robot kit in IEEE binary32 arithmetic: arrival, accuracy, pulse widths, configured limits.
-/
set_option linter.unusedSectionVars false
set_option linter.unusedSimpArgs false
namespace Mrc.Props
open Mrc Mrc.Spec Mrc.Prog XR
open scoped Mrc.Num

theorem b32_err (x : ℝ) : |binary32.rnd x - x| ≤ 1 / 16777216 * |x| + 1 / 10 ^ 40 := by
  refine (Binary32.rnd_err x).trans ?_
  have h1 : (1 : ℝ) / 2 ^ 24 = 1 / 16777216 := by norm_num
  have h2 : (1 : ℝ) / 2 ^ 150 ≤ 1 / 10 ^ 40 := by norm_num
  rw [h1]; linarith

theorem b32_big : (10 : ℝ) ^ 30 ≤ binary32.big := by
  show (10 : ℝ) ^ 30 ≤ ((2 ^ 24 - 1 : ℤ) : ℝ) * (2 : ℝ) ^ (104 : ℤ)
  norm_num

theorem b32_nat {n : ℕ} (h : n ≤ 16777216) : binary32.rnd n = n := by
  have := Binary32.rnd_grid (k := (n : ℤ)) (m := 0) (by rw [abs_of_nonneg (by positivity)]; exact_mod_cast h) (by norm_num)
  simp only [zpow_zero, mul_one, Int.cast_natCast] at this
  exact this

theorem b32_int {n : ℤ} (h : |n| ≤ 16777216) : binary32.rnd n = n := by
  have := Binary32.rnd_grid (k := n) (m := 0) (by exact_mod_cast h) (by norm_num)
  simp only [zpow_zero, mul_one] at this
  exact this

theorem b32_bounds {x : ℝ} (h : 0 ≤ x) : x * (1 - 1 / 16777216) - 1 / 10 ^ 40 ≤ binary32.rnd x ∧ binary32.rnd x ≤ x * (1 + 1 / 16777216) + 1 / 10 ^ 40 := by
  have := abs_le.1 (b32_err x)
  rw [abs_of_nonneg h] at this
  constructor <;> linarith [this.1, this.2]

/-- the distance the code computes for `n` ms at `v` rad/s, against the exact one. -/
theorem delta32 {v : ℝ} (h0 : 0 ≤ v) (h1 : v ≤ 1000) {n : ℕ} (hn : n < 4294967296) :
    v * n / 1000 * (1 - 1 / 5000000) - 1 / 10 ^ 38 ≤ RX.deltaR binary32 v n ∧ RX.deltaR binary32 v n ≤ v * n / 1000 * (1 + 1 / 5000000) + 1 / 10 ^ 38 := by
  have hn0 : (0 : ℝ) ≤ n := Nat.cast_nonneg n
  unfold RX.deltaR
  have ek : binary32.rnd 1000 = 1000 := by have := b32_nat (n := 1000) (by norm_num); exact_mod_cast this
  rw [ek]
  obtain ⟨a1, a2⟩ := b32_bounds hn0
  have a0 := binary32.rnd_nonneg hn0
  generalize binary32.rnd (n : ℝ) = a at *
  obtain ⟨b1, b2⟩ := b32_bounds (mul_nonneg h0 a0)
  have b0 := binary32.rnd_nonneg (mul_nonneg h0 a0)
  have va1 : v * a ≤ v * (n * (1 + 1 / 16777216) + 1 / 10 ^ 40) := mul_le_mul_of_nonneg_left a2 h0
  have va2 : v * (n * (1 - 1 / 16777216) - 1 / 10 ^ 40) ≤ v * a := mul_le_mul_of_nonneg_left a1 h0
  have vn : 0 ≤ v * n := mul_nonneg h0 hn0
  generalize binary32.rnd (v * a) = b at *
  obtain ⟨d1, d2⟩ := b32_bounds (show 0 ≤ b / 1000 by linarith)
  generalize binary32.rnd (b / 1000) = d at *
  have q1 : v * (n * (1 + 1 / 16777216) + 1 / 10 ^ 40) = (v * n) * (1 + 1 / 16777216) + v * (1 / 10 ^ 40) := by ring
  have q2 : v * (n * (1 - 1 / 16777216) - 1 / 10 ^ 40) = (v * n) * (1 - 1 / 16777216) - v * (1 / 10 ^ 40) := by ring
  rw [q1] at va1
  rw [q2] at va2
  generalize v * n = p at *
  generalize v * a = q at *
  clear q1 q2 a1 a2
  constructor
  · norm_num at *; linarith
  · norm_num at *; linarith

variable [RX.Libm binary32]
/-- the type of `float`. -/
abbrev F32 := RX binary32

theorem delta_fin32 {v : F32} {x : ℝ} (hv : v.val = fin x) (h0 : 0 ≤ x) (h1 : x ≤ 1000) {n : ℕ} (hn : n < 4294967296) :
    (RX.delta v n).val = fin (RX.deltaR binary32 x n) := by
  have hn0 : (0 : ℝ) ≤ n := Nat.cast_nonneg n
  have hn1 : (n : ℝ) ≤ 4294967296 := by exact_mod_cast hn.le
  have ek : binary32.rnd 1000 = 1000 := by have := b32_nat (n := 1000) (by norm_num); exact_mod_cast this
  have hb := b32_big
  obtain ⟨k, hk, ek', _, _⟩ := RX.thousand (R := binary32)
  have hk2 : k = 1000 := ek'.trans ek
  unfold RX.delta RX.deltaR
  have a0 := binary32.rnd_nonneg hn0
  obtain ⟨_, a2⟩ := b32_bounds hn0
  have a3 : binary32.rnd (n : ℝ) ≤ 10000000000 := by linarith
  have p0 : 0 ≤ x * binary32.rnd n := mul_nonneg h0 a0
  have p1 : x * binary32.rnd n ≤ 1000 * 10000000000 := mul_le_mul h1 a3 a0 (by norm_num)
  rw [RX.div_val, RX.mul_val, hv, RX.ofNat_val hn, hk, hk2, ek]
  simp only [XR.mul]
  rw [binary32.post_fin (by rw [abs_of_nonneg p0]; norm_num at *; linarith)]
  simp only [XR.div, if_neg (show (1000 : ℝ) ≠ 0 by norm_num)]
  obtain ⟨_, b2⟩ := b32_bounds p0
  have b0 := binary32.rnd_nonneg p0
  rw [binary32.post_fin]
  rw [abs_of_nonneg (by linarith)]; norm_num at *; linarith

/-! ### C38 -/

/-- a servo on its way from `c` to `tg` for `T` ms. -/
structure GoingRX (s : Servo F32) (c tg v : ℝ) (T : ℕ) : Prop where
  start : s.start.val = fin c
  target : s.target.val = fin tg
  vel : s.vel.val = fin v
  elapsed : s.elapsed = T

/-- a servo that rests at its target. -/
structure ThereRX (s : Servo F32) (t : F32) (v : ℝ) : Prop where
  start : s.start = t
  target : s.target = t
  cur : s.cur = t
  vel : s.vel.val = fin v

theorem there_tick32 {s : Servo F32} {t : F32} {tg v : ℝ} (ht : t.val = fin tg) (hv : 0 ≤ v) (h : ThereRX s t v) (dt : ℕ) : ThereRX (s.tick dt) t v := by
  have hz : |tg - tg| ≤ binary32.big := by rw [sub_self, abs_zero]; have := binary32.big_ge; linarith
  have e1 : s.start.val = fin tg := by rw [h.start, ht]
  have e2 : s.target.val = fin tg := by rw [h.target, ht]
  rcases RX.tick_rx e1 e2 h.vel hv hz dt with ⟨e, _⟩ | ⟨d0, d1, e⟩
  · rw [e]; exact ⟨h.target, h.target, h.target, h.vel⟩
  · rw [e]
    rw [sub_self, abs_zero, binary32.rnd_zero] at d1
    have d2 := le_antisymm d1 d0
    refine ⟨h.start, h.target, ?_, h.vel⟩
    simp only [lt_irrefl, if_false, d2, sub_zero]
    apply RX.ext
    rw [ht]
    show binary32.post (fin tg) = fin tg
    obtain ⟨g1, g2⟩ := rx_grid ht
    rw [binary32.post_fin g2, g1]

theorem there_ticks32 {t : F32} {tg v : ℝ} (ht : t.val = fin tg) (hv : 0 ≤ v) (ds : List ℕ) : ∀ {s : Servo F32}, ThereRX s t v → ThereRX (ds.foldl Servo.tick s) t v := by
  induction ds with
  | nil => intro s h; exact h
  | cons d ds ih => intro s h; exact ih (there_tick32 ht hv h d)

theorem going_tick32 {s : Servo F32} {c tg v : ℝ} {T : ℕ} (hv : 0 ≤ v) (hv1 : v ≤ 1000) (hb : |tg - c| ≤ binary32.big) (h : GoingRX s c tg v T) (dt : ℕ) (hT : T + dt < 4294967296) :
    (ThereRX (s.tick dt) s.target v ∧ binary32.rnd |tg - c| < RX.deltaR binary32 v (T + dt)) ∨
    (GoingRX (s.tick dt) c tg v (T + dt) ∧ (s.tick dt).target = s.target ∧ RX.deltaR binary32 v (T + dt) ≤ binary32.rnd |tg - c| ∧
      (s.tick dt).cur = RX.of (fin (if c < tg then c + RX.deltaR binary32 v (T + dt) else c - RX.deltaR binary32 v (T + dt)))) := by
  have hu : u32 (s.elapsed + dt) = T + dt := by rw [h.elapsed]; exact Nat.mod_eq_of_lt hT
  have := RX.tick_rx h.start h.target h.vel hv hb dt
  rw [hu] at this
  rcases this with ⟨e, e2⟩ | ⟨_, d1, e⟩
  · left
    rw [e]
    refine ⟨⟨rfl, rfl, rfl, h.vel⟩, ?_⟩
    rcases e2 with e2 | e2
    · rw [delta_fin32 h.vel hv hv1 hT] at e2; cases e2
    · exact e2
  · right; rw [e]; exact ⟨⟨h.start, h.target, h.vel, rfl⟩, rfl, d1, rfl⟩

/-- after some ticks: arrived at some time `T1`, or still on the way. -/
theorem going_ticks32 {c tg v : ℝ} (hv : 0 ≤ v) (hv1 : v ≤ 1000) (hb : |tg - c| ≤ binary32.big) (ds : List ℕ) : ∀ {s : Servo F32} {T : ℕ}, GoingRX s c tg v T → T + ds.sum < 4294967296 →
    (∃ T1 ≤ T + ds.sum, ThereRX (ds.foldl Servo.tick s) s.target v ∧ binary32.rnd |tg - c| < RX.deltaR binary32 v T1) ∨
    (GoingRX (ds.foldl Servo.tick s) c tg v (T + ds.sum) ∧ (ds.foldl Servo.tick s).target = s.target ∧
      (ds = [] ∨ RX.deltaR binary32 v (T + ds.sum) ≤ binary32.rnd |tg - c| ∧
        (ds.foldl Servo.tick s).cur = RX.of (fin (if c < tg then c + RX.deltaR binary32 v (T + ds.sum) else c - RX.deltaR binary32 v (T + ds.sum))))) := by
  induction ds with
  | nil => intro s T h _; exact .inr ⟨h, rfl, .inl rfl⟩
  | cons d ds ih =>
    intro s T h hT
    simp only [List.sum_cons] at hT ⊢
    rw [← Nat.add_assoc] at hT ⊢
    rcases going_tick32 hv hv1 hb h d (by omega) with ⟨h1, h2⟩ | ⟨h1, h2, h3, h4⟩
    · exact .inl ⟨T + d, by omega, there_ticks32 h.target hv ds h1, h2⟩
    · rcases ih h1 hT with ⟨T1, a, b, c1⟩ | ⟨a, b, c1⟩
      · rw [h2] at b; exact .inl ⟨T1, a, b, c1⟩
      · refine .inr ⟨a, b.trans h2, .inr ?_⟩
        rcases c1 with rfl | c1
        · simp only [List.sum_nil, Nat.add_zero, List.foldl_cons, List.foldl_nil]; exact ⟨h3, h4⟩
        · exact c1

theorem after_command32 {s : SSt F32} {t : F32} {c tg v : ℝ} (hc : s.sv.cur.val = fin c) (ht : t.val = fin tg) (hvel : s.sv.vel.val = fin v) :
    GoingRX (s.run (SEv.command t)).sv c tg v 0 := ⟨hc, ht, hvel, rfl⟩

theorem run_ticks32 {F} [FloatOps F] (s : SSt F) (a : List (SEv F)) (ds : List ℕ) : (s.run (a ++ SEv.ticks ds)).sv = ds.foldl Servo.tick (s.run a).sv := by
  unfold SSt.run SEv.ticks
  rw [List.foldl_append]
  generalize List.foldl SSt.step s a = s
  induction ds generalizing s with
  | nil => rfl
  | cons d ds ih => exact ih _

/-- **C38 with rounding**: a servo at `c`, commanded in binary32 arithmetic to an angle `tg` that it reaches in exact arithmetic within `T` ms, is exactly at the
target -- the very number that was commanded -- 20 ms (one period of the timer) later at the latest, and after any further ticks, for ever. -/
theorem C38_rounded (s : SSt F32) (t : F32) (c tg v : ℝ) (hc : s.sv.cur.val = fin c) (ht : t.val = fin tg) (hvel : s.sv.vel.val = fin v)
    (hv : 1 / 1000 ≤ v) (hv1 : v ≤ 1000) (ds es : List ℕ) (T : ℕ) (hds : T + 20 ≤ ds.sum) (hds2 : ds.sum < 4294967296) (hT2 : T ≤ 10000000)
    (harr : |tg - c| < v * T / 1000) :
    (s.run (SEv.command t ++ SEv.ticks (ds ++ es))).sv.cur = t := by
  have hbig := b32_big
  have hT3 : (T : ℝ) ≤ 10000000 := by exact_mod_cast hT2
  have hT0 : (0 : ℝ) ≤ T := Nat.cast_nonneg T
  have p1 : v * T ≤ 1000 * 10000000 := mul_le_mul hv1 hT3 hT0 (by norm_num)
  have hb : |tg - c| ≤ binary32.big := by norm_num at *; linarith
  rw [run_ticks32, List.foldl_append]
  have key : ThereRX (ds.foldl Servo.tick (s.run (SEv.command t)).sv) t v := by
    rcases going_ticks32 (by linarith) hv1 hb ds (after_command32 hc ht hvel) (by omega) with ⟨_, _, h, _⟩ | ⟨_, _, h⟩
    · exact h
    · exfalso
      rcases h with rfl | ⟨h, _⟩
      · simp at hds
      · rw [Nat.zero_add] at h
        obtain ⟨d1, _⟩ := delta32 (v := v) (by linarith) hv1 hds2
        obtain ⟨_, b2⟩ := b32_bounds (abs_nonneg (tg - c))
        have hs : (T : ℝ) + 20 ≤ ds.sum := by exact_mod_cast hds
        have q1 : v * (T + 20) ≤ v * ds.sum := mul_le_mul_of_nonneg_left hs (by linarith)
        have q2 : v * T ≤ v * 10000000 := mul_le_mul_of_nonneg_left hT3 (by linarith)
        have q3 : v * (T + 20) = v * T + 20 * v := by ring
        rw [q3] at q1
        generalize |tg - c| = D at *
        generalize binary32.rnd D = rD at *
        generalize RX.deltaR binary32 v ds.sum = d at *
        generalize v * (ds.sum : ℝ) = y at *
        generalize v * (T : ℝ) = x at *
        norm_num at *
        linarith
  exact (there_ticks32 ht (by linarith) es key).cur

/-- **C38/C39 with rounding**: during the whole movement the angle differs from the exact position (constant speed, no overshoot) by less than a
hundred-thousandth of a radian, for angles up to 10 rad. -/
theorem C38_accuracy (s : SSt F32) (t : F32) (c tg v : ℝ) (hc : s.sv.cur.val = fin c) (ht : t.val = fin tg) (hvel : s.sv.vel.val = fin v)
    (hv : 0 ≤ v) (hv1 : v ≤ 1000) (hc1 : |c| ≤ 10) (ht1 : |tg| ≤ 10) (ds : List ℕ) (hds2 : ds.sum < 4294967296) :
    ∃ x, (s.run (SEv.command t ++ SEv.ticks ds)).sv.cur.val = fin x ∧ |x - position c tg v ds.sum| ≤ 1 / 100000 := by
  have hbig := b32_big
  rw [abs_le] at hc1 ht1
  have hD : |tg - c| ≤ 20 := by rw [abs_le]; constructor <;> linarith [hc1.1, hc1.2, ht1.1, ht1.2]
  have hb : |tg - c| ≤ binary32.big := by norm_num at *; linarith
  have hD0 := abs_nonneg (tg - c)
  rw [run_ticks32]
  obtain ⟨b1, b2⟩ := b32_bounds hD0
  rcases going_ticks32 hv hv1 hb ds (after_command32 hc ht hvel) (by omega) with ⟨T1, hT1, h, hlt⟩ | ⟨_, _, h⟩
  · refine ⟨tg, by rw [h.cur]; exact ht, ?_⟩
    rw [Nat.zero_add] at hT1
    obtain ⟨_, d2⟩ := delta32 (v := v) hv hv1 (show T1 < 4294967296 by omega)
    have q : v * (T1 : ℝ) ≤ v * ds.sum := mul_le_mul_of_nonneg_left (by exact_mod_cast hT1) hv
    generalize RX.deltaR binary32 v T1 = d at *
    have hX : |tg - c| - 1 / 100000 ≤ v * ds.sum / 1000 := by
      generalize v * (ds.sum : ℝ) = y at *
      generalize v * (T1 : ℝ) = x at *
      generalize |tg - c| = D at *
      generalize binary32.rnd D = rD at *
      by_contra hc
      push Not at hc
      norm_num at *
      linarith
    unfold position
    generalize v * (ds.sum : ℝ) / 1000 = y at *
    rw [abs_le]
    split
    · rename_i hle
      rw [abs_of_nonneg (by linarith)] at hX
      rcases min_cases tg (c + y) with ⟨e, _⟩ | ⟨e, _⟩ <;> rw [e] <;> constructor <;> linarith
    · rename_i hle
      push Not at hle
      rw [abs_of_neg (by linarith)] at hX
      rcases max_cases tg (c - y) with ⟨e, _⟩ | ⟨e, _⟩ <;> rw [e] <;> constructor <;> linarith
  · rcases h with rfl | ⟨h, h4⟩
    · refine ⟨c, hc, ?_⟩
      simp only [List.sum_nil]
      unfold position
      have e0 : v * ((0 : ℕ) : ℝ) / 1000 = 0 := by simp
      rw [e0, add_zero, sub_zero]
      split
      · rename_i h; rw [min_eq_right h, sub_self, abs_zero]; norm_num
      · rename_i h; rw [max_eq_right (by linarith), sub_self, abs_zero]; norm_num
    · rw [Nat.zero_add] at h h4
      obtain ⟨d1, d2⟩ := delta32 (v := v) hv hv1 hds2
      have y0 : 0 ≤ v * (ds.sum : ℝ) / 1000 := by positivity
      have hd0 : 0 ≤ RX.deltaR binary32 v ds.sum := by
        unfold RX.deltaR
        have ek : binary32.rnd 1000 = 1000 := by have := b32_nat (n := 1000) (by norm_num); exact_mod_cast this
        rw [ek]
        exact binary32.rnd_nonneg (div_nonneg (binary32.rnd_nonneg (mul_nonneg hv (binary32.rnd_nonneg (Nat.cast_nonneg _)))) (by norm_num))
      unfold position
      generalize RX.deltaR binary32 v ds.sum = d at *
      generalize v * (ds.sum : ℝ) / 1000 = y at *
      have hy : y ≤ 21 := by
        generalize |tg - c| = D at *
        generalize binary32.rnd D = rD at *
        norm_num at *
        linarith
      have hdD : d ≤ |tg - c| + 2 / 1000000 := by
        generalize |tg - c| = D at *
        generalize binary32.rnd D = rD at *
        norm_num at *
        linarith
      have hdy : |d - y| ≤ 43 / 10000000 := by
        rw [abs_le]; norm_num at *; constructor <;> linarith
      have hyD : y ≤ |tg - c| + 63 / 10000000 := by
        generalize |tg - c| = D at *
        generalize binary32.rnd D = rD at *
        norm_num at *
        linarith
      have hz : |(if c < tg then c + d else c - d)| ≤ 40 := by
        rw [abs_le]; split <;> constructor <;> linarith [hc1.1, hc1.2, hD]
      have hr := abs_le.1 (b32_err (if c < tg then c + d else c - d))
      refine ⟨binary32.rnd (if c < tg then c + d else c - d), ?_, ?_⟩
      · rw [h4]; exact binary32.post_fin (by norm_num at *; linarith)
      · generalize binary32.rnd (if c < tg then c + d else c - d) = r at *
        rw [abs_le] at hdy
        rw [abs_le]
        by_cases hlt : c < tg
        · rw [if_pos hlt] at hr hz
          rw [if_pos hlt.le]
          rw [abs_of_pos (by linarith)] at hdD hyD
          rcases min_cases tg (c + y) with ⟨e, _⟩ | ⟨e, _⟩ <;> rw [e] <;> constructor <;> linarith [hr.1, hr.2, hdy.1, hdy.2]
        · rw [if_neg hlt] at hr hz
          rw [abs_of_nonpos (by linarith)] at hdD hyD
          push Not at hlt
          rcases hlt.lt_or_eq with hl | hl
          · rw [if_neg (not_le.2 hl)]
            rcases max_cases tg (c - y) with ⟨e, _⟩ | ⟨e, _⟩ <;> rw [e] <;> constructor <;> linarith [hr.1, hr.2, hdy.1, hdy.2]
          · rw [if_pos hl.ge]
            rcases min_cases tg (c + y) with ⟨e, _⟩ | ⟨e, _⟩ <;> rw [e] <;> constructor <;> linarith [hr.1, hr.2, hdy.1, hdy.2]

/-- integers are numbers of the format. -/
noncomputable def i32 (n : ℤ) (h : |n| ≤ 16777216) : F32 := ⟨fin n, by
  refine ⟨b32_int h, ?_⟩
  have h1 : |(n : ℝ)| ≤ 16777216 := by exact_mod_cast h
  have := b32_big
  linarith⟩

-- hypotheses of C38: a servo of the kit at 0, commanded to 2 rad at 1 rad/s, is at 2 rad after 2.04 s and for ever
example (es : List ℕ) : ((SSt.init (Servo.new 3 (i32 1 (by norm_num)) 700 2380 (i32 (-2) (by norm_num)) (i32 2 (by norm_num)) (i32 0 (by norm_num)))).run
    (SEv.command (i32 2 (by norm_num)) ++ SEv.ticks (List.replicate 102 20 ++ es))).sv.cur = i32 2 (by norm_num) := by
  refine C38_rounded _ _ 0 2 1 ?_ rfl ?_ (by norm_num) (by norm_num) _ _ 2001 (by norm_num) (by norm_num) (by norm_num) (by norm_num)
  · show fin _ = _; norm_num
  · show fin _ = _; norm_num

/-! ### one unit in the last place -/

theorem deltaR_mono {v : ℝ} (hv : 0 ≤ v) {m n : ℕ} (h : m ≤ n) : RX.deltaR binary32 v m ≤ RX.deltaR binary32 v n := by
  unfold RX.deltaR
  have ek : binary32.rnd 1000 = 1000 := by have := b32_nat (n := 1000) (by norm_num); exact_mod_cast this
  rw [ek]
  apply binary32.mono
  apply div_le_div_of_nonneg_right _ (by norm_num)
  apply binary32.mono
  apply mul_le_mul_of_nonneg_left _ hv
  apply binary32.mono
  exact_mod_cast h

theorem deltaR_one {n : ℕ} (h : n ≤ 16777) : RX.deltaR binary32 1 (1000 * n) = n := by
  unfold RX.deltaR
  have ek : binary32.rnd 1000 = 1000 := by have := b32_nat (n := 1000) (by norm_num); exact_mod_cast this
  rw [b32_nat (by omega), one_mul, b32_nat (by omega), ek]
  push_cast
  rw [mul_div_cancel_left₀ _ (by norm_num : (1000 : ℝ) ≠ 0), b32_nat (by omega)]

/-- 1 - 2^-24, the largest number below 1. -/
noncomputable def belowOne : F32 := ⟨fin (((16777215 : ℤ) : ℝ) * (2 : ℝ) ^ (-24 : ℤ)), by
  refine ⟨Binary32.rnd_grid (by norm_num) (by norm_num), ?_⟩
  have := b32_big
  norm_num at *; linarith⟩

/-- the tie 2 - 2^-24 is rounded to the even neighbour 2. -/
theorem tie : binary32.rnd (2 - 1 / 16777216) = 2 := by
  show Binary32.rnd _ = 2
  have hx : (0 : ℝ) ≤ 2 - 1 / 16777216 := by norm_num
  rw [Binary32.rnd_nonneg hx]
  have hlog : Int.log 2 ((2 : ℝ) - 1 / 16777216) = 0 := by
    apply le_antisymm
    · by_contra hc
      have h1 : 1 ≤ Int.log 2 ((2 : ℝ) - 1 / 16777216) := by omega
      have h2 := Binary32.log_le (x := (2 : ℝ) - 1 / 16777216) (by norm_num)
      have h3 : (2 : ℝ) ^ (1 : ℤ) ≤ (2 : ℝ) ^ Int.log 2 ((2 : ℝ) - 1 / 16777216) := zpow_le_zpow_right₀ (by norm_num) h1
      norm_num at h3 h2; linarith
    · by_contra hc
      have h1 : Int.log 2 ((2 : ℝ) - 1 / 16777216) + 1 ≤ 0 := by omega
      have h2 := Binary32.lt_log (x := (2 : ℝ) - 1 / 16777216)
      have h3 : (2 : ℝ) ^ (Int.log 2 ((2 : ℝ) - 1 / 16777216) + 1) ≤ (2 : ℝ) ^ (0 : ℤ) := zpow_le_zpow_right₀ (by norm_num) h1
      rw [zpow_zero] at h3; linarith
  unfold Binary32.rpos Binary32.ulpExp
  rw [hlog]
  have e : max ((0 : ℤ) - 23) (-149) = -23 := by norm_num
  rw [e]
  have e2 : ((2 : ℝ) - 1 / 16777216) / 2 ^ (-23 : ℤ) = ((16777215 : ℤ) : ℝ) + 1 / 2 := by norm_num
  rw [e2]
  have e3 : Binary32.even (((16777215 : ℤ) : ℝ) + 1 / 2) = 16777216 := by
    unfold Binary32.even
    have hf : ⌊(((16777215 : ℤ) : ℝ) + 1 / 2)⌋ = 16777215 := by rw [Int.floor_eq_iff]; norm_num
    have hr : Int.fract (((16777215 : ℤ) : ℝ) + 1 / 2) = 1 / 2 := by unfold Int.fract; rw [hf]; ring
    rw [hr, hf, if_neg (by norm_num), if_neg (by norm_num), if_neg (by norm_num)]; norm_num
  rw [e3]
  norm_num

/-- **The slack of C37 and C62 is needed**: exact containment is false in binary32. A servo at -1 rad commanded to the number below 1 stands, after 100 ticks of 20 ms at 1 rad/s, at
1 rad: one unit in the last place beyond its target (the next tick corrects it). -/
theorem C37_exact_false :
    ((SSt.init (Servo.new 3 (i32 1 (by norm_num)) 700 2380 (i32 (-1) (by norm_num)) belowOne (i32 (-1) (by norm_num)))).run
      (SEv.command belowOne ++ SEv.ticks (List.replicate 100 20))).sv.cur = i32 1 (by norm_num) ∧
    ∃ t : ℝ, belowOne.val = fin t ∧ t < 1 := by
  refine ⟨?_, _, rfl, by norm_num⟩
  rw [run_ticks32]
  generalize hs : SSt.init (Servo.new 3 (i32 1 (by norm_num)) 700 2380 (i32 (-1) (by norm_num)) belowOne (i32 (-1) (by norm_num))) = s
  have hg : GoingRX (s.run (SEv.command belowOne)).sv ((-1 : ℤ) : ℝ) (((16777215 : ℤ) : ℝ) * (2 : ℝ) ^ (-24 : ℤ)) 1 0 := by
    refine after_command32 (by subst hs; rfl) rfl ?_
    subst hs; show fin _ = _; norm_num
  have hd : (((16777215 : ℤ) : ℝ) * (2 : ℝ) ^ (-24 : ℤ)) - ((-1 : ℤ) : ℝ) = 2 - 1 / 16777216 := by norm_num
  have hbig := b32_big
  have hda : |(((16777215 : ℤ) : ℝ) * (2 : ℝ) ^ (-24 : ℤ)) - ((-1 : ℤ) : ℝ)| = 2 - 1 / 16777216 := by rw [hd, abs_of_pos (by norm_num)]
  have hsum : (List.replicate 100 20).sum = 2000 := by simp
  have h2000 : RX.deltaR binary32 1 2000 = 2 := by have := deltaR_one (n := 2) (by norm_num); exact_mod_cast this
  rcases going_ticks32 (by norm_num) (by norm_num) (by rw [hda]; linarith) (List.replicate 100 20) hg (by rw [hsum]; norm_num) with ⟨T1, h1, _, h3⟩ | ⟨_, _, h⟩
  · exfalso
    rw [hda, tie] at h3
    rw [hsum] at h1
    have := deltaR_mono (v := 1) (by norm_num) (show T1 ≤ 2000 by omega)
    rw [h2000] at this; linarith
  · rcases h with h | ⟨_, h⟩
    · simp [List.replicate] at h
    · rw [h, hsum, Nat.zero_add, h2000, if_pos (by norm_num)]
      apply RX.ext
      show binary32.post (fin (((-1 : ℤ) : ℝ) + 2)) = fin ((1 : ℤ) : ℝ)
      rw [show (((-1 : ℤ) : ℝ) + 2) = ((1 : ℤ) : ℝ) by norm_num, binary32.post_fin (by norm_num at *; linarith), b32_int (by norm_num)]

/-! ### C40, C62: pulse widths and the robot kit -/

/-- the interpolation of the pulse width with its roundings. -/
theorem interp32 {c lo hi f1 f2 : ℝ} (h : 1 ≤ hi - lo) (hl1 : |lo| ≤ 10) (hh1 : |hi| ≤ 10) (h1 : lo - 1 / 100000 ≤ c) (h2 : c ≤ hi + 1 / 100000)
    (g1 : f1 ≤ 5000) (g2 : f2 ≤ 5000) (g3 : 0 ≤ f1) (g4 : 0 ≤ f2) (A W B Q Y : ℝ) (hA : A = binary32.rnd (c - lo)) (hW : W = binary32.rnd (hi - lo))
    (hB : B = binary32.rnd (A * (f2 - f1))) (hQ : Q = binary32.rnd (B / W)) (hY : Y = binary32.rnd (Q + f1)) :
    W ≠ 0 ∧ |A * (f2 - f1)| ≤ 1000000 ∧ |B / W| ≤ 1000000 ∧ |Q + f1| ≤ 1000000 ∧ min f1 f2 - 1 / 5 ≤ Y ∧ Y ≤ max f1 f2 + 1 / 5 := by
  have mn1 := min_le_left f1 f2
  have mn2 := min_le_right f1 f2
  have mx1 := le_max_left f1 f2
  have mx2 := le_max_right f1 f2
  rw [abs_le] at hl1 hh1
  obtain ⟨w1, w2⟩ := b32_bounds (show 0 ≤ hi - lo by linarith)
  have a1 := abs_le.1 (b32_err (c - lo))
  have a2 : |c - lo| ≤ 21 := by rw [abs_le]; constructor <;> linarith
  rw [← hA] at a1
  rw [← hW] at w1 w2
  have W1 : 9 / 10 ≤ W := by linarith
  have Wp : 0 < W := by linarith
  have Wne : W ≠ 0 := Wp.ne'
  have b1 := abs_le.1 (b32_err (A * (f2 - f1)))
  rw [← hB] at b1
  have q1 := abs_le.1 (b32_err (B / W))
  rw [← hQ] at q1
  have y1 := abs_le.1 (b32_err (Q + f1))
  rw [← hY] at y1
  -- z = A / W
  obtain ⟨z, hz⟩ : ∃ z, z = A / W := ⟨_, rfl⟩
  have hAz : A = z * W := by rw [hz, div_mul_cancel₀ _ Wne]
  have z1 : -(2 / 100000) ≤ z := by rw [hz, le_div_iff₀ Wp]; linarith
  have z2 : z ≤ 1 + 2 / 100000 := by rw [hz, div_le_iff₀ Wp]; linarith
  have W2 : W ≤ 21 := by linarith
  have hG : |f2 - f1| ≤ 5000 := by rw [abs_le]; constructor <;> linarith
  have hz3 : |z| ≤ 11 / 10 := by rw [abs_le]; constructor <;> linarith
  have hzG : |z * (f2 - f1)| ≤ 5500 := by
    rw [abs_mul]
    calc _ ≤ 11 / 10 * 5000 := mul_le_mul hz3 hG (abs_nonneg _) (by norm_num)
      _ = 5500 := by norm_num
  have eAG : A * (f2 - f1) = W * (z * (f2 - f1)) := by rw [hAz]; ring
  have hAG : |A * (f2 - f1)| = W * |z * (f2 - f1)| := by rw [eAG, abs_mul, abs_of_pos Wp]
  have hAG2 : |A * (f2 - f1)| ≤ W * 5500 := by rw [hAG]; exact mul_le_mul_of_nonneg_left hzG Wp.le
  -- B / W
  have bw1 : z * (f2 - f1) - 1 / 1000 ≤ B / W := by
    rw [le_div_iff₀ Wp]
    have := b1.1
    rw [eAG] at this
    have e : (z * (f2 - f1) - 1 / 1000) * W = W * (z * (f2 - f1)) - 1 / 1000 * W := by ring
    rw [e]
    rw [← eAG] at *
    linarith
  have bw2 : B / W ≤ z * (f2 - f1) + 1 / 1000 := by
    rw [div_le_iff₀ Wp]
    have := b1.2
    have e : (z * (f2 - f1) + 1 / 1000) * W = A * (f2 - f1) + 1 / 1000 * W := by rw [eAG]; ring
    rw [e]
    linarith
  have hzG' := abs_le.1 hzG
  have bwa : |B / W| ≤ 5600 := by rw [abs_le]; constructor <;> linarith [hzG'.1, hzG'.2]
  have qa1 : z * (f2 - f1) - 2 / 1000 ≤ Q := by linarith [q1.1]
  have qa2 : Q ≤ z * (f2 - f1) + 2 / 1000 := by linarith [q1.2]
  have qa : |Q + f1| ≤ 20000 := by rw [abs_le]; constructor <;> linarith [hzG'.1, hzG'.2]
  -- z * G + f1 is close to the range
  have r1 : min f1 f2 - 11 / 100 ≤ z * (f2 - f1) + f1 := by
    rcases le_total f1 f2 with hle | hle
    · have := mul_le_mul_of_nonneg_right z1 (show 0 ≤ f2 - f1 by linarith)
      linarith
    · have := mul_le_mul_of_nonneg_right z2 (show 0 ≤ f1 - f2 by linarith)
      have e : z * (f2 - f1) = -(z * (f1 - f2)) := by ring
      rw [e]; linarith
  have r2 : z * (f2 - f1) + f1 ≤ max f1 f2 + 11 / 100 := by
    rcases le_total f1 f2 with hle | hle
    · have := mul_le_mul_of_nonneg_right z2 (show 0 ≤ f2 - f1 by linarith)
      linarith
    · have := mul_le_mul_of_nonneg_right z1 (show 0 ≤ f1 - f2 by linarith)
      have e : z * (f2 - f1) = -(z * (f1 - f2)) := by ring
      rw [e]; linarith
  refine ⟨Wne, ?_, by linarith, by linarith, by linarith [y1.1], by linarith [y1.2]⟩
  linarith

/-- **C40 with rounding**: for a servo with a range of at least 1 rad, angles up to 10 rad and calibration values up to 5000 µs, in binary32: at an angle inside the range, or
beside it by at most a hundred-thousandth of a radian, the conversion to the pulse width is defined and the width lies between the calibration values
(at most one µs below the smaller one). -/
theorem C40_rounded (s : Servo F32) (c lo hi : ℝ) (hc : s.cur.val = fin c) (hl : s.minA.val = fin lo) (hh : s.maxA.val = fin hi) (h : 1 ≤ hi - lo)
    (hl1 : |lo| ≤ 10) (hh1 : |hi| ≤ 10) (h1 : lo - 1 / 100000 ≤ c) (h2 : c ≤ hi + 1 / 100000) (f1 : s.minFreq ≤ 5000) (f2 : s.maxFreq ≤ 5000) :
    ∃ p, s.pulse = some p ∧ min (s.minFreq : ℤ) s.maxFreq - 1 ≤ p ∧ p ≤ max (s.minFreq : ℤ) s.maxFreq := by
  have hbig := b32_big
  rw [abs_le] at hl1 hh1
  have g1 : ((s.minFreq : ℕ) : ℝ) ≤ 5000 := by exact_mod_cast f1
  have g2 : ((s.maxFreq : ℕ) : ℝ) ≤ 5000 := by exact_mod_cast f2
  have g3 : (0 : ℝ) ≤ (s.minFreq : ℕ) := Nat.cast_nonneg _
  have g4 : (0 : ℝ) ≤ (s.maxFreq : ℕ) := Nat.cast_nonneg _
  have hx : (s.cur - s.minA).val = fin (binary32.rnd (c - lo)) := by
    rw [RX.sub_val, hc, hl, RX.sub_fin, binary32.post_fin]
    rw [abs_le]; constructor <;> linarith
  have hw : (s.maxA - s.minA).val = fin (binary32.rnd (hi - lo)) := by
    rw [RX.sub_val, hh, hl, RX.sub_fin, binary32.post_fin]
    rw [abs_le]; constructor <;> linarith
  have hf1 : (Servo.ofNat s.minFreq : F32).val = fin (s.minFreq : ℝ) := by rw [RX.ofNat_val (by omega), b32_nat (by omega)]
  have hf2 : (Servo.ofNat s.maxFreq : F32).val = fin (s.maxFreq : ℝ) := by rw [RX.ofNat_val (by omega), b32_nat (by omega)]
  have hg : (Servo.ofNat s.maxFreq - Servo.ofNat s.minFreq : F32).val = fin ((s.maxFreq : ℝ) - s.minFreq) := by
    rw [RX.sub_val, hf1, hf2, RX.sub_fin, binary32.post_fin (by rw [abs_le]; constructor <;> linarith)]
    have := b32_int (n := (s.maxFreq : ℤ) - s.minFreq) (by rw [abs_le]; constructor <;> omega)
    push_cast at this
    rw [this]
  obtain ⟨r1, r2, r3, r4, r5, r6⟩ := interp32 h (abs_le.2 hl1) (abs_le.2 hh1) h1 h2 g1 g2 g3 g4 _ _ _ _ _ rfl rfl rfl rfl rfl
  have eY : (Servo.mapFloat s.cur s.minA s.maxA (Servo.ofNat s.minFreq) (Servo.ofNat s.maxFreq) : F32).val =
      fin (binary32.rnd (binary32.rnd (binary32.rnd (binary32.rnd (c - lo) * ((s.maxFreq : ℝ) - s.minFreq)) / binary32.rnd (hi - lo)) + s.minFreq)) := by
    unfold Servo.mapFloat
    rw [RX.add_val, RX.div_val, RX.mul_val, hx, hw, hg, hf1]
    simp only [XR.mul]
    rw [binary32.post_fin (by linarith)]
    simp only [XR.div, if_neg r1]
    rw [binary32.post_fin (by linarith)]
    simp only [XR.add]
    rw [binary32.post_fin (by linarith)]
  unfold Servo.pulse
  show ∃ p, XR.toInt (Servo.mapFloat s.cur s.minA s.maxA (Servo.ofNat s.minFreq) (Servo.ofNat s.maxFreq) : F32).val = _ ∧ _
  rw [eY]
  generalize binary32.rnd (binary32.rnd (binary32.rnd (binary32.rnd (c - lo) * ((s.maxFreq : ℝ) - s.minFreq)) / binary32.rnd (hi - lo)) + s.minFreq) = Y at *
  have e5 : (((min s.minFreq s.maxFreq : ℕ) : ℤ) : ℝ) - 1 / 5 ≤ Y := by push_cast; exact r5
  have e6 : Y ≤ (((max s.minFreq s.maxFreq : ℕ) : ℤ) : ℝ) + 1 / 5 := by push_cast; exact r6
  rw [show min (s.minFreq : ℤ) s.maxFreq = ((min s.minFreq s.maxFreq : ℕ) : ℤ) by push_cast; rfl,
    show max (s.minFreq : ℤ) s.maxFreq = ((max s.minFreq s.maxFreq : ℕ) : ℤ) by push_cast; rfl]
  have m1 : max s.minFreq s.maxFreq ≤ 5000 := max_le f1 f2
  generalize min s.minFreq s.maxFreq = mn at *
  generalize max s.minFreq s.maxFreq = mx at *
  have c1 : (mn : ℤ) - 1 ≤ trunc Y := by
    unfold trunc; split
    · rw [Int.le_floor]; push_cast at *; linarith
    · have := Int.le_ceil Y
      have h7 : ((mn : ℤ) : ℝ) - 1 ≤ (⌈Y⌉ : ℝ) := by linarith
      exact_mod_cast h7
  have c2 : trunc Y ≤ mx := by
    unfold trunc; split
    · have := Int.floor_le Y
      have h7 : ((⌊Y⌋ : ℤ) : ℝ) < ((mx + 1 : ℤ) : ℝ) := by push_cast at *; linarith
      have h8 : ⌊Y⌋ < (mx : ℤ) + 1 := by exact_mod_cast h7
      omega
    · have h7 : ⌈Y⌉ ≤ 0 := by rw [Int.ceil_le]; push_cast; linarith
      omega
  refine ⟨trunc Y, ?_, c1, c2⟩
  simp only [XR.toInt]
  rw [if_pos (by omega)]

/-- `q * DEG_TO_RAD` in binary32 is the angle up to a few millionths of a radian. -/
theorem deg32 (q : ℤ) (hq : |q| ≤ 360) : ∃ x : ℝ, (deg (q : Rat) : F32).val = fin x ∧ |x - q * (Real.pi / 180)| ≤ 3 / 1000000 := by
  have hbig := b32_big
  have hp0 := Real.two_le_pi
  have hp1 := Real.pi_le_four
  have hq' : |(q : ℝ)| ≤ 360 := by exact_mod_cast hq
  have hq2 := abs_le.1 hq'
  have e180 : (lit 180 : F32).val = fin 180 := by
    rw [RX.lit_val, show (((180 : Rat)) : ℝ) = ((180 : ℕ) : ℝ) by norm_num, binary32.post_fin (by norm_num at *; linarith), b32_nat (by norm_num)]; norm_num
  have eq : (lit (q : Rat) : F32).val = fin q := by
    rw [RX.lit_val, show (((q : Rat)) : ℝ) = (q : ℝ) by norm_num, binary32.post_fin (by linarith), b32_int (by omega)]
  have ep : (FloatOps.pi : F32).val = fin (binary32.rnd Real.pi) := binary32.post_fin (by rw [abs_of_pos (by linarith)]; linarith)
  obtain ⟨p1, p2⟩ := b32_bounds (show 0 ≤ Real.pi by linarith)
  have ed : (degToRad : F32).val = fin (binary32.rnd (binary32.rnd Real.pi / 180)) := by
    show binary32.post (XR.div _ _) = _
    rw [ep, e180]
    simp only [XR.div, if_neg (show (180 : ℝ) ≠ 0 by norm_num)]
    rw [binary32.post_fin]
    rw [abs_of_pos (by linarith)]; linarith
  generalize binary32.rnd Real.pi = a at *
  obtain ⟨d1, d2⟩ := b32_bounds (show 0 ≤ a / 180 by linarith)
  generalize binary32.rnd (a / 180) = b at *
  have hb : |b - Real.pi / 180| ≤ 3 / 1000000000 := by rw [abs_le]; constructor <;> linarith
  have hqb : |q * b - q * (Real.pi / 180)| ≤ 108 / 100000000 := by
    rw [← mul_sub, abs_mul]
    calc _ ≤ 360 * (3 / 1000000000 : ℝ) := mul_le_mul hq' hb (abs_nonneg _) (by norm_num)
      _ = _ := by norm_num
  have hqp : |q * (Real.pi / 180)| ≤ 8 := by
    rw [abs_mul, abs_of_pos (show 0 < Real.pi / 180 by linarith)]
    calc _ ≤ 360 * (4 / 180 : ℝ) := mul_le_mul hq' (by linarith) (by linarith) (by norm_num)
      _ = _ := by norm_num
  have hqb' := abs_le.1 hqb
  have hqp' := abs_le.1 hqp
  have hqa : |q * b| ≤ 9 := by rw [abs_le]; constructor <;> linarith [hqb'.1, hqb'.2, hqp'.1, hqp'.2]
  refine ⟨binary32.rnd (q * b), ?_, ?_⟩
  · unfold deg
    rw [RX.mul_val, eq, ed]
    exact binary32.post_fin (by linarith)
  · have := abs_le.1 (b32_err (q * b))
    rw [abs_le]; constructor <;> linarith [this.1, this.2, hqb'.1, hqb'.2]

/-- the configured numbers of the kit are integers (in degrees). -/
theorem kit_ints (i : Fin 6) : ∃ lo hi v : ℤ, Kit.minDeg (armServo i) = lo ∧ Kit.maxDeg (armServo i) = hi ∧ Kit.velDeg (armServo i) = v ∧
    -140 ≤ lo ∧ lo ≤ -45 ∧ 15 ≤ hi ∧ hi ≤ 135 ∧ v = 300 ∧ 135 ≤ hi - lo := by
  fin_cases i
  · exact ⟨-90, 90, 300, by simp [Kit.minDeg, armServo], by simp [Kit.maxDeg, armServo], by simp [Kit.velDeg, armServo], by norm_num⟩
  · exact ⟨-45, 90, 300, by simp [Kit.minDeg, armServo], by simp [Kit.maxDeg, armServo], by simp [Kit.velDeg, armServo], by norm_num⟩
  · exact ⟨-45, 135, 300, by simp [Kit.minDeg, armServo], by simp [Kit.maxDeg, armServo], by simp [Kit.velDeg, armServo], by norm_num⟩
  · exact ⟨-90, 85, 300, by simp [Kit.minDeg, armServo], by simp [Kit.maxDeg, armServo], by simp [Kit.velDeg, armServo], by norm_num⟩
  · exact ⟨-140, 15, 300, by simp [Kit.minDeg, armServo], by simp [Kit.maxDeg, armServo], by simp [Kit.velDeg, armServo], by norm_num⟩
  · exact ⟨-90, 60, 300, by simp [Kit.minDeg, armServo], by simp [Kit.maxDeg, armServo], by simp [Kit.velDeg, armServo], by norm_num⟩

theorem slack32 : binary32.slack 4 ≤ 1 / 1000000 := by
  show 4 * ((1 : ℝ) / 2 ^ 24 * 4 + 1 / 2 ^ 150) ≤ _
  norm_num

theorem deg_near {x y : ℝ} {q : ℤ} (h : |x - q * (Real.pi / 180)| ≤ 3 / 1000000) (hy : y = q * (Real.pi / 180)) : y - 3 / 1000000 ≤ x ∧ x ≤ y + 3 / 1000000 := by
  subst hy; have := abs_le.1 h; constructor <;> linarith [this.1, this.2]

/-- **C62/4 with rounding**: the robot kit as configured, in binary32 with any libm and any kinematics: whatever happens, unless a NaN was stored, every arm servo stays within the
configured angles up to a hundred-thousandth of a radian, and its pulse width within the calibration (at most one µs below the smaller value). -/
theorem C62_kit_rounded {cfg : Cfg F32} {w0 : World F32} (hw : w0.servos = Kit.servos) {junk : Nat → Byte} {evs : List (Ev F32)} {s : Sys F32} (hr : Sys.Run cfg w0 junk evs s)
    (hn : ∀ i, Act.micro (armServo i) (.setTarget nanRX) ∉ acts evs ∧ Act.micro (armServo i) (.setVel nanRX) ∉ acts evs) (i : Fin 6) :
    (∃ x : ℝ, (s.w.servos (armServo i)).cur.val = fin x ∧ (Kit.minDeg (armServo i) : ℝ) * (Real.pi / 180) - 1 / 100000 ≤ x ∧
      x ≤ (Kit.maxDeg (armServo i) : ℝ) * (Real.pi / 180) + 1 / 100000) ∧
    ∃ p, (s.w.servos (armServo i)).pulse = some p ∧ min ((Kit.freq (armServo i)).1 : ℤ) (Kit.freq (armServo i)).2 - 1 ≤ p ∧
      p ≤ max ((Kit.freq (armServo i)).1 : ℤ) (Kit.freq (armServo i)).2 := by
  have hpi0 := Real.two_le_pi
  have hpi1 := Real.pi_le_four
  choose lo hi v k1 k2 k3 k4 k5 k6 k7 k8 k9 using kit_ints
  choose l el hl using fun i => deg32 (lo i) (by have := k4 i; have := k5 i; rw [abs_le]; constructor <;> omega)
  choose h eh hh using fun i => deg32 (hi i) (by have := k6 i; have := k7 i; rw [abs_le]; constructor <;> omega)
  obtain ⟨vr, ev, hv⟩ := deg32 300 (by norm_num)
  have c4 : ∀ i, (-140 : ℝ) ≤ lo i := fun i => by exact_mod_cast k4 i
  have c5 : ∀ i, (lo i : ℝ) ≤ -45 := fun i => by exact_mod_cast k5 i
  have c6 : ∀ i, (15 : ℝ) ≤ hi i := fun i => by exact_mod_cast k6 i
  have c7 : ∀ i, (hi i : ℝ) ≤ 135 := fun i => by exact_mod_cast k7 i
  have c9 : ∀ i, (135 : ℝ) ≤ hi i - lo i := fun i => by exact_mod_cast k9 i
  have r : 0 < Real.pi / 180 := by linarith
  have hl' : ∀ i, |l i| ≤ 4 := fun i => by
    have := (abs_le.1 (hl i))
    have := c4 i
    have := c5 i
    rw [abs_le]; constructor <;> nlinarith
  have hh' : ∀ i, |h i| ≤ 4 := fun i => by
    have := (abs_le.1 (hh i))
    have := c6 i
    have := c7 i
    rw [abs_le]; constructor <;> nlinarith
  have l0 : ∀ i, l i ≤ 0 := fun i => by
    have := (abs_le.1 (hl i)).2
    have := c5 i
    nlinarith
  have h0 : ∀ i, 0 ≤ h i := fun i => by
    have := (abs_le.1 (hh i)).1
    have := c6 i
    nlinarith
  have hS := slack32
  have ew : ∀ i, w0.servos (armServo i) = Servo.new (Kit.pin (armServo i)) (deg (300 : ℤ)) (Kit.freq (armServo i)).1 (Kit.freq (armServo i)).2 (deg (lo i)) (deg (hi i)) (lit 0) := by
    intro i
    rw [hw]; unfold Kit.servos; rw [k1, k2, k3, k8]
  obtain ⟨x, ex, x1, x2⟩ := C62_rounded (l := l) (h := h) (M := 4) (by norm_num) hl' hh' (fun i => by
    refine ⟨_, _, vr, _, _, _, _, _, ew i, ev, ?_, el i, eh i, 0, zero_val, l0 i, h0 i⟩
    have := (abs_le.1 hv).1
    push_cast at this
    nlinarith) hr hn i
  obtain ⟨_, d2, d3, d4, d5, _⟩ := C62_constants hr (armServo i)
  rw [ew] at d2 d3 d4 d5
  have hli := abs_le.1 (hl i)
  have hhi := abs_le.1 (hh i)
  have hwid : 1 ≤ h i - l i := by
    have := c9 i
    nlinarith
  constructor
  · refine ⟨x, ex, ?_, ?_⟩
    · rw [k1]; push_cast; linarith [hli.1]
    · rw [k2]; push_cast; linarith [hhi.2]
  · have := C40_rounded (s.w.servos (armServo i)) x (l i) (h i) ex (by rw [d4]; exact el i) (by rw [d5]; exact eh i) hwid (by linarith [hl' i]) (by linarith [hh' i])
      (by linarith) (by linarith) (by rw [d2]; fin_cases i <;> norm_num [Servo.new, Kit.freq, armServo]) (by rw [d3]; fin_cases i <;> norm_num [Servo.new, Kit.freq, armServo])
    rw [d2, d3] at this
    exact this

-- non-vacuous: any functions can be libm; powered up, the kit is in such a history
noncomputable example : RX.Libm binary32 := ⟨id, id, id, id, id, fun x _ => x, fun x _ => x, fun _ => nanRX⟩
example : ∃ (w0 : World F32) (s : Sys F32), w0.servos = Kit.servos ∧ Sys.Run Kit.cfg w0 (fun _ => 0) [] s :=
  ⟨⟨Kit.servos, 0, fun _ => false, [], fun _ => 0, []⟩, _, rfl, .init⟩

end Mrc.Props
