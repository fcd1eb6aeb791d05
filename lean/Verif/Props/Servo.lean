import Verif.Model.ServoRun
import Verif.Proof.XR
import Mathlib.Tactic.NormNum
/-
C36-C40: VarSpeedServo, over exact arithmetic (XR: reals, infinities, NaN).
-/
set_option linter.unusedSectionVars false
namespace Mrc.Props
open Mrc Mrc.XR
open scoped Mrc.Num

/-- `x` is a number in [lo, hi]. -/
def InR (lo hi : ℝ) (x : XR) : Prop := ∃ t, x = fin t ∧ lo ≤ t ∧ t ≤ hi

theorem clampVel_fin (m v : ℝ) : Servo.clampVel (fin m) (fin v) = fin (if m < v then m else if v ≤ 0 then 1 / 10 else v) := by
  unfold Servo.clampVel fgt fle lit
  by_cases h : m < v
  · simp [h]
  · by_cases h2 : v ≤ 0
    · simp [h, h2]
    · simp [h, h2]
theorem clampVel_inf (m : ℝ) (b : Bool) : Servo.clampVel (fin m) (.inf b) = if b then fin (1 / 10) else fin m := by
  cases b <;> simp [Servo.clampVel, fgt, fle, lit] <;> simp [FloatOps.lt, FloatOps.le, XR.lt, XR.le]

/-- whatever number is requested, the clamped velocity is positive if the maximum is. -/
theorem clampVel_pos (m : ℝ) (hm : 0 ≤ m) (v : XR) (hv : v ≠ nan) : ∃ u, Servo.clampVel (fin m) v = fin u ∧ 0 ≤ u ∧ (0 < m → 0 < u) ∧ (1 / 10 ≤ m → u ≤ m) := by
  match v, hv with
  | .fin v, _ =>
    refine ⟨_, clampVel_fin m v, ?_⟩
    split
    · exact ⟨hm, id, fun _ => le_refl _⟩
    · split
      · refine ⟨by norm_num, fun _ => by norm_num, id⟩
      · exact ⟨by linarith, fun _ => by linarith, fun _ => by linarith⟩
  | .inf false, _ => exact ⟨m, by simp [clampVel_inf], hm, id, fun _ => le_refl _⟩
  | .inf true, _ => exact ⟨1 / 10, by simp [clampVel_inf], by norm_num, fun _ => by norm_num, id⟩

theorem tick_vel {F} [FloatOps F] (s : Servo F) (dt : Nat) : (s.tick dt).vel = s.vel ∧ (s.tick dt).maxVel = s.maxVel := by
  unfold Servo.tick; dsimp only; split
  · exact ⟨rfl, rfl⟩
  · split <;> exact ⟨rfl, rfl⟩

/-- **C36** (for numeric requests and a configured maximum of at least 0.1 rad/s; see the counterexamples): in every history of a
servo, whatever velocities are requested, its speed setting is positive and at most the configured maximum. -/
theorem C36_speed_partial (pin : Int) (m : ℝ) (f1 f2 : Nat) (lo hi home : XR) (hm : 1 / 10 ≤ m) (es : List (SEv XR))
    (hes : ∀ v, SEv.setVel v ∈ es → v ≠ nan) :
    ∃ u, ((SSt.init (Servo.new pin (fin m) f1 f2 lo hi home)).run es).sv.vel = fin u ∧ 0 < u ∧ u ≤ m := by
  have key : ∀ (es : List (SEv XR)) (s : SSt XR), (∀ v, SEv.setVel v ∈ es → v ≠ nan) → s.sv.maxVel = fin m →
      (∃ u, s.sv.vel = fin u ∧ 0 < u ∧ u ≤ m) → ∃ u, (s.run es).sv.vel = fin u ∧ 0 < u ∧ u ≤ m := by
    intro es
    induction es with
    | nil => intro s _ _ h; exact h
    | cons e es ih =>
      intro s hv hmx h
      have hv' : ∀ v, SEv.setVel v ∈ es → v ≠ nan := fun v hv2 => hv v (List.mem_cons_of_mem _ hv2)
      refine ih (s.step e) hv' ?_ ?_
      · cases e <;> first | exact hmx | (simp only [SSt.step, (tick_vel _ _).2]; exact hmx)
      · cases e with
        | setVel v =>
          obtain ⟨u, h1, _, h3, h4⟩ := clampVel_pos m (by linarith) v (hv v (List.mem_cons_self ..))
          refine ⟨u, ?_, h3 (by linarith), h4 hm⟩
          simp only [SSt.step, Servo.micro]; rw [hmx]; exact h1
        | tick dt => simp only [SSt.step, (tick_vel _ _).1]; exact h
        | load => exact h
        | storeStart => exact h
        | zeroElapsed => exact h
        | setTarget x => exact h
  exact key es _ hes rfl ⟨m, rfl, by linarith, le_refl _⟩

/-- C36 fails for a requested NaN (which the controller computes when a linear move changes only the orientation and V is 0: 0/0): the setting becomes NaN. -/
theorem C36_speed_nan_false (pin : Int) (m : XR) (f1 f2 : Nat) (lo hi home : XR) :
    ((SSt.init (Servo.new pin m f1 f2 lo hi home)).run [.setVel nan]).sv.vel = nan := by
  simp [SSt.run, SSt.step, SSt.init, Servo.new, Servo.micro, Servo.clampVel, fgt, fle]

/-- C36 fails for a configured maximum below 0.1: a request of 0 sets the speed 0.1, above the maximum. -/
theorem C36_speed_small_max_false (pin : Int) (f1 f2 : Nat) (lo hi home : XR) :
    ((SSt.init (Servo.new pin (fin (1 / 20)) f1 f2 lo hi home)).run [.setVel (fin 0)]).sv.vel = fin (1 / 10) ∧ (1 : ℝ) / 20 < 1 / 10 := by
  refine ⟨?_, by norm_num⟩
  simp only [SSt.run, SSt.step, SSt.init, Servo.new, Servo.micro, List.foldl, clampVel_fin]
  norm_num

-- the kit's servos meet the hypothesis
example : (1 : ℝ) / 10 ≤ 150 * (Real.pi / 180) := by have := Real.two_le_pi; linarith

/-- one tick on finite values. -/
theorem tick_fin (s : Servo XR) (st tg v : ℝ) (dt : Nat) (h1 : s.start = fin st) (h2 : s.target = fin tg) (h3 : s.vel = fin v) :
    s.tick dt = { s with
      elapsed := u32 (s.elapsed + dt)
      cur := fin (if |tg - st| < |v * (u32 (s.elapsed + dt) : ℕ) / 1000| then tg else if st < tg then st + v * (u32 (s.elapsed + dt) : ℕ) / 1000 else st - v * (u32 (s.elapsed + dt) : ℕ) / 1000)
      start := fin (if |tg - st| < |v * (u32 (s.elapsed + dt) : ℕ) / 1000| then tg else st) } := by
  have e1000 : ((1000 : Rat) : ℝ) ≠ 0 := by norm_num
  unfold Servo.tick fgt Servo.ofNat lit
  simp only [h1, h2, h3, ops_lit, fin_mul, fin_div _ _ e1000, ops_abs, fin_sub, ops_lt, fin_add]
  have ec : ((1000 : Rat) : ℝ) = 1000 := by norm_num
  have en : (((u32 (s.elapsed + dt) : ℕ) : Rat) : ℝ) = ((u32 (s.elapsed + dt) : ℕ) : ℝ) := by norm_num
  rw [ec, en]
  generalize v * ((u32 (s.elapsed + dt) : ℕ) : ℝ) / 1000 = d
  generalize u32 (s.elapsed + dt) = e
  by_cases c1 : |tg - st| < |d|
  · simp [c1]
  · by_cases c2 : st < tg
    · simp [c1, c2, h1]
    · simp [c1, c2, h1]

theorem between {lo hi st tg d : ℝ} (hd : 0 ≤ d) (s1 : lo ≤ st) (s2 : st ≤ hi) (t1 : lo ≤ tg) (t2 : tg ≤ hi) :
    lo ≤ (if |tg - st| < |d| then tg else if st < tg then st + d else st - d) ∧
    (if |tg - st| < |d| then tg else if st < tg then st + d else st - d) ≤ hi := by
  rw [abs_of_nonneg hd]
  split
  · exact ⟨t1, t2⟩
  · rename_i h
    push Not at h
    split
    · rename_i h2
      rw [abs_of_pos (by linarith)] at h
      constructor <;> linarith
    · rename_i h2
      rw [abs_of_nonpos (by linarith)] at h
      constructor <;> linarith

/-- **C37**: if every target given to a servo is a number in [lo, hi], its home angle is in [lo, hi] and no requested velocity is NaN, then after
every history -- any interleaving of target changes, speed changes and timer ticks of any length, also in the middle of a target change -- its
angle is a number in [lo, hi]. -/
theorem C37_range (pin : Int) (m home : ℝ) (f1 f2 : Nat) (l h : XR) (lo hi : ℝ) (hm : 0 ≤ m) (h1 : lo ≤ home) (h2 : home ≤ hi)
    (es : List (SEv XR)) (hv : ∀ v, SEv.setVel v ∈ es → v ≠ nan) (ht : ∀ x, SEv.setTarget x ∈ es → InR lo hi x) :
    InR lo hi ((SSt.init (Servo.new pin (fin m) f1 f2 l h (fin home))).run es).sv.cur := by
  have key : ∀ (es : List (SEv XR)) (s : SSt XR), (∀ v, SEv.setVel v ∈ es → v ≠ nan) → (∀ x, SEv.setTarget x ∈ es → InR lo hi x) →
      s.sv.maxVel = fin m → (∃ u, s.sv.vel = fin u ∧ 0 ≤ u) → InR lo hi s.sv.cur → InR lo hi s.sv.start → InR lo hi s.sv.target →
      InR lo hi s.reg → InR lo hi (s.run es).sv.cur := by
    intro es
    induction es with
    | nil => intro s _ _ _ _ h _ _ _; exact h
    | cons e es ih =>
      intro s hv ht hmx hu hc hs htg hr
      have hv' : ∀ v, SEv.setVel v ∈ es → v ≠ nan := fun v hv2 => hv v (List.mem_cons_of_mem _ hv2)
      have ht' : ∀ x, SEv.setTarget x ∈ es → InR lo hi x := fun v hv2 => ht v (List.mem_cons_of_mem _ hv2)
      have go := ih (s.step e) hv' ht'
      cases e with
      | setVel v =>
        obtain ⟨u, h1, h2, _⟩ := clampVel_pos m hm v (hv v (List.mem_cons_self ..))
        exact go hmx ⟨u, by simp only [SSt.step, Servo.micro]; rw [hmx]; exact h1, h2⟩ hc hs htg hr
      | tick dt =>
        obtain ⟨u, eu, u0⟩ := hu
        obtain ⟨st, es1, s1, s2⟩ := hs
        obtain ⟨tg, et, t1, t2⟩ := htg
        have e := tick_fin s.sv st tg u dt es1 et eu
        have hd : 0 ≤ u * ((u32 (s.sv.elapsed + dt) : ℕ) : ℝ) / 1000 := by positivity
        have hb := between hd s1 s2 t1 t2
        refine go ?_ ?_ ?_ ?_ ?_ hr
        · simp only [SSt.step, e]; exact hmx
        · simp only [SSt.step, e]; exact ⟨u, eu, u0⟩
        · simp only [SSt.step, e]; exact ⟨_, rfl, hb⟩
        · simp only [SSt.step, e]
          refine ⟨_, rfl, ?_⟩
          split
          · exact ⟨t1, t2⟩
          · exact ⟨s1, s2⟩
        · simp only [SSt.step, e]; exact ⟨tg, et, t1, t2⟩
      | load => exact go hmx hu hc hs htg hc
      | storeStart => exact go hmx hu hc hr htg hr
      | zeroElapsed => exact go hmx hu hc hs htg hr
      | setTarget x => exact go hmx hu hc hs (ht x (List.mem_cons_self ..)) hr
  have hh : InR lo hi (fin home) := ⟨home, rfl, h1, h2⟩
  exact key es _ hv ht rfl ⟨m, rfl, hm⟩ hh hh hh hh

-- an interrupted target change during a move, then a speed change
example : InR (-1) 2 ((SSt.init (Servo.new 3 (fin 1) 700 2380 (fin (-1)) (fin 2) (fin 0))).run
    [.setTarget (fin 2), .tick 20, .load, .tick 20, .storeStart, .tick 20, .zeroElapsed, .setVel (fin 100), .tick 20, .setTarget (fin (-1)), .tick 20]).sv.cur := by
  refine C37_range 3 1 0 700 2380 _ _ (-1) 2 (by norm_num) (by norm_num) (by norm_num) _ ?_ ?_
  · intro v h; simp at h; subst h; exact fun h => by cases h
  · intro x h
    simp at h
    rcases h with rfl | rfl
    · exact ⟨2, rfl, by norm_num, le_refl _⟩
    · exact ⟨-1, rfl, le_refl _, by norm_num⟩

/-- the restriction of C37 to numeric velocities is needed: a NaN velocity makes the angle NaN in the next tick. -/
theorem C37_nan_false (pin : Int) (m home t : ℝ) (f1 f2 : Nat) (l h : XR) (dt : Nat) :
    ((SSt.init (Servo.new pin (fin m) f1 f2 l h (fin home))).run [.setVel nan, .setTarget (fin t), .tick dt]).sv.cur = nan := by
  simp [SSt.run, SSt.step, SSt.init, Servo.new, Servo.micro, Servo.clampVel, fgt, fle, Servo.tick, Servo.ofNat]

/-! ### C38, C39: motion with constant target and speed -/

/-- specification: where something is that leaves `c` towards `tg` at `v` per second and stops there, after `T` ms. -/
noncomputable def position (c tg v : ℝ) (T : ℕ) : ℝ := if c ≤ tg then min tg (c + v * T / 1000) else max tg (c - v * T / 1000)

private theorem pos_eq (c tg v : ℝ) (T : ℕ) (hv : 0 ≤ v) :
    (if |tg - c| < |v * T / 1000| then tg else if c < tg then c + v * T / 1000 else c - v * T / 1000) = position c tg v T := by
  have hd : 0 ≤ v * T / 1000 := by positivity
  unfold position
  generalize v * T / 1000 = d at *
  rw [abs_of_nonneg hd]
  by_cases h : c ≤ tg
  · rw [if_pos h, abs_of_nonneg (by linarith)]
    split
    · rw [min_eq_left (by linarith)]
    · rename_i h1
      rw [min_eq_right (by linarith)]
      split
      · rfl
      · rename_i h2
        have : c = tg := by linarith
        have : d = 0 := by linarith
        rw [this]; ring
  · rw [if_neg h, abs_of_neg (by linarith)]
    split
    · rw [max_eq_left (by linarith)]
    · rw [max_eq_right (by linarith), if_neg (by linarith)]

/-- state during an undisturbed move: `T` ms since the command, not yet noticed to have arrived. -/
private def Going (s : Servo XR) (c tg v : ℝ) (T : ℕ) : Prop :=
  s.start = fin c ∧ s.target = fin tg ∧ s.vel = fin v ∧ s.elapsed = T ∧ s.cur = fin (position c tg v T) ∧ v * T / 1000 ≤ |tg - c|
/-- arrived. -/
private def There (s : Servo XR) (tg v : ℝ) : Prop := s.start = fin tg ∧ s.target = fin tg ∧ s.vel = fin v ∧ s.cur = fin tg

private theorem there_tick {s : Servo XR} {tg v : ℝ} (h : There s tg v) (dt : ℕ) : There (s.tick dt) tg v := by
  obtain ⟨h1, h2, h3, _⟩ := h
  rw [tick_fin s tg tg v dt h1 h2 h3]
  refine ⟨?_, h2, h3, ?_⟩
  · simp
  · simp only [sub_self, abs_zero, lt_irrefl, if_false]
    congr 1
    split
    · rfl
    · rename_i h
      have : v * ((u32 (s.elapsed + dt) : ℕ) : ℝ) / 1000 = 0 := by
        by_contra hne; exact h (abs_pos.2 hne)
      rw [this, sub_zero]

private theorem going_tick {s : Servo XR} {c tg v : ℝ} {T : ℕ} (hv : 0 ≤ v) (h : Going s c tg v T) (dt : ℕ) (hT : T + dt < 4294967296) :
    if |tg - c| < v * (T + dt : ℕ) / 1000 then There (s.tick dt) tg v else Going (s.tick dt) c tg v (T + dt) := by
  obtain ⟨h1, h2, h3, h4, _, _⟩ := h
  have eu : u32 (s.elapsed + dt) = T + dt := by rw [h4]; exact Nat.mod_eq_of_lt hT
  have hd : 0 ≤ v * ((T + dt : ℕ) : ℝ) / 1000 := by positivity
  rw [tick_fin s c tg v dt h1 h2 h3, eu]
  split
  · rename_i hlt
    have hlt' : |tg - c| < |v * ((T + dt : ℕ) : ℝ) / 1000| := by rwa [abs_of_nonneg hd]
    refine ⟨?_, h2, h3, ?_⟩ <;> simp only [if_pos hlt']
  · rename_i hlt
    have hlt' : ¬ |tg - c| < |v * ((T + dt : ℕ) : ℝ) / 1000| := by rwa [abs_of_nonneg hd]
    refine ⟨?_, h2, h3, rfl, ?_, by linarith⟩
    · simp only [if_neg hlt']
    · simp only [pos_eq c tg v (T + dt) hv]

/-- the ticks `ds`. -/
private noncomputable def ticks (s : Servo XR) (ds : List ℕ) : Servo XR := ds.foldl Servo.tick s

private theorem there_ticks (ds : List ℕ) : ∀ {s : Servo XR} {tg v : ℝ}, There s tg v → There (ticks s ds) tg v := by
  induction ds with
  | nil => intro s tg v h; exact h
  | cons d ds ih => intro s tg v h; exact ih (there_tick h d)

private theorem going_ticks (ds : List ℕ) : ∀ {s : Servo XR} {c tg v : ℝ} {T : ℕ}, 0 ≤ v → Going s c tg v T → T + ds.sum < 4294967296 →
    if |tg - c| < v * (T + ds.sum : ℕ) / 1000 then There (ticks s ds) tg v else Going (ticks s ds) c tg v (T + ds.sum) := by
  induction ds with
  | nil =>
    intro s c tg v T hv h _
    rw [if_neg]
    · exact h
    · have := h.2.2.2.2.2; simp only [List.sum_nil, Nat.add_zero]; linarith
  | cons d ds ih =>
    intro s c tg v T hv h hT
    rw [show (d :: ds).sum = d + ds.sum from List.sum_cons] at hT ⊢
    have h1 := going_tick hv h d (by omega)
    split at h1
    · rename_i hlt
      have : v * ((T + d : ℕ) : ℝ) / 1000 ≤ v * ((T + (d + ds.sum) : ℕ) : ℝ) / 1000 := by
        have : ((T + d : ℕ) : ℝ) ≤ ((T + (d + ds.sum) : ℕ) : ℝ) := by exact_mod_cast (by omega)
        have := mul_le_mul_of_nonneg_left this hv
        linarith
      rw [if_pos (by linarith)]
      exact there_ticks ds h1
    · have := ih hv h1 (by omega)
      rw [Nat.add_assoc] at this
      exact this

private theorem run_ticks (ds : List ℕ) : ∀ (s : SSt XR), (s.run (SEv.ticks ds)).sv = ticks s.sv ds := by
  induction ds with
  | nil => intro s; rfl
  | cons d ds ih => intro s; exact ih (s.step (.tick d))

private theorem run_append (s : SSt XR) (a b : List (SEv XR)) : s.run (a ++ b) = (s.run a).run b := List.foldl_append ..

private theorem after_command {s : SSt XR} {c tg v : ℝ} (hc : s.sv.cur = fin c) (hvel : s.sv.vel = fin v) :
    Going (s.run (SEv.command (fin tg))).sv c tg v 0 := by
  refine ⟨hc, rfl, hvel, rfl, ?_, by simp⟩
  show s.sv.cur = _
  rw [hc]; unfold position; congr 1; split
  · rename_i h; rw [min_eq_right (by simpa using h)]; simp
  · rename_i h; rw [max_eq_right (by simp; linarith)]; simp

/-- **C38/1**: after any history, once a target is commanded and left alone (and the speed not changed), the angle after ticks of total length
`T` is exactly where something is that moves at constant speed towards the target and stops there -- as long as T is below the range 2^32 ms
of the elapsed time counter. -/
theorem C38_position (s : SSt XR) (c tg v : ℝ) (hc : s.sv.cur = fin c) (hvel : s.sv.vel = fin v) (hv : 0 < v) (ds : List ℕ)
    (hT : ds.sum < 4294967296) :
    (s.run (SEv.command (fin tg) ++ SEv.ticks ds)).sv.cur = fin (position c tg v ds.sum) := by
  rw [run_append, run_ticks]
  have := going_ticks ds hv.le (after_command hc hvel (tg := tg)) (by omega)
  simp only [Nat.zero_add] at this
  split at this
  · rename_i hlt
    rw [this.2.2.2]
    unfold position
    congr 1
    split
    · rename_i h; rw [abs_of_nonneg (by linarith)] at hlt; rw [min_eq_left (by linarith)]
    · rename_i h; rw [abs_of_neg (by linarith)] at hlt; rw [max_eq_left (by linarith)]
  · exact this.2.2.2.2.1

theorem run_eq_ticks (s : SSt XR) (a : List (SEv XR)) (ds : List ℕ) : (s.run (a ++ SEv.ticks ds)).sv = ds.foldl Servo.tick (s.run a).sv := by
  rw [run_append, run_ticks]; rfl

/-- at the speed `way / T` the fraction of the way covered after time `t` is `t / T`. -/
theorem position_fraction (c p T : ℝ) (n : ℕ) (hT : 0 < T) :
    position c p (if |p - c| / T ≤ 0 then 1 / 10 else |p - c| / T) n = c + (p - c) * min 1 ((n : ℝ) / 1000 / T) := by
  have hn : (0 : ℝ) ≤ n := Nat.cast_nonneg n
  have hm : 0 ≤ min 1 ((n : ℝ) / 1000 / T) := le_min (by norm_num) (by positivity)
  rcases lt_trichotomy c p with h | h | h
  · have hv : ¬ |p - c| / T ≤ 0 := by rw [not_le]; have : 0 < |p - c| := abs_pos.2 (by linarith); positivity
    rw [if_neg hv, abs_of_pos (by linarith)]
    unfold position
    rw [if_pos h.le]
    have e : c + (p - c) / T * n / 1000 = c + (p - c) * ((n : ℝ) / 1000 / T) := by ring
    rw [e]
    rcases le_total 1 ((n : ℝ) / 1000 / T) with h1 | h1
    · rw [min_eq_left h1, min_eq_left (by nlinarith)]; ring
    · rw [min_eq_right h1, min_eq_right (by nlinarith)]
  · subst h
    rw [if_pos (by simp)]
    unfold position
    rw [if_pos (le_refl _), min_eq_left (by have : (0:ℝ) ≤ 1 / 10 * n / 1000 := by positivity
                                            linarith)]
    ring
  · have hv : ¬ |p - c| / T ≤ 0 := by rw [not_le]; have : 0 < |p - c| := abs_pos.2 (by linarith); positivity
    rw [if_neg hv, abs_of_neg (by linarith)]
    unfold position
    rw [if_neg (by linarith)]
    have e : c - -(p - c) / T * n / 1000 = c + (p - c) * ((n : ℝ) / 1000 / T) := by ring
    rw [e]
    rcases le_total 1 ((n : ℝ) / 1000 / T) with h1 | h1
    · rw [min_eq_left h1, max_eq_left (by nlinarith)]; ring
    · rw [min_eq_right h1, max_eq_right (by nlinarith)]

/-- **C38/2**: once the distance has been covered, the servo is exactly at the target after every further sequence of ticks, however long (also
across the wrap of the elapsed time counter). -/
theorem C38_stays (s : SSt XR) (c tg v : ℝ) (hc : s.sv.cur = fin c) (hvel : s.sv.vel = fin v) (hv : 0 < v) (ds es : List ℕ)
    (hT : ds.sum < 4294967296) (harr : |tg - c| < v * ds.sum / 1000) :
    (s.run (SEv.command (fin tg) ++ SEv.ticks (ds ++ es))).sv.cur = fin tg := by
  rw [run_append, run_ticks]
  have := going_ticks ds hv.le (after_command hc hvel (tg := tg)) (by omega)
  simp only [Nat.zero_add] at this
  rw [if_pos harr] at this
  have := there_ticks es this
  unfold ticks at *
  rw [List.foldl_append]
  exact this.2.2.2

/-- **C38/3**: with the period 20 ms of the timer and a distance that takes less than 2^32 - 20 ms at the set speed, there is a number of ticks after
which the servo is at the target for ever. -/
theorem C38_arrives (s : SSt XR) (c tg v : ℝ) (hc : s.sv.cur = fin c) (hvel : s.sv.vel = fin v) (hv : 0 < v)
    (hd : |tg - c| < v * 4294967276 / 1000) :
    ∃ n, ∀ k, n ≤ k → (s.run (SEv.command (fin tg) ++ SEv.ticks (List.replicate k 20))).sv.cur = fin tg := by
  obtain ⟨n, hn1, hn2⟩ : ∃ n : ℕ, n * 20 < 4294967296 ∧ |tg - c| < v * ((n * 20 : ℕ) : ℝ) / 1000 := by
    refine ⟨214748364, by norm_num, ?_⟩
    push_cast
    have : v * 4294967276 / 1000 ≤ v * (214748364 * 20) / 1000 := by nlinarith
    linarith
  refine ⟨n, fun k hk => ?_⟩
  obtain ⟨j, rfl⟩ := Nat.exists_eq_add_of_le hk
  rw [List.replicate_add]
  apply C38_stays s c tg v hc hvel hv
  · simpa using hn1
  · simpa using hn2

private theorem position_mono (c tg v : ℝ) (hv : 0 ≤ v) {a b : ℕ} (h : a ≤ b) :
    (c ≤ tg → position c tg v a ≤ position c tg v b ∧ position c tg v b ≤ tg) ∧ (tg ≤ c → position c tg v b ≤ position c tg v a ∧ tg ≤ position c tg v b) := by
  have : v * (a : ℝ) / 1000 ≤ v * (b : ℝ) / 1000 := by
    have : (a : ℝ) ≤ b := by exact_mod_cast h
    have := mul_le_mul_of_nonneg_left this hv
    linarith
  have h0 : 0 ≤ v * (a : ℝ) / 1000 := by positivity
  constructor
  · intro hc
    unfold position
    rw [if_pos hc, if_pos hc]
    exact ⟨min_le_min_left _ (by linarith), min_le_left _ _⟩
  · intro hc
    unfold position
    split
    · rename_i h2
      have : c = tg := le_antisymm h2 hc
      subst this
      rw [min_eq_left (by linarith), min_eq_left (by linarith)]; exact ⟨le_refl _, le_refl _⟩
    · exact ⟨max_le_max_left _ (by linarith), le_max_left _ _⟩

/-- **C38/4**: on the way every tick moves the servo towards the target (or leaves it there) and never past it. -/
theorem C38_monotone (s : SSt XR) (c tg v : ℝ) (hc : s.sv.cur = fin c) (hvel : s.sv.vel = fin v) (hv : 0 < v) (ds : List ℕ) (dt : ℕ)
    (hT : ds.sum + dt < 4294967296) :
    ∃ a b, (s.run (SEv.command (fin tg) ++ SEv.ticks ds)).sv.cur = fin a ∧ (s.run (SEv.command (fin tg) ++ SEv.ticks (ds ++ [dt]))).sv.cur = fin b ∧
      (c ≤ tg → c ≤ a ∧ a ≤ b ∧ b ≤ tg) ∧ (tg ≤ c → a ≤ c ∧ b ≤ a ∧ tg ≤ b) := by
  have e0 : position c tg v 0 = c := by
    unfold position; split
    · rename_i h; rw [min_eq_right (by simpa using h)]; simp
    · rename_i h; rw [max_eq_right (by simp; linarith)]; simp
  refine ⟨_, _, C38_position s c tg v hc hvel hv ds (by omega), C38_position s c tg v hc hvel hv (ds ++ [dt]) (by simpa using hT), ?_, ?_⟩
  · intro h
    refine ⟨?_, (position_mono c tg v hv.le (by simp)).1 h⟩
    have := ((position_mono c tg v hv.le (Nat.zero_le ds.sum)).1 h).1
    rwa [e0] at this
  · intro h
    refine ⟨?_, (position_mono c tg v hv.le (by simp)).2 h⟩
    have := ((position_mono c tg v hv.le (Nat.zero_le ds.sum)).2 h).1
    rwa [e0] at this

-- hypotheses of C38: a servo of the kit commanded from 0 to 1 rad at 1 rad/s is there after 1.02 s
example : ((SSt.init (Servo.new 3 (fin 1) 700 2380 (fin (-2)) (fin 2) (fin 0))).run (SEv.command (fin 1) ++ SEv.ticks (List.replicate 51 20 ++ List.replicate 1000000000 20))).sv.cur = fin 1 := by
  refine C38_stays _ 0 1 1 rfl rfl (by norm_num) _ _ (by simp) ?_
  simp; norm_num

/-- the bound on the duration in C38/3 is needed: at a speed of 10^-7 rad/s a servo commanded by 1 rad never gets there, because the elapsed time
counter wraps. -/
theorem C38_wrap_false (n : ℕ) :
    ((SSt.init (Servo.new 3 (fin (1 / 10000000)) 700 2380 (fin (-2)) (fin 2) (fin 0))).run
      (SEv.command (fin 1) ++ SEv.ticks (List.replicate n 20))).sv.cur ≠ fin 1 := by
  rw [run_append, run_ticks]
  have key : ∀ n (s : Servo XR), s.start = fin 0 → s.target = fin 1 → s.vel = fin (1 / 10000000) → s.cur ≠ fin 1 →
      (ticks s (List.replicate n 20)).cur ≠ fin 1 := by
    intro n
    induction n with
    | zero => intro s _ _ _ h; exact h
    | succ n ih =>
      intro s h1 h2 h3 _
      have hu : ((u32 (s.elapsed + 20) : ℕ) : ℝ) ≤ 4294967296 := by exact_mod_cast (Nat.mod_lt _ (by norm_num)).le
      have hu0 : (0 : ℝ) ≤ ((u32 (s.elapsed + 20) : ℕ) : ℝ) := by positivity
      have hn : ¬ |(1 : ℝ) - 0| < |1 / 10000000 * ((u32 (s.elapsed + 20) : ℕ) : ℝ) / 1000| := by
        have hp : 0 ≤ 1 / 10000000 * ((u32 (s.elapsed + 20) : ℕ) : ℝ) / 1000 := by linarith
        rw [abs_of_nonneg hp, sub_zero, abs_one]; linarith
      have e := tick_fin s 0 1 _ 20 h1 h2 h3
      simp only [if_neg hn] at e
      refine ih (s.tick 20) ?_ ?_ ?_ ?_
      · rw [e]
      · rw [e]; exact h2
      · rw [e]; exact h3
      · rw [e]
        simp only [zero_lt_one, if_true]
        intro hc
        have : (0 : ℝ) + 1 / 10000000 * ((u32 (s.elapsed + 20) : ℕ) : ℝ) / 1000 = 1 := by injection hc
        linarith
  refine key n _ rfl rfl rfl ?_
  show fin 0 ≠ fin 1
  intro h; injection h with h; norm_num at h

/-- **C39** (ticks after a complete command; false for ticks elsewhere, see below): a tick of `dt` ms moves the servo by at most v*dt/1000, where v is the
speed setting. -/
theorem C39_tick_partial (s : SSt XR) (c tg v : ℝ) (hc : s.sv.cur = fin c) (hvel : s.sv.vel = fin v) (hv : 0 < v) (ds : List ℕ) (dt : ℕ)
    (hT : ds.sum + dt < 4294967296) :
    ∃ a b, (s.run (SEv.command (fin tg) ++ SEv.ticks ds)).sv.cur = fin a ∧ (s.run (SEv.command (fin tg) ++ SEv.ticks (ds ++ [dt]))).sv.cur = fin b ∧
      |b - a| ≤ v * dt / 1000 := by
  refine ⟨_, _, C38_position s c tg v hc hvel hv ds (by omega), C38_position s c tg v hc hvel hv (ds ++ [dt]) (by simpa using hT), ?_⟩
  have e : v * (((ds ++ [dt]).sum : ℕ) : ℝ) / 1000 = v * (ds.sum : ℝ) / 1000 + v * dt / 1000 := by simp; ring
  have h0 : 0 ≤ v * (dt : ℝ) / 1000 := by positivity
  unfold position
  rw [e]
  generalize v * (ds.sum : ℝ) / 1000 = p at *
  generalize v * (dt : ℝ) / 1000 = q at *
  split
  · rw [abs_of_nonneg (by have := min_le_min_left tg (show c + p ≤ c + (p + q) by linarith); linarith)]
    rcases le_total tg (c + p) with h | h
    · rw [min_eq_left h, min_eq_left (by linarith)]; linarith
    · rw [min_eq_right h]; have := min_le_right tg (c + (p + q)); linarith
  · rw [abs_of_nonpos (by have := max_le_max_left tg (show c - (p + q) ≤ c - p by linarith); linarith)]
    rcases le_total tg (c - p) with h | h
    · rw [max_eq_right h]; have := le_max_right tg (c - (p + q)); linarith
    · rw [max_eq_left h, max_eq_left (by linarith)]; linarith

-- non-trivial instance of the hypotheses
example : ∃ a b, ((SSt.init (Servo.new 3 (fin 1) 700 2380 (fin (-2)) (fin 2) (fin 0))).run (SEv.command (fin 1) ++ SEv.ticks [20, 20])).sv.cur = fin a ∧
    ((SSt.init (Servo.new 3 (fin 1) 700 2380 (fin (-2)) (fin 2) (fin 0))).run (SEv.command (fin 1) ++ SEv.ticks ([20, 20] ++ [20]))).sv.cur = fin b ∧ |b - a| ≤ 1 * (20 : ℕ) / 1000 :=
  C39_tick_partial _ 0 1 1 rfl rfl (by norm_num) [20, 20] 20 (by norm_num)

/-- C39 in full is false: RobotController::process first changes the speed and then the target (RobotController.cpp:747-750); a tick in
between, 0.5 s into a move at 0.5 rad/s, moves the servo by 0.27 rad where the new speed of 1 rad/s allows 0.02 rad. -/
theorem C39_tick_false : ∃ (s : SSt XR) (a b v : ℝ), s = (SSt.init (Servo.new 3 (fin 2) 700 2380 (fin (-2)) (fin 2) (fin 0))).run
      ([.setVel (fin (1 / 2))] ++ SEv.command (fin 2) ++ [.tick 500, .setVel (fin 1)]) ∧
    s.sv.cur = fin a ∧ s.sv.vel = fin v ∧ (s.step (.tick 20)).sv.cur = fin b ∧ v * 20 / 1000 < |b - a| := by
  have e1 : ((SSt.init (Servo.new 3 (fin 2) 700 2380 (fin (-2)) (fin 2) (fin 0))).run ([.setVel (fin (1 / 2))] ++ SEv.command (fin 2) ++ [.tick 500, .setVel (fin 1)])) =
      ⟨{ (Servo.new 3 (fin 2) 700 2380 (fin (-2)) (fin 2) (fin 0)) with vel := fin 1, elapsed := 500, cur := fin (1 / 4), target := fin 2 }, fin 0⟩ := by
    simp only [SSt.run, List.foldl, List.foldl_append, List.cons_append, List.nil_append, SEv.command, SSt.step, SSt.init, Servo.micro, Servo.new, clampVel_fin]
    rw [tick_fin _ 0 2 (1 / 2) 500 rfl rfl (by norm_num)]
    simp only [clampVel_fin]
    norm_num [u32]
  refine ⟨_, 1 / 4, 52 / 100, 1, e1.symm, rfl, rfl, ?_, by norm_num⟩
  simp only [SSt.step]
  rw [tick_fin _ 0 2 1 20 rfl rfl rfl]
  simp only []
  norm_num [u32]

/-! ### C40: pulse width -/

theorem trunc_mono {x y : ℝ} (h : x ≤ y) : trunc x ≤ trunc y := by
  unfold trunc
  split <;> split
  · exact Int.floor_mono h
  · linarith
  · have h1 : ⌈x⌉ ≤ 0 := by rw [Int.ceil_le]; push_cast; linarith
    have h2 : 0 ≤ ⌊y⌋ := Int.floor_nonneg.2 (by assumption)
    omega
  · exact Int.ceil_mono h
theorem trunc_nat (n : ℕ) : trunc (n : ℝ) = n := by
  unfold trunc; rw [if_pos (by positivity)]; simp

/-- the pulse width of a servo whose angle is `c`, before truncation. -/
private theorem pulse_fin (s : Servo XR) (c lo hi : ℝ) (hc : s.cur = fin c) (hl : s.minA = fin lo) (hh : s.maxA = fin hi) (h : lo < hi) :
    s.pulse = XR.toInt (fin ((c - lo) * ((s.maxFreq : ℝ) - s.minFreq) / (hi - lo) + s.minFreq)) := by
  unfold Servo.pulse Servo.mapFloat Servo.ofNat lit
  rw [hc, hl, hh]
  simp only [ops_lit, fin_sub, fin_mul, fin_div _ _ (show hi - lo ≠ 0 by linarith), fin_add]
  show XR.toInt _ = _
  norm_num

theorem interp_between {c lo hi a b : ℝ} (h : lo < hi) (h1 : lo ≤ c) (h2 : c ≤ hi) :
    min a b ≤ (c - lo) * (b - a) / (hi - lo) + a ∧ (c - lo) * (b - a) / (hi - lo) + a ≤ max a b := by
  set u := (c - lo) / (hi - lo) with hu
  have hpos : 0 < hi - lo := by linarith
  have e : (c - lo) * (b - a) / (hi - lo) + a = (1 - u) * a + u * b := by rw [hu]; field_simp; ring
  have u0 : 0 ≤ u := by rw [hu]; apply div_nonneg <;> linarith
  have u1 : u ≤ 1 := by rw [hu, div_le_one hpos]; linarith
  rw [e]
  constructor
  · have := min_le_left a b; have := min_le_right a b; nlinarith
  · have := le_max_left a b; have := le_max_right a b; nlinarith

/-- **C40/1**: while the angle is in [min, max], the conversion to the pulse width is defined and the width lies between the two calibration values. -/
theorem C40_pulse_range (s : Servo XR) (c lo hi : ℝ) (hc : s.cur = fin c) (hl : s.minA = fin lo) (hh : s.maxA = fin hi) (h : lo < hi)
    (h1 : lo ≤ c) (h2 : c ≤ hi) (f1 : s.minFreq ≤ 2147483647) (f2 : s.maxFreq ≤ 2147483647) :
    ∃ p, s.pulse = some p ∧ min (s.minFreq : ℤ) s.maxFreq ≤ p ∧ p ≤ max (s.minFreq : ℤ) s.maxFreq := by
  rw [pulse_fin s c lo hi hc hl hh h]
  obtain ⟨b1, b2⟩ := interp_between (a := (s.minFreq : ℝ)) (b := s.maxFreq) h h1 h2
  generalize (c - lo) * ((s.maxFreq : ℝ) - s.minFreq) / (hi - lo) + s.minFreq = x at *
  have c1 : ((min s.minFreq s.maxFreq : ℕ) : ℤ) ≤ trunc x := by
    rw [← trunc_nat]; apply trunc_mono; push_cast; exact b1
  have c2 : trunc x ≤ ((max s.minFreq s.maxFreq : ℕ) : ℤ) := by
    rw [← trunc_nat]; apply trunc_mono; push_cast; exact b2
  refine ⟨trunc x, ?_, by push_cast at c1; exact c1, by push_cast at c2; exact c2⟩
  simp only [XR.toInt]
  rw [if_pos]
  push_cast at c1 c2
  omega

/-- **C40/2**: the limits of the angle give exactly the calibration values. -/
theorem C40_pulse_ends (s : Servo XR) (lo hi : ℝ) (hl : s.minA = fin lo) (hh : s.maxA = fin hi) (h : lo < hi)
    (f1 : s.minFreq ≤ 2147483647) (f2 : s.maxFreq ≤ 2147483647) :
    (s.cur = fin lo → s.pulse = some (s.minFreq : ℤ)) ∧ (s.cur = fin hi → s.pulse = some (s.maxFreq : ℤ)) := by
  have hpos : hi - lo ≠ 0 := by linarith
  constructor
  · intro hc
    rw [pulse_fin s lo lo hi hc hl hh h]
    have : (lo - lo) * ((s.maxFreq : ℝ) - s.minFreq) / (hi - lo) + s.minFreq = (s.minFreq : ℝ) := by simp
    rw [this]; simp only [XR.toInt]; rw [trunc_nat, if_pos (by omega)]
  · intro hc
    rw [pulse_fin s hi lo hi hc hl hh h]
    have : (hi - lo) * ((s.maxFreq : ℝ) - s.minFreq) / (hi - lo) + s.minFreq = (s.maxFreq : ℝ) := by field_simp; ring
    rw [this]; simp only [XR.toInt]; rw [trunc_nat, if_pos (by omega)]

/-- **C40/3**: the width is monotone in the angle, increasing or decreasing according to the order of the calibration values. -/
theorem C40_pulse_monotone (s : Servo XR) (c d lo hi : ℝ) (hl : s.minA = fin lo) (hh : s.maxA = fin hi) (h : lo < hi) (hcd : c ≤ d) (p q : ℤ)
    (hp : ({ s with cur := fin c } : Servo XR).pulse = some p) (hq : ({ s with cur := fin d } : Servo XR).pulse = some q) :
    (s.minFreq ≤ s.maxFreq → p ≤ q) ∧ (s.maxFreq ≤ s.minFreq → q ≤ p) := by
  rw [pulse_fin { s with cur := fin c } c lo hi rfl hl hh h] at hp
  rw [pulse_fin { s with cur := fin d } d lo hi rfl hl hh h] at hq
  have hpos : 0 < hi - lo := by linarith
  simp only [XR.toInt] at hp hq
  split at hp
  · split at hq
    · cases hp; cases hq
      constructor
      · intro hf
        apply trunc_mono
        have hf' : (0 : ℝ) ≤ (s.maxFreq : ℝ) - s.minFreq := sub_nonneg.2 (by exact_mod_cast hf)
        have : (c - lo) * ((s.maxFreq : ℝ) - s.minFreq) ≤ (d - lo) * ((s.maxFreq : ℝ) - s.minFreq) := mul_le_mul_of_nonneg_right (by linarith) hf'
        have := div_le_div_of_nonneg_right this hpos.le
        linarith
      · intro hf
        apply trunc_mono
        have hf' : (s.maxFreq : ℝ) - s.minFreq ≤ 0 := sub_nonpos.2 (by exact_mod_cast hf)
        have : (d - lo) * ((s.maxFreq : ℝ) - s.minFreq) ≤ (c - lo) * ((s.maxFreq : ℝ) - s.minFreq) := mul_le_mul_of_nonpos_right (by linarith) hf'
        have := div_le_div_of_nonneg_right this hpos.le
        linarith
    · cases hq
  · cases hp

-- servo 2 of the kit (calibration values in decreasing order) at 45°, between its limits -45° and 135°
example : ∃ p, ({ Servo.new 5 (fin 1) 2290 650 (fin (-(Real.pi / 4))) (fin (3 * Real.pi / 4)) (fin 0) with cur := fin (Real.pi / 4) } : Servo XR).pulse = some p ∧ 650 ≤ p ∧ p ≤ 2290 := by
  have hp := Real.pi_pos
  obtain ⟨p, h1, h2, h3⟩ := C40_pulse_range { Servo.new 5 (fin 1) 2290 650 (fin (-(Real.pi / 4))) (fin (3 * Real.pi / 4)) (fin 0) with cur := fin (Real.pi / 4) }
    (Real.pi / 4) (-(Real.pi / 4)) (3 * Real.pi / 4) rfl rfl rfl (by linarith) (by linarith) (by linarith) (by norm_num [Servo.new]) (by norm_num [Servo.new])
  exact ⟨p, h1, by simpa [Servo.new] using h2, by simpa [Servo.new] using h3⟩

end Mrc.Props
