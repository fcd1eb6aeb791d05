import Verif.Model.StartScreen
import Verif.Props.Display
import Verif.Props.RoundTrip
import Mathlib.Tactic.IntervalCases
/-
C116: the picture of the arm on the start screen.
-/
set_option linter.unusedSimpArgs false
namespace Mrc.Props
open Mrc Mrc.Prog Mrc.Spec XR Disp
open scoped Mrc.Num

/-- how far the end of the `k`-th link lies from the base, in direction `c` (0 forward, 1 sideways). -/
def reach (G : Fin 5 → Vec3) (c : Fin 3) : ℕ → ℝ
  | 0 => 0
  | k + 1 => reach G c k + if h : k < 5 then G ⟨k, h⟩ c else 0

/-- how much the base and the ends of the first four links span in direction `c`. -/
def spread (G : Fin 5 → Vec3) (c : Fin 3) : ℝ :=
  max (max (max (max 0 (reach G c 1)) (reach G c 2)) (reach G c 3)) (reach G c 4) - min (min (min (min 0 (reach G c 1)) (reach G c 2)) (reach G c 3)) (reach G c 4)

/-- pixels per centimetre (horizontally two columns count one pixel): the arm, in whole centimetres, fills 64 pixels in width or 20 in height. -/
noncomputable def startSc (G : Fin 5 → Vec3) : ℝ :=
  if (⌊spread G 1⌋ : ℝ) * (64 / 20) < ⌊spread G 0⌋ then 64 / (⌊spread G 0⌋ : ℝ) else 20 / (⌊spread G 1⌋ : ℝ)

/-- the links one after the other: a link that begins at `x`, `y` (`x` in units of two columns) is drawn from column `2x`, row `y` to the
column and row of its end, and the next one begins there, rounded down. -/
noncomputable def startLines (sc : ℝ) : List (ℝ × ℝ) → ℕ → ℕ → List Draw
  | [], _, _ => []
  | g :: gs, x, y => .line (2 * x) y ⌊2 * (x + g.1 * sc)⌋ ⌊y - g.2 * sc⌋ :: startLines sc gs ⌊x + g.1 * sc⌋₊ ⌊y - g.2 * sc⌋₊

/-- the arm spans at least 1 cm and at most 1 km, and every joint is drawn to the right of column 10, below row 5, and not absurdly far away. -/
structure Drawable (G : Fin 5 → Vec3) : Prop where
  least : 1 ≤ spread G 0 ∨ 1 ≤ spread G 1
  wide : spread G 0 ≤ 100000
  high : spread G 1 ≤ 100000
  col : ∀ k ≤ 5, 5 ≤ 30 + reach G 0 k * startSc G ∧ 30 + reach G 0 k * startSc G ≤ 16000
  row : ∀ k ≤ 5, 5 ≤ 32 - reach G 1 k * startSc G ∧ 32 - reach G 1 k * startSc G ≤ 16000

/-- the greatest and the least of `hi` (`lo`) and the running sums. -/
def most : List ℝ → ℝ → ℝ → ℝ
  | [], _, hi => hi
  | g :: gs, t, hi => most gs (t + g) (max hi (t + g))
def fewest : List ℝ → ℝ → ℝ → ℝ
  | [], _, lo => lo
  | g :: gs, t, lo => fewest gs (t + g) (min lo (t + g))

theorem extremes_fin : ∀ (gs : List ℝ) (t hi lo : ℝ), lo ≤ hi → extremes (gs.map fin) (fin t) (fin hi) (fin lo) = (fin (most gs t hi), fin (fewest gs t lo))
  | [], _, _, _, _ => rfl
  | g :: gs, t, hi, lo, h => by
    simp only [List.map_cons, extremes, fin_add, fgt, flt, ops_lt, decide_eq_true_eq, most, fewest]
    by_cases h1 : hi < t + g
    · rw [if_pos h1, extremes_fin gs _ _ _ (by linarith), max_eq_right h1.le, min_eq_left (by linarith)]
    · rw [if_neg h1]
      by_cases h2 : t + g < lo
      · rw [if_pos h2, extremes_fin gs _ _ _ (by linarith), max_eq_left (by linarith), min_eq_right h2.le]
      · rw [if_neg h2, extremes_fin gs _ _ _ h, max_eq_left (by linarith), min_eq_left (by linarith)]

theorem most_ge : ∀ (gs : List ℝ) (t hi : ℝ), hi ≤ most gs t hi
  | [], _, _ => le_rfl
  | g :: gs, t, hi => (le_max_left _ _).trans (most_ge gs _ _)
theorem fewest_le : ∀ (gs : List ℝ) (t lo : ℝ), fewest gs t lo ≤ lo
  | [], _, _ => le_rfl
  | g :: gs, t, lo => (fewest_le gs _ _).trans (min_le_left _ _)

theorem extent_fin (gs : List ℝ) (hb : most gs 0 0 - fewest gs 0 0 ≤ 100000) : extent (gs.map fin) = some ⌊most gs 0 0 - fewest gs 0 0⌋ := by
  have := extremes_fin gs 0 0 0 le_rfl
  have s0 : 0 ≤ most gs 0 0 - fewest gs 0 0 := by linarith [most_ge gs 0 0, fewest_le gs 0 0]
  have a : (⌊most gs 0 0 - fewest gs 0 0⌋ : ℝ) ≤ 100000 := (Int.floor_le _).trans hb
  have b : 0 ≤ ⌊most gs 0 0 - fewest gs 0 0⌋ := Int.floor_nonneg.2 s0
  have a' : ⌊most gs 0 0 - fewest gs 0 0⌋ ≤ 100000 := by exact_mod_cast a
  unfold extent
  have e : (lit 0 : XR) = fin 0 := by simp [lit]
  simp only [e, this, fin_sub]
  show XR.toInt _ = _
  have et : trunc (most gs 0 0 - fewest gs 0 0) = ⌊most gs 0 0 - fewest gs 0 0⌋ := by unfold trunc; rw [if_pos s0]
  simp only [XR.toInt, et]; rw [if_pos (by omega)]

theorem spread_nonneg (G : Fin 5 → Vec3) (c : Fin 3) : 0 ≤ spread G c := by
  unfold spread
  have a : (0 : ℝ) ≤ max (max (max (max 0 (reach G c 1)) (reach G c 2)) (reach G c 3)) (reach G c 4) := by simp
  have b : min (min (min (min 0 (reach G c 1)) (reach G c 2)) (reach G c 3)) (reach G c 4) ≤ (0 : ℝ) := by simp
  linarith

theorem extent_spread (G : Fin 5 → Vec3) (c : Fin 3) (hb : spread G c ≤ 100000) : extent [fin (G 0 c), fin (G 1 c), fin (G 2 c), fin (G 3 c)] = some ⌊spread G c⌋ := by
  have e : most [G 0 c, G 1 c, G 2 c, G 3 c] 0 0 - fewest [G 0 c, G 1 c, G 2 c, G 3 c] 0 0 = spread G c := by
    have r1 : reach G c 1 = 0 + G 0 c := by simp [reach]
    have r2 : reach G c 2 = 0 + G 0 c + G 1 c := by simp [reach]
    have r3 : reach G c 3 = 0 + G 0 c + G 1 c + G 2 c := by simp [reach]
    have r4 : reach G c 4 = 0 + G 0 c + G 1 c + G 2 c + G 3 c := by simp [reach]
    rw [spread, r1, r2, r3, r4]; rfl
  have := extent_fin [G 0 c, G 1 c, G 2 c, G 3 c] (by rw [e]; exact hb)
  rwa [e] at this

theorem convU_fin {v : ℝ} (h0 : 0 ≤ v) (h : v ≤ 32767) : convU (fin v) = some ⌊v⌋₊ := by
  have a : ⌊v⌋ ≤ 32767 := by have := (Int.floor_le v).trans h; exact_mod_cast this
  have b : 0 ≤ ⌊v⌋ := Int.floor_nonneg.2 h0
  have et : trunc v = ⌊v⌋ := by unfold trunc; rw [if_pos h0]
  have : FloatOps.toInt (fin v) = some ⌊v⌋ := by
    show XR.toInt _ = _
    simp only [XR.toInt, et]; rw [if_pos (by omega)]
  unfold convU
  rw [this]; simp only; rw [if_pos b, Int.floor_toNat]

theorem startScale_fin {w h : Int} (hw : 0 ≤ w) (hh : 0 ≤ h) (hp : 0 < w ∨ 0 < h) :
    (startScale w h 64 20 : XR) = fin (if (h : ℝ) * (64 / 20) < w then 64 / (w : ℝ) else 20 / (h : ℝ)) := by
  have hw' : (0 : ℝ) ≤ w := by exact_mod_cast hw
  unfold startScale
  simp only [lit, ops_lit, Servo.ofNat]
  push_cast
  rw [fin_div 64 20 (by norm_num)]
  rcases hh.eq_or_lt with e | hh
  · subst e
    have hr : (0 : ℝ) < w := by rcases hp with hp | hp <;> [exact_mod_cast hp; omega]
    have : (fin (w : ℝ) / fin ((0 : ℤ) : ℝ) : XR) = inf false := by
      show XR.div _ _ = _
      simp [XR.div, hr.ne', isNeg, hw]
    have gt : fgt (inf false) (fin (64 / 20) : XR) = true := rfl
    rw [this, if_pos gt, if_pos (by simpa using hr), fin_div 64 _ hr.ne']
  · have hr : (0 : ℝ) < h := by exact_mod_cast hh
    rw [fin_div _ _ hr.ne']
    simp only [fgt, ops_lt, decide_eq_true_eq, lt_div_iff₀ hr]
    have e : (64 / 20 : ℝ) * h = h * (64 / 20) := mul_comm _ _
    rw [e]
    by_cases g : (h : ℝ) * (64 / 20) < w
    · have : (0 : ℝ) < w := by nlinarith
      rw [if_pos g, if_pos g, fin_div _ _ this.ne']
    · rw [if_neg g, if_neg g, fin_div _ _ hr.ne']

/-- the loop: as long as the ends of the links, not rounded, are not drawn too far to the left or the top (one unit per link for the rounding). -/
theorem chain_fin {sc : ℝ} : ∀ (gs : List (ℝ × ℝ)) (x y : ℕ), (x : ℝ) ≤ 16000 → (y : ℝ) ≤ 16000 →
    (∀ k ≤ gs.length, (gs.length : ℝ) ≤ x + ((gs.take k).map Prod.fst).sum * sc ∧ x + ((gs.take k).map Prod.fst).sum * sc ≤ 16000) →
    (∀ k ≤ gs.length, (gs.length : ℝ) ≤ y - ((gs.take k).map Prod.snd).sum * sc ∧ y - ((gs.take k).map Prod.snd).sum * sc ≤ 16000) →
    chain (fin sc) (gs.map fun g => (fin g.1, fin g.2)) x y = some (startLines sc gs x y)
  | [], _, _, _, _, _, _ => rfl
  | g :: gs, x, y, hx, hy, bx, by' => by
    have len : ((g :: gs).length : ℝ) = gs.length + 1 := by simp
    have n0 : (0 : ℝ) ≤ gs.length := by positivity
    rw [len] at bx by'
    have x1 := bx 1 (by simp)
    have y1 := by' 1 (by simp)
    simp only [List.take_succ_cons, List.take_zero, List.map_cons, List.map_nil, List.sum_cons, List.sum_nil, add_zero] at x1 y1
    have x0 : (0 : ℝ) ≤ x := by positivity
    have fx : (⌊(x : ℝ) + g.1 * sc⌋₊ : ℝ) ≤ x + g.1 * sc := Nat.floor_le (by linarith)
    have fx' := Nat.lt_floor_add_one ((x : ℝ) + g.1 * sc)
    have fy : (⌊(y : ℝ) - g.2 * sc⌋₊ : ℝ) ≤ y - g.2 * sc := Nat.floor_le (by linarith)
    have fy' := Nat.lt_floor_add_one ((y : ℝ) - g.2 * sc)
    have ih := chain_fin (sc := sc) gs ⌊x + g.1 * sc⌋₊ ⌊y - g.2 * sc⌋₊ (by linarith) (by linarith)
      (fun k hk => by
        have := bx (k + 1) (by simpa using hk)
        simp only [List.take_succ_cons, List.map_cons, List.sum_cons, add_mul] at this
        exact ⟨by linarith [this.1], by linarith [this.2]⟩)
      (fun k hk => by
        have := by' (k + 1) (by simpa using hk)
        simp only [List.take_succ_cons, List.map_cons, List.sum_cons, add_mul] at this
        exact ⟨by linarith [this.1], by linarith [this.2]⟩)
    have hx' : x ≤ 16000 := by exact_mod_cast hx
    have hy' : y ≤ 16000 := by exact_mod_cast hy
    have e1 : (Servo.ofNat x + fin g.1 * fin sc : XR) = fin (x + g.1 * sc) := by simp [Servo.ofNat, lit]
    have e2 : (Servo.ofNat y - fin g.2 * fin sc : XR) = fin (y - g.2 * sc) := by simp [Servo.ofNat, lit]
    have c1 : conv16 (fin (x + g.1 * sc) * lit 2 : XR) = some ⌊2 * (x + g.1 * sc)⌋ := by
      have : (fin (x + g.1 * sc) * lit 2 : XR) = fin (2 * (x + g.1 * sc)) := by simp [lit]; ring
      rw [this, conv16_fin (abs_le.2 ⟨by linarith, by linarith⟩)]
      unfold trunc; rw [if_pos (by linarith)]
    have c2 : conv16 (fin (y - g.2 * sc)) = some ⌊y - g.2 * sc⌋ := by
      rw [conv16_fin (abs_le.2 ⟨by linarith, by linarith⟩)]
      unfold trunc; rw [if_pos (by linarith)]
    have c3 : convU (fin (x + g.1 * sc)) = some ⌊x + g.1 * sc⌋₊ := convU_fin (by linarith) (by linarith)
    have c4 : convU (fin (y - g.2 * sc)) = some ⌊y - g.2 * sc⌋₊ := convU_fin (by linarith) (by linarith)
    have c5 : wrap16 ((u32 (x * 2) : ℕ) : ℤ) = 2 * x := by
      rw [wrap16_id] <;> unfold u32 <;> push_cast <;> omega
    have c6 : wrap16 ((y : ℕ) : ℤ) = y := by rw [wrap16_id] <;> omega
    simp only [List.map_cons, chain, e1, e2, c1, c2, c3, c4, c5, c6, startLines]
    rw [ih]

/-- **C116** (partial: that the picture can be seen fails, `C116_unseen_false`, and not every geometry is `Drawable`, `C116_upright_false`): for every arm
whose picture does not get too near to the left and upper edge, the start picture is drawn without an undefined conversion: five links, one after
the other, whose widths and heights are the forward and sideways reaches of the links, scaled to 64 × 20 pixels. -/
theorem C116_start_partial {G : Fin 5 → Vec3} (h : Drawable G) :
    startScreen (finG G) = some (startLines (startSc G) [(G 0 0, G 0 1), (G 1 0, G 1 1), (G 2 0, G 2 1), (G 3 0, G 3 1), (G 4 0, G 4 1)] 30 32) := by
  have e1 := extent_spread G 0 h.wide
  have e2 := extent_spread G 1 h.high
  have w0 := Int.floor_nonneg.2 (spread_nonneg G 0)
  have h0 := Int.floor_nonneg.2 (spread_nonneg G 1)
  have hp : 0 < ⌊spread G 0⌋ ∨ 0 < ⌊spread G 1⌋ := by
    rcases h.least with h | h
    · exact .inl (Int.lt_of_lt_of_le one_pos (Int.le_floor.2 (by exact_mod_cast h)))
    · exact .inr (Int.lt_of_lt_of_le one_pos (Int.le_floor.2 (by exact_mod_cast h)))
  have hsc : (startScale ⌊spread G 0⌋ ⌊spread G 1⌋ 64 20 : XR) = fin (startSc G) := startScale_fin w0 h0 hp
  unfold startScreen startPicture
  have e1 : extent [(finG G 0).x, (finG G 1).x, (finG G 2).x, (finG G 3).x] = some ⌊spread G 0⌋ := e1
  have e2 : extent [(finG G 0).y, (finG G 1).y, (finG G 2).y, (finG G 3).y] = some ⌊spread G 1⌋ := e2
  rw [e1, e2]
  simp only
  rw [hsc]
  have hl : ((List.finRange 5).map fun i => ((finG G i).x, (finG G i).y)) =
      [(G 0 0, G 0 1), (G 1 0, G 1 1), (G 2 0, G 2 1), (G 3 0, G 3 1), (G 4 0, G 4 1)].map fun g => (fin g.1, fin g.2) := rfl
  rw [hl]
  have hx := h.col
  have hy := h.row
  have r : ∀ c, reach G c 0 = 0 ∧ reach G c 1 = G 0 c ∧ reach G c 2 = G 0 c + G 1 c ∧ reach G c 3 = G 0 c + (G 1 c + G 2 c) ∧ reach G c 4 = G 0 c + (G 1 c + (G 2 c + G 3 c)) ∧
      reach G c 5 = G 0 c + (G 1 c + (G 2 c + (G 3 c + G 4 c))) := fun c => by
    refine ⟨by simp [reach], by simp [reach], by simp [reach], ?_, ?_, ?_⟩ <;> simp [reach] <;> ring
  obtain ⟨a0, a1, a2, a3, a4, a5⟩ := r 0
  obtain ⟨b0, b1, b2, b3, b4, b5⟩ := r 1
  generalize startSc G = sc at *
  apply chain_fin
  · norm_num
  · norm_num
  · intro k hk
    have := hx k hk
    have hk : k ≤ 5 := hk
    interval_cases k <;> simp only [a0, a1, a2, a3, a4, a5] at this <;> simpa using this
  · intro k hk
    have := hy k hk
    have hk : k ≤ 5 := hk
    interval_cases k <;> simp only [b0, b1, b2, b3, b4, b5] at this <;> simpa using this

/-- the arm is built in one plane: links have no sideways offset, none points backwards, the first four reach between 1 cm and 500 cm
forward and the last one at most 200 cm. -/
structure FlatArm (G : Fin 5 → Vec3) : Prop where
  side : ∀ i, G i 1 = 0
  fwd : ∀ i, 0 ≤ G i 0
  least : 1 ≤ G 0 0 + G 1 0 + G 2 0 + G 3 0
  most : G 0 0 + G 1 0 + G 2 0 + G 3 0 ≤ 500
  last : G 4 0 ≤ 200

theorem FlatArm.drawable {G : Fin 5 → Vec3} (h : FlatArm G) : Drawable G := by
  have z : ∀ k, reach G 1 k = 0 := by
    intro k
    induction k with
    | zero => rfl
    | succ k ih => simp only [reach, ih]; split <;> simp [h.side]
  have f0 := h.fwd 0
  have f1 := h.fwd 1
  have f2 := h.fwd 2
  have f3 := h.fwd 3
  have f4 := h.fwd 4
  have r1 : reach G 0 1 = G 0 0 := by simp [reach]
  have r2 : reach G 0 2 = G 0 0 + G 1 0 := by simp [reach]
  have r3 : reach G 0 3 = G 0 0 + G 1 0 + G 2 0 := by simp [reach]
  have r4 : reach G 0 4 = G 0 0 + G 1 0 + G 2 0 + G 3 0 := by simp [reach]
  have r5 : reach G 0 5 = G 0 0 + G 1 0 + G 2 0 + G 3 0 + G 4 0 := by simp [reach]
  have s1 : spread G 1 = 0 := by simp [spread, z]
  have s0 : spread G 0 = G 0 0 + G 1 0 + G 2 0 + G 3 0 := by
    rw [spread, r1, r2, r3, r4]
    rw [max_eq_right f0, max_eq_right (show G 0 0 ≤ G 0 0 + G 1 0 by linarith), max_eq_right (show G 0 0 + G 1 0 ≤ G 0 0 + G 1 0 + G 2 0 by linarith),
      max_eq_right (show G 0 0 + G 1 0 + G 2 0 ≤ G 0 0 + G 1 0 + G 2 0 + G 3 0 by linarith), min_eq_left f0, min_eq_left (show 0 ≤ G 0 0 + G 1 0 by linarith),
      min_eq_left (show 0 ≤ G 0 0 + G 1 0 + G 2 0 by linarith), min_eq_left (show 0 ≤ G 0 0 + G 1 0 + G 2 0 + G 3 0 by linarith), sub_zero]
  have l := h.least
  have hw : 1 ≤ ⌊spread G 0⌋ := Int.le_floor.2 (by rw [s0]; exact_mod_cast l)
  have hw' : (1 : ℝ) ≤ ⌊spread G 0⌋ := by exact_mod_cast hw
  have hf := Int.lt_floor_add_one (spread G 0)
  have sc : startSc G = 64 / (⌊spread G 0⌋ : ℝ) := by
    rw [startSc, s1, Int.floor_zero, if_pos]
    push_cast; linarith
  have m := h.most
  have la := h.last
  refine ⟨.inl (by rw [s0]; exact l), by rw [s0]; linarith, by rw [s1]; norm_num, fun k hk => ?_, fun k _ => by rw [z]; norm_num⟩
  have p : 0 ≤ reach G 0 k ∧ reach G 0 k ≤ spread G 0 + 200 := by
    rw [s0]
    interval_cases k
    · rw [show reach G 0 0 = 0 from rfl]; exact ⟨le_rfl, by linarith⟩
    · rw [r1]; exact ⟨by linarith, by linarith⟩
    · rw [r2]; exact ⟨by linarith, by linarith⟩
    · rw [r3]; exact ⟨by linarith, by linarith⟩
    · rw [r4]; exact ⟨by linarith, by linarith⟩
    · rw [r5]; exact ⟨by linarith, by linarith⟩
  rw [sc]
  have q0 : 0 ≤ reach G 0 k * (64 / (⌊spread G 0⌋ : ℝ)) := mul_nonneg p.1 (by positivity)
  have q1 : reach G 0 k * (64 / (⌊spread G 0⌋ : ℝ)) ≤ 64 * 202 := by
    rw [mul_div_assoc', div_le_iff₀ (by linarith)]
    nlinarith [p.2]
  exact ⟨by linarith, by linarith⟩

theorem startLines_flat (sc : ℝ) : ∀ (gs : List (ℝ × ℝ)) (x : ℕ), (∀ g ∈ gs, g.2 = 0) → ∀ d ∈ startLines sc gs x 32, ∃ a b, d = .line a 32 b 32
  | [], _, _, d, h => by simp [startLines] at h
  | g :: gs, x, hg, d, h => by
    have e : (((32 : ℕ) : ℝ) - g.2 * sc) = ((32 : ℕ) : ℝ) := by rw [hg g (by simp)]; simp
    have e1 : ⌊((32 : ℕ) : ℝ) - g.2 * sc⌋ = 32 := by rw [e]; exact_mod_cast Int.floor_natCast 32
    have e2 : ⌊((32 : ℕ) : ℝ) - g.2 * sc⌋₊ = 32 := by rw [e]; exact Nat.floor_natCast 32
    rw [startLines, e1, e2] at h
    rcases List.mem_cons.1 h with rfl | h
    · exact ⟨_, _, rfl⟩
    · exact startLines_flat sc gs _ (fun y hy => hg y (by simp [hy])) d h

/-- **C116_unseen_false**: of an arm built in one plane nothing is visible on the start screen: every line is drawn in row 32, the first below the
rows 0..31 of the 128×32 display (Display.h:7), because the heights of the links (their third coordinate) are never looked at. -/
theorem C116_unseen_false {G : Fin 5 → Vec3} (h : FlatArm G) :
    ∃ ds, startScreen (finG G) = some ds ∧ ds.length = 5 ∧ ∀ d ∈ ds, ∃ a b, d = .line a 32 b 32 :=
  ⟨_, C116_start_partial h.drawable, rfl, startLines_flat _ _ _ (by simp [h.side])⟩

/-- both robots of /repo are built in one plane. -/
theorem kit_flat : FlatArm kitG := by
  constructor
  · intro i; fin_cases i <;> simp [kitG]
  · intro i; fin_cases i <;> norm_num [kitG]
  · simp [kitG]; norm_num
  · simp [kitG]; norm_num
  · simp [kitG]

example : (Kit.geometry : Fin 5 → V3 XR) = finG kitG := kitG_eq.symm

/-- the other robot (config/mp-robot-d.h:4-10) as well. -/
example : ∃ ds, startScreen (RobotD.geometry : Fin 5 → V3 XR) = some ds ∧ ds.length = 5 ∧ ∀ d ∈ ds, ∃ a b, d = .line a 32 b 32 := by
  have e : (RobotD.geometry : Fin 5 → V3 XR) = finG ![![42/10, 0, 85/10], ![0, 0, 95/10], ![1, 0, 185/100], ![148/10, 0, 0], ![0, 0, -22/10]] := by
    funext i; fin_cases i <;> simp [finG, finV, RobotD.geometry, lit]
  rw [e]
  apply C116_unseen_false
  constructor
  · intro i; fin_cases i <;> simp
  · intro i; fin_cases i <;> norm_num
  · simp; norm_num
  · simp; norm_num
  · simp

/-- an arm that bends backwards and sideways is drawn as well: the scale counts what lies behind the base. -/
example : Drawable ![![4, -1, 0], ![-6, -2, 3], ![10, 0, 0], ![2, 1, 0], ![0, 0, 1]] := by
  have s0 : spread ![![4, -1, 0], ![-6, -2, 3], ![10, 0, 0], ![2, 1, 0], ![0, 0, 1]] 0 = 12 := by simp [spread, reach]; norm_num
  have s1 : spread ![![4, -1, 0], ![-6, -2, 3], ![10, 0, 0], ![2, 1, 0], ![0, 0, 1]] 1 = 3 := by simp [spread, reach]; norm_num
  have sc : startSc ![![4, -1, 0], ![-6, -2, 3], ![10, 0, 0], ![2, 1, 0], ![0, 0, 1]] = 64 / 12 := by rw [startSc, s0, s1]; norm_num
  refine ⟨.inl (by rw [s0]; norm_num), by rw [s0]; norm_num, by rw [s1]; norm_num, fun k hk => ?_, fun k hk => ?_⟩ <;> rw [sc] <;> interval_cases k <;> simp [reach] <;> norm_num

/-- an arm without forward reach (all links upright): the scale is infinite and the first conversion undefined. -/
theorem C116_upright_false : startScreen (finG fun _ => ![0, 0, 10]) = none := by
  have e1 : extent [fin 0, fin 0, fin 0, fin 0] = some 0 := by
    have := extent_spread (fun _ => 0) 0 (by simp [spread, reach])
    simpa [spread, reach] using this
  have e2 : (startScale 0 0 64 20 : XR) = inf false := by
    unfold startScale
    simp only [lit, ops_lit, Servo.ofNat]
    push_cast
    have h1 : (fin 0 / fin 0 : XR) = nan := by show XR.div _ _ = _; simp [XR.div]
    have h2 : (fin 20 / fin 0 : XR) = inf false := by show XR.div _ _ = _; simp [XR.div, isNeg]
    rw [h1, h2, if_neg]
    rw [fin_div 64 20 (by norm_num)]
    simp [fgt, FloatOps.lt, XR.lt]
  show startPicture _ 30 32 64 20 = none
  unfold startPicture
  have g : ∀ i : Fin 5, finG (fun _ => ![0, 0, 10]) i = ⟨fin 0, fin 0, fin 10⟩ := fun i => by simp [finG, finV]
  simp only [g, e1, e2]
  have m : (fin 0 * inf false : XR) = nan := by show XR.mul _ _ = _; simp [XR.mul]
  have hc : conv16 ((Servo.ofNat 30 + fin 0 * inf false) * lit 2 : XR) = none := by
    rw [m]; rfl
  show chain _ ((fin 0, fin 0) :: _) 30 32 = none
  simp only [chain, hc]

end Mrc.Props
