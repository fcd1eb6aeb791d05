import Verif.Model.Display
import Verif.Props.Kinematics
import Verif.Props.Servo
import Verif.Props.Coupling
import Verif.Proof.Pass
/-
C71-C73: the display.
-/
set_option linter.unusedSectionVars false
set_option linter.unusedSimpArgs false
namespace Mrc.Props
open Mrc Mrc.Prog Mrc.Spec XR Disp
open scoped Mrc.Num
variable {F : Type} [FloatOps F]

/-! ### C71 redrawing has no influence -/

/-- reading a servo or the storage. -/
def isLook : Act F → Prop
  | .servo _ _ => True
  | .eeRead _ => True
  | _ => False

theorem displayRobot_only (K : Kin F) (cfg : RCfg F) (x y : Nat) (sc : F) (view : Nat) : (displayRobot K cfg x y sc view).only isLook (fun _ => True) := by
  simp only [displayRobot, RC.getCurrentLogicalAngles, RC.readAngles, readServo, bind_def, pure_def, Prog.bind, Prog.only]
  refine fun _ => ⟨trivial, fun _ => ⟨trivial, fun _ => ⟨trivial, fun _ => ⟨trivial, fun _ => ⟨trivial, fun _ => ⟨trivial, ?_⟩⟩⟩⟩⟩⟩
  split <;> trivial

theorem bars_only (x y width height : Nat) (is : List (Fin 6)) : (bars x y width height is : Prog F (List Draw)).only isLook (fun _ => True) := by
  induction is with
  | nil => trivial
  | cons i is ih =>
    simp only [bars, readServo, bind_def, pure_def, Prog.bind, Prog.only]
    refine fun _ => ⟨trivial, fun _ => ⟨trivial, ?_⟩⟩
    split
    · trivial
    · rw [only_bind]; exact only_mono (fun _ h => h) (fun _ _ => trivial) ih

theorem render_only (fl1 : F → List Byte) (K : Kin F) (cfg : Cfg F) (s : FW F) : (render fl1 K cfg s).only isLook (fun _ => True) := by
  simp only [render, bind_def, pure_def]
  rw [only_bind]
  refine only_mono (fun _ h => h) (fun a _ => ?_) (displayRobot_only _ _ _ _ _ _)
  rw [only_bind]
  refine only_mono (fun _ h => h) (fun b _ => ?_) (displayRobot_only _ _ _ _ _ _)
  rw [only_bind]
  have hst : Prog.only (F := F) isLook (fun _ => True) (match s.mode with
      | .eeprom => .eeRead fun m => .ret [Draw.text 72 0 (str "W " ++ natStr s.eePtr ++ str "/" ++ natStr (EE.getNumberOfMessages m))]
      | .queue => .ret [Draw.text 72 0 (str "B " ++ natStr s.rb.getSize ++ str "/" ++ natStr s.rb.getCapacity)]
      | _ => .ret []) := by
    split
    · exact fun _ => ⟨trivial, trivial⟩
    · trivial
    · trivial
  refine only_mono (fun _ h => h) (fun c _ => ?_) hst
  rw [only_bind]
  refine only_mono (fun _ h => h) (fun d _ => ?_) (bars_only _ _ _ _ _)
  split <;> trivial

/-- **C71/1**: drawing the picture only looks at servos and storage: no servo, pin, storage byte or serial byte is written or consumed. -/
theorem C71_looks (fl1 : F → List Byte) (K : Kin F) (cfg : Cfg F) (s : FW F) {tr : List (Act F)} {q : Prog F (List Draw)} (h : Exec (render fl1 K cfg s) tr q) :
    ∀ a ∈ tr, (∃ i v, a = .servo i v) ∨ ∃ m, a = .eeRead m := by
  intro a ha
  have := (only_exec h (render_only fl1 K cfg s)).1 a ha
  match a, this with
  | .servo i v, _ => exact .inl ⟨i, v, rfl⟩
  | .eeRead m, _ => exact .inr ⟨m, rfl⟩

/-- **C71/2**: a pass of the main loop that redraws the picture does exactly what a pass without does, apart from the looks of the drawing: same accesses
in the same order before and after, same resulting state. -/
theorem C71_same_pass (fl1 : F → List Byte) (K : Kin F) (cfg : Cfg F) (s s' : FW F) {tr : List (Act F)} (h : Exec (loopBodyDraw fl1 K cfg s) tr (.ret s')) :
    ∃ t1 t2 t3, tr = t1 ++ t2 ++ t3 ∧ (∀ a ∈ t2, (∃ i v, a = .servo i v) ∨ ∃ m, a = .eeRead m) ∧ Exec (loopBody cfg s) (t1 ++ t3) (.ret s') := by
  unfold loopBodyDraw at h
  simp only [bind_def] at h
  obtain ⟨a, t1, u, rfl, h1, h2⟩ := exec_bind_ret h
  obtain ⟨b, t2, t3, rfl, h3, h4⟩ := exec_bind_ret h2
  refine ⟨t1, t2, t3, by simp, C71_looks fl1 K cfg a h3, ?_⟩
  unfold loopBody
  simp only [bind_def]
  exact exec_bind_intro h1 h4

/-! ### C72 the picture -/

/-- where joint `k` of the arm is drawn: horizontally twice the scale. -/
noncomputable def px (view x : Nat) (sc : ℝ) (p : Vec3) : Int := trunc (x + (if view = 2 then p 2 else p 0) * sc * 2)
noncomputable def py (view y : Nat) (sc : ℝ) (p : Vec3) : Int := trunc (y - (if view = 0 then p 2 else p 1) * sc)

/-- the picture of the arm: five lines from joint to joint. -/
noncomputable def picture (G : Fin 5 → Vec3) (A : Fin 6 → ℝ) (view x y : Nat) (sc : ℝ) : List Draw :=
  (List.range 5).map fun k => .line (px view x sc (jointPos G A k)) (py view y sc (jointPos G A k))
    (px view x sc (jointPos G A (k + 1))) (py view y sc (jointPos G A (k + 1)))

theorem comp_le_len (v : Vec3) (c : Fin 3) : |v c| ≤ len3 v := by
  unfold len3
  rw [← Real.sqrt_sq_eq_abs]
  apply Real.sqrt_le_sqrt
  fin_cases c <;> simp <;> nlinarith [sq_nonneg (v 0), sq_nonneg (v 1), sq_nonneg (v 2)]

/-- no joint is farther from the base than all links together. -/
theorem jointPos_le (G : Fin 5 → Vec3) (A : Fin 6 → ℝ) (k : ℕ) (c : Fin 3) : |jointPos G A k c| ≤ ∑ j, len3 (G j) := by
  unfold jointPos
  rw [Finset.sum_apply]
  refine (Finset.abs_sum_le_sum_abs _ _).trans (Finset.sum_le_sum fun j _ => ?_)
  split
  · exact (comp_le_len _ c).trans (by rw [Kine.len3_rot (Kine.linkFrame_rot A j)])
  · simp [len3]

theorem conv16_fin {v : ℝ} (h : |v| ≤ 32767) : conv16 (fin v) = some (trunc v) := by
  obtain ⟨h1, h2⟩ := abs_le.1 h
  have a := trunc_mono h2
  have b := trunc_mono h1
  have e1 : trunc (32767 : ℝ) = 32767 := by exact_mod_cast trunc_nat 32767
  have e2 : trunc (-32767 : ℝ) = -32767 := by
    unfold trunc; rw [if_neg (by norm_num)]
    have : (-32767 : ℝ) = ((-32767 : ℤ) : ℝ) := by norm_num
    rw [this, Int.ceil_intCast]
  rw [e1] at a; rw [e2] at b
  unfold conv16
  have : FloatOps.toInt (fin v) = some (trunc v) := by
    show XR.toInt _ = _
    simp only [XR.toInt]; rw [if_pos (by omega)]
  rw [this]; simp only; rw [if_pos (by omega)]

theorem link_fin {view x y : Nat} {sc L : ℝ} {p q : Vec3} (hs : 0 ≤ sc) (hp : ∀ c, |p c| ≤ L) (hq : ∀ c, |q c| ≤ L) (hx : x + 2 * sc * L ≤ 32767) (hy : y + sc * L ≤ 32767) :
    link view x y (fin sc) (finV p) (finV q) = some (.line (px view x sc p) (py view y sc p) (px view x sc q) (py view y sc q)) := by
  have x0 : (0 : ℝ) ≤ x := by positivity
  have y0 : (0 : ℝ) ≤ y := by positivity
  have key : ∀ p : Vec3, (∀ c, |p c| ≤ L) → conv16 (proj view x y (fin sc) (finV p)).1 = some (px view x sc p) ∧ conv16 (proj view x y (fin sc) (finV p)).2 = some (py view y sc p) := by
    intro p hp
    have e1 : (proj view x y (fin sc) (finV p)).1 = fin (x + (if view = 2 then p 2 else p 0) * sc * 2) := by
      simp only [proj, Servo.ofNat, lit, ops_lit, finV]
      split <;> simp
    have e2 : (proj view x y (fin sc) (finV p)).2 = fin (y - (if view = 0 then p 2 else p 1) * sc) := by
      simp only [proj, Servo.ofNat, lit, ops_lit, finV]
      split <;> simp <;> ring
    have hb : ∀ c, -(sc * L) ≤ p c * sc ∧ p c * sc ≤ sc * L := fun c => by
      obtain ⟨h1, h2⟩ := abs_le.1 (hp c); constructor <;> nlinarith
    rw [e1, e2]
    refine ⟨conv16_fin (abs_le.2 ?_), conv16_fin (abs_le.2 ?_)⟩
    · split
      · have := hb 2; constructor <;> linarith
      · have := hb 0; constructor <;> linarith
    · split
      · have := hb 2; constructor <;> linarith
      · have := hb 1; constructor <;> linarith
  unfold link
  rw [(key p hp).1, (key p hp).2, (key q hq).1, (key q hq).2]

theorem links_fin (G : Fin 5 → Vec3) (A : Fin 6 → ℝ) {view x y : Nat} {sc : ℝ} (hs : 0 ≤ sc)
    (hx : x + 2 * sc * ∑ j, len3 (G j) ≤ 32767) (hy : y + sc * ∑ j, len3 (G j) ≤ 32767) :
    let C := (Kin.new (finG G)).coords (finS A)
    links view x y (fin sc) [⟨lit 0, lit 0, lit 0⟩, C.J1, C.J2, C.J3, C.J4, C.J5] = some (picture G A view x y sc) := by
  obtain ⟨h1, h2, h3, h4, h5⟩ := C53_joints G A
  intro C
  have h0 : (⟨lit 0, lit 0, lit 0⟩ : V3 XR) = finV (jointPos G A 0) := by simp [jointPos, finV, lit]
  simp only [C, h1, h2, h3, h4, h5, h0]
  have b := fun k c => jointPos_le G A k c
  simp only [links, link_fin hs (b 0) (b 1) hx hy, link_fin hs (b 1) (b 2) hx hy, link_fin hs (b 2) (b 3) hx hy, link_fin hs (b 3) (b 4) hx hy, link_fin hs (b 4) (b 5) hx hy]
  rfl

/-- **C72**: as long as the arm servos read numbers and the picture of the stretched arm fits the 16-bit coordinates, drawing never does an undefined
conversion, and what is drawn is the projection of the joint chain: front (x, -z), top (x, -y) or side (z, -y). `B` are the servo angles read, `P B` the logical angles. -/
theorem C72_picture {G : Fin 5 → Vec3} {cfg : RCfg XR} {P : (Fin 6 → ℝ) → Fin 6 → ℝ} (hp : ∀ B, cfg.p2l (finS B) = finS (P B)) {view x y : Nat} {sc : ℝ} (hs : 0 ≤ sc)
    (hx : x + 2 * sc * ∑ j, len3 (G j) ≤ 32767) (hy : y + sc * ∑ j, len3 (G j) ≤ 32767)
    {tr : List (Act XR)} {q : Prog XR (List Draw)} (h : Exec (displayRobot (Kin.new (finG G)) cfg x y (fin sc) view) tr q)
    (hr : ∀ i s, .servo (armServo i) s ∈ tr → ∃ c, s.cur = fin c) :
    (∀ f, q ≠ .fault f) ∧
    ∀ ds, q = .ret ds → ∃ B : Fin 6 → ℝ, (∀ i s, .servo (armServo i) s ∈ tr → s.cur = fin (B i)) ∧ ds = picture G (P B) view x y sc := by
  have key : ∀ v : Fin 6 → Servo XR, (∀ i, ∃ c, (v i).cur = fin c) → ∃ B : Fin 6 → ℝ, (∀ i, (v i).cur = fin (B i)) ∧
      six (v 0).cur (v 1).cur (v 2).cur (v 3).cur (v 4).cur (v 5).cur = finS B := by
    intro v hv
    choose B hB using hv
    exact ⟨B, hB, by funext j; fin_cases j <;> simp [six, finS, hB]⟩
  have e : displayRobot (Kin.new (finG G)) cfg x y (fin sc) view =
      (.servo 0 fun a => .servo 1 fun b => .servo 2 fun c => .servo 3 fun d => .servo 4 fun e => .servo 5 fun g =>
        match links view x y (fin sc) [⟨lit 0, lit 0, lit 0⟩, ((Kin.new (finG G)).coords (cfg.p2l (six a.cur b.cur c.cur d.cur e.cur g.cur))).J1,
          ((Kin.new (finG G)).coords (cfg.p2l (six a.cur b.cur c.cur d.cur e.cur g.cur))).J2, ((Kin.new (finG G)).coords (cfg.p2l (six a.cur b.cur c.cur d.cur e.cur g.cur))).J3,
          ((Kin.new (finG G)).coords (cfg.p2l (six a.cur b.cur c.cur d.cur e.cur g.cur))).J4, ((Kin.new (finG G)).coords (cfg.p2l (six a.cur b.cur c.cur d.cur e.cur g.cur))).J5] with
        | some ds => .ret ds
        | none => .fault .badConv : Prog XR (List Draw)) := rfl
  rw [e] at h
  cases h with | nil => exact ⟨fun f hf => (by cases hf), fun ds hd => (by cases hd)⟩ | cons hs0 h =>
  cases hs0 with | servo _ _ a =>
  cases h with | nil => exact ⟨fun f hf => (by cases hf), fun ds hd => (by cases hd)⟩ | cons hs0 h =>
  cases hs0 with | servo _ _ b =>
  cases h with | nil => exact ⟨fun f hf => (by cases hf), fun ds hd => (by cases hd)⟩ | cons hs0 h =>
  cases hs0 with | servo _ _ c =>
  cases h with | nil => exact ⟨fun f hf => (by cases hf), fun ds hd => (by cases hd)⟩ | cons hs0 h =>
  cases hs0 with | servo _ _ d =>
  cases h with | nil => exact ⟨fun f hf => (by cases hf), fun ds hd => (by cases hd)⟩ | cons hs0 h =>
  cases hs0 with | servo _ _ e' =>
  cases h with | nil => exact ⟨fun f hf => (by cases hf), fun ds hd => (by cases hd)⟩ | cons hs0 h =>
  cases hs0 with | servo _ _ g =>
  obtain ⟨ca, ea⟩ := hr 0 a (by simp [armServo])
  obtain ⟨cb, eb⟩ := hr 1 b (by simp [armServo])
  obtain ⟨cc, ec⟩ := hr 2 c (by simp [armServo])
  obtain ⟨cd, ed⟩ := hr 3 d (by simp [armServo])
  obtain ⟨ce, ee⟩ := hr 4 e' (by simp [armServo])
  obtain ⟨cg, eg⟩ := hr 5 g (by simp [armServo])
  have hB : six a.cur b.cur c.cur d.cur e'.cur g.cur = finS ![ca, cb, cc, cd, ce, cg] := by
    funext j; fin_cases j <;> simp [six, finS, ea, eb, ec, ed, ee, eg]
  have hl := links_fin G (P ![ca, cb, cc, cd, ce, cg]) (view := view) (x := x) (y := y) hs hx hy
  simp only [hB, hp, hl] at h
  have hret : ∀ {ds : List Draw} {t q}, Exec (.ret ds : Prog XR (List Draw)) t q → t = [] ∧ q = .ret ds := by
    intro ds t q h; cases h with | nil => exact ⟨rfl, rfl⟩ | cons hs _ => cases hs
  obtain ⟨rfl, rfl⟩ := hret h
  refine ⟨fun f hf => (by cases hf), fun ds hd => ?_⟩
  injection hd with hd
  refine ⟨![ca, cb, cc, cd, ce, cg], ?_, hd.symm⟩
  intro i s hm
  simp only [List.mem_cons, List.not_mem_nil, or_false, Act.servo.injEq, armServo] at hm
  fin_cases i <;> simp at hm <;> subst hm <;> simp [*]

/-- the robot kit fits: links of together less than 43 cm, drawn at half scale at (10, 20) and (35, 28); its coupling maps numbers to numbers. -/
example : ∃ G : Fin 5 → Vec3, finG G = Kit.geometry ∧ (10 : ℕ) + 2 * (1/2) * ∑ j, len3 (G j) ≤ 32767 ∧ (35 : ℕ) + 2 * (1/2) * ∑ j, len3 (G j) ≤ 32767 ∧
    (20 : ℕ) + (1/2) * ∑ j, len3 (G j) ≤ 32767 ∧ (28 : ℕ) + (1/2) * ∑ j, len3 (G j) ≤ 32767 ∧
    ∀ B, (Kit.cfg : Cfg XR).p2l (finS B) = finS (Function.update B 2 (B 2 - B 1)) := by
  refine ⟨![![46/10, 0, 79/10], ![0, 0, 117/10], ![1, 0, 15/10], ![1215/100, 0, 0], ![0, 0, -3]], ?_, ?_⟩
  · funext i; fin_cases i <;> simp [finG, finV, Kit.geometry, lit]
  have hb : ∀ v : Vec3, |v 0| ≤ 20 → |v 1| ≤ 20 → |v 2| ≤ 20 → len3 v ≤ 60 := by
    intro v h0 h1 h2
    unfold len3
    rw [Real.sqrt_le_left (by norm_num)]
    rw [← sq_abs (v 0), ← sq_abs (v 1), ← sq_abs (v 2)]
    have := abs_nonneg (v 0); have := abs_nonneg (v 1); have := abs_nonneg (v 2)
    nlinarith
  have h : ∑ j, len3 ((![![46/10, 0, 79/10], ![0, 0, 117/10], ![1, 0, 15/10], ![1215/100, 0, 0], ![0, 0, -3]] : Fin 5 → Vec3) j) ≤ 300 := by
    refine (Finset.sum_le_card_nsmul _ _ 60 fun j _ => ?_).trans (by norm_num)
    fin_cases j <;> apply hb <;> simp <;> norm_num [abs_of_nonneg]
  refine ⟨by push_cast; linarith, by push_cast; linarith, by push_cast; linarith, by push_cast; linarith, ?_⟩
  intro B; funext i
  fin_cases i <;> simp [Kit.cfg, Kit.p2l, RC.upd, finS, Function.update]

/-! ### C73 the bars -/

/-- how far a value is along the way from `lo` to `hi`, in whole pixels of `width`. -/
noncomputable def along (lo hi v : ℝ) (width : Nat) : Int := ⌊(v - lo) / (hi - lo) * width⌋

/-- the drawing of one servo `i`: a mark at the home angle and two bars between home and the target (upper) and the current (lower) angle. -/
noncomputable def barSpec (x y width height i : Nat) (home lo hi target cur : ℝ) : List Draw :=
  let n := along lo hi home width
  let t := along lo hi target width
  let c := along lo hi cur width
  [.fill (x + n) (y + i * (height / 6 : ℕ)) 1 (height / 6 : ℕ),
   .fill (x + min n t) (y + (if height = 6 ∨ height = 12 then 0 else 1) + i * (height / 6 : ℕ)) |n - t| 1,
   .fill (x + min n c) (y + (if height = 6 then 0 else if height = 12 then 1 else 2) + i * (height / 6 : ℕ)) |n - c| 1]

theorem along_bounds {lo hi v : ℝ} {width : Nat} (h : lo < hi) (h1 : lo ≤ v) (h2 : v ≤ hi) : 0 ≤ along lo hi v width ∧ along lo hi v width ≤ width := by
  have hpos : 0 < hi - lo := by linarith
  have u0 : 0 ≤ (v - lo) / (hi - lo) := div_nonneg (by linarith) hpos.le
  have u1 : (v - lo) / (hi - lo) ≤ 1 := by rw [div_le_one hpos]; linarith
  have w0 : (0 : ℝ) ≤ width := by positivity
  constructor
  · exact Int.floor_nonneg.2 (mul_nonneg u0 w0)
  · have : (along lo hi v width : ℝ) ≤ width := (Int.floor_le _).trans (by nlinarith)
    exact_mod_cast this

theorem mapped_fin {lo hi v : ℝ} {width : Nat} (h : lo < hi) (h1 : lo ≤ v) (h2 : v ≤ hi) (hw : width ≤ 32767) :
    mapped (fin v) (fin lo) (fin hi) width = some (along lo hi v width) := by
  obtain ⟨b0, b1⟩ := along_bounds (width := width) h h1 h2
  have hpos : 0 < hi - lo := by linarith
  have u0 : 0 ≤ (v - lo) / (hi - lo) := div_nonneg (by linarith) hpos.le
  have e : Servo.mapFloat (fin v) (fin lo) (fin hi) (lit 0) (Servo.ofNat width) = fin ((v - lo) / (hi - lo) * width) := by
    simp only [Servo.mapFloat, Servo.ofNat, lit, ops_lit, fin_sub, fin_mul, fin_div _ _ hpos.ne', fin_add]
    congr 1; push_cast; ring
  unfold mapped
  rw [e]
  have et : trunc ((v - lo) / (hi - lo) * width) = along lo hi v width := by
    unfold trunc along; rw [if_pos (mul_nonneg u0 (by positivity))]
  show XR.toInt _ = _
  simp only [XR.toInt, et]; rw [if_pos (by omega)]

theorem wrap16_id {i : Int} (h1 : -32768 ≤ i) (h2 : i ≤ 32767) : wrap16 i = i := by unfold wrap16; omega

theorem bar_spec {x y width height i : Nat} {home lo hi t c : ℝ} (h : lo < hi) (hh1 : lo ≤ home) (hh2 : home ≤ hi) (ht1 : lo ≤ t) (ht2 : t ≤ hi) (hc1 : lo ≤ c) (hc2 : c ≤ hi)
    (hi6 : i < 6) (hx : x + width ≤ 32767) (hy : y + height + 2 ≤ 32767) :
    bar x y width height i (fin home) (fin lo) (fin hi) (fin t) (fin c) = some (barSpec x y width height i home lo hi t c) := by
  unfold bar barSpec
  rw [mapped_fin h hh1 hh2 (by omega), mapped_fin h ht1 ht2 (by omega), mapped_fin h hc1 hc2 (by omega)]
  obtain ⟨n0, n1⟩ := along_bounds (width := width) h hh1 hh2
  obtain ⟨t0, t1⟩ := along_bounds (width := width) h ht1 ht2
  obtain ⟨c0, c1⟩ := along_bounds (width := width) h hc1 hc2
  generalize along lo hi home width = n at *
  generalize along lo hi t width = tt at *
  generalize along lo hi c width = cc at *
  have hm : i * (height / 6) ≤ 5 * (height / 6) := Nat.mul_le_mul_right _ (by omega)
  have hd : 6 * (height / 6) ≤ height := by omega
  have hm' : (i : Int) * ((height / 6 : ℕ) : Int) = ((i * (height / 6) : ℕ) : Int) := by push_cast; ring
  simp only [hm']
  generalize i * (height / 6) = m at *
  generalize height / 6 = per at *
  have span : ∀ k : Int, 0 ≤ k → k ≤ width → ∀ off : Nat, off ≤ 2 →
      (if n - k > 0 then Draw.fill (wrap16 (x + k)) (wrap16 (y + off + m)) (wrap16 (-k + n)) 1
      else .fill (wrap16 (x + n)) (wrap16 (y + off + m)) (wrap16 (k - n)) 1) = .fill (x + min n k) (y + off + m) |n - k| 1 := by
    intro k k0 k1 off ho
    split
    · rw [wrap16_id (by omega) (by omega), wrap16_id (by omega) (by omega), wrap16_id (by omega) (by omega), min_eq_right (by omega), abs_of_pos (by omega)]
      congr 1; ring
    · rw [wrap16_id (by omega) (by omega), wrap16_id (by omega) (by omega), wrap16_id (by omega) (by omega), min_eq_left (by omega), abs_of_nonpos (by omega)]
      congr 1; ring
  simp only [span tt t0 t1 _ (show (if height = 6 then 0 else if height = 12 then 0 else 1) ≤ 2 by split <;> (try split) <;> omega),
    span cc c0 c1 _ (show (if height = 6 then 0 else if height = 12 then 1 else 2) ≤ 2 by split <;> (try split) <;> omega)]
  rw [wrap16_id (by omega) (by omega), wrap16_id (by omega) (by omega), wrap16_id (by omega) (by omega)]
  congr 2
  congr 1
  · by_cases h6 : height = 6
    · simp [h6]
    · by_cases h12 : height = 12 <;> simp [h6, h12]
  · by_cases h6 : height = 6
    · simp [h6]
    · by_cases h12 : height = 12 <;> simp [h6, h12]

/-- **C73/1**: whatever interleaving with the servo interrupt, as long as the angles read lie within the servo's range, the display draws for every servo exactly its mark and
its two bars (for a target and a current angle read from that servo), and never converts a number that does not fit. -/
theorem C73_bars {x y width height : Nat} (hx : x + width ≤ 32767) (hy : y + height + 2 ≤ 32767) {home lo hi : Fin 6 → ℝ} (hlh : ∀ i, lo i < hi i) (hh : ∀ i, lo i ≤ home i ∧ home i ≤ hi i) :
    ∀ (is : List (Fin 6)) {tr : List (Act XR)} {q : Prog XR (List Draw)}, Exec (bars x y width height is) tr q →
    (∀ i s, .servo (armServo i) s ∈ tr → s.home = fin (home i) ∧ s.minA = fin (lo i) ∧ s.maxA = fin (hi i) ∧
      (∃ t, s.target = fin t ∧ lo i ≤ t ∧ t ≤ hi i) ∧ ∃ c, s.cur = fin c ∧ lo i ≤ c ∧ c ≤ hi i) →
    (∀ f, q ≠ .fault f) ∧
    ∀ ds, q = .ret ds → ∃ dss : List (List Draw), ds = dss.flatten ∧ List.Forall₂ (fun (i : Fin 6) d => ∃ s s' t c, .servo (armServo i) s ∈ tr ∧ .servo (armServo i) s' ∈ tr ∧
      s.target = fin t ∧ s'.cur = fin c ∧ d = barSpec x y width height i (home i) (lo i) (hi i) t c) is dss
  | [], tr, q, h, _ => by
    obtain ⟨rfl, rfl⟩ := exec_ret h
    exact ⟨fun f hf => (by cases hf), fun ds hd => by injection hd with hd; exact ⟨[], by simp [← hd], .nil⟩⟩
  | i :: is, tr, q, h, hr => by
    have e : bars x y width height (i :: is) = (.servo (armServo i) fun s => .servo (armServo i) fun s' =>
      match bar x y width height i.val s.home s.minA s.maxA s.target s'.cur with
      | none => .fault .badConv
      | some ds => (bars x y width height is).bind fun rest => .ret (ds ++ rest) : Prog XR (List Draw)) := rfl
    rw [e] at h
    cases h with | nil => exact ⟨fun f hf => (by cases hf), fun ds hd => (by cases hd)⟩ | cons hs0 h =>
    cases hs0 with | servo _ _ s =>
    cases h with | nil => exact ⟨fun f hf => (by cases hf), fun ds hd => (by cases hd)⟩ | cons hs0 h =>
    cases hs0 with | servo _ _ s' =>
    obtain ⟨e1, e2, e3, ⟨t, et, t1, t2⟩, -⟩ := hr i s (by simp)
    obtain ⟨-, -, -, -, ⟨c, ec, c1, c2⟩⟩ := hr i s' (by simp)
    dsimp only at h
    rw [e1, e2, e3, et, ec, bar_spec (hlh i) (hh i).1 (hh i).2 t1 t2 c1 c2 i.isLt hx hy] at h
    dsimp only at h
    refine ⟨fun f hf => ?_, fun ds hd => ?_⟩
    · subst hf
      rcases exec_bind h with ⟨p', hp, he⟩ | ⟨a, u, v, rfl, hp, hv⟩
      · have ih := C73_bars hx hy hlh hh is hp (fun j r hm => hr j r (by simp [hm]))
        cases p' with
        | fault g => exact ih.1 g rfl
        | _ => simp [Prog.bind] at he
      · have := (exec_ret hv).2; cases this
    · subst hd
      obtain ⟨a, u, v, rfl, hp, hv⟩ := exec_bind_ret h
      obtain ⟨dss, rfl, hf⟩ := (C73_bars hx hy hlh hh is hp (fun j r hm => hr j r (by simp [hm]))).2 _ rfl
      have := (exec_ret hv).2
      injection this with this
      refine ⟨_ :: dss, by rw [this]; rfl, .cons ⟨s, s', t, c, by simp, by simp, et, ec, rfl⟩ (hf.imp ?_)⟩
      rintro j d ⟨r, r', t', c', m1, m2, x1, x2, x3⟩
      exact ⟨r, r', t', c', by simp [m1], by simp [m2], x1, x2, x3⟩

/-- the first joint of the kit (-90° .. 90°, home 0) drawn 64 pixels wide, target 45°, current -45°: mark at the middle, bars to the right and to the left. -/
example : barSpec 64 8 64 18 0 0 (-2) 2 1 (-1) = [.fill 96 8 1 3, .fill 96 9 16 1, .fill 80 10 16 1] := by
  have h1 : along (-2) 2 0 64 = 32 := by unfold along; rw [Int.floor_eq_iff]; norm_num
  have h2 : along (-2) 2 1 64 = 48 := by unfold along; rw [Int.floor_eq_iff]; norm_num
  have h3 : along (-2) 2 (-1) 64 = 16 := by unfold along; rw [Int.floor_eq_iff]; norm_num
  simp [barSpec, h1, h2, h3]

/-- **C73/2**: the two bars of a servo never leave its area: they lie between the first and the last pixel column of the `width` given. -/
theorem C73_inside {x y width height i : Nat} {home lo hi t c : ℝ} (h : lo < hi) (hh1 : lo ≤ home) (hh2 : home ≤ hi) (ht1 : lo ≤ t) (ht2 : t ≤ hi) (hc1 : lo ≤ c) (hc2 : c ≤ hi) :
    ∀ a b w k, Draw.fill a b w k ∈ (barSpec x y width height i home lo hi t c).tail → (x : Int) ≤ a ∧ 0 ≤ w ∧ a + w ≤ x + width := by
  obtain ⟨n0, n1⟩ := along_bounds (width := width) h hh1 hh2
  obtain ⟨t0, t1⟩ := along_bounds (width := width) h ht1 ht2
  obtain ⟨c0, c1⟩ := along_bounds (width := width) h hc1 hc2
  intro a b w k hm
  simp only [barSpec, List.tail_cons, List.mem_cons, Draw.fill.injEq, List.not_mem_nil, or_false] at hm
  have e : ∀ p q : Int, min p q + |p - q| = max p q := fun p q => by
    rcases le_total p q with h | h
    · rw [min_eq_left h, max_eq_right h, abs_of_nonpos (by omega)]; omega
    · rw [min_eq_right h, max_eq_left h, abs_of_nonneg (by omega)]; omega
  rcases hm with ⟨rfl, -, rfl, -⟩ | ⟨rfl, -, rfl, -⟩
  · have := e (along lo hi home width) (along lo hi t width)
    exact ⟨by omega, abs_nonneg _, by omega⟩
  · have := e (along lo hi home width) (along lo hi c width)
    exact ⟨by omega, abs_nonneg _, by omega⟩

/-! ### C74 the marks of the inputs -/

/-- what is drawn for input `i`: open box = low required, full box = high required, dash = nothing required. -/
def markSpec (i : Nat) : Option Nat → List Draw
  | some 0 => [.rect (70 + 6 * i) 28 4 3]
  | some 1 => [.fill (70 + 6 * i) 28 4 3]
  | some 2 => [.rect (70 + 6 * i) 28 4 1]
  | some _ => []
  | none => [.rect (70 + 6 * i) 28 4 1]

/-- the state required of a physical pin: that of the first pending condition on it. -/
def required (c : Conds) (p : Nat) : Option Nat := ((c.filter fun x => x.1 = p).head?).map Prod.snd

/-- **C74/1**: the row of marks shows, input by input, the state of the first pending condition on its pin. -/
theorem C74_marks_partial (pinMap : List Nat) (hp : 10 ≤ pinMap.length) (c : Conds) :
    ioMarks pinMap c (List.range 10) = some ((List.range 10).flatMap fun i => markSpec i (required c (pinMap.getD i 0))) := by
  have : ∀ is : List Nat, (∀ i ∈ is, i < 10) → ioMarks pinMap c is = some (is.flatMap fun i => markSpec i (required c (pinMap.getD i 0))) := by
    intro is
    induction is with
    | nil => intro _; rfl
    | cons i is ih =>
      intro h
      have hi : i < pinMap.length := by have := h i (by simp); omega
      have e : IOL.getTargetState pinMap c i = some ((required c (pinMap.getD i 0)).getD 2) := by
        unfold IOL.getTargetState required
        rw [List.getElem?_eq_getElem hi]
        have hg : pinMap.getD i 0 = pinMap[i] := by simp [List.getD, hi]
        rw [hg]; dsimp only
        rw [List.head?_filter]
        have : (fun x : Nat × Nat => x.1 == pinMap[i]) = fun x => decide (x.1 = pinMap[i]) := by funext x; rfl
        rw [this]
        cases c.find? _ <;> rfl
      simp only [ioMarks, e, ih (fun j hj => h j (by simp [hj])), List.flatMap_cons]
      congr 2
      generalize required c _ = r
      match r with
      | none => simp [markSpec]
      | some 0 => simp [markSpec]
      | some 1 => simp [markSpec]
      | some 2 => simp [markSpec]
      | some (k + 3) => simp [markSpec]
  exact this _ (fun i hi => by simpa using hi)

/-- **C74/2** (the reason for the suffix): on the kit, inputs 4 and 6..9 share a pin, so requiring input 6 to be high is shown for five inputs. -/
theorem C74_shared_pin_false : required [(0, 1)] (Kit.pinMap.getD 6 0) = some 1 ∧ required [(0, 1)] (Kit.pinMap.getD 4 0) = some 1 ∧ required [(0, 1)] (Kit.pinMap.getD 9 0) = some 1 ∧
    required [(0, 1)] (Kit.pinMap.getD 5 0) = none := by decide

end Mrc.Props
