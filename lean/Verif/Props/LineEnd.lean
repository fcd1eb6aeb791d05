import Verif.Proof.LineEnd
import Verif.Spec.LineEnd
import Verif.Props.Accuracy
/-
C114: where the tool is when a straight move is reported as finished.
-/
set_option maxRecDepth 100000
set_option linter.unusedSectionVars false
set_option linter.unusedSimpArgs false
namespace Mrc.Props
open Mrc Mrc.Prog Mrc.Spec Mrc.Demo Mrc.Rest Mrc.Kine Mrc.Lip XR
open scoped Mrc.Num

theorem onLine_part (S P : Fin 6 → ℝ) (k n : ℕ) : onLine S P k n = partWay ![S 0, S 1, S 2] P (k / n) := by
  funext i; fin_cases i <;> simp [onLine, partWay]

theorem onLine_end (S P : Fin 6 → ℝ) {n : ℕ} (hn : 0 < n) : onLine S P n n = P := by
  have : (n : ℝ) ≠ 0 := by positivity
  funext i; fin_cases i <;> simp [onLine, this]

/-- a way point the kit can take is taken. -/
theorem kit_takes_point {S P : Fin 6 → ℝ} {n k : ℕ} (hn : 0 < n) {A : Fin 6 → ℝ} (hA : KitTakes kitG (onLine S P k n) A) {tr : List (Act XR)} {t : Six XR}
    (h : WayPoint (Kit.cfg : Cfg XR).toRCfg (finS S) (finS P) n k tr t) : t = finS A := by
  cases h with
  | plain h1 h2 =>
    rw [linePoint_fin _ _ _ _ hn] at h1
    exact Option.some.inj (h1.symm.trans (kit_inverse_takes hA))
  | @singular t s3 s5 h1 h2 _ _ =>
    rw [linePoint_fin _ _ _ _ hn] at h1
    obtain rfl := Option.some.inj (h1.symm.trans (kit_inverse_takes hA))
    rw [nearSingular_fin] at h2
    have f4 := (hA.fits.1 4).2
    simp only [armServo, Kit.maxDeg] at f4
    norm_num at f4
    have pi := Real.pi_gt_three
    have := (abs_lt.1 h2).1
    linarith

/-- an arm whose servos are near the servo angles for `A` is near `A`. -/
theorem near_logical {c A : Fin 6 → ℝ} (h : ∀ i, |c i - (if i = 2 then A 2 + A 1 else A i)| < 2 / 1000000) (i : Fin 6) : |kitLogical c i - A i| < 11 / 100000 := by
  have l1 := abs_lt.1 (h 1)
  have l2 := abs_lt.1 (h 2)
  have li := abs_lt.1 (h i)
  rw [if_neg (by decide)] at l1
  rw [if_pos rfl] at l2
  rw [abs_lt]
  unfold kitLogical
  by_cases hi : i = 2
  · subst hi
    simp only [if_true]
    constructor <;> linarith [l1.1, l1.2, l2.1, l2.2]
  · simp only [if_neg hi] at li ⊢
    constructor <;> linarith [li.1, li.2]

/-- an arm that was seen near `A` and has hardly moved. -/
theorem seen_logical {c b A : Fin 6 → ℝ} (h : RC.anglesEqual ((Kit.cfg : Cfg XR).p2l (finS b)) (finS A) = true) (h2 : ∀ i, |c i - b i| < 2 / 1000000) (i : Fin 6) : |kitLogical c i - A i| < 11 / 100000 := by
  have : RC.anglesEqual (Kit.p2l (finS b)) (finS A) = true := h
  rw [kit_p2l] at this
  have := (RC.anglesEqual_fin _ _).1 this
  have k1 := abs_lt.1 (this i)
  have m1 := abs_lt.1 (h2 1)
  have m2 := abs_lt.1 (h2 2)
  have mi := abs_lt.1 (h2 i)
  rw [abs_lt]
  unfold kitLogical at k1 ⊢
  by_cases hi : i = 2
  · subst hi
    simp only [if_true] at k1 ⊢
    constructor <;> linarith [k1.1, k1.2, m1.1, m1.2, m2.1, m2.2]
  · simp only [if_neg hi] at k1 ⊢
    constructor <;> linarith [k1.1, k1.2, mi.1, mi.2]

section
variable {w0 : World XR} (hw : w0.servos = Kit.servos) {junk : Nat → Byte} {σ : ℕ → Sys XR} {ev : ℕ → Ev XR} (h : Endless Kit.cfg w0 junk σ ev)
  (hmem : BriskStorage w0.ee) (hc : ∀ n, BrisklySent (w0.rxq ++ arrivals (sofar ev n))) (hu : Unbroken ev) (hi : CalmImmediates ev)
include hw h hmem hc hu hi

/-- a servo that was at rest and is not touched. -/
theorem nearer_later {a b : ℕ} {i : Fin 6} (hab : a ≤ b) (hn : Untouched ev (armServo i) a b) (hs : Steady ((σ a).w.servos (armServo i))) :
    ∃ c t c', ((σ a).w.servos (armServo i)).cur = fin c ∧ ((σ a).w.servos (armServo i)).target = fin t ∧ ((σ b).w.servos (armServo i)).cur = fin c' ∧
      ((σ b).w.servos (armServo i)).target = fin t ∧ |c' - t| ≤ |c - t| := by
  obtain ⟨t, c, _, e1, _, e3, _⟩ := hs.step.2
  have := keep_stays (P := fun s => Steady s ∧ s.target = fin t ∧ ∃ c', s.cur = fin c' ∧ |c' - t| ≤ |c - t|) h (i := armServo i) (fun s ⟨g1, g2, c', g3, g4⟩ => by
    obtain ⟨k1, t1, c1, c2, k2, k3, k4, k5, k6⟩ := g1.step
    rw [g2] at k2; injection k2 with k2; subst k2
    rw [g3] at k4; injection k4 with k4; subst k4
    exact ⟨k1, k3, c2, k5, k6.trans g4⟩) hab hn ⟨hs, e1, c, e3, le_refl _⟩
  obtain ⟨_, g2, c', g3, g4⟩ := this
  exact ⟨c, t, c', e3, e1, g3, g2, g4⟩

/-- the arm at the last way point passed. -/
theorem kit_line_now {k0 k : ℕ} (hk : k0 < k) {x : Act XR} (h0 : ev k0 = .act x) (hx : ∀ (i : Fin 6) m, x ≠ .micro (armServo i) m)
    (hst : ∀ i : Fin 6, Steady ((σ k0).w.servos (armServo i)) ∧ ((σ k0).w.servos (armServo i)).atTarget = true) (hr : ReportsAt ev k) {S P : Fin 6 → ℝ} {n j : ℕ} {o : Option (Six XR)} (hn : 0 < n) (hj : 0 < j)
    (hl : Line (Kit.cfg : Cfg XR).toRCfg kitL kitU (finS S) (finS P) n j o (acts (span ev (k0 + 1) (k - (k0 + 1)))))
    (ha : Spec.Arrived (acts (span ev (k0 + 1) (k - (k0 + 1))))) :
    ∃ A, PutsAt kitG A (onLine S P j n) ∧ KitFits A ∧ (∀ B, KitTakes kitG (onLine S P j n) B → B = A) ∧
      ∀ n, k ≤ n → (∀ i : Fin 6, Untouched ev (armServo i) k n) → ArmNear (σ n).w A (11 / 100000) := by
  obtain ⟨y, h1, hy⟩ := reportsAt_iff.1 hr
  have sth := @stays_there _ _ _ _ _ _ _ h _ (fun _ => Steady.tick) (fun _ => Steady.stays) _ (steady_cmd hw h hmem hc hu) (kit_passes hw h hmem hc hu) (fun i => (kit_steady hw i).1)
  obtain ⟨tr, t, e1, e2, e3, e4⟩ := line_now h hk h0 h1 hx (fun i n' g1 g2 => (sth g1 g2 (hst i).1 (hst i).2).2)
    (fun i r n' g1 g2 g3 g4 => (sth g1 (fun j j1 j2 => g3 j j1 (by omega))
      (order_at h (fun _ => Steady.tick) (fun _ => Steady.stays) (steady_cmd hw h hmem hc hu) (kit_passes hw h hmem hc hu) (fun i => (kit_steady hw i).1) hr (by omega) g3) g4).2) hj hl ha
  obtain ⟨A, rfl, hA⟩ := kit_wayPoint hw (careful_of_briskStorage hmem) (h.run k) (hc k).well e1 hn e2
  refine ⟨A, hA, (kit_fits A).1 e3, fun B hB => funext fun i => XR.fin.inj (congrFun (kit_takes_point hn hB e2).symm i), fun n' hkn hun => ?_⟩
  choose c t ec _ et hct using fun i => rest_later hw h hmem hc hu hi hr hkn i (hun i)
  have hl2p : (Kit.cfg : Cfg XR).l2p (finS A) = finS fun i => if i = 2 then A 2 + A 1 else A i := kit_l2p A
  refine ⟨c, ec, near_logical fun i => ?_⟩
  rcases e4 with e4 | ⟨v, h2, mt, h3⟩
  · have e := (et i).symm.trans (e4 i)
    rw [hl2p] at e
    have e : t i = if i = 2 then A 2 + A 1 else A i := by injection e
    rw [← e]; linarith [hct i]
  · have hg : ∀ i, (∃ x, (v i).cur = fin x) ∧ (∃ m, (v i).maxVel = fin m ∧ 0 < m) := fun i => by
      obtain ⟨⟨x, ex, _⟩, _, m, em, m0⟩ := Told.reading_good (kit_arm hw) (h.run k) (kit_noNaN hw (careful_of_briskStorage hmem) (h.run k) (hc k).well) (h2 i).1
      exact ⟨⟨x, ex⟩, m, em, m0⟩
    choose x ex using fun i => (hg i).1
    choose m em m0 using fun i => (hg i).2
    rw [hl2p] at h3
    have h4 := Told.timeFor_zero ex em m0 h3 i
    rw [← h4]
    have k1 := (Rest.atTarget_iff (ex i) ((h2 i).2.2.trans (et i))).1 (h2 i).2.1
    have := abs_lt.1 k1
    have := abs_lt.1 (hct i)
    rw [abs_lt]; constructor <;> linarith

/-- where a straight move began. -/
theorem kit_line_start {k0 k : ℕ} (hk : k0 < k) {x : Act XR} (h0 : ev k0 = .act x) (hx : ∀ (i : Fin 6) m, x ≠ .micro (armServo i) m)
    (hst : ∀ i : Fin 6, Steady ((σ k0).w.servos (armServo i))) {S P : Six XR} {n j : ℕ} {o : Option (Six XR)}
    (hl : Line (Kit.cfg : Cfg XR).toRCfg kitL kitU S P n j o (acts (span ev (k0 + 1) (k - (k0 + 1))))) :
    ∃ a s : Fin 6 → ℝ, Nearer (σ k0).w a ∧ S = finS s ∧ jointPos kitG (kitLogical a) 5 = ![s 0, s 1, s 2] := by
  obtain ⟨m, a, ⟨x', hm⟩, h1, h2, hS⟩ := line_start hl
  choose v hv hb using h2
  have key : ∀ i, ∃ c t c', ((σ k0).w.servos (armServo i)).cur = fin c ∧ ((σ k0).w.servos (armServo i)).target = fin t ∧ (v i).cur = fin c' ∧ |c' - t| ≤ |c - t| := by
    intro i
    obtain ⟨p1, p2, ep⟩ := List.append_of_mem (hv i)
    obtain ⟨r, r1, r2, r3, r4⟩ := span_at (ev := ev) (a := k0 + 1) (k := k - (k0 + 1)) (p1 := p1) (p2 := p2 ++ x') (x := .servo (armServo i) (v i)) (by rw [← hm, ep]; simp)
    have hun : Untouched ev (armServo i) k0 r := fun j j1 j2 q eq => by
      rcases Nat.eq_or_lt_of_le j1 with rfl | j1
      · rw [h0] at eq; injection eq with eq; exact hx i q eq
      · have e := span_split (ev := ev) (a := k0 + 1) (k := k - (k0 + 1)) (c := r) r1 (by omega) r3
        rw [r4, ← hm, ep] at e
        have e : p1 ++ .servo (armServo i) (v i) :: (p2 ++ x') = acts (span ev (k0 + 1) (r - (k0 + 1))) ++ .servo (armServo i) (v i) :: (p2 ++ x') := by simpa using e
        have e := List.append_cancel_right e
        refine h1 i q ?_
        rw [ep, e]
        exact List.mem_append_left _ (acts_mem.2 (mem_span.2 ⟨j, by omega, by omega, eq⟩))
    obtain ⟨c, t, c', g1, g2, g3, _, g5⟩ := nearer_later hw h hmem hc hu hi (by omega) hun (hst i)
    exact ⟨c, t, c', g1, g2, by rw [h.read r3]; exact g3, g5⟩
  choose c t c' g1 g2 g3 g4 using key
  have ea : a = finS c' := funext fun i => (hb i).trans (g3 i)
  subst ea
  have h2 : S = (Kit.cfg : Cfg XR).fwd (Kit.p2l (finS c')) := hS
  rw [kit_p2l, kit_fwd, forward_eq] at h2
  subst h2
  refine ⟨c', _, fun i => ⟨c i, t i, g1 i, g2 i, g4 i⟩, rfl, ?_⟩
  ext i; fin_cases i <;> rfl

/-- an arm left alone from its start at rest until after the report. -/
theorem kit_stayed {k0 k : ℕ} (hk : k0 < k) {x : Act XR} (h0 : ev k0 = .act x) (hx : ∀ (i : Fin 6) m, x ≠ .micro (armServo i) m)
    (hst : ∀ i : Fin 6, Steady ((σ k0).w.servos (armServo i)) ∧ ((σ k0).w.servos (armServo i)).atTarget = true)
    (hs : ArmStill (acts (span ev (k0 + 1) (k - (k0 + 1))))) {n : ℕ} (hkn : k ≤ n) (hn : ∀ i : Fin 6, Untouched ev (armServo i) k n) : Stayed (σ k0).w (σ n).w := by
  have key : ∀ i : Fin 6, ∃ c c', ((σ k0).w.servos (armServo i)).cur = fin c ∧ ((σ n).w.servos (armServo i)).cur = fin c' ∧ |c' - c| < 2 / 1000000 := by
    intro i
    have hun : Untouched ev (armServo i) k0 n := fun j j1 j2 q eq => by
      rcases Nat.eq_or_lt_of_le j1 with rfl | j1
      · rw [h0] at eq; injection eq with eq; exact hx i q eq
      · rcases Nat.lt_or_ge j k with j3 | j3
        · exact hs i q (acts_mem.2 (mem_span.2 ⟨j, by omega, by omega, eq⟩))
        · exact hn i j j3 j2 q eq
    obtain ⟨c, t, c', g1, g2, g3, _, g5⟩ := nearer_later hw h hmem hc hu hi (by omega) hun (hst i).1
    refine ⟨c, c', g1, g3, ?_⟩
    have := (Rest.atTarget_iff g1 g2).1 (hst i).2
    have := abs_lt.1 (lt_of_le_of_lt g5 this)
    have := abs_lt.1 ‹|c - t| < _›
    rw [abs_lt]; constructor <;> linarith
  choose c c' g1 g2 g3 using key
  exact ⟨c, c', g1, g2, g3⟩

/-- an arm seen at angles and left alone is still there after the report. -/
theorem kit_seen_now {k0 k : ℕ} (hk : k0 < k) {x : Act XR} (h0 : ev k0 = .act x) (hx : ∀ (i : Fin 6) m, x ≠ .micro (armServo i) m)
    (hst : ∀ i : Fin 6, Steady ((σ k0).w.servos (armServo i)) ∧ ((σ k0).w.servos (armServo i)).atTarget = true)
    (hs : ArmStill (acts (span ev (k0 + 1) (k - (k0 + 1))))) {b : Fin 6 → ℝ} (hb : Reading (acts (span ev (k0 + 1) (k - (k0 + 1)))) (finS b)) {n : ℕ} (hkn : k ≤ n)
    (hn : ∀ i : Fin 6, Untouched ev (armServo i) k n) : ∃ c, ArmAt (σ n).w c ∧ ∀ i, |c i - b i| < 2 / 1000000 := by
  have key : ∀ i : Fin 6, ∃ c, ((σ n).w.servos (armServo i)).cur = fin c ∧ |c - b i| < 2 / 1000000 := by
    intro i
    obtain ⟨sv, hsv, eb⟩ := hb i
    obtain ⟨r, r1, r2, r3⟩ := mem_span.1 (acts_mem.1 hsv)
    have hun : Untouched ev (armServo i) k0 n := fun j j1 j2 q eq => by
      rcases Nat.eq_or_lt_of_le j1 with rfl | j1
      · rw [h0] at eq; injection eq with eq; exact hx i q eq
      · rcases Nat.lt_or_ge j k with j3 | j3
        · exact hs i q (acts_mem.2 (mem_span.2 ⟨j, by omega, by omega, eq⟩))
        · exact hn i j j3 j2 q eq
    obtain ⟨c, t, c', g1, g2, g3, _, g5⟩ := nearer_later hw h hmem hc hu hi (by omega) hun (hst i).1
    obtain ⟨c1, t1, c1', l1, l2, l3, _, l5⟩ := nearer_later hw h hmem hc hu hi (a := k0) (b := r) (by omega) (fun j j1 j2 => hun j j1 (by omega)) (hst i).1
    rw [g1] at l1; injection l1 with l1; subst l1
    rw [g2] at l2; injection l2 with l2; subst l2
    rw [← h.read r3] at l3
    have e : b i = c1' := XR.fin.inj (eb.trans l3)
    refine ⟨c', g3, ?_⟩
    have h1 := (Rest.atTarget_iff g1 g2).1 (hst i).2
    have := abs_lt.1 (lt_of_le_of_lt g5 h1)
    have := abs_lt.1 (lt_of_le_of_lt l5 h1)
    rw [e, abs_lt]; constructor <;> linarith
  choose c g1 g2 using key
  exact ⟨c, g1, g2⟩

/-- **C114**: the setting of C110. An instruction told all six coordinates of a pose with M1. From the moment it is reported as finished (or the next one begins) until a servo is commanded again:
the arm is at angles that put the tool at the pose told; or at a point of the straight way from where the tool was to the pose told, the next point being one that cannot be taken; or it is where
it was, because the first point of the way cannot be taken or the pose is out of reach. -/
theorem C114_line {k0 k : ℕ} {src : Src} {cs : List Cmd} (hb : ev k0 = .act (.out (.ghost src (text cs)))) (hs : src ≠ .immediate ∨ CalmAt ev k0) (ht : TellsPose cs) (hM : Chooses 49 cs)
    {d : Fin 6 → Dec} (hd : ∀ i, Last NamesPose cs i (d i)) (hk : k0 < k) (hr : ReportsAt ev k) (hq : ∀ i, k0 < i → i < k → ¬ Directs ev i)
    {n : ℕ} (hkn : k ≤ n) (hn : ∀ i : Fin 6, Untouched ev (armServo i) k n) : LineEnd kitG (poseOfDec d) (σ k0).w (σ n).w := by
  obtain ⟨y, h1, hy⟩ := reportsAt_iff.1 hr
  obtain ⟨P, A, g1, g2, g3⟩ := C110_line (h.run (k + 1)).trace (kit_limits hw (h.run (k + 1))) ht hM hs (acts_between hk hb h1) (quiet_mid hw h hmem hc hu hi hq) hy
  have : P = finS (poseOfDec d) := funext fun i => (g1 i _ (hd i)).trans (coordinate_fin (last_ok (fun _ _ _ h => h.1) (hd i)))
  subst this
  generalize poseOfDec d = P at *
  have rest := rest_begin hw h hmem hc hu hi hb hs
  have hin : ∀ z ∈ acts (span ev (k0 + 1) (k - (k0 + 1))), z ∈ acts (sofar ev k) := fun z hz => by
    rw [sofar_span, span_split (c := k0) (Nat.zero_le _) (by omega) hb, Nat.zero_add]; simp [hz]
  have still := fun hs => kit_stayed hw h hmem hc hu hi hk hb (by simp) rest hs hkn hn
  cases g3 with
  | along S m o l1 l2 l3 l4 =>
    obtain ⟨a, s, _, rfl, _⟩ := kit_line_start hw h hmem hc hu hi hk hb (by simp) (fun i => (rest i).1) l3
    obtain ⟨A, a1, a2, _, a4⟩ := kit_line_now hw h hmem hc hu hi hk hb (by simp) rest hr l1 l1 l3 l4
    rw [onLine_end _ _ l1] at a1
    exact .arrived A a1 (a4 n hkn hn)
  | stopped S m j o l1 l2 l3 l4 l5 =>
    obtain ⟨a, s, ha, rfl, hS⟩ := kit_line_start hw h hmem hc hu hi hk hb (by simp) (fun i => (rest i).1) l3
    obtain ⟨m0, m1⟩ := linearSteps_len l1
    have hbl : Blocked kitG (onLine s P (j + 1) m) := by
      rcases l5 with l5 | ⟨m', x, t, e, _, l5, l6⟩
      · have l5 : (Kit.cfg : Cfg XR).inv (linePoint (finS s) (finS P) (j + 1) m) = none := l5
        rw [linePoint_fin _ _ _ _ m0] at l5
        exact .inl (kit_inv_none l5)
      · obtain ⟨A, rfl, hA⟩ := kit_wayPoint hw (careful_of_briskStorage hmem) (h.run k) (hc k).well (fun z hz => hin z (by rw [e]; simp [hz])) m0 l5
        exact .inr ⟨A, hA, fun hf => l6 ((kit_fits A).2 hf)⟩
    rcases Nat.eq_zero_or_pos j with rfl | hj
    · exact .blocked a s m ha hS m1 hbl (still (line_zero l3))
    · obtain ⟨A, a1, a2, _, a4⟩ := kit_line_now hw h hmem hc hu hi hk hb (by simp) rest hr m0 hj l3 l4
      exact .stopped a s m j A ha hS m1 hj (l2 m0) a1 a2 (a4 n hkn hn) hbl
  | there b l1 l2 l3 =>
    rcases g2 with g2 | g2
    · obtain ⟨α, rfl, hA⟩ := kit_puts g2
      refine .arrived α hA ?_
      obtain ⟨β, rfl, hb'⟩ := kit_reading hw (careful_of_briskStorage hmem) (h.run k) (hc k).well hin l1
      obtain ⟨c, e1, e2⟩ := kit_seen_now hw h hmem hc hu hi hk hb (by simp) rest l3 l1 hkn hn
      exact ⟨c, e1, seen_logical l2 e2⟩
    · exact .refused (kit_inv_none g2) (still l3)

/-- **C114**, a free way: if the kit can take every point of the straight way from where the tool is when the instruction begins to the pose told, in its ordinary posture, the tool is at the pose
told from the report on, to 0.0113 units, and points in the directions told, to 7e-4 in every coordinate, until a servo is commanded again. -/
theorem C114_free {k0 k : ℕ} {src : Src} {cs : List Cmd} (hb : ev k0 = .act (.out (.ghost src (text cs)))) (hs : src ≠ .immediate ∨ CalmAt ev k0) (ht : TellsPose cs) (hM : Chooses 49 cs)
    {d : Fin 6 → Dec} (hd : ∀ i, Last NamesPose cs i (d i)) (hk : k0 < k) (hr : ReportsAt ev k) (hq : ∀ i, k0 < i → i < k → ¬ Directs ev i)
    (hfree : ∀ a, Nearer (σ k0).w a → KitFree kitG (jointPos kitG (kitLogical a) 5) (poseOfDec d))
    {n : ℕ} (hkn : k ≤ n) (hn : ∀ i : Fin 6, Untouched ev (armServo i) k n) : ∃ b, ArmAt (σ n).w b ∧ ToolAt kitG (113 / 10000) (7 / 10000) (kitLogical b) (poseOfDec d) := by
  obtain ⟨y, h1, hy⟩ := reportsAt_iff.1 hr
  obtain ⟨P, A, g1, g2, g3⟩ := C110_line (h.run (k + 1)).trace (kit_limits hw (h.run (k + 1))) ht hM hs (acts_between hk hb h1) (quiet_mid hw h hmem hc hu hi hq) hy
  have : P = finS (poseOfDec d) := funext fun i => (g1 i _ (hd i)).trans (coordinate_fin (last_ok (fun _ _ _ h => h.1) (hd i)))
  subst this
  generalize poseOfDec d = P at *
  have rest := rest_begin hw h hmem hc hu hi hb hs
  have hin : ∀ z ∈ acts (span ev (k0 + 1) (k - (k0 + 1))), z ∈ acts (sofar ev k) := fun z hz => by
    rw [sofar_span, span_split (c := k0) (Nat.zero_le _) (by omega) hb, Nat.zero_add]; simp [hz]
  -- every point of the way can be taken
  have free : ∀ {a s : Fin 6 → ℝ} {m j : ℕ}, Nearer (σ k0).w a → jointPos kitG (kitLogical a) 5 = ![s 0, s 1, s 2] → 0 < j → j ≤ m → ∃ B, KitTakes kitG (onLine s P j m) B := by
    intro a s m j ha hS hj hm
    have h0 : (0 : ℝ) < m := by exact_mod_cast (by omega : 0 < m)
    have h1 : (0 : ℝ) < j := by exact_mod_cast hj
    have h2 : (j : ℝ) ≤ m := by exact_mod_cast hm
    have := hfree a ha (j / m) (by positivity) ((div_le_one h0).2 h2)
    rw [hS, ← onLine_part] at this
    exact this
  have near : ∀ {A b : Fin 6 → ℝ}, KitTakes kitG P A → (∀ i, |kitLogical b i - A i| < 11 / 100000) → ToolAt kitG (113 / 10000) (7 / 10000) (kitLogical b) P :=
    fun hA h => C113_near h hA.pos hA.orient (by norm_num) (by norm_num)
  cases g3 with
  | along S m o l1 l2 l3 l4 =>
    obtain ⟨a, s, ha, rfl, hS⟩ := kit_line_start hw h hmem hc hu hi hk hb (by simp) (fun i => (rest i).1) l3
    obtain ⟨A, a1, a2, a3, a4⟩ := kit_line_now hw h hmem hc hu hi hk hb (by simp) rest hr l1 l1 l3 l4
    obtain ⟨B, hB⟩ := free ha hS l1 (le_refl m)
    obtain rfl := a3 B hB
    rw [onLine_end _ _ l1] at hB
    obtain ⟨b, b1, b2⟩ := a4 n hkn hn
    exact ⟨b, b1, near hB b2⟩
  | stopped S m j o l1 l2 l3 l4 l5 =>
    obtain ⟨a, s, ha, rfl, hS⟩ := kit_line_start hw h hmem hc hu hi hk hb (by simp) (fun i => (rest i).1) l3
    obtain ⟨m0, m1⟩ := linearSteps_len l1
    obtain ⟨B, hB⟩ := free ha hS (Nat.succ_pos j) (l2 m0)
    rcases l5 with l5 | ⟨m', x, t, e, _, l5, l6⟩
    · have l5 : (Kit.cfg : Cfg XR).inv (linePoint (finS s) (finS P) (j + 1) m) = none := l5
      rw [linePoint_fin _ _ _ _ m0, kit_inverse_takes hB] at l5
      cases l5
    · rw [kit_takes_point m0 hB l5] at l6
      exact absurd ((kit_fits B).2 hB.fits) l6
  | there b l1 l2 l3 =>
    have hP : ∃ B, KitTakes kitG P B := by
      have ha : Nearer (σ k0).w fun i => (rest i).1.choose_spec.choose_spec.choose_spec.choose := fun i =>
        ⟨_, _, (rest i).1.choose_spec.choose_spec.choose_spec.choose_spec.2.2.2.1, (rest i).1.choose_spec.choose_spec.choose_spec.choose_spec.2.1, le_refl _⟩
      obtain ⟨B, hB⟩ := hfree _ ha 1 one_pos (le_refl _)
      have : partWay (jointPos kitG (kitLogical fun i => (rest i).1.choose_spec.choose_spec.choose_spec.choose) 5) P 1 = P := by
        generalize jointPos kitG _ 5 = s
        funext i; fin_cases i <;> simp [partWay]
      rw [this] at hB
      exact ⟨B, hB⟩
    obtain ⟨B, hB⟩ := hP
    rcases g2 with g2 | g2
    · have e := Option.some.inj (g2.symm.trans (kit_inverse_takes hB))
      subst e
      obtain ⟨β, rfl, hb'⟩ := kit_reading hw (careful_of_briskStorage hmem) (h.run k) (hc k).well hin l1
      obtain ⟨c, e1, e2⟩ := kit_seen_now hw h hmem hc hu hi hk hb (by simp) rest l3 l1 hkn hn
      exact ⟨c, e1, near hB (seen_logical l2 e2)⟩
    · have g2 : (Kit.cfg : Cfg XR).inv (finS P) = none := g2
      rw [kit_inverse_takes hB] at g2; cases g2
end

section
variable {w0 : World XR} (hw : w0.servos = Kit.servos) {junk : Nat → Byte} {σ : ℕ → Sys XR} {ev : ℕ → Ev XR} (h : Endless Kit.cfg w0 junk σ ev)
  (h0 : w0.ee 0 = 0) (hc : ∀ n, BrisklySent (w0.rxq ++ arrivals (sofar ev n))) (hnw : ∀ n, NeverWaits (w0.rxq ++ arrivals (sofar ev n)))
  (hns : ∀ n, NeverStores (sent w0.rxq (sofar ev n))) (htt : TakesTurns w0.rxq ev) (hu : Unbroken ev) (hclk : ClockRuns σ ev)
include hw h h0 hc hnw hns htt hu hclk

/-- **C114**, total correctness: a host that takes turns (C112). Every numbered immediate straight move that is sent is executed and reported as finished, and from the report on, until a
servo is commanded again, the arm is where C114 says; on a free way the tool is at the pose told. -/
theorem C114_sent {t : ℕ} {cs : List Cmd} (hm : text cs ∈ nows (sent w0.rxq (sofar ev t))) (ht : TellsPose cs) (hM : Chooses 49 cs) {n : Int} (hn : Numbered (text cs) n)
    {d : Fin 6 → Dec} (hd : ∀ i, Last NamesPose cs i (d i)) :
    ∃ k j, ev k = .act (.out (.ghost .immediate (text cs))) ∧ k < j ∧ ev j = .act (.out (.msg (.n1 n))) ∧ (∀ i, k < i → i < j → ¬ Orders ev i) ∧
      ∀ l, j ≤ l → (∀ i : Fin 6, Untouched ev (armServo i) j l) → LineEnd kitG (poseOfDec d) (σ k).w (σ l).w ∧
        ((∀ a, Nearer (σ k).w a → KitFree kitG (jointPos kitG (kitLogical a) 5) (poseOfDec d)) → ∃ b, ArmAt (σ l).w b ∧ ToolAt kitG (113 / 10000) (7 / 10000) (kitLogical b) (poseOfDec d)) := by
  obtain ⟨k, j, h1, h2, h3, h4, h5⟩ := C112_sent hw h h0 hc hnw hns htt hu hclk hm hn
  have hi := Calm.immediates h (done_calm (C112_calm h h0 hns htt))
  exact ⟨k, j, h1, h3, h4, h5, fun l hl hun => ⟨C114_line hw h (brisk_empty _ h0) hc hu hi h1 (.inr (Calm.of_done h2)) ht hM hd h3 (.inl ⟨n, h4⟩) (undirected h5) hl hun,
    fun hf => C114_free hw h (brisk_empty _ h0) hc hu hi h1 (.inr (Calm.of_done h2)) ht hM hd h3 (.inl ⟨n, h4⟩) (undirected h5) hf hl hun⟩⟩
end

/-- **C114**, total correctness for the queue (C106). -/
theorem C114_queue {w0 : World XR} (hw : w0.servos = Kit.servos) {junk : Nat → Byte} {σ : ℕ → Sys XR} {ev : ℕ → Ev XR} (h : Endless Kit.cfg w0 junk σ ev)
    (hmem : BriskStorage w0.ee) (hq0 : QuickStorage w0.ee) (hc : ∀ n, BrisklySent (w0.rxq ++ arrivals (sofar ev n))) (hnw : ∀ n, NeverWaits (w0.rxq ++ arrivals (sofar ev n)))
    (hu : Unbroken ev) (hclk : ClockRuns σ ev) (hh : ∀ n, CountingHost w0.rxq (sofar ev n)) (hq : ∀ n, QueueOnly (sent w0.rxq (sofar ev n)))
    {t : ℕ} {cs : List Cmd} (hm : text cs ∈ puts (sent w0.rxq (sofar ev t))) (ht : TellsPose cs) (hM : Chooses 49 cs) {n : Int} (hn : Numbered (text cs) n)
    {d : Fin 6 → Dec} (hd : ∀ i, Last NamesPose cs i (d i)) :
    ∃ k j, ev k = .act (.out (.ghost .queue (text cs))) ∧ k < j ∧ ev j = .act (.out (.msg (.n1 n))) ∧ (∀ i, k < i → i < j → ¬ Orders ev i) ∧
      ∀ l, j ≤ l → (∀ i : Fin 6, Untouched ev (armServo i) j l) → LineEnd kitG (poseOfDec d) (σ k).w (σ l).w ∧
        ((∀ a, Nearer (σ k).w a → KitFree kitG (jointPos kitG (kitLogical a) 5) (poseOfDec d)) → ∃ b, ArmAt (σ l).w b ∧ ToolAt kitG (113 / 10000) (7 / 10000) (kitLogical b) (poseOfDec d)) := by
  obtain ⟨k, j, h1, h2, h3, h4⟩ := C106_sent hw h hmem hq0 hc hnw (undivided_of hu) hclk hh hq hm hn
  have hi := calm_of_none (queueOnly_noImmediate h hq)
  exact ⟨k, j, h1, h2, h3, h4, fun l hl hun => ⟨C114_line hw h hmem hc hu hi h1 (.inl (by simp)) ht hM hd h2 (.inl ⟨n, h3⟩) (undirected h4) hl hun,
    fun hf => C114_free hw h hmem hc hu hi h1 (.inl (by simp)) ht hM hd h2 (.inl ⟨n, h3⟩) (undirected h4) hf hl hun⟩⟩

end Mrc.Props
