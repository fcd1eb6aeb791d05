import Verif.Proof.Lipschitz
import Verif.Spec.Accuracy
import Verif.Props.Turns
import Verif.Props.RestDemo
/-
C113: how exactly the tool is where it was told to be.
-/
set_option maxRecDepth 100000
set_option linter.unusedSectionVars false
namespace Mrc.Props
open Mrc Mrc.Prog Mrc.Spec Mrc.Demo Mrc.Rest Mrc.Kine Mrc.Lip Matrix

theorem kit_weight : ∑ k : Fin 5, (k.val + 1 : ℕ) * len3 (kitG k) ≤ 102 := by
  have up : ∀ {v : Vec3} {x : ℝ}, v 0 ^ 2 + v 1 ^ 2 + v 2 ^ 2 ≤ x ^ 2 → 0 ≤ x → len3 v ≤ x := fun h hx => Real.sqrt_le_iff.2 ⟨hx, h⟩
  have h0 : len3 (kitG 0) ≤ 915 / 100 := up (by simp [kitG]; norm_num) (by norm_num)
  have h1 : len3 (kitG 1) ≤ 117 / 10 := up (by simp [kitG]) (by norm_num)
  have h2 : len3 (kitG 2) ≤ 181 / 100 := up (by simp [kitG]; norm_num) (by norm_num)
  have h3 : len3 (kitG 3) ≤ 1215 / 100 := up (by simp [kitG]) (by norm_num)
  have h4 : len3 (kitG 4) ≤ 3 := up (by simp [kitG]) (by norm_num)
  rw [Fin.sum_univ_five]
  norm_num
  linarith

/-- **C113** (geometry): angles that are all within `e` of the angles A put the tool of the kit within 102 e of where A puts it, and its axes point in the same directions up to 6 e. -/
theorem C113_near {A B P : Fin 6 → ℝ} {e : ℝ} (h : ∀ i, |B i - A i| < e) (hp : jointPos kitG A 5 = ![P 0, P 1, P 2]) (ho : toolFrame A = orientOf P) {p o : ℝ} (h1 : 102 * e < p) (h2 : 6 * e < o) :
    ToolAt kitG p o B P := by
  have he : 0 < e := lt_of_le_of_lt (abs_nonneg _) (h 0)
  constructor
  · rw [← hp]
    refine lt_of_le_of_lt (near_tool kitG fun i => (h i).le) (lt_of_le_of_lt (mul_le_mul_of_nonneg_right kit_weight he.le) h1)
  · intro i j
    rw [← ho]
    have h3 := near_toolFrame fun i => (h i).le
    generalize toolFrame B = M at h3 ⊢
    generalize toolFrame A = N at h3 ⊢
    have h3 := h3 (Pi.single j 1)
    have h4 := coord_le (M *ᵥ Pi.single j 1 - N *ᵥ Pi.single j 1) i
    have h5 : len3 (Pi.single j 1) = 1 := by
      fin_cases j <;> simp [len3]
    have h6 : ∀ M : Mat3, (M *ᵥ Pi.single j 1) i = M i j := fun M => by simp
    rw [h5, mul_one] at h3
    rw [Pi.sub_apply, h6, h6] at h4
    exact lt_of_le_of_lt (h4.trans h3) h2

theorem kit_inverse_takes {P A : Fin 6 → ℝ} (h : KitTakes kitG P A) : (Kit.cfg : Cfg XR).inv (finS P) = some (finS A) := by
  obtain ⟨⟨f, _, _⟩, hp, ho, h1, h2, h3, h4, hF⟩ := h
  have pi := Real.pi_gt_three
  have f0 := f 0; have f1 := f 1; have f2 := f 2; have f3 := f 3; have f4 := f 4; have f5 := f 5
  simp only [armServo, Kit.minDeg, Kit.maxDeg] at f0 f1 f2 f3 f4 f5
  norm_num at f0 f1 f2 f3 f4 f5
  exact kit_inverse hp ho.symm (abs_le.2 ⟨by linarith, by linarith⟩) (abs_lt.2 ⟨by linarith, by linarith⟩) ⟨by linarith, by linarith⟩ (abs_le.2 ⟨by linarith, by linarith⟩)
    (abs_lt.2 ⟨by linarith, by linarith⟩) h4 (abs_le.2 ⟨by linarith, by linarith⟩) hF

section
variable {w0 : World XR} (hw : w0.servos = Kit.servos) {junk : Nat → Byte} {σ : ℕ → Sys XR} {ev : ℕ → Ev XR} (h : Endless Kit.cfg w0 junk σ ev)
  (hmem : BriskStorage w0.ee) (hc : ∀ n, BrisklySent (w0.rxq ++ arrivals (sofar ev n))) (hu : Unbroken ev) (hi : CalmImmediates ev)
include hw h hmem hc hu hi

/-- **C113**: the setting of C110. An instruction told all six coordinates of a pose that the kit can take in its ordinary posture, with M0. From the moment it is reported as finished (or the
next one begins) until a servo is commanded again, the tool is where it was told, to 0.0113 units (the kit's unit is 1 cm), and points in the directions told, to 7e-4 in every coordinate. -/
theorem C113_pose {k0 k : ℕ} {src : Src} {cs : List Cmd} (hb : ev k0 = .act (.out (.ghost src (text cs)))) (hs : src ≠ .immediate ∨ CalmAt ev k0) (ht : TellsPose cs) (hM : Chooses 48 cs)
    {d : Fin 6 → Dec} (hd : ∀ i, Last NamesPose cs i (d i)) {A : Fin 6 → ℝ} (hA : KitTakes kitG (poseOfDec d) A) (hk : k0 < k) (hr : ReportsAt ev k) (hq : ∀ i, k0 < i → i < k → ¬ Directs ev i)
    {n : ℕ} (hkn : k ≤ n) (hn : ∀ i : Fin 6, Untouched ev (armServo i) k n) :
    ∃ b, ArmAt (σ n).w b ∧ (∀ i, |kitLogical b i - A i| < 11 / 100000) ∧ ToolAt kitG (113 / 10000) (7 / 10000) (kitLogical b) (poseOfDec d) := by
  obtain ⟨y, h1, hy⟩ := reportsAt_iff.1 hr
  obtain ⟨P, g1, g2⟩ := C110_pose (h.run (k + 1)).trace (kit_limits hw (h.run (k + 1))) ht hM hs (acts_between hk hb h1) (quiet_mid hw h hmem hc hu hi hq) hy
  have : P = finS (poseOfDec d) := funext fun i => (g1 i _ (hd i)).trans (coordinate_fin (last_ok (fun _ _ _ h => h.1) (hd i)))
  subst this
  have hA' := kit_inverse_takes hA
  rcases g2 with g2 | ⟨t, g2, g4⟩
  · rw [hA'] at g2; cases g2
  · rw [hA'] at g2; cases g2
    obtain ⟨b, h3, h4⟩ := kit_now hw h hmem hc hu hi hk hb (by simp) (fun i => (rest_begin hw h hmem hc hu hi hb hs i).2) (fun i => (rest_begin hw h hmem hc hu hi hb hs i).1) hr hA.fits g4 hkn hn
    exact ⟨b, h3, h4, C113_near h4 hA.pos hA.orient (by norm_num) (by norm_num)⟩

/-- **C113**: the same for six angles told: the tool is where these angles put it. -/
theorem C113_told {k0 k : ℕ} {src : Src} {cs : List Cmd} (hb : ev k0 = .act (.out (.ghost src (text cs)))) (hs : src ≠ .immediate ∨ CalmAt ev k0) (ht : TellsAngles cs) (hM : Chooses 48 cs)
    {d : Fin 6 → Dec} (hd : ∀ i, Last NamesAngle cs i (d i)) (hfit : KitFits fun i => radians (d i)) (hk : k0 < k) (hr : ReportsAt ev k) (hq : ∀ i, k0 < i → i < k → ¬ Directs ev i)
    {n : ℕ} (hkn : k ≤ n) (hn : ∀ i : Fin 6, Untouched ev (armServo i) k n) {P : Fin 6 → ℝ} (hp : jointPos kitG (fun i => radians (d i)) 5 = ![P 0, P 1, P 2])
    (ho : toolFrame (fun i => radians (d i)) = orientOf P) : ∃ b, ArmAt (σ n).w b ∧ ToolAt kitG (113 / 10000) (7 / 10000) (kitLogical b) P := by
  obtain ⟨b, h1, h2⟩ := C110_told hw h hmem hc hu hi hb hs ht hM hd hfit hk hr hq hkn hn
  exact ⟨b, h1, C113_near h2 hp ho (by norm_num) (by norm_num)⟩
end

section
variable {w0 : World XR} (hw : w0.servos = Kit.servos) {junk : Nat → Byte} {σ : ℕ → Sys XR} {ev : ℕ → Ev XR} (h : Endless Kit.cfg w0 junk σ ev)
  (h0 : w0.ee 0 = 0) (hc : ∀ n, BrisklySent (w0.rxq ++ arrivals (sofar ev n))) (hnw : ∀ n, NeverWaits (w0.rxq ++ arrivals (sofar ev n)))
  (hns : ∀ n, NeverStores (sent w0.rxq (sofar ev n))) (htt : TakesTurns w0.rxq ev) (hu : Unbroken ev) (hclk : ClockRuns σ ev)
include hw h h0 hc hnw hns htt hu hclk

/-- **C113**, total correctness: a host that takes turns (C112). Every numbered immediate move (M0) to a pose the kit can take that is sent is executed and reported as finished, and from
the report on the tool is there until a servo is commanded again. -/
theorem C113_sent {t : ℕ} {cs : List Cmd} (hm : text cs ∈ nows (sent w0.rxq (sofar ev t))) (ht : TellsPose cs) (hM : Chooses 48 cs) {n : Int} (hn : Numbered (text cs) n)
    {d : Fin 6 → Dec} (hd : ∀ i, Last NamesPose cs i (d i)) {A : Fin 6 → ℝ} (hA : KitTakes kitG (poseOfDec d) A) :
    ∃ k j, ev k = .act (.out (.ghost .immediate (text cs))) ∧ k < j ∧ ev j = .act (.out (.msg (.n1 n))) ∧ (∀ i, k < i → i < j → ¬ Orders ev i) ∧
      ∀ l, j ≤ l → (∀ i : Fin 6, Untouched ev (armServo i) j l) → ∃ b, ArmAt (σ l).w b ∧ ToolAt kitG (113 / 10000) (7 / 10000) (kitLogical b) (poseOfDec d) := by
  obtain ⟨k, j, h1, h2, h3, h4, h5⟩ := C112_sent hw h h0 hc hnw hns htt hu hclk hm hn
  refine ⟨k, j, h1, h3, h4, h5, fun l hl hun => ?_⟩
  obtain ⟨b, g1, _, g2⟩ := C113_pose hw h (brisk_empty _ h0) hc hu (Calm.immediates h (done_calm (C112_calm h h0 hns htt))) h1 (.inr (Calm.of_done h2)) ht hM hd hA h3 (.inl ⟨n, h4⟩) (undirected h5) hl hun
  exact ⟨b, g1, g2⟩
end

/-- **C113** in binary32, for every libm: six angles told (C112). From the report on the tool is where these angles put it, to 0.0133 units, and points in the same directions, to 8e-4. -/
theorem C113_rounded [L : RX.Libm binary32] {cfg : Cfg F32} {w0 : World F32} {junk : Nat → Byte} {σ : ℕ → Sys F32} {ev : ℕ → Ev F32} (hk : KitAngles cfg) (hw : w0.servos = Kit.servos) (hrun : Endless cfg w0 junk σ ev)
    (hsq : SqrtNonneg binary32) (h0 : w0.ee 0 = 0) (hc : ∀ n, LegiblySent (w0.rxq ++ arrivals (sofar ev n)))
    (hj : ∀ n, ∀ p ∈ decode (w0.rxq ++ arrivals (sofar ev n)), JointFrame (frame p)) (hu : Unbroken ev) (hnw : ∀ n, NeverWaits (w0.rxq ++ arrivals (sofar ev n)))
    (hns : ∀ n, NeverStores (sent w0.rxq (sofar ev n))) (htt : TakesTurns w0.rxq ev) (hclk : ClockRuns σ ev) {t : ℕ} {cs : List Cmd}
    (hm : text cs ∈ nows (sent w0.rxq (sofar ev t))) (ht : TellsAngles cs) (hM : Chooses 48 cs) {n : Int} (hn : Numbered (text cs) n)
    {d : Fin 6 → Dec} (hd : ∀ i, Last NamesAngle cs i (d i)) (hfit : KitFitsBy (1 / 100000) fun i => radians (d i))
    {P : Fin 6 → ℝ} (hp : jointPos kitG (fun i => radians (d i)) 5 = ![P 0, P 1, P 2]) (ho : toolFrame (fun i => radians (d i)) = orientOf P) :
    ∃ k j, ev k = .act (.out (.ghost .immediate (text cs))) ∧ k < j ∧ ev j = .act (.out (.msg (.n1 n))) ∧ (∀ i, k < i → i < j → ¬ Orders ev i) ∧
      ∀ l, j ≤ l → (∀ i : Fin 6, Untouched ev (armServo i) j l) → ∃ b, ArmAt32 (σ l).w b ∧ ToolAt kitG (133 / 10000) (8 / 10000) (kitLogical b) P := by
  obtain ⟨k, j, h1, h2, h3, h4, h5⟩ := C112_rounded hk hw hrun hsq h0 hc hj hu hnw hns htt hclk hm ht hM hn hd hfit
  refine ⟨k, j, h1, h2, h3, h4, fun l hl hun => ?_⟩
  obtain ⟨b, g1, g2⟩ := h5 l hl hun
  exact ⟨b, g1, C113_near g2 hp ho (by norm_num) (by norm_num)⟩

/-- **C113**, total correctness for the queue: the kit over the exact numbers, a careful host that asks for no crawling speed, uses the queue only, counts the free space and never makes the
device wait. Every numbered move (M0) to a pose the kit can take that is sent is executed and reported as finished, and from the report on the tool is there until a servo is commanded again. -/
theorem C113_queue {w0 : World XR} (hw : w0.servos = Kit.servos) {junk : Nat → Byte} {σ : ℕ → Sys XR} {ev : ℕ → Ev XR} (h : Endless Kit.cfg w0 junk σ ev)
    (hmem : BriskStorage w0.ee) (hq0 : QuickStorage w0.ee) (hc : ∀ n, BrisklySent (w0.rxq ++ arrivals (sofar ev n))) (hnw : ∀ n, NeverWaits (w0.rxq ++ arrivals (sofar ev n)))
    (hu : Unbroken ev) (hclk : ClockRuns σ ev) (hh : ∀ n, CountingHost w0.rxq (sofar ev n)) (hq : ∀ n, QueueOnly (sent w0.rxq (sofar ev n)))
    {t : ℕ} {cs : List Cmd} (hm : text cs ∈ puts (sent w0.rxq (sofar ev t))) (ht : TellsPose cs) (hM : Chooses 48 cs) {n : Int} (hn : Numbered (text cs) n)
    {d : Fin 6 → Dec} (hd : ∀ i, Last NamesPose cs i (d i)) {A : Fin 6 → ℝ} (hA : KitTakes kitG (poseOfDec d) A) :
    ∃ k j, ev k = .act (.out (.ghost .queue (text cs))) ∧ k < j ∧ ev j = .act (.out (.msg (.n1 n))) ∧ (∀ i, k < i → i < j → ¬ Orders ev i) ∧
      ∀ l, j ≤ l → (∀ i : Fin 6, Untouched ev (armServo i) j l) → ∃ b, ArmAt (σ l).w b ∧ ToolAt kitG (113 / 10000) (7 / 10000) (kitLogical b) (poseOfDec d) := by
  obtain ⟨k, j, h1, h2, h3, h4⟩ := C106_sent hw h hmem hq0 hc hnw (undivided_of hu) hclk hh hq hm hn
  refine ⟨k, j, h1, h2, h3, h4, fun l hl hun => ?_⟩
  obtain ⟨b, g1, _, g2⟩ := C113_pose hw h hmem hc hu (calm_of_none (queueOnly_noImmediate h hq)) h1 (.inl (by simp)) ht hM hd hA h2 (.inl ⟨n, h3⟩) (undirected h4) hl hun
  exact ⟨b, g1, g2⟩

end Mrc.Props
