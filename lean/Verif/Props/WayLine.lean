import Verif.Props.Way
/-
C119, straight moves: the arm goes from way point to way point.
-/
set_option linter.unusedSectionVars false
set_option linter.unusedSimpArgs false
namespace Mrc.Props
open Mrc Mrc.Prog Mrc.Spec Mrc.Demo Mrc.Rest Mrc.Kine Mrc.Lip XR Mrc.Host
open Mrc.Brisk (servo_step brisk_run)
open scoped Mrc.Num

theorem amid_of_about {e a b x : ℝ} (h : |x - a| ≤ e) : Amid e a b x := by
  have := abs_le.1 h
  exact ⟨by linarith [min_le_left a b], by linarith [le_max_left a b]⟩

theorem amid_same {e a b x : ℝ} (h : Amid e a a x) : Amid e a b x := by
  unfold Amid at *
  rw [min_self, max_self] at h
  exact ⟨by linarith [min_le_left a b], by linarith [le_max_left a b]⟩

/-- a straight move under way at time `e`, with `k` way points begun. -/
structure Under (σ : ℕ → Sys XR) (ε : ℝ) (c0 : Fin 6 → ℝ) (W : ℕ → (Fin 6 → ℝ) → Prop) (k k0 e : ℕ) (B : ℕ → Fin 6 → ℝ) (r : ℕ → ℕ) : Prop where
  b0 : B 0 = c0
  way : ∀ j, 0 < j → j ≤ k → W j (B j)
  r0 : r 0 = k0
  mono : ∀ j, j + 1 < k → r j ≤ r (j + 1)
  ends : r (k - 1) ≤ e
  at_ : ∀ j, j < k → ArmAbout (σ (r j)).w ε (B j)
  amid : ∀ j, j + 1 < k → ∀ l, r j ≤ l → l ≤ r (j + 1) → ArmAmid (σ l).w ε (B j) (B (j + 1))
  now : ∀ l, r (k - 1) ≤ l → l ≤ e → ArmAmid (σ l).w ε (B (k - 1)) (B k)
  target : ∀ i : Fin 6, ∃ t, ((σ e).w.servos (armServo i)).target = fin t ∧ |t - B k i| < 1 / 1000000

section
variable {w0 : World XR} (hw : w0.servos = Kit.servos) {junk : Nat → Byte} {σ : ℕ → Sys XR} {ev : ℕ → Ev XR} (h : Endless Kit.cfg w0 junk σ ev)
  (hmem : BriskStorage w0.ee) (hc : ∀ n, BrisklySent (w0.rxq ++ arrivals (sofar ev n))) (hu : Unbroken ev)
include hw h hmem hc hu

/-- a stretch in which no servo is commanded. -/
theorem kit_still {a e : ℕ} {i : Fin 6} {c t : ℝ} (h0 : ((σ a).w.servos (armServo i)).cur = fin c) (h1 : ((σ a).w.servos (armServo i)).target = fin t) (hn : Untouched ev (armServo i) a e)
    {n : ℕ} (h2 : a ≤ n) (h3 : n ≤ e) : (∃ c', ((σ n).w.servos (armServo i)).cur = fin c' ∧ |c' - t| ≤ |c - t|) ∧ ((σ n).w.servos (armServo i)).target = fin t :=
  kit_nearer hw h hmem hc hu h0 h1 (fun j j1 j2 t' ej => absurd ej (hn j j1 j2 _)) h2 h3

/-- at rest when everything commanded was seen at its target. -/
theorem kit_arrived {k0 e : ℕ} (hk : k0 < e) {x : Act XR} (h0 : ev k0 = .act x) (hx : ∀ (i : Fin 6) m, x ≠ .micro (armServo i) m) (hst : ∀ i : Fin 6, ((σ k0).w.servos (armServo i)).atTarget = true)
    (ha : Spec.Arrived (acts (span ev (k0 + 1) (e - (k0 + 1))))) (i : Fin 6) :
    ∃ c t, ((σ e).w.servos (armServo i)).cur = fin c ∧ ((σ e).w.servos (armServo i)).target = fin t ∧ |c - t| < 1 / 1000000 := by
  by_cases hex : ∃ a ∈ acts (span ev (k0 + 1) (e - (k0 + 1))), ∃ q, a = .micro (armServo i) q
  · obtain ⟨q1, a, q2, eq, ⟨q, rfl⟩, hq⟩ := Told.last_split hex
    obtain ⟨sv, hs1, hs2⟩ := ha i q1 q q2 eq
    obtain ⟨s1, s2, es⟩ := List.append_of_mem hs1
    obtain ⟨r, r1, r2, r3, r4⟩ := span_at (ev := ev) (a := k0 + 1) (k := e - (k0 + 1)) (p1 := q1 ++ .micro (armServo i) q :: s1) (p2 := s2) (x := .servo (armServo i) sv) (by rw [eq, es]; simp)
    have hun : Untouched ev (armServo i) r e := fun j k1 k2 m em => by
      rcases Nat.eq_or_lt_of_le k1 with rfl | k1
      · rw [r3] at em; cases em
      · have : Act.micro (armServo i) m ∈ s2 := by rw [← r4]; exact acts_mem.2 (mem_span.2 ⟨j, by omega, by omega, em⟩)
        exact hq _ (by rw [es]; simp [this]) ⟨m, rfl⟩
    have := h.read r3
    subst this
    obtain ⟨c, t, ec, et, hct⟩ := rest_fin hw h hmem hc hu hs2
    obtain ⟨⟨c', g1, g2⟩, g3⟩ := kit_still hw h hmem hc hu ec et hun (n := e) (by omega) (le_refl _)
    exact ⟨c', t, g1, g3, lt_of_le_of_lt g2 hct⟩
  · obtain ⟨c, t, ec, et, hct⟩ := rest_fin hw h hmem hc hu (hst i)
    obtain ⟨⟨c', g1, g2⟩, g3⟩ := kit_still hw h hmem hc hu ec et (e := e) (fun j j1 j2 q eq => by
      rcases Nat.eq_or_lt_of_le j1 with rfl | j1
      · rw [h0] at eq; injection eq with eq; exact hx i q eq
      · exact hex ⟨_, acts_mem.2 (mem_span.2 ⟨j, by omega, by omega, eq⟩), q, rfl⟩) (n := e) (by omega) (le_refl _)
    exact ⟨c', t, g1, g3, lt_of_le_of_lt g2 hct⟩

/-- a wait. -/
theorem Under.wait {c0 : Fin 6 → ℝ} {W : ℕ → (Fin 6 → ℝ) → Prop} {k k0 e e' : ℕ} {B : ℕ → Fin 6 → ℝ} {r : ℕ → ℕ} (H : Under σ (2 / 1000000) c0 W k k0 e B r) (he : e ≤ e')
    (hn : ∀ i : Fin 6, Untouched ev (armServo i) e e') : Under σ (2 / 1000000) c0 W k k0 e' B r := by
  refine ⟨H.b0, H.way, H.r0, H.mono, H.ends.trans he, H.at_, H.amid, fun l l1 l2 => ?_, fun i => ?_⟩
  · rcases Nat.lt_or_ge l e with g | g
    · exact H.now l l1 g.le
    · obtain ⟨x, ex, hx⟩ := H.now e H.ends (le_refl _)
      have key : ∀ i, ∃ c', ((σ l).w.servos (armServo i)).cur = fin c' ∧ Amid (2 / 1000000) (B (k - 1) i) (B k i) c' := fun i => by
        obtain ⟨t, et, ht⟩ := H.target i
        have := abs_lt.1 ht
        have m2 := min_le_right (B (k - 1) i) (B k i)
        have m4 := le_max_right (B (k - 1) i) (B k i)
        exact (kit_within hw h hmem hc hu (i := i) (k0 := e) (e := e') ⟨x i, ex i, hx i⟩ ⟨t, et, by linarith, by linarith⟩ (fun j j1 j2 t' ej => absurd ej (hn i j j1 j2 _)) g l2).1
      choose c' e1 e2 using key
      exact ⟨c', e1, e2⟩
  · obtain ⟨x, ex, _⟩ := H.now e H.ends (le_refl _)
    obtain ⟨t, et, ht⟩ := H.target i
    exact ⟨t, (kit_still hw h hmem hc hu (ex i) et (hn i) he (le_refl _)).2, ht⟩

/-- the next way point. -/
theorem Under.next {c0 : Fin 6 → ℝ} {W : ℕ → (Fin 6 → ℝ) → Prop} {k k0 e e' : ℕ} {B : ℕ → Fin 6 → ℝ} {r : ℕ → ℕ} (H : Under σ (2 / 1000000) c0 W k k0 e B r) (h0 : ArmAt (σ k0).w c0) (he : e ≤ e')
    (ha : ∀ i : Fin 6, ∃ c t, ((σ e).w.servos (armServo i)).cur = fin c ∧ ((σ e).w.servos (armServo i)).target = fin t ∧ |c - t| < 1 / 1000000) {b : Fin 6 → ℝ} (hb : W (k + 1) b)
    (hs : ∀ i : Fin 6, ∀ j, e ≤ j → j < e' → ∀ t', ev j = .act (.micro (armServo i) (.setTarget t')) → t' = fin (b i))
    (ht : ∀ i : Fin 6, ∃ t, ((σ e').w.servos (armServo i)).target = fin t ∧ |t - b i| < 1 / 1000000) :
    ∃ B' r', Under σ (2 / 1000000) c0 W (k + 1) k0 e' B' r' := by
  choose c t ec et hct using ha
  have hcB : ∀ i, |c i - B k i| ≤ 2 / 1000000 := fun i => by
    obtain ⟨t', et', ht'⟩ := H.target i
    rw [et i] at et'; injection et' with et'; subst et'
    have := abs_lt.1 ht'
    have := abs_lt.1 (hct i)
    exact abs_le.2 ⟨by linarith, by linarith⟩
  have htB : ∀ i, |t i - B k i| < 1 / 1000000 := fun i => by
    obtain ⟨t', et', ht'⟩ := H.target i
    rw [et i] at et'; injection et' with et'; subst et'
    exact ht'
  -- on the way to the next point
  have on : ∀ l, e ≤ l → l ≤ e' → ArmAmid (σ l).w (2 / 1000000) (B k) b := by
    intro l l1 l2
    have key : ∀ i, ∃ c', ((σ l).w.servos (armServo i)).cur = fin c' ∧ Amid (2 / 1000000) (B k i) (b i) c' := fun i => by
      have m1 := min_le_left (B k i) (b i)
      have m2 := min_le_right (B k i) (b i)
      have m3 := le_max_left (B k i) (b i)
      have m4 := le_max_right (B k i) (b i)
      have := abs_le.1 (hcB i)
      have := abs_lt.1 (htB i)
      exact (kit_within hw h hmem hc hu (i := i) (k0 := e) (e := e') (lo := min (B k i) (b i) - 2 / 1000000) (hi := max (B k i) (b i) + 2 / 1000000) ⟨c i, ec i, by linarith, by linarith⟩
        ⟨t i, et i, by linarith, by linarith⟩ (fun j j1 j2 t' ej => ⟨_, hs i j j1 j2 t' ej, by linarith, by linarith⟩) l1 l2).1
    choose c' e1 e2 using key
    exact ⟨c', e1, e2⟩
  have hne : k ≠ k + 1 := by omega
  refine ⟨fun j => if j = k + 1 then b else B j, fun j => if j = k ∧ 0 < k then e else r j, ?_⟩
  rcases Nat.eq_zero_or_pos k with rfl | hk
  · have hr : ∀ j, (if j = 0 ∧ 0 < 0 then e else r j) = r j := fun j => if_neg (by omega)
    simp only [hr]
    refine ⟨by simpa using H.b0, fun j j1 j2 => ?_, H.r0, fun j j1 => by omega, ?_, fun j j1 => ?_, fun j j1 => by omega, fun l l1 l2 => ?_, fun i => by simpa using ht i⟩
    · have : j = 0 + 1 := by omega
      rw [if_pos this, this]; exact hb
    · have := H.ends; simp at this ⊢; omega
    · have : j = 0 := by omega
      subst this
      rw [if_neg (by omega), H.r0, H.b0]
      exact ⟨c0, h0, fun i => by rw [sub_self, abs_zero]; norm_num⟩
    · simp only [Nat.zero_add, if_true, Nat.sub_self]
      rw [if_neg (by omega)]
      rcases Nat.lt_or_ge l e with g | g
      · obtain ⟨x, ex, hx⟩ := H.now l l1 g.le
        exact ⟨x, ex, fun i => amid_same (hx i)⟩
      · exact on l g l2
  · have hBk : ∀ j, j ≤ k → (if j = k + 1 then b else B j) = B j := fun j hj => if_neg (by omega)
    have hrk : ∀ j, j < k → (if j = k ∧ 0 < k then e else r j) = r j := fun j hj => if_neg (by omega)
    have hre : (if k = k ∧ 0 < k then e else r k) = e := if_pos ⟨rfl, hk⟩
    refine ⟨by rw [hBk 0 (by omega)]; exact H.b0, fun j j1 j2 => ?_, by rw [hrk 0 hk]; exact H.r0, fun j j1 => ?_, ?_, fun j j1 => ?_, fun j j1 l l1 l2 => ?_, fun l l1 l2 => ?_, fun i => by simpa using ht i⟩
    · rcases Nat.lt_or_ge j (k + 1) with g | g
      · rw [hBk j (by omega)]; exact H.way j j1 (by omega)
      · have : j = k + 1 := by omega
        rw [if_pos this, this]; exact hb
    · rw [hrk j (by omega)]
      rcases Nat.lt_or_ge (j + 1) k with g | g
      · rw [hrk _ g]; exact H.mono j g
      · have : j + 1 = k := by omega
        rw [this, hre]
        have := H.ends
        rwa [show k - 1 = j by omega] at this
    · rw [Nat.add_sub_cancel, hre]; exact he
    · rcases Nat.lt_or_ge j k with g | g
      · rw [hrk j g, hBk j g.le]; exact H.at_ j g
      · have : j = k := by omega
        subst this
        rw [hre, hBk j (le_refl _)]
        exact ⟨c, ec, hcB⟩
    · rw [hBk j (by omega), hBk (j + 1) (by omega)]
      rw [hrk j (by omega)] at l1
      rcases Nat.lt_or_ge (j + 1) k with g | g
      · rw [hrk _ g] at l2; exact H.amid j g l l1 l2
      · have ej : j + 1 = k := by omega
        rw [ej, hre] at l2
        have := H.now l (by rw [show k - 1 = j by omega]; exact l1) l2
        rwa [show k - 1 = j by omega, ← ej] at this
    · rw [Nat.add_sub_cancel] at l1 ⊢
      rw [hre] at l1
      rw [hBk k (le_refl _), if_pos rfl]
      exact on l l1 l2

/-- the way so far of a straight move that began at rest. -/
theorem kit_under {k0 : ℕ} {x : Act XR} (h0 : ev k0 = .act x) (hx : ∀ (i : Fin 6) m, x ≠ .micro (armServo i) m) (hst : ∀ i : Fin 6, ((σ k0).w.servos (armServo i)).atTarget = true)
    {c0 : Fin 6 → ℝ} (hc0 : ArmAt (σ k0).w c0) {S P : Fin 6 → ℝ} {n : ℕ} (hn : 0 < n) {j : ℕ} {o : Option (Six XR)} {mid : List (Act XR)}
    (hl : Line (Kit.cfg : Cfg XR).toRCfg kitL kitU (finS S) (finS P) n j o mid) {d : ℕ} (hm : acts (span ev (k0 + 1) d) = mid) :
    ∃ B r, Under σ (2 / 1000000) c0 (fun j b => ∃ A, PutsAt kitG A (onLine S P j n) ∧ KitFits A ∧ b = kitServo A) j k0 (k0 + 1 + d) B r := by
  have unt : ∀ {a d : ℕ} {i : Fin 6}, ArmStill (acts (span ev a d)) → Untouched ev (armServo i) a (a + d) := fun hs => untouched_of fun m => hs _ m
  induction hl generalizing d with
  | @begin mid a h1 _ _ =>
    subst hm
    have hun : ∀ i : Fin 6, Untouched ev (armServo i) k0 (k0 + 1 + d) := fun i j j1 j2 q eq => by
      rcases Nat.eq_or_lt_of_le j1 with rfl | j1
      · rw [h0] at eq; injection eq with eq; exact hx i q eq
      · exact unt h1 j j1 j2 q eq
    refine ⟨fun _ => c0, fun _ => k0, ?_⟩
    have : Under σ (2 / 1000000) c0 (fun j b => ∃ A, PutsAt kitG A (onLine S P j n) ∧ KitFits A ∧ b = kitServo A) 0 k0 k0 (fun _ => c0) (fun _ => k0) := by
      refine ⟨rfl, fun j j1 j2 => by omega, rfl, fun j j1 => by omega, le_refl _, fun j j1 => by omega, fun j j1 => by omega, fun l l1 l2 => ?_, fun i => ?_⟩
      · have : l = k0 := by omega
        subst this
        exact ⟨c0, hc0, fun i => amid_of_about (by rw [sub_self, abs_zero]; norm_num)⟩
      · obtain ⟨c, t, ec, et, hct⟩ := rest_fin hw h hmem hc hu (hst i)
        rw [hc0 i] at ec; injection ec with ec; subst ec
        exact ⟨t, et, by rw [abs_sub_comm]; exact hct⟩
    exact Under.wait hw h hmem hc hu this (by omega) hun
  | @wait k o mid tr h1 h2 ih =>
    obtain ⟨d1, hd, e1, e2⟩ := span_cut hm
    obtain ⟨B, r, H⟩ := ih e1
    refine ⟨B, r, Under.wait hw h hmem hc hu H (by omega) fun i => ?_⟩
    have := unt (i := i) (e2 ▸ h2 : ArmStill (acts (span ev (k0 + 1 + d1) (d - d1))))
    rwa [show k0 + 1 + d1 + (d - d1) = k0 + 1 + d by omega] at this
  | @next k o t mid tr h1 h2 h3 h4 h5 ih =>
    obtain ⟨d1, hd, e1, e2⟩ := span_cut hm
    obtain ⟨B, r, H⟩ := ih e1
    have hend : k0 + 1 + d1 + (d - d1) = k0 + 1 + d := by omega
    have ha := kit_arrived hw h hmem hc hu (k0 := k0) (e := k0 + 1 + d1) (by omega) h0 hx hst (by rw [show k0 + 1 + d1 - (k0 + 1) = d1 by omega, e1]; exact h2)
    have hin : ∀ z ∈ tr, z ∈ acts (sofar ev (k0 + 1 + d)) := fun z hz => by
      rw [← e2] at hz
      obtain ⟨j, j1, j2, j3⟩ := mem_span.1 (acts_mem.1 hz)
      exact acts_mem.2 (by rw [sofar_span]; exact mem_span.2 ⟨j, by omega, by omega, j3⟩)
    obtain ⟨A, rfl, hA⟩ := kit_wayPoint hw (careful_of_briskStorage hmem) (h.run (k0 + 1 + d)) (hc _).well hin hn h3
    have hl2p : (Kit.cfg : Cfg XR).l2p (finS A) = finS (kitServo A) := kit_l2p A
    have hmt : ∀ {i : Fin 6} {q j}, k0 + 1 + d1 ≤ j → j < k0 + 1 + d → ev j = .act (.micro (armServo i) q) → Act.micro (armServo i) q ∈ tr := fun {i q j} j1 j2 ej => by
      rw [← e2]; exact acts_mem.2 (mem_span.2 ⟨j, j1, by omega, ej⟩)
    refine Under.next hw h hmem hc hu H hc0 (by omega) ha (b := kitServo A) ⟨A, hA, (kit_fits A).1 h4, rfl⟩ (fun i j j1 j2 t' ej => ?_) (fun i => ?_)
    · rcases h5 with h5 | ⟨h5, _⟩
      · rw [six6_target h5 (hmt j1 j2 ej), hl2p]; rfl
      · exact absurd (hmt j1 j2 ej) (h5 i _)
    · rcases h5 with h5 | ⟨h5, v, mt, h6, h7⟩
      · obtain ⟨q1, q2, eq, hq⟩ := Told.sent_split h5 i
        obtain ⟨r', r1, r2, r3, r4⟩ := span_at (ev := ev) (a := k0 + 1 + d1) (k := d - d1) (p1 := q1) (p2 := q2) (by rw [e2, eq])
        have hcur : ∃ c, ((σ (r' + 1)).w.servos (armServo i)).cur = fin c := by
          obtain ⟨_, _, c', _, _, e3, _⟩ := kit_step hw h hmem hc hu r' i
          exact ⟨c', e3⟩
        obtain ⟨c, ec⟩ := hcur
        have htt : ((σ (r' + 1)).w.servos (armServo i)).target = fin (kitServo A i) := by
          rw [servo_step h, r3, hl2p]; simp [evServo, Servo.micro, finS]
        refine ⟨_, (kit_nearer hw h hmem hc hu (e := k0 + 1 + d) ec htt (fun j j1 j2 t' ej => ?_) (by omega) (le_refl _)).2, by rw [sub_self, abs_zero]; norm_num⟩
        rw [six6_target h5 (hmt (by omega) j2 ej), hl2p]; rfl
      · have hun : Untouched ev (armServo i) (k0 + 1 + d1) (k0 + 1 + d) := fun j j1 j2 q ej => h5 i q (hmt j1 j2 ej)
        obtain ⟨c, t, ec, et, hct⟩ := ha i
        have he := (kit_still hw h hmem hc hu ec et hun (n := k0 + 1 + d) (by omega) (le_refl _)).2
        refine ⟨t, he, ?_⟩
        have hg : ∀ i, (∃ x, (v i).cur = fin x) ∧ (∃ m, (v i).maxVel = fin m ∧ 0 < m) := fun i => by
          obtain ⟨⟨x, ex, _⟩, _, m, em, m0⟩ := Told.reading_good (kit_arm hw) (h.run (k0 + 1 + d)) (kit_noNaN hw (careful_of_briskStorage hmem) (h.run _) (hc _).well) (hin _ (h6 i))
          exact ⟨⟨x, ex⟩, m, em, m0⟩
        choose x ex using fun i => (hg i).1
        choose m em m0 using fun i => (hg i).2
        rw [hl2p] at h7
        have h8 := Told.timeFor_zero ex em m0 h7 i
        have hv := h6 i
        rw [← e2] at hv
        obtain ⟨r', r1, r2, r3⟩ := mem_span.1 (acts_mem.1 hv)
        obtain ⟨⟨c', k1, k2⟩, _⟩ := kit_still hw h hmem hc hu ec et hun (n := r') r1 (by omega)
        rw [← h.read r3, ex i] at k1
        injection k1 with k1
        rw [← h8, k1, abs_sub_comm]
        exact lt_of_le_of_lt k2 hct

/-- a straight move that is over. -/
theorem Under.visits {c0 : Fin 6 → ℝ} {W : ℕ → (Fin 6 → ℝ) → Prop} {k k0 e e' : ℕ} {B : ℕ → Fin 6 → ℝ} {r : ℕ → ℕ} (H : Under σ (2 / 1000000) c0 W k k0 e B r) (h0 : ArmAt (σ k0).w c0) (he : e ≤ e')
    (ha : ∀ i : Fin 6, ∃ c t, ((σ e).w.servos (armServo i)).cur = fin c ∧ ((σ e).w.servos (armServo i)).target = fin t ∧ |c - t| < 1 / 1000000)
    (hn : ∀ i : Fin 6, Untouched ev (armServo i) e e') : Visits σ (2 / 1000000) B k k0 e' := by
  choose c t ec et hct using ha
  have htB : ∀ i, |t i - B k i| < 1 / 1000000 := fun i => by
    obtain ⟨t', et', ht'⟩ := H.target i
    rw [et i] at et'; injection et' with et'; subst et'
    exact ht'
  have stay : ∀ l, e ≤ l → l ≤ e' → ArmAbout (σ l).w (2 / 1000000) (B k) := by
    intro l l1 l2
    have key : ∀ i, ∃ c', ((σ l).w.servos (armServo i)).cur = fin c' ∧ |c' - B k i| ≤ 2 / 1000000 := fun i => by
      obtain ⟨⟨c', k1, k2⟩, _⟩ := kit_still hw h hmem hc hu (ec i) (et i) (hn i) l1 l2
      refine ⟨c', k1, ?_⟩
      have := abs_lt.1 (htB i)
      have := abs_lt.1 (lt_of_le_of_lt k2 (hct i))
      exact abs_le.2 ⟨by linarith, by linarith⟩
    choose c' e1 e2 using key
    exact ⟨c', e1, e2⟩
  rcases Nat.eq_zero_or_pos k with rfl | hk
  · refine ⟨fun _ => k0, rfl, fun j hj => by omega, ?_, fun j hj => ?_, fun j hj => by omega, fun l l1 l2 => ?_⟩
    · have := H.ends; rw [Nat.zero_sub, H.r0] at this; exact this.trans he
    · have : j = 0 := by omega
      subst this
      rw [H.b0]
      exact ⟨c0, h0, fun i => by rw [sub_self, abs_zero]; norm_num⟩
    · rcases Nat.lt_or_ge l e with g | g
      · obtain ⟨x, ex, hx⟩ := H.now l (by rw [Nat.zero_sub, H.r0]; exact l1) g.le
        refine ⟨x, ex, fun i => ?_⟩
        have := hx i
        unfold Amid at this
        rw [Nat.zero_sub, min_self, max_self] at this
        exact abs_le.2 ⟨by linarith, by linarith⟩
      · exact stay l g l2
  · obtain ⟨r', hrk, hre⟩ : ∃ r' : ℕ → ℕ, (∀ j, j < k → r' j = r j) ∧ r' k = e := ⟨fun j => if j < k then r j else e, fun j hj => if_pos hj, if_neg (lt_irrefl k)⟩
    have hend := H.ends
    refine ⟨r', by rw [hrk 0 hk]; exact H.r0, fun j hj => ?_, by rw [hre]; exact he, fun j hj => ?_, fun j hj l l1 l2 => ?_, fun l l1 l2 => ?_⟩
    · rw [hrk j hj]
      rcases Nat.lt_or_ge (j + 1) k with g | g
      · rw [hrk _ g]; exact H.mono j g
      · rw [show j + 1 = k by omega, hre, show j = k - 1 by omega]; exact hend
    · rcases Nat.lt_or_ge j k with g | g
      · rw [hrk j g]; exact H.at_ j g
      · rw [show j = k by omega, hre]; exact stay e (le_refl _) he
    · rw [hrk j hj] at l1
      rcases Nat.lt_or_ge (j + 1) k with g | g
      · rw [hrk _ g] at l2; exact H.amid j g l l1 l2
      · rw [show j + 1 = k by omega, hre] at l2
        have := H.now l (by rw [show k - 1 = j by omega]; exact l1) l2
        rwa [show k - 1 = j by omega, show k = j + 1 by omega] at this
    · rw [hre] at l1; exact stay l l1 l2

variable (hi : CalmImmediates ev)
include hi

/-- what `LineMoved` commands makes the arm go the way of `LineWay`. -/
theorem kit_way {k0 k : ℕ} {src : Src} {x : List Byte} (hb : ev k0 = .act (.out (.ghost src x))) (hs : src ≠ .immediate ∨ CalmAt ev k0) (hk : k0 < k) {P : Fin 6 → ℝ} {A : Six XR}
    (g2 : (Kit.cfg : Cfg XR).inv (finS P) = some A ∨ (Kit.cfg : Cfg XR).inv (finS P) = none)
    (g3 : LineMoved (Kit.cfg : Cfg XR).toRCfg kitL kitU (finS P) A (acts (span ev (k0 + 1) (k - (k0 + 1))))) {e : ℕ} (hke : k ≤ e) (hn : ∀ i : Fin 6, Untouched ev (armServo i) k e) :
    LineWay kitG P σ k0 e := by
  have rest := rest_begin hw h hmem hc hu hi hb hs
  choose c0 t0 ec0 et0 hct0 using fun i => rest_fin hw h hmem hc hu (rest i).2
  have hc0 : ArmAt (σ k0).w c0 := ec0
  have hend : k0 + 1 + (k - (k0 + 1)) = k := by omega
  have hin : ∀ z ∈ acts (span ev (k0 + 1) (k - (k0 + 1))), z ∈ acts (sofar ev k) := fun z hz => by
    rw [sofar_span, span_split (c := k0) (Nat.zero_le _) (by omega) hb, Nat.zero_add]; simp [hz]
  -- what the line gives
  have visits : ∀ {s : Fin 6 → ℝ} {m j : ℕ} {o : Option (Six XR)}, 0 < m → Line (Kit.cfg : Cfg XR).toRCfg kitL kitU (finS s) (finS P) m j o (acts (span ev (k0 + 1) (k - (k0 + 1)))) →
      Spec.Arrived (acts (span ev (k0 + 1) (k - (k0 + 1)))) → ∃ B, ArmAt (σ k0).w (B 0) ∧ (∀ i, 0 < i → i ≤ j → ∃ A, PutsAt kitG A (onLine s P i m) ∧ KitFits A ∧ B i = kitServo A) ∧
        Visits σ (2 / 1000000) B j k0 e := by
    intro s m j o hm hl ha
    obtain ⟨B, r, H⟩ := kit_under hw h hmem hc hu hb (by simp) (fun i => (rest i).2) hc0 hm hl rfl
    rw [hend] at H
    exact ⟨B, by rw [H.b0]; exact hc0, H.way, Under.visits hw h hmem hc hu H hc0 hke (kit_arrived hw h hmem hc hu hk hb (by simp) (fun i => (rest i).2) ha) hn⟩
  cases g3 with
  | along S m o l1 l2 l3 l4 =>
    obtain ⟨a, s, ha, rfl, hS⟩ := kit_line_start hw h hmem hc hu hi hk hb (by simp) (fun i => (rest i).1) l3
    obtain ⟨m0, m1⟩ := linearSteps_len l2
    obtain ⟨B, b1, b2, b3⟩ := visits m0 l3 l4
    exact .goes a s m m B ha hS m1 (le_refl _) b1 b2 b3 (.inl rfl)
  | stopped S m j o l1 l2 l3 l4 l5 =>
    obtain ⟨a, s, ha, rfl, hS⟩ := kit_line_start hw h hmem hc hu hi hk hb (by simp) (fun i => (rest i).1) l3
    obtain ⟨m0, m1⟩ := linearSteps_len l1
    obtain ⟨B, b1, b2, b3⟩ := visits m0 l3 l4
    refine .goes a s m j B ha hS m1 (l2 m0).le b1 b2 b3 (.inr ⟨?_, fun C hC => ?_⟩)
    · rcases l5 with l5 | ⟨m', x, t, e, _, l5, l6⟩
      · have l5 : (Kit.cfg : Cfg XR).inv (linePoint (finS s) (finS P) (j + 1) m) = none := l5
        rw [linePoint_fin _ _ _ _ m0] at l5
        exact .inl (kit_inv_none l5)
      · obtain ⟨A, rfl, hA⟩ := kit_wayPoint hw (careful_of_briskStorage hmem) (h.run k) (hc k).well (fun z hz => hin z (by rw [e]; simp [hz])) m0 l5
        exact .inr ⟨A, hA, fun hf => l6 ((kit_fits A).2 hf)⟩
    · rcases l5 with l5 | ⟨m', x, t, e, _, l5, l6⟩
      · have l5 : (Kit.cfg : Cfg XR).inv (linePoint (finS s) (finS P) (j + 1) m) = none := l5
        rw [linePoint_fin _ _ _ _ m0, kit_inverse_takes hC] at l5
        cases l5
      · rw [kit_takes_point m0 hC l5] at l6
        exact absurd ((kit_fits C).2 hC.fits) l6
  | there b l1 l2 l3 =>
    have hun : ∀ i : Fin 6, Untouched ev (armServo i) k0 e := fun i j j1 j2 q eq => by
      rcases Nat.eq_or_lt_of_le j1 with rfl | j1
      · rw [hb] at eq; injection eq with eq; cases eq
      · rcases Nat.lt_or_ge j k with j3 | j3
        · exact l3 i q (acts_mem.2 (mem_span.2 ⟨j, by omega, by omega, eq⟩))
        · exact hn i j j3 j2 q eq
    have key : ∀ n, k0 ≤ n → n ≤ e → ∀ i, ∃ c', ((σ n).w.servos (armServo i)).cur = fin c' ∧ |c' - c0 i| < 2 / 1000000 := fun n n1 n2 i => by
      obtain ⟨⟨c', k1, k2⟩, _⟩ := kit_still hw h hmem hc hu (ec0 i) (et0 i) (hun i) n1 n2
      refine ⟨c', k1, ?_⟩
      have := abs_lt.1 (hct0 i)
      have := abs_lt.1 (lt_of_le_of_lt k2 (hct0 i))
      exact abs_lt.2 ⟨by linarith, by linarith⟩
    refine .stays c0 hc0 (fun n n1 n2 => ?_) ?_
    · choose c' e1 e2 using key n n1 n2
      exact ⟨c', e1, fun i => (e2 i).le⟩
    · rcases g2 with g2 | g2
      · right
        obtain ⟨α, rfl, hA⟩ := kit_puts g2
        refine ⟨α, hA, ?_⟩
        obtain ⟨β, rfl, hb'⟩ := kit_reading hw (careful_of_briskStorage hmem) (h.run k) (hc k).well hin l1
        refine seen_logical l2 fun i => ?_
        obtain ⟨sv, hsv, eb⟩ := l1 i
        obtain ⟨r, r1, r2, r3⟩ := mem_span.1 (acts_mem.1 hsv)
        obtain ⟨c', k1, k2⟩ := key r (by omega) (by omega) i
        rw [← h.read r3, ← eb] at k1
        rw [abs_sub_comm]
        exact (XR.fin.inj k1) ▸ k2
      · exact .inl (kit_inv_none g2)

/-- **C119**, straight moves: the setting of C119_told. An instruction told all six coordinates of a pose with M1 and reported as finished. From its beginning until a servo is commanded after the
report, the arm goes from each of the points of the straight line to the next, every servo being between the angles for the one and the angles for the other all the time, to 2e-6 radians, until
it is at the pose told, or at a point whose successor cannot be taken; or it stays where it was. -/
theorem C119_line {k0 k : ℕ} {src : Src} {cs : List Cmd} (hb : ev k0 = .act (.out (.ghost src (text cs)))) (hs : src ≠ .immediate ∨ CalmAt ev k0) (ht : TellsPose cs) (hM : Chooses 49 cs)
    {d : Fin 6 → Dec} (hd : ∀ i, Last NamesPose cs i (d i)) (hk : k0 < k) (hr : ReportsAt ev k) (hq : ∀ i, k0 < i → i < k → ¬ Directs ev i)
    {e : ℕ} (hke : k ≤ e) (hn : ∀ i : Fin 6, Untouched ev (armServo i) k e) : LineWay kitG (poseOfDec d) σ k0 e := by
  obtain ⟨y, h1, hy⟩ := reportsAt_iff.1 hr
  obtain ⟨P, A, g1, g2, g3⟩ := C110_line (h.run (k + 1)).trace (kit_limits hw (h.run (k + 1))) ht hM hs (acts_between hk hb h1) (quiet_mid hw h hmem hc hu hi hq) hy
  have : P = finS (poseOfDec d) := funext fun i => (g1 i _ (hd i)).trans (coordinate_fin (last_ok (fun _ _ _ h => h.1) (hd i)))
  subst this
  exact kit_way hw h hmem hc hu hi hb hs hk g2 g3 hke hn

end

/-- at any time of such a way the arm is on one of its parts. -/
theorem visits_part {σ : ℕ → Sys XR} {ε : ℝ} {B : ℕ → Fin 6 → ℝ} {k n n' : ℕ} (h : Visits σ ε B k n n') {l : ℕ} (h1 : n ≤ l) (h2 : l ≤ n') :
    ArmAbout (σ l).w ε (B k) ∨ ∃ j < k, ArmAmid (σ l).w ε (B j) (B (j + 1)) := by
  obtain ⟨r, r0, _, _, _, ra, rb⟩ := h
  rcases Nat.lt_or_ge l (r k) with g | g
  · right
    have key : ∀ k', k' ≤ k → l < r k' → ∃ j < k, ArmAmid (σ l).w ε (B j) (B (j + 1)) := by
      intro k' hk'
      induction k' with
      | zero => intro hl; omega
      | succ m ih =>
        intro hl
        rcases Nat.lt_or_ge l (r m) with g' | g'
        · exact ih (by omega) g'
        · exact ⟨m, by omega, ra m (by omega) l g' hl.le⟩
    exact key k (le_refl _) g
  · exact .inl (rb l g h2)

/-- **C119**, straight moves, the tool: if no servo turns by more than `D` radians from one point of the way to the next, the tool of the kit is never farther than 204 (`D` + ε) from the place where
one of the points puts it. -/
theorem C119_tool {σ : ℕ → Sys XR} {ε D : ℝ} {B : ℕ → Fin 6 → ℝ} {k n n' : ℕ} (h : Visits σ ε B k n n') (h0 : 0 ≤ ε) (hD : 0 ≤ D) (hB : ∀ j < k, ∀ i, |B (j + 1) i - B j i| ≤ D) {l : ℕ} (h1 : n ≤ l) (h2 : l ≤ n') :
    ∃ j ≤ k, ∃ b, ArmAt (σ l).w b ∧ len3 (jointPos kitG (kitLogical b) 5 - jointPos kitG (kitLogical (B j)) 5) ≤ 204 * (D + ε) := by
  have near : ∀ {b a : Fin 6 → ℝ}, (∀ i, |b i - a i| ≤ D + ε) → len3 (jointPos kitG (kitLogical b) 5 - jointPos kitG (kitLogical a) 5) ≤ 204 * (D + ε) := by
    intro b a hab
    have : ∀ i, |kitLogical b i - kitLogical a i| ≤ 2 * (D + ε) := fun i => by
      unfold kitLogical
      have l1 := abs_le.1 (hab 1)
      have l2 := abs_le.1 (hab 2)
      have li := abs_le.1 (hab i)
      split
      · exact abs_le.2 ⟨by linarith, by linarith⟩
      · exact abs_le.2 ⟨by linarith, by linarith⟩
    refine (near_tool kitG this).trans ?_
    have := mul_le_mul_of_nonneg_right kit_weight (show 0 ≤ 2 * (D + ε) by linarith)
    linarith
  rcases visits_part h h1 h2 with ⟨b, e1, e2⟩ | ⟨j, hj, b, e1, e2⟩
  · exact ⟨k, le_refl _, b, e1, near fun i => (e2 i).trans (by linarith)⟩
  · refine ⟨j, hj.le, b, e1, near fun i => ?_⟩
    obtain ⟨q1, q2⟩ := e2 i
    have := abs_le.1 (hB j hj i)
    have m1 : B j i - D ≤ min (B j i) (B (j + 1) i) := le_min (by linarith) (by linarith)
    have m2 : max (B j i) (B (j + 1) i) ≤ B j i + D := max_le (by linarith) (by linarith)
    exact abs_le.2 ⟨by linarith, by linarith⟩

end Mrc.Props
