import Verif.Props.ToldKit
import Verif.Props.BriskKit
import Verif.Props.Motion
import Verif.Spec.Line
/-
C86 for the robot kit in numbers, and total correctness (C88) for poses and straight moves.
-/
set_option linter.unusedSectionVars false
set_option linter.unusedSimpArgs false
namespace Mrc.Props
open Mrc Mrc.Prog Mrc.Spec Mrc.Told Mrc.Kine XR
open scoped Mrc.Num

theorem kit_upper_pos : 0 < upperLen kitG := by rw [kitG_upper]; norm_num
theorem kit_fore_pos : 0 < foreLen kitG := by have := kitG_fore; linarith
theorem kit_inv (P : Six XR) : (Kit.cfg : Cfg XR).inv P = (Kin.new (finG kitG)).inverse P := by rw [kitG_eq]; rfl
theorem kit_fwd (P : Six XR) : (Kit.cfg : Cfg XR).fwd P = (Kin.new (finG kitG)).forward P := by rw [kitG_eq]; rfl

theorem kit_inv_none {P : Fin 6 → ℝ} (h : (Kit.cfg : Cfg XR).inv (finS P) = none) : ¬ InReach kitG P := by
  intro hr
  obtain ⟨A, hA⟩ := (C57_range kit_upper_pos kit_fore_pos P).1 hr
  rw [kit_inv, hA] at h; cases h

theorem jointPos4_congr (G : Fin 5 → Vec3) (hG : Supported G) {A B : Fin 6 → ℝ} (h0 : A 0 = B 0) (h1 : A 1 = B 1) (h2 : A 2 = B 2) : jointPos G A 4 = jointPos G B 4 := by
  obtain ⟨g0, g1, g2⟩ := hG.fore
  ext i
  fin_cases i <;> simp [jointPos, Fin.sum_univ_five, linkFrame, jointRot, rotX, rotY, rotZ, Matrix.mulVec, dotProduct, Fin.sum_univ_three, Matrix.mul_apply, g1, g2, h0, h1, h2]

/-- the angles the kit computes for a pose. -/
theorem kit_puts {P : Fin 6 → ℝ} {t : Six XR} (h : (Kit.cfg : Cfg XR).inv (finS P) = some t) : ∃ A, t = finS A ∧ PutsAt kitG A P := by
  rw [kit_inv] at h
  have hr : InReach kitG P := by
    by_contra hr
    rw [(C57_range kit_upper_pos kit_fore_pos P).2 hr] at h; cases h
  obtain ⟨A, h1, hA⟩ := inverse_some kit_upper_pos kit_fore_pos hr
  rw [h] at h1
  obtain rfl := Option.some.inj h1
  refine ⟨A, rfl, arm_pos kitG_supported kit_upper_pos kit_fore_pos hr hA, fun _ hs => ?_⟩
  obtain ⟨k1, k2⟩ := ik_correct kitG_supported kit_upper_pos kit_fore_pos hr hA hs
  exact ⟨k1, k2⟩

theorem nearSingular_fin (A : Fin 6 → ℝ) : NearSingular (finS A) ↔ |A 4 - Real.pi / 2| < 5 / 100 := by
  have e : FloatOps.abs (FloatOps.sub (finS A 4) (FloatOps.div FloatOps.pi (lit 2))) = (fin |A 4 - Real.pi / 2| : XR) := by
    have h2 : ((2 : ℚ) : ℝ) ≠ 0 := by norm_num
    simp only [lit, ops_lit, ops_pi, ops_div, finS, fin_div _ _ h2]
    show FloatOps.abs (fin (A 4) - fin (Real.pi / ((2 : ℚ) : ℝ)) : XR) = _
    rw [fin_sub, ops_abs]; norm_num
  unfold NearSingular
  rw [e]
  simp only [flt, lit, ops_lit, ops_lt, decide_eq_true_eq]
  norm_num

theorem linearSteps_len {S P : Fin 6 → ℝ} {n : ℕ} (h : RC.linearSteps (finS S) (finS P) = some n) : 0 < n ∧ 2 * dist3 S P < n := by
  refine ⟨parts_XR _ _ _ h, ?_⟩
  have h2 : ((1 / 2 : Rat) : ℝ) ≠ 0 := by norm_num
  have e1 : (fin (dist3 S P) / lit (1/2) + lit 1 : XR) = fin (2 * dist3 S P + 1) := by
    simp only [lit, ops_lit, fin_div _ _ h2, fin_add]
    congr 1; push_cast; ring
  unfold RC.linearSteps at h
  rw [RC.distance_fin, e1] at h
  have hd : 0 ≤ dist3 S P := Real.sqrt_nonneg _
  have t1 : FloatOps.toInt (fin (2 * dist3 S P + 1)) = if -2147483648 ≤ ⌊2 * dist3 S P + 1⌋ ∧ ⌊2 * dist3 S P + 1⌋ ≤ 2147483647 then some ⌊2 * dist3 S P + 1⌋ else none := by
    show XR.toInt _ = _
    simp only [XR.toInt, trunc, if_pos (show (0:ℝ) ≤ 2 * dist3 S P + 1 by linarith)]
  rw [t1] at h
  have hf := Int.lt_floor_add_one (2 * dist3 S P)
  have hf1 : ⌊2 * dist3 S P + 1⌋ = ⌊2 * dist3 S P⌋ + 1 := Int.floor_add_one _
  rw [hf1] at h
  have hf0 : 0 ≤ ⌊2 * dist3 S P⌋ := Int.floor_nonneg.2 (by linarith)
  generalize ⌊2 * dist3 S P⌋ = f at h hf hf0
  have key : ∀ (z : XR) (d : Int), FloatOps.toInt z = some d → d ≤ 2147483647 := by
    intro z d hz
    change XR.toInt z = some d at hz
    cases z with
    | fin x =>
      simp only [XR.toInt] at hz
      split at hz
      · rename_i hh; cases hz; exact hh.2
      · cases hz
    | _ => cases hz
  split at h
  · rename_i d a hd' ha
    have ka := key _ _ ha
    split at hd'
    · rename_i hh
      injection hd' with hd'
      injection h with h
      have : (f + 1 : ℤ) ≤ (n : ℤ) := by
        rw [← h]
        unfold u32OfInt
        split <;> omega
      have : ((f + 1 : ℤ) : ℝ) ≤ (n : ℝ) := by exact_mod_cast this
      push_cast at this
      linarith
    · cases hd'
  · cases h

/-- where a straight move begins. -/
theorem line_start {F : Type} [FloatOps F] {cfg : RCfg F} {L U S P : Six F} {n k : ℕ} {o : Option (Six F)} {mid : List (Act F)} (h : Line cfg L U S P n k o mid) :
    ∃ m a, m <+: mid ∧ ArmStill m ∧ Reading m a ∧ S = cfg.fwd (cfg.p2l a) := by
  induction h with
  | @begin mid a h1 h2 h3 => exact ⟨mid, a, List.prefix_rfl, h1, h2, h3⟩
  | next _ _ _ _ _ ih | wait _ _ ih =>
    obtain ⟨m, a, h1, h2⟩ := ih
    exact ⟨m, a, h1.trans (List.prefix_append _ _), h2⟩

theorem arrived_suffix {F : Type} [FloatOps F] {m tr : List (Act F)} (h : Spec.Arrived (m ++ tr)) : Spec.Arrived tr := fun i p1 x p2 e => h i (m ++ p1) x p2 (by rw [e]; simp)

theorem seenAt_suffix {m tr : List (Act XR)} {b : Fin 6 → ℝ} (h : SeenAt tr b) : SeenAt (m ++ tr) b := fun i => by
  obtain ⟨p1, s, p2, e, h1, h2⟩ := h i
  exact ⟨m ++ p1, s, p2, by rw [e]; simp, h1, h2⟩

section
variable {w0 : World XR} (hw : w0.servos = Kit.servos) {junk : Nat → Byte} (hmem : CarefulStorage w0.ee) {evs : List (Ev XR)} {s : Sys XR}
include hw hmem

theorem kit_wayPoint (h : Sys.Run Kit.cfg w0 junk evs s) (hc : WellSent (w0.rxq ++ arrivals evs)) {mid : List (Act XR)} (hin : ∀ x ∈ mid, x ∈ acts evs) {S P : Fin 6 → ℝ} {n k : ℕ} (hn : 0 < n)
    {t : Six XR} (hwp : WayPoint (Kit.cfg : Cfg XR).toRCfg (finS S) (finS P) n k mid t) : ∃ A, t = finS A ∧ PutsAt kitG A (onLine S P k n) := by
  cases hwp with
  | plain h1 h2 =>
    rw [linePoint_fin _ _ _ _ hn] at h1
    exact kit_puts h1
  | @singular t s3 s5 h1 h2 h3 h5 =>
    rw [linePoint_fin _ _ _ _ hn] at h1
    obtain ⟨A, rfl, hA⟩ := kit_puts h1
    rw [nearSingular_fin] at h2
    obtain ⟨⟨x3, e3, _⟩, _⟩ := reading_good (kit_arm hw) h (kit_noNaN hw hmem h hc) (i := 3) (hin _ h3)
    obtain ⟨⟨x5, e5, _⟩, _⟩ := reading_good (kit_arm hw) h (kit_noNaN hw hmem h hc) (i := 5) (hin _ h5)
    refine ⟨fun i => if i = 5 then x5 else if i = 3 then x3 else A i, ?_, ?_, fun h4 => ?_⟩
    · funext i
      simp only [RC.upd, finS, e3, e5]
      split
      · rfl
      · split <;> rfl
    · rw [← hA.wrist]
      exact jointPos4_congr kitG kitG_supported rfl rfl rfl
    · exact absurd h4 (not_le.2 h2)

theorem kit_reading (h : Sys.Run Kit.cfg w0 junk evs s) (hc : WellSent (w0.rxq ++ arrivals evs)) {mid : List (Act XR)} (hin : ∀ x ∈ mid, x ∈ acts evs) {a : Six XR} (ha : Reading mid a) :
    ∃ b : Fin 6 → ℝ, a = finS b ∧ (ArmStill mid → SeenAt mid b) := by
  choose v hv hb using ha
  have : ∀ i, ∃ x, (v i).cur = fin x := fun i => by
    obtain ⟨⟨x, ex, _⟩, _⟩ := reading_good (kit_arm hw) h (kit_noNaN hw hmem h hc) (hin _ (hv i)); exact ⟨x, ex⟩
  choose x hx using this
  refine ⟨x, funext fun i => by rw [hb, hx]; rfl, fun hs i => ?_⟩
  obtain ⟨p1, p2, rfl⟩ := List.append_of_mem (hv i)
  exact ⟨p1, v i, p2, rfl, hx i, fun m hm => hs i m (by simp [hm])⟩

/-- the way points seen. -/
theorem kit_line (h : Sys.Run Kit.cfg w0 junk evs s) (hc : WellSent (w0.rxq ++ arrivals evs)) {S P : Fin 6 → ℝ} {n k : ℕ} (hn : 0 < n) {o : Option (Six XR)} {mid : List (Act XR)}
    (hl : Line (Kit.cfg : Cfg XR).toRCfg kitL kitU (finS S) (finS P) n k o mid) : ∀ (x : List (Act XR)) {p0 rest : List (Act XR)}, acts evs = p0 ++ (mid ++ x ++ rest) → ArmStill x → Spec.Arrived (mid ++ x) →
      Passed kitG S P n k (mid ++ x) := by
  induction hl with
  | @begin mid a hs hr hS =>
    intro x p0 rest e hx ha
    obtain ⟨α, rfl, _⟩ := kit_reading hw hmem h hc (fun y hy => by rw [e]; simp only [List.mem_append] at hy ⊢; tauto) hr
    refine .start α (armStill_append.2 ⟨hs, hx⟩) (reading_append hr) ?_
    have h2 : finS S = (Kit.cfg : Cfg XR).fwd (Kit.p2l (finS α)) := hS
    rw [kit_p2l, kit_fwd, forward_eq] at h2
    have h3 : ∀ i, S i = _ := fun i => XR.fin.inj (congrFun h2 i)
    rw [h3 0, h3 1, h3 2]
    ext i; fin_cases i <;> rfl
  | @wait k o mid tr hl hs ih =>
    intro x p0 rest e hx ha
    rw [List.append_assoc] at ha e ⊢
    rw [List.append_assoc] at e
    exact ih (tr ++ x) (p0 := p0) (rest := rest) (by rw [e]; simp) (armStill_append.2 ⟨hs, hx⟩) ha
  | @next k o t mid tr hl har hwp hf hcmd ih =>
    intro x p0 rest e hx ha
    obtain ⟨A, rfl, hA⟩ := kit_wayPoint hw hmem h hc (fun y hy => by rw [e]; simp only [List.mem_append] at hy ⊢; tauto) hn hwp
    have hp := ih [] (p0 := p0) (rest := tr ++ x ++ rest) (by rw [e]; simp) armStill_nil (by simpa using har)
    rw [List.append_nil] at hp
    rw [List.append_assoc] at ha ⊢
    have hm : Moved (Kit.cfg : Cfg XR).toRCfg kitL kitU (finS A) (tr ++ x) := by
      rcases hcmd with h1 | ⟨h1, v, mt, h2, h3⟩
      · exact .went hf (by rw [armTargets_append, h1, armTargets_armStill hx, List.append_nil]) (arrived_suffix ha)
      · exact .noTime v mt hf (fun i => by simp [h2 i]) h3 (armStill_append.2 ⟨h1, hx⟩)
    obtain ⟨b, hb, h1⟩ := (kit_moved hw hmem h hc (p0 := p0 ++ mid) (mid := tr ++ x) (rest := rest) (by rw [e]; simp) hm).1 ((kit_fits A).1 hf)
    exact .point (tr ++ x) hp hA ((kit_fits A).1 hf) (seenAt_suffix hb) h1

/-- what a finished straight move means for the kit. -/
theorem kit_lineMoved (h : Sys.Run Kit.cfg w0 junk evs s) (hc : WellSent (w0.rxq ++ arrivals evs)) {p0 mid rest : List (Act XR)} (e : acts evs = p0 ++ (mid ++ rest)) {P : Fin 6 → ℝ}
    {A : Six XR} (hi : (Kit.cfg : Cfg XR).inv (finS P) = some A ∨ (Kit.cfg : Cfg XR).inv (finS P) = none) (hm : LineMoved (Kit.cfg : Cfg XR).toRCfg kitL kitU (finS P) A mid) :
    KitLineMoved kitG P mid := by
  have hin : ∀ x ∈ mid, x ∈ acts evs := fun x hx => by rw [e]; simp [hx]
  have start : ∀ {S : Six XR} {n k : ℕ} {o : Option (Six XR)}, Line (Kit.cfg : Cfg XR).toRCfg kitL kitU S (finS P) n k o mid → RC.linearSteps S (finS P) = some n →
      ∃ σ : Fin 6 → ℝ, S = finS σ ∧ 0 < n ∧ 2 * dist3 σ P < n := by
    intro S n k o h1 h3
    obtain ⟨m, a, ⟨x, rfl⟩, _, h2, hS⟩ := line_start h1
    obtain ⟨α, rfl, _⟩ := kit_reading hw hmem h hc (fun y hy => hin y (by simp [hy])) h2
    have h2 : S = (Kit.cfg : Cfg XR).fwd (Kit.p2l (finS α)) := hS
    rw [kit_p2l, kit_fwd, forward_eq] at h2
    subst h2
    obtain ⟨h4, h5⟩ := linearSteps_len h3
    exact ⟨_, rfl, h4, h5⟩
  cases hm with
  | along S n o h3 h4 h5 h6 =>
    obtain ⟨σ, rfl, k2, k3⟩ := start h5 h4
    refine .along σ n k3 ?_
    have := kit_line hw hmem h hc k2 h5 [] (p0 := p0) (rest := rest) (by rw [e]; simp) armStill_nil (by simpa using h6)
    simpa using this
  | stopped S n k o h3 h4 h5 h6 h7 =>
    obtain ⟨σ, rfl, k2, k3⟩ := start h5 h3
    have := kit_line hw hmem h hc k2 h5 [] (p0 := p0) (rest := rest) (by rw [e]; simp) armStill_nil (by simpa using h6)
    refine .stopped σ n k k3 (h4 k2) (by simpa using this) ?_
    rcases h7 with h7 | ⟨m, x, t, e', _, h7, h8⟩
    · have h7 : (Kit.cfg : Cfg XR).inv (linePoint (finS σ) (finS P) (k + 1) n) = none := h7
      rw [linePoint_fin _ _ _ _ k2] at h7
      exact .inl (kit_inv_none h7)
    · obtain ⟨A, rfl, hA⟩ := kit_wayPoint hw hmem h hc (fun y hy => hin y (by rw [e']; simp [hy])) k2 h7
      exact .inr ⟨A, hA, fun hf => h8 ((kit_fits A).2 hf)⟩
  | there b h1 h2 h3 =>
    rcases hi with hi | hi
    · obtain ⟨α, rfl, hA⟩ := kit_puts hi
      obtain ⟨β, rfl, hb⟩ := kit_reading hw hmem h hc hin h1
      refine .there α β hA (hb h3) ?_ h3
      have : RC.anglesEqual (Kit.p2l (finS β)) (finS α) = true := h2
      rw [kit_p2l] at this
      exact (RC.anglesEqual_fin _ _).1 this
    · exact .refused (kit_inv_none hi) h3

/-- **C110**: C86_kit for instructions from queue or storage, and for immediate ones begun while no move is under way. -/
theorem C110_line_kit (h : Sys.Run Kit.cfg w0 junk evs s) (hc : WellSent (w0.rxq ++ arrivals evs)) {cs : List Cmd} (ht : TellsPose cs) (hM : Chooses 49 cs)
    {d : Fin 6 → Dec} (hd : ∀ i, Last NamesPose cs i (d i)) {pre mid post : List (Act XR)} {src : Src} {a : Act XR} (hs : src ≠ .immediate ∨ Calm pre)
    (e : acts evs = pre ++ .out (.ghost src (text cs)) :: mid ++ a :: post) (hm : ∀ x ∈ mid, ¬ DirectsI x) (ha : reports a) : KitLineMoved kitG (poseOfDec d) mid := by
  obtain ⟨P, A, h1, h2, h3⟩ := C110_line h.trace (kit_limits hw h) ht hM hs e hm ha
  have : P = finS (poseOfDec d) := funext fun i => (h1 i _ (hd i)).trans (coordinate_fin (last_ok (fun _ _ _ h => h.1) (hd i)))
  subst this
  exact kit_lineMoved hw hmem h hc (p0 := pre ++ [.out (.ghost src (text cs))]) (rest := a :: post) (by rw [e]; simp) h2 h3

/-- **C86** for the kit: in every history with a careful host. An instruction that told a pose with M1: when it is reported as finished, or the next one is started, and nothing else
was started in between, then the arm has gone the straight way from where it was to the pose told: it was seen at every point of the way (less than half a unit apart) before
it was sent to the next; or it stopped at one of them because the next one is out of reach or beyond the ranges; or it was there already. -/
theorem C86_kit (h : Sys.Run Kit.cfg w0 junk evs s) (hc : WellSent (w0.rxq ++ arrivals evs)) {cs : List Cmd} (ht : TellsPose cs) (hM : Chooses 49 cs)
    {d : Fin 6 → Dec} (hd : ∀ i, Last NamesPose cs i (d i)) {pre mid post : List (Act XR)} {src : Src} {a : Act XR} (hs : src ≠ .immediate)
    (e : acts evs = pre ++ .out (.ghost src (text cs)) :: mid ++ a :: post) (hm : ∀ x ∈ mid, ¬ DirectsI x) (ha : reports a) : KitLineMoved kitG (poseOfDec d) mid :=
  C110_line_kit hw hmem h hc ht hM hd (.inl hs) e hm ha
end

/-! ### total correctness -/

section
variable {w0 : World XR} (hw : w0.servos = Kit.servos) {junk : Nat → Byte} {σ : ℕ → Sys XR} {ev : ℕ → Ev XR} (h : Endless Kit.cfg w0 junk σ ev)

/-- the history up to the report, cut at the start of the instruction. -/
theorem told_split {F : Type} [FloatOps F] {ev : ℕ → Ev F} {k j : ℕ} {x y : Act F} (hk : ev k = .act x) (hj : ev j = .act y) (hkj : k < j) (hq : ∀ i, k < i → i < j → ¬ Directs ev i) :
    acts (sofar ev (j + 1)) = acts (sofar ev k) ++ x :: acts ((sofar ev j).drop (k + 1)) ++ y :: [] ∧ ∀ x ∈ acts ((sofar ev j).drop (k + 1)), ¬ DirectsI x := by
  constructor
  · have hsplit : sofar ev (j + 1) = sofar ev k ++ [ev k] ++ (sofar ev j).drop (k + 1) ++ [ev j] := by
      rw [sofar_succ]
      congr 1
      rw [← sofar_succ]
      have : sofar ev (k + 1) = (sofar ev j).take (k + 1) := by
        rw [sofar, sofar, ← List.map_take, List.take_range, Nat.min_eq_left hkj]
      rw [this, List.take_append_drop]
    rw [hsplit, acts_append, acts_append, acts_append, hk, hj]
    simp [acts]
  · rintro x hx ⟨src', m', rfl, hmm⟩
    rw [acts_mem] at hx
    obtain ⟨i, hi, hx⟩ := List.getElem_of_mem hx
    simp only [sofar, List.getElem_drop, List.getElem_map, List.getElem_range, List.length_drop, List.length_map, List.length_range] at hx hi
    exact hq (k + 1 + i) (by omega) (by omega) ⟨src', m', hx, hmm⟩

include hw h

section
variable (hmem : CarefulStorage w0.ee) (hc : ∀ n, WellSent (w0.rxq ++ arrivals (sofar ev n))) (hset : ∀ n s, Between σ n s → ∀ i, Settles ((σ n).w.servos (armServo i))) (hf : Fair σ ev)
include hmem hc hset hf

/-- C88 for poses, for servos that settle. -/
theorem C88_pose_settles {k : ℕ} {src : Src} {cs : List Cmd} (hk : ev k = .act (.out (.ghost src (text cs)))) (hs : src ≠ .immediate) (ht : TellsPose cs) (hM : Chooses 48 cs) {n : Int}
    (hm : Numbered (text cs) n) {d : Fin 6 → Dec} (hd : ∀ i, Last NamesPose cs i (d i)) (hr : InReach kitG (poseOfDec d)) (hi : OnlyAsksNow ev (k + 1)) :
    ∃ j, k < j ∧ ev j = .act (.out (.msg (.n1 n))) ∧ (∀ i, k < i → i < j → ¬ Orders ev i) ∧
      ∃ A : Fin 6 → ℝ, (Real.cos (A 4) ≠ 0 → jointPos kitG A 5 = ![poseOfDec d 0, poseOfDec d 1, poseOfDec d 2] ∧ toolFrame A = orientOf (poseOfDec d)) ∧
        (KitFits A → ∃ b, SeenAt (acts ((sofar ev j).drop (k + 1))) b ∧ ∀ i, |kitLogical b i - A i| < 1 / 10000) ∧ (¬ KitFits A → ArmStill (acts ((sofar ev j).drop (k + 1)))) := by
  obtain ⟨j, h1, h2, h3⟩ := C80_reported h parts_XR hk hs hm hi hf fun n s _ hb i => hset n s hb i
  obtain ⟨e, hn⟩ := told_split hk h2 h1 (undirected h3)
  exact ⟨j, h1, h2, h3, C85_kit hw hmem (h.run (j + 1)) (hc _) ht hM hd hr hs e hn trivial⟩

/-- C88 for straight moves, for servos that settle. -/
theorem C88_line_settles {k : ℕ} {src : Src} {cs : List Cmd} (hk : ev k = .act (.out (.ghost src (text cs)))) (hs : src ≠ .immediate) (ht : TellsPose cs) (hM : Chooses 49 cs) {n : Int}
    (hm : Numbered (text cs) n) {d : Fin 6 → Dec} (hd : ∀ i, Last NamesPose cs i (d i)) (hi : OnlyAsksNow ev (k + 1)) :
    ∃ j, k < j ∧ ev j = .act (.out (.msg (.n1 n))) ∧ (∀ i, k < i → i < j → ¬ Orders ev i) ∧ KitLineMoved kitG (poseOfDec d) (acts ((sofar ev j).drop (k + 1))) := by
  obtain ⟨j, h1, h2, h3⟩ := C80_reported h parts_XR hk hs hm hi hf fun n s _ hb i => hset n s hb i
  obtain ⟨e, hn⟩ := told_split hk h2 h1 (undirected h3)
  exact ⟨j, h1, h2, h3, C86_kit hw hmem (h.run (j + 1)) (hc _) ht hM hd hs e hn trivial⟩
end

section
variable (hmem : BriskStorage w0.ee) (hc : ∀ n, BrisklySent (w0.rxq ++ arrivals (sofar ev n))) (hu : Undivided ev) (hf : Fair σ ev)
include hmem hc hu hf

/-- **C88**, poses: a numbered instruction from queue or storage that tells all six coordinates of a pose within reach, with M0: it is reported as finished before any other instruction
begins, and by then every servo has been seen at angles of that pose, and has not been touched since (or the angles are beyond the ranges, and the arm was left alone). The host is
careful and asks for no speed between 0 and 1/1000. -/
theorem C88_pose {k : ℕ} {src : Src} {cs : List Cmd} (hk : ev k = .act (.out (.ghost src (text cs)))) (hs : src ≠ .immediate) (ht : TellsPose cs) (hM : Chooses 48 cs) {n : Int}
    (hm : Numbered (text cs) n) {d : Fin 6 → Dec} (hd : ∀ i, Last NamesPose cs i (d i)) (hr : InReach kitG (poseOfDec d)) (hi : OnlyAsksNow ev (k + 1)) :
    ∃ j, k < j ∧ ev j = .act (.out (.msg (.n1 n))) ∧ (∀ i, k < i → i < j → ¬ Orders ev i) ∧
      ∃ A : Fin 6 → ℝ, (Real.cos (A 4) ≠ 0 → jointPos kitG A 5 = ![poseOfDec d 0, poseOfDec d 1, poseOfDec d 2] ∧ toolFrame A = orientOf (poseOfDec d)) ∧
        (KitFits A → ∃ b, SeenAt (acts ((sofar ev j).drop (k + 1))) b ∧ ∀ i, |kitLogical b i - A i| < 1 / 10000) ∧ (¬ KitFits A → ArmStill (acts ((sofar ev j).drop (k + 1)))) :=
  C88_pose_settles hw h (careful_of_briskStorage hmem) (fun n => (hc n).well) (brisk_settles hw h hmem hc hu) hf hk hs ht hM hm hd hr hi

/-- **C88**, straight moves: the same with M1: it is reported as finished, and by then the arm has gone the straight way, as in C86. -/
theorem C88_line {k : ℕ} {src : Src} {cs : List Cmd} (hk : ev k = .act (.out (.ghost src (text cs)))) (hs : src ≠ .immediate) (ht : TellsPose cs) (hM : Chooses 49 cs) {n : Int}
    (hm : Numbered (text cs) n) {d : Fin 6 → Dec} (hd : ∀ i, Last NamesPose cs i (d i)) (hi : OnlyAsksNow ev (k + 1)) :
    ∃ j, k < j ∧ ev j = .act (.out (.msg (.n1 n))) ∧ (∀ i, k < i → i < j → ¬ Orders ev i) ∧ KitLineMoved kitG (poseOfDec d) (acts ((sofar ev j).drop (k + 1))) :=
  C88_line_settles hw h (careful_of_briskStorage hmem) (fun n => (hc n).well) (brisk_settles hw h hmem hc hu) hf hk hs ht hM hm hd hi
end
end

end Mrc.Props
