import Verif.Proof.Stays
import Verif.Props.Asked
import Verif.Props.Area
/-
C117: asking after a move. Until an instruction names a place again nothing moves the arm, and what is answered is what was told.
-/
set_option linter.unusedSectionVars false
namespace Mrc.Props
open Mrc Mrc.Prog Mrc.Spec Mrc.Rest

section
variable {F : Type} [FloatOps F]

theorem stays_upd {a : Act F} {g : Prop} (hg : g) (ha : ∀ src m, a = .out (.ghost src m) → NoPlace m) : Stays.upd g a := by
  unfold Stays.upd
  split
  · trivial
  · exact ⟨.inr hg, ha _ _ rfl⟩
  · exact hg

theorem stays_fold {tr : List (Act F)} (h : ∀ src m, .out (.ghost src m) ∈ tr → NoPlace m) {g : Prop} (hg : g) : tr.foldl Stays.upd g := by
  induction tr generalizing g with
  | nil => exact hg
  | cons a tr ih =>
    exact ih (fun src m hm => h src m (by simp [hm])) (stays_upd hg fun src m e => h src m (by simp [e]))

/-- while the arm is at rest and no place is named, no servo of the arm is commanded. -/
theorem still_of {cfg : Cfg F} {junk : Nat → Byte} {tr : List (Act F)} {p : Prog F (FW F)} (h : Trace cfg junk tr p) {pre mid post : List (Act F)} (e : tr = pre ++ (mid ++ post))
    (hg : pre.foldl Stays.upd True) (hp : ∀ src m, .out (.ghost src m) ∈ mid → NoPlace m) : ArmStill mid := by
  intro i m hm
  obtain ⟨m1, m2, rfl⟩ := List.append_of_mem hm
  have key := ((Stays.inv cfg).sound True junk (fun _ _ _ _ _ _ => rfl) (fun _ _ => rfl) (fun _ => rfl) h (fun _ _ _ _ _ => trivial)).1 (pre ++ m1) (.micro (armServo i) m) (m2 ++ post)
    (by rw [e]; simp) rfl
  have hq : Told.quiet (Act.micro (armServo i) m : Act F) := by
    refine key ?_
    show (pre ++ m1).foldl Stays.upd True
    rw [List.foldl_append]
    exact stays_fold (fun src m' hm' => hp src m' (by simp [hm'])) hg
  simp only [Told.quiet, armServo] at hq
  omega

/-- **C117**: any robot, arithmetic, host and history. From the moment an instruction is reported as finished, or one from queue or storage begins, no servo of the arm is commanded while
only instructions begin that name no place: questions, speeds, methods, waiting, outputs and additional axes leave the arm alone. -/
theorem C117_still {cfg : Cfg F} {junk : Nat → Byte} {tr : List (Act F)} {p : Prog F (FW F)} (h : Trace cfg junk tr p) {pre mid post : List (Act F)} {r : Act F} (e : tr = pre ++ r :: (mid ++ post))
    (hr : reports r) (hp : ∀ src m, .out (.ghost src m) ∈ r :: mid → NoPlace m) : ArmStill mid := by
  refine still_of h (pre := pre ++ [r]) (post := post) (by rw [e]; simp) ?_ fun src m hm => hp src m (by simp [hm])
  rw [List.foldl_append, List.foldl_cons, List.foldl_nil]
  match r, hr, hp with
  | .out (.msg (.n1 n)), _, _ => trivial
  | .out (.ghost src m), hr, hp => exact ⟨.inl (by rintro rfl; exact hr), hp src m (by simp)⟩

/-- **C117**: the same from power-up. -/
theorem C117_boot {cfg : Cfg F} {junk : Nat → Byte} {tr : List (Act F)} {p : Prog F (FW F)} (h : Trace cfg junk tr p) {mid post : List (Act F)} (e : tr = mid ++ post)
    (hp : ∀ src m, .out (.ghost src m) ∈ mid → NoPlace m) : ArmStill mid := still_of h (pre := []) (post := post) (by simpa using e) trivial hp

/-- the same in time. -/
theorem C117_untouched {cfg : Cfg F} {w0 : World F} {junk : Nat → Byte} {σ : ℕ → Sys F} {ev : ℕ → Ev F} (h : Endless cfg w0 junk σ ev) {k n : ℕ} (hr : ReportsAt ev k) (ho : OnlyNoPlace ev k n) (i : Fin 6) :
    Untouched ev (armServo i) k n := by
  intro j g1 g2 m e
  obtain ⟨r, er, hr'⟩ := reportsAt_iff.1 hr
  have hkj : k < j := by
    rcases Nat.lt_or_eq_of_le g1 with g | rfl
    · exact g
    · rw [e] at er; cases er; cases hr'
  have hs := acts_between hkj er e
  rw [List.append_assoc, List.cons_append] at hs
  refine C117_still (h.run (j + 1)).trace (pre := acts (sofar ev k)) (mid := acts (span ev (k + 1) (j - (k + 1))) ++ [.micro (armServo i) m]) (post := []) (by rw [hs]; simp) hr' ?_ i m (by simp)
  intro src m' hm'
  simp only [List.mem_cons, List.mem_append, List.not_mem_nil, or_false, reduceCtorEq] at hm'
  rcases hm' with hm' | hm'
  · exact ho k le_rfl (by omega) src m' (by rw [er, hm'])
  · obtain ⟨l, h1, h2, h3⟩ := mem_span.1 (acts_mem.1 hm')
    exact ho l (by omega) (by omega) src m' h3

/-- **C117** (C99 in time): an instruction of simple commands that ends with a question is answered before anything else begins, with exactly what it asks for, in order, and its number. -/
theorem C117_answered {cfg : Cfg F} {w0 : World F} {junk : Nat → Byte} {σ : ℕ → Sys F} {ev : ℕ → Ev F} (h : Endless cfg w0 junk σ ev) {q : ℕ} {src : Src} {qs : List Cmd}
    (hq : ev q = .act (.out (.ghost src (text qs)))) (hs : Simple qs) (hl : ∃ c, qs.getLast? = some c ∧ Question c) {mk : ℕ} (hm : MethodIs (acts (sofar ev q)) mk) :
    ∃ j num ps, q < j ∧ ev j = .act (.out (.msg (.reply num ps))) ∧ (∀ i, q < i → i < j → ¬ Begins ev i) ∧ ps.map Part.tag = Spec.asked mk qs ∧
      num = if 0 < numberOf qs then some (numberOf qs) else none := by
  classical
  have init : Replied ([] : List (Act F)) := by intro a0 src cs mid e; simp at e
  -- the answer is there when the next instruction begins, or at the end of the pass
  have key : ∃ e, q < e ∧ (∀ i, q < i → i < e → ¬ Begins ev i) ∧ answers (acts (span ev (q + 1) (e - (q + 1)))) = 1 := by
    have split : ∀ e, q < e → acts (sofar ev e) = acts (sofar ev q) ++ .out (.ghost src (text qs)) :: acts (span ev (q + 1) (e - (q + 1))) := fun e he => by
      rw [sofar_span, span_split (c := q) (Nat.zero_le _) (by omega) hq]
      simp [sofar_span]
    have fin : ∀ e, q < e → (∀ i, q < i → i < e → ¬ Begins ev i) → Replied ((acts (sofar ev e)).foldl ansUpd []) → answers (acts (span ev (q + 1) (e - (q + 1)))) = 1 := by
      intro e he hn hR
      obtain ⟨d, hd, e2⟩ := ans_state (acts (sofar ev e))
      have hmid : ∀ a ∈ acts (span ev (q + 1) (e - (q + 1))), ¬ BeginsI a := by
        rintro a ha ⟨s, m, rfl⟩
        obtain ⟨j, h1, h2, h3⟩ := mem_span.1 (acts_mem.1 ha)
        exact hn j (by omega) (by omega) ⟨s, m, h3⟩
      obtain ⟨a1, _, e4⟩ := begin_after hd ((split e he).symm.trans e2)
      exact (hR a1 src qs _ e4 hmid hs).1 hl
    obtain ⟨e, s, h1, h2, _⟩ := pass_end h (q + 1)
    by_cases hb : ∃ b, q < b ∧ b < e ∧ Begins ev b
    · have hb' := Nat.find_spec hb
      refine ⟨Nat.find hb, hb'.1, fun i g1 g2 g3 => Nat.find_min hb g2 ⟨g1, by omega, g3⟩, fin _ hb'.1 (fun i g1 g2 g3 => Nat.find_min hb g2 ⟨g1, by omega, g3⟩) ?_⟩
      obtain ⟨src', m', e'⟩ := hb'.2.2
      refine ((rep_inv cfg).sound [] junk (fun _ _ _ _ _ => init) (fun _ _ => rfl) (fun _ => rfl) (h.run (Nat.find hb + 1)).trace (fun _ _ _ _ _ => trivial)).1 _ (.out (.ghost src' m')) [] ?_ rfl ⟨_, _, rfl⟩
      simp [sofar, List.range_succ, e', acts]
    · refine ⟨e, by omega, fun i g1 g2 g3 => hb ⟨i, g1, g2, g3⟩, fin e (by omega) (fun i g1 g2 g3 => hb ⟨i, g1, g2, g3⟩) ?_⟩
      have := ((rep_inv cfg).sound [] junk (fun _ _ _ _ _ => init) (fun _ _ => rfl) (fun _ => rfl) (h.run e).trace (fun _ _ _ _ _ => trivial)).2
      rw [show (σ e).p = .ret s from h2] at this
      exact this
  obtain ⟨e, he, hn, ha⟩ := key
  have : 0 < answers (acts (span ev (q + 1) (e - (q + 1)))) := by omega
  rw [answers, List.countP_pos_iff] at this
  obtain ⟨a, ha, hp⟩ := this
  match a, ha, hp with
  | .out (.msg (.reply num ps)), ha, _ =>
    obtain ⟨j, h1, h2, h3⟩ := mem_span.1 (acts_mem.1 ha)
    have hnj : ∀ i, q < i → i < j → ¬ Begins ev i := fun i g1 g2 => hn i g1 (by omega)
    refine ⟨j, num, ps, by omega, h3, hnj, ?_⟩
    refine C98_asked (h.run (j + 1)).trace (acts_between (by omega) hq h3) ?_ hs hm
    rintro a ha ⟨s, m, rfl⟩
    obtain ⟨i, g1, g2, g3⟩ := mem_span.1 (acts_mem.1 ha)
    exact hnj i (by omega) (by omega) ⟨s, m, g3⟩
end

theorem poseLetter_inj : ∀ (i' : Fin 6) (i : Fin 3), poseLetter i' = poseLetter ⟨i.val, by omega⟩ → i' = ⟨i.val, by omega⟩ := by decide

/-- answers that agree with angles agree with angles nearby. -/
theorem says_mono {A B : Fin 6 → ℝ} {T U : Fin 3 → ℝ} {e p e' p' ε δ : ℝ} {q : Part XR} (h : Says A T e p q) (hA : ∀ i, |A i - B i| < ε) (hT : ∀ i, |T i - U i| < δ)
    (he : e + 60 * ε ≤ e') (hp : p + δ ≤ p') : Says B U e' p' q := by
  have pi := Real.pi_gt_three
  cases q with
  | method c => trivial
  | velocity v => trivial
  | pose sym v =>
    intro i hi
    obtain ⟨x, e, hx⟩ := h i hi
    refine ⟨x, e, ?_⟩
    have := abs_lt.1 hx
    have := abs_lt.1 (hT i)
    rw [abs_lt]; constructor <;> linarith
  | angle o v =>
    refine ⟨h.1, fun i hi => ?_⟩
    obtain ⟨x, e, hx⟩ := h.2 i hi
    refine ⟨x, e, ?_⟩
    have h1 : 180 / Real.pi ≤ 60 := by rw [div_le_iff₀ (by positivity)]; linarith
    have h2 : |A i * (180 / Real.pi) - B i * (180 / Real.pi)| ≤ ε * 60 := by
      rw [← sub_mul, abs_mul, abs_of_pos (by positivity : 0 < 180 / Real.pi)]
      exact mul_le_mul (hA i).le h1 (by positivity) ((abs_nonneg _).trans (hA i).le)
    have := abs_lt.1 hx
    have := abs_le.1 h2
    rw [abs_lt]; constructor <;> linarith

theorem toolAt_coord {A : Fin 6 → ℝ} {d : Fin 6 → Dec} {p o : ℝ} (h : ToolAt kitG p o A (poseOfDec d)) (i : Fin 3) : |jointPos kitG A 5 i - ((d ⟨i.val, by omega⟩).val : ℝ)| < p := by
  have := lt_of_le_of_lt (Lip.coord_le _ i) h.1
  generalize jointPos kitG A 5 = T at this ⊢
  fin_cases i <;> simpa [poseOfDec] using this

section
variable {w0 : World XR} (hw : w0.servos = Kit.servos) {junk : Nat → Byte} {σ : ℕ → Sys XR} {ev : ℕ → Ev XR} (h : Endless Kit.cfg w0 junk σ ev)
  (hmem : BriskStorage w0.ee) (hc : ∀ n, BrisklySent (w0.rxq ++ arrivals (sofar ev n))) (hu : Unbroken ev) (hi : CalmImmediates ev)
include hw h hmem hc hu hi

/-- what is answered after a report is where the arm is at the report. -/
theorem answer_near {k q j : ℕ} (hr : ReportsAt ev k) (ho : OnlyNoPlace ev k j) (hkq : k ≤ q) (hqj : q < j) (hq : Begins ev q) {num : Option Int} {ps : List (Part XR)}
    (hj : ev j = .act (.out (.msg (.reply num ps)))) {b : Fin 6 → ℝ} (hb : ArmAt (σ k).w b) :
    ∀ p ∈ ps, Says (kitLogical b) (jointPos kitG (kitLogical b) 5) (1 / 4000) (1 / 2000) p := by
  intro p hp
  have e : acts (sofar ev (j + 1)) = acts (sofar ev j) ++ .out (.msg (.reply num ps)) :: [] := by
    simp [sofar, List.range_succ, hj, acts]
  obtain ⟨a0, src, m, mid, e1, hmid, hon⟩ := C98_true (h.run (j + 1)).trace e
  have hon := hon p hp
  rw [sofar_span] at e1
  obtain ⟨r, _, hr2, hr3, hr4⟩ := span_at e1
  simp only [Nat.zero_add] at hr2 hr4
  have hkr : k ≤ r := by
    by_contra hlt
    obtain ⟨s, m', hq⟩ := hq
    exact hmid (.out (.ghost s m')) (by rw [← hr4]; exact acts_mem.2 (mem_span.2 ⟨q, by omega, by omega, hq⟩)) ⟨_, _, rfl⟩
  have hun := C117_untouched h hr ho
  -- any reading of the arm in between
  have near : ∀ s : Fin 6 → Servo XR, (∀ i, .servo (armServo i) (s i) ∈ mid) → ∃ x : Fin 6 → ℝ, (Kit.cfg : Cfg XR).p2l (fun i => (s i).cur) = finS (kitLogical x) ∧
      ∀ i, |kitLogical x i - kitLogical b i| ≤ 4 / 1000000 := by
    intro s hs
    have one : ∀ i, ∃ x, (s i).cur = .fin x ∧ |x - b i| < 2 / 1000000 := by
      intro i
      have := hs i
      rw [← hr4] at this
      obtain ⟨l, h1, h2, h3⟩ := mem_span.1 (acts_mem.1 this)
      have es := h.read h3
      obtain ⟨c0, t0, ec0, _, et0, h4⟩ := rest_later hw h hmem hc hu hi hr (le_refl k) i (fun _ h1 h2 => by omega)
      obtain ⟨c, t, ec, _, et, h5⟩ := rest_later hw h hmem hc hu hi hr (n := l) (by omega) i (fun x g1 g2 => hun i x g1 (by omega))
      have e1 : c0 = b i := XR.fin.inj (ec0.symm.trans (hb i))
      have e2 : t0 = t := XR.fin.inj (et0.symm.trans et)
      subst e1 e2
      refine ⟨c, by rw [es]; exact ec, ?_⟩
      have := abs_lt.1 h4
      have := abs_lt.1 h5
      rw [abs_lt]; constructor <;> linarith
    choose x ex hx using one
    refine ⟨x, ?_, ?_⟩
    · have : (fun i => (s i).cur) = finS x := funext ex
      rw [this]; exact kit_p2l x
    · intro i
      have h1 := abs_lt.1 (hx 1)
      have h2 := abs_lt.1 (hx 2)
      have h3 := abs_lt.1 (hx i)
      unfold kitLogical
      split
      · rw [abs_le]; constructor <;> linarith
      · rw [abs_le]; constructor <;> linarith
  have pi := Real.pi_gt_three
  cases p with
  | method c => trivial
  | velocity v => trivial
  | pose sym v =>
    obtain ⟨i', s, a, b', e2, rfl, rfl⟩ := hon
    obtain ⟨x, hx, hn⟩ := near s fun i => by
        rw [e2]
        exact List.mem_append_left _ (List.mem_append_right _ (List.mem_map.2 ⟨i, List.mem_finRange i, rfl⟩))
    intro i hi'
    have hii := poseLetter_inj i' i hi'
    subst hii
    rw [if_pos i.isLt, hx, kit_fwd, forward_eq]
    have hd := Lip.near_tool kitG hn
    have hd := le_trans (Lip.coord_le _ i) (le_trans hd (mul_le_mul_of_nonneg_right kit_weight (by norm_num)))
    generalize jointPos kitG (kitLogical x) 5 = T at hd ⊢
    generalize jointPos kitG (kitLogical b) 5 = T' at hd ⊢
    refine ⟨T i, ?_, ?_⟩
    · unfold finS poseOf
      fin_cases i <;> rfl
    · have : |T i - T' i| ≤ 102 * (4 / 1000000) := hd
      linarith
  | angle o v =>
    rcases hon with ⟨i', s, a, b', e2, rfl, rfl⟩ | ⟨i', _, _, rfl, _⟩
    · obtain ⟨x, hx, hn⟩ := near s fun i => by
        rw [e2]
        exact List.mem_append_left _ (List.mem_append_right _ (List.mem_map.2 ⟨i, List.mem_finRange i, rfl⟩))
      refine ⟨by omega, fun i hi' => ?_⟩
      have : i' = i := Fin.ext hi'
      subst this
      rw [hx]
      refine ⟨kitLogical x i' * (180 / Real.pi), ?_, ?_⟩
      · rw [XR.radToDeg_eq]; rfl
      · rw [← sub_mul, abs_mul, abs_of_pos (by positivity : 0 < 180 / Real.pi)]
        have h1 : 180 / Real.pi ≤ 60 := by rw [div_le_iff₀ (by positivity)]; linarith
        calc _ ≤ 4 / 1000000 * 60 := mul_le_mul (hn i') h1 (by positivity) (by norm_num)
          _ < _ := by norm_num
    · refine ⟨by omega, fun i e3 => ?_⟩
      have : i.val < 6 := i.isLt
      omega

/-- **C117**: the setting of C108. After an instruction is reported as finished (or one from queue or storage begins that names no place) an instruction of simple commands that ends with a
question is answered, with exactly what it asks for, and if nothing began in between that names a place for the arm, the answer agrees with where the arm was at the report: angles to 1/4000
degree, the position of the tool to 1/2000. -/
theorem C117_rest {k q : ℕ} (hr : ReportsAt ev k) (hkq : k ≤ q) (ho : OnlyNoPlace ev k (q + 1)) {src : Src} {qs : List Cmd} (hq : ev q = .act (.out (.ghost src (text qs)))) (hs : Simple qs)
    (hl : ∃ c, qs.getLast? = some c ∧ Question c) {mk : ℕ} (hm : MethodIs (acts (sofar ev q)) mk) :
    ∃ b, ArmAt (σ k).w b ∧ ∃ j num ps, q < j ∧ ev j = .act (.out (.msg (.reply num ps))) ∧ ps.map Part.tag = Spec.asked mk qs ∧
      ∀ p ∈ ps, Says (kitLogical b) (jointPos kitG (kitLogical b) 5) (1 / 4000) (1 / 2000) p := by
  choose b t hb _ _ _ using fun i => rest_later hw h hmem hc hu hi hr (le_refl k) i (fun _ h1 h2 => by omega)
  obtain ⟨j, num, ps, h1, h2, h3, h4, _⟩ := C117_answered h hq hs hl hm
  refine ⟨b, hb, j, num, ps, h1, h2, h4, answer_near hw h hmem hc hu hi hr ?_ hkq h1 ⟨_, _, hq⟩ h2 hb⟩
  intro i g1 g2 src' m' e'
  rcases Nat.lt_or_ge i (q + 1) with g | g
  · exact ho i g1 g src' m' e'
  · exact absurd ⟨_, _, e'⟩ (h3 i (by omega) g2)

/-- **C117**, angles told: an instruction told all six angles, within the ranges, with M0 (the setting of C110). After it is reported as finished, or the next one begins, a question is answered
with the angles told, to 0.007 degrees, and with the position where they put the tool, to 0.012 units, if nothing began in between that names a place for the arm. -/
theorem C117_told {k0 k q : ℕ} {src : Src} {cs : List Cmd} (hb : ev k0 = .act (.out (.ghost src (text cs)))) (hst : src ≠ .immediate ∨ CalmAt ev k0) (ht : TellsAngles cs) (hM : Chooses 48 cs)
    {d : Fin 6 → Dec} (hd : ∀ i, Last NamesAngle cs i (d i)) (hfit : KitFits fun i => radians (d i)) (hk : k0 < k) (hr : ReportsAt ev k) (hn : ∀ i, k0 < i → i < k → ¬ Directs ev i)
    (hkq : k ≤ q) (ho : OnlyNoPlace ev k (q + 1)) {src' : Src} {qs : List Cmd} (hq : ev q = .act (.out (.ghost src' (text qs)))) (hs : Simple qs)
    (hl : ∃ c, qs.getLast? = some c ∧ Question c) {mk : ℕ} (hm : MethodIs (acts (sofar ev q)) mk) :
    ∃ j num ps, q < j ∧ ev j = .act (.out (.msg (.reply num ps))) ∧ ps.map Part.tag = Spec.asked mk qs ∧
      ∀ p ∈ ps, Says (fun i => radians (d i)) (jointPos kitG (fun i => radians (d i)) 5) (7 / 1000) (12 / 1000) p := by
  obtain ⟨b, h1, j, num, ps, h2, h3, h4, h5⟩ := C117_rest hw h hmem hc hu hi hr hkq ho hq hs hl hm
  obtain ⟨b', g1, g2⟩ := C110_told hw h hmem hc hu hi hb hst ht hM hd hfit hk hr hn (le_refl k) (fun _ _ h1 h2 => by omega)
  have e : b' = b := funext fun i => XR.fin.inj ((g1 i).symm.trans (h1 i))
  subst e
  refine ⟨j, num, ps, h2, h3, h4, fun p hp => says_mono (δ := 115 / 10000) (h5 p hp) g2 (fun i => lt_of_le_of_lt (Lip.coord_le (jointPos kitG (kitLogical b') 5 - jointPos kitG (fun i => radians (d i)) 5) i) (lt_of_le_of_lt (Lip.near_tool kitG fun i => (g2 i).le)
    (lt_of_le_of_lt (mul_le_mul_of_nonneg_right kit_weight (by norm_num)) (by norm_num)))) (by norm_num) (by norm_num)⟩

/-- **C117**, a pose told: an instruction told all six coordinates of a pose that the kit can take, with M0 (the setting of C113): the answer tells the position told, to 0.012 units. -/
theorem C117_pose {k0 k q : ℕ} {src : Src} {cs : List Cmd} (hb : ev k0 = .act (.out (.ghost src (text cs)))) (hst : src ≠ .immediate ∨ CalmAt ev k0) (ht : TellsPose cs) (hM : Chooses 48 cs)
    {d : Fin 6 → Dec} (hd : ∀ i, Last NamesPose cs i (d i)) {A : Fin 6 → ℝ} (hA : KitTakes kitG (poseOfDec d) A) (hk : k0 < k) (hr : ReportsAt ev k) (hn : ∀ i, k0 < i → i < k → ¬ Directs ev i)
    (hkq : k ≤ q) (ho : OnlyNoPlace ev k (q + 1)) {src' : Src} {qs : List Cmd} (hq : ev q = .act (.out (.ghost src' (text qs)))) (hs : Simple qs)
    (hl : ∃ c, qs.getLast? = some c ∧ Question c) {mk : ℕ} (hm : MethodIs (acts (sofar ev q)) mk) :
    ∃ j num ps, q < j ∧ ev j = .act (.out (.msg (.reply num ps))) ∧ ps.map Part.tag = Spec.asked mk qs ∧
      ∀ p ∈ ps, Says A (fun i => (d ⟨i.val, by omega⟩).val) (7 / 1000) (12 / 1000) p := by
  obtain ⟨b, h1, j, num, ps, h2, h3, h4, h5⟩ := C117_rest hw h hmem hc hu hi hr hkq ho hq hs hl hm
  obtain ⟨b', g1, g2, g3⟩ := C113_pose hw h hmem hc hu hi hb hst ht hM hd hA hk hr hn (le_refl k) (fun _ _ h1 h2 => by omega)
  have e : b' = b := funext fun i => XR.fin.inj ((g1 i).symm.trans (h1 i))
  subst e
  refine ⟨j, num, ps, h2, h3, h4, fun p hp => says_mono (h5 p hp) g2 (fun i => toolAt_coord g3 i) ?_ ?_⟩ <;> norm_num

/-- **C117**, a straight move on a free way (the setting of C114): the same. -/
theorem C117_free {k0 k q : ℕ} {src : Src} {cs : List Cmd} (hb : ev k0 = .act (.out (.ghost src (text cs)))) (hst : src ≠ .immediate ∨ CalmAt ev k0) (ht : TellsPose cs) (hM : Chooses 49 cs)
    {d : Fin 6 → Dec} (hd : ∀ i, Last NamesPose cs i (d i)) (hk : k0 < k) (hr : ReportsAt ev k) (hn : ∀ i, k0 < i → i < k → ¬ Directs ev i)
    (hfree : ∀ a, Nearer (σ k0).w a → KitFree kitG (jointPos kitG (kitLogical a) 5) (poseOfDec d))
    (hkq : k ≤ q) (ho : OnlyNoPlace ev k (q + 1)) {src' : Src} {qs : List Cmd} (hq : ev q = .act (.out (.ghost src' (text qs)))) (hs : Simple qs)
    (hl : ∃ c, qs.getLast? = some c ∧ Question c) {mk : ℕ} (hm : MethodIs (acts (sofar ev q)) mk) :
    ∃ A, ToolAt kitG (113 / 10000) (7 / 10000) A (poseOfDec d) ∧ ∃ j num ps, q < j ∧ ev j = .act (.out (.msg (.reply num ps))) ∧ ps.map Part.tag = Spec.asked mk qs ∧
      ∀ p ∈ ps, Says A (fun i => (d ⟨i.val, by omega⟩).val) (1 / 1000) (12 / 1000) p := by
  obtain ⟨b, h1, j, num, ps, h2, h3, h4, h5⟩ := C117_rest hw h hmem hc hu hi hr hkq ho hq hs hl hm
  obtain ⟨b', g1, g3⟩ := C114_free hw h hmem hc hu hi hb hst ht hM hd hk hr hn hfree (le_refl k) (fun _ _ h1 h2 => by omega)
  have e : b' = b := funext fun i => XR.fin.inj ((g1 i).symm.trans (h1 i))
  subst e
  refine ⟨_, g3, j, num, ps, h2, h3, h4, fun p hp => says_mono (h5 p hp) (ε := 1 / 1000000) (fun i => by rw [sub_self, abs_zero]; norm_num) (fun i => toolAt_coord g3 i) ?_ ?_⟩ <;> norm_num
end

/-! #### a host that uses the queue -/

section
variable {F : Type} [FloatOps F]

/-- the instruction that an access starts from the queue. -/
def fromQueue : Act F → Option (List Byte)
  | .out (.ghost .queue m) => some m
  | _ => none

theorem dev_started (d : Dev) (l : List (Act F)) : (l.foldl Dev.act d).started = d.started ++ l.filterMap fromQueue := by
  have fr : ∀ (d : Dev) (f : Frame), (d.frame f).started = d.started := by
    intro d f; cases f <;> simp only [Dev.frame]
    split <;> rfl
  have rc : ∀ (d : Dev) (b : Byte), (d.recv b).started = d.started := by
    intro d b; simp only [Dev.recv]
    split
    · split
      · rfl
      · exact fr _ _
    · rfl
  have one : ∀ (d : Dev) (a : Act F), (Dev.act d a).started = d.started ++ (fromQueue a).toList := by
    intro d a
    cases a with
    | out o =>
      cases o with
      | ghost src m' => cases src <;> simp [Dev.act, fromQueue]
      | _ => simp [Dev.act, fromQueue]
    | rx b =>
      cases b with
      | none => simp [Dev.act, fromQueue]
      | some b => rw [Dev.act, rc]; simp [fromQueue]
    | eeRead mm =>
      simp only [Dev.act]
      split <;> simp [fromQueue]
    | _ => simp [Dev.act, fromQueue]
  induction l generalizing d with
  | nil => simp
  | cons a l ih =>
    rw [List.foldl_cons, ih, one, List.append_assoc]
    cases e : fromQueue a <;> simp [List.filterMap_cons, e]

theorem view_started (ev : ℕ → Ev F) (n : ℕ) : (view ev n).started = (acts (sofar ev n)).filterMap fromQueue := by
  rw [view, Dev.after, dev_started]; rfl

theorem fromQueue_some {a : Act F} {m : List Byte} (h : fromQueue a = some m) : a = .out (.ghost .queue m) := by
  unfold fromQueue at h
  split at h
  · cases h; rfl
  · cases h

/-- two instructions that are started from the queue one after the other. -/
theorem started_pair {ev : ℕ → Ev F} {n : ℕ} {x y : List (List Byte)} {a b : List Byte} (h : (view ev n).started = x ++ a :: b :: y) :
    ∃ k0 k, k0 < k ∧ ev k0 = .act (.out (.ghost .queue a)) ∧ ev k = .act (.out (.ghost .queue b)) ∧ ∀ i, k0 < i → i < k → ∀ m, ev i ≠ .act (.out (.ghost .queue m)) := by
  rw [view_started, List.filterMap_eq_append_iff] at h
  obtain ⟨l1, l2, e1, _, e2⟩ := h
  obtain ⟨l3, A, l4, rfl, _, eA, e3⟩ := List.filterMap_eq_cons_iff.1 e2
  obtain ⟨l5, B, l6, rfl, hn, eB, _⟩ := List.filterMap_eq_cons_iff.1 e3
  rw [fromQueue_some eA, fromQueue_some eB, sofar_span, ← List.append_assoc] at e1
  obtain ⟨k0, _, h2, h3, h4⟩ := span_at e1
  obtain ⟨k, g1, g2, g3, g4⟩ := span_at h4
  refine ⟨k0, k, by omega, h3, g3, fun i i1 i2 m e => ?_⟩
  have hs := span_split (ev := ev) (a := k0 + 1) (k := 0 + n - (k0 + 1)) (c := k) (by omega) (by omega) g3
  rw [h4, g4] at hs
  obtain ⟨e5, _⟩ := List.append_inj' hs rfl
  have hm : Act.out (.ghost .queue m) ∈ l5 := by
    rw [e5]; exact acts_mem.2 (mem_span.2 ⟨i, by omega, by omega, e⟩)
  exact absurd (hn _ hm) (by simp [fromQueue])
end

section
variable {w0 : World XR} (hw : w0.servos = Kit.servos) {junk : Nat → Byte} {σ : ℕ → Sys XR} {ev : ℕ → Ev XR} (h : Endless Kit.cfg w0 junk σ ev)
  (h0 : w0.ee 0 = 0) (hc : ∀ n, BrisklySent (w0.rxq ++ arrivals (sofar ev n))) (hnw : ∀ n, NeverWaits (w0.rxq ++ arrivals (sofar ev n)))
  (hu : Unbroken ev) (hclk : ClockRuns σ ev) (hh : ∀ n, CountingHost w0.rxq (sofar ev n)) (hq : ∀ n, QueueOnly (sent w0.rxq (sofar ev n)))
  (hsim : ∀ n m, m ∈ puts (sent w0.rxq (sofar ev n)) ∨ m ∈ nows (sent w0.rxq (sofar ev n)) → ∃ cs, Simple cs ∧ m = text cs)
include hw h h0 hc hnw hu hclk hh hq hsim

/-- two instructions sent for the queue one after the other: they are started one after the other, and the method is known. -/
theorem queue_pair {t : ℕ} {x y : List (List Byte)} {a b : List Byte} (hm : puts (sent w0.rxq (sofar ev t)) = x ++ a :: b :: y) :
    ∃ k0 k mk, k0 < k ∧ ev k0 = .act (.out (.ghost .queue a)) ∧ ev k = .act (.out (.ghost .queue b)) ∧ (∀ i, k0 < i → i < k → ¬ Orders ev i) ∧ MethodIs (acts (sofar ev k)) mk := by
  have hstore : ∀ n, NeverStores (sent w0.rxq (sofar ev n)) := fun n p hp m e => by
    rcases hq n p hp with e' | e' | e' | ⟨_, e'⟩ | ⟨_, e', _⟩ <;> rw [e'] at e <;> cases e
  obtain ⟨t', -, z, h1⟩ := C106_executed hw h (brisk_empty _ h0) (quick_empty _ h0) hc hnw (undivided_of hu) hclk hh hq t
  rw [hm] at h1
  obtain ⟨k0, k, g1, g2, g3, g4⟩ := started_pair (ev := ev) (n := t') (x := x) (a := a) (b := b) (y := y ++ z) (by rw [← h1]; simp)
  have none : ∀ i src m, ev i = .act (.out (.ghost src m)) → src ≠ .eeprom := by
    rintro i _ m e rfl
    exact absurd (acts_mem.2 (by rw [sofar_span]; exact mem_span.2 ⟨i, by omega, by omega, e⟩)) (Turns.no_storage h h0 hstore (i + 1) m)
  obtain ⟨mk, hmk⟩ := methodIs_exists (tr := acts (sofar ev k)) (fun src m hm => by
    rw [sofar_span] at hm
    obtain ⟨i, i1, i2, e⟩ := mem_span.1 (acts_mem.1 hm)
    have e' : acts (sofar ev (i + 1)) = acts (sofar ev i) ++ [.out (.ghost src m)] := by rw [sofar_succ, acts_append, e]; rfl
    refine hsim i m ?_
    rw [puts, nows, sent, (h.run i).fifo, decode_append, List.filterMap_append, List.filterMap_append]
    cases src with
    | queue =>
      have := ((trace_dev (h.run (i + 1)).trace).1 _ _ [] e' rfl).1 m rfl
      have hp := started_sent ⟨_, (h.run i).trace⟩ (List.mem_of_mem_head? this.1)
      exact .inl (List.mem_append_left _ hp)
    | immediate =>
      have := (C91_at_once (h.run (i + 1)).trace (pre := acts (sofar ev i)) (post := []) (a := .out (.ghost .immediate m)) e' rfl).1 m rfl
      refine .inr (List.mem_append_left _ ?_)
      show m ∈ nows (rxBytes (acts (sofar ev i)))
      rw [this]; simp
    | eeprom => exact absurd rfl (none i _ m e))
  refine ⟨k0, k, mk, g1, g2, g3, ?_, hmk⟩
  rintro i i1 i2 ⟨src, m, e, ho⟩
  cases src with
  | queue => exact g4 i i1 i2 m e
  | immediate => exact ho ⟨rfl, queueOnly_noImmediate h hq i (Nat.zero_le _) m e⟩
  | eeprom => exact none i _ m e rfl

/-- **C117**, total correctness for the queue: a host that uses the queue, counts its free space, and sends simple instructions. It sends a move to six angles (M0, within the ranges) and then an
instruction that names no place and ends with a question. The question is answered with the angles told, to 0.007 degrees, and the position where they put the tool, to 0.012 units. -/
theorem C117_queue_told {t : ℕ} {x y : List (List Byte)} {cs qs : List Cmd} (hm : puts (sent w0.rxq (sofar ev t)) = x ++ text cs :: text qs :: y) (ht : TellsAngles cs) (hM : Chooses 48 cs)
    {d : Fin 6 → Dec} (hd : ∀ i, Last NamesAngle cs i (d i)) (hfit : KitFits fun i => radians (d i)) (hs : Simple qs) (hp : ∀ c ∈ qs, NamesNoPlace c) (hl : ∃ c, qs.getLast? = some c ∧ Question c) :
    ∃ mk q j num ps, ev q = .act (.out (.ghost .queue (text qs))) ∧ q < j ∧ ev j = .act (.out (.msg (.reply num ps))) ∧ MethodIs (acts (sofar ev q)) mk ∧ ps.map Part.tag = Spec.asked mk qs ∧
      ∀ p ∈ ps, Says (fun i => radians (d i)) (jointPos kitG (fun i => radians (d i)) 5) (7 / 1000) (12 / 1000) p := by
  obtain ⟨k0, q, mk, h1, h2, h3, h4, h5⟩ := queue_pair hw h h0 hc hnw hu hclk hh hq hsim hm
  obtain ⟨j, num, ps, g1, g2, g3, g4⟩ := C117_told hw h (brisk_empty _ h0) hc hu (calm_of_none (queueOnly_noImmediate h hq)) h2 (.inl (by simp)) ht hM hd hfit h1 (.inr ⟨_, _, by simp, h3⟩) (undirected h4) (le_refl q)
    (fun i i1 i2 src m e => by
      have : i = q := by omega
      subst this
      rw [h3] at e; cases e
      exact ⟨qs, hs.ok, hp, rfl⟩) h3 hs hl h5
  exact ⟨mk, q, j, num, ps, h3, g1, g2, h5, g3, g4⟩

/-- **C117**, the same for a pose told that the kit can take: the answer tells the position told, to 0.012 units. -/
theorem C117_queue_pose {t : ℕ} {x y : List (List Byte)} {cs qs : List Cmd} (hm : puts (sent w0.rxq (sofar ev t)) = x ++ text cs :: text qs :: y) (ht : TellsPose cs) (hM : Chooses 48 cs)
    {d : Fin 6 → Dec} (hd : ∀ i, Last NamesPose cs i (d i)) {A : Fin 6 → ℝ} (hA : KitTakes kitG (poseOfDec d) A) (hs : Simple qs) (hp : ∀ c ∈ qs, NamesNoPlace c)
    (hl : ∃ c, qs.getLast? = some c ∧ Question c) :
    ∃ mk q j num ps, ev q = .act (.out (.ghost .queue (text qs))) ∧ q < j ∧ ev j = .act (.out (.msg (.reply num ps))) ∧ MethodIs (acts (sofar ev q)) mk ∧ ps.map Part.tag = Spec.asked mk qs ∧
      ∀ p ∈ ps, Says A (fun i => (d ⟨i.val, by omega⟩).val) (7 / 1000) (12 / 1000) p := by
  obtain ⟨k0, q, mk, h1, h2, h3, h4, h5⟩ := queue_pair hw h h0 hc hnw hu hclk hh hq hsim hm
  obtain ⟨j, num, ps, g1, g2, g3, g4⟩ := C117_pose hw h (brisk_empty _ h0) hc hu (calm_of_none (queueOnly_noImmediate h hq)) h2 (.inl (by simp)) ht hM hd hA h1 (.inr ⟨_, _, by simp, h3⟩) (undirected h4) (le_refl q)
    (fun i i1 i2 src m e => by
      have : i = q := by omega
      subst this
      rw [h3] at e; cases e
      exact ⟨qs, hs.ok, hp, rfl⟩) h3 hs hl h5
  exact ⟨mk, q, j, num, ps, h3, g1, g2, h5, g3, g4⟩
end

end Mrc.Props
