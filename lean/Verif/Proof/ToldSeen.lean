import Verif.Proof.Told
import Verif.Proof.Endless
import Verif.Proof.Motion
import Verif.Props.Safety
/- What the firmware sees of the servos in a history of the whole system (C84-C87). -/
set_option linter.unusedSectionVars false
set_option linter.unusedSimpArgs false
namespace Mrc.Told
open Mrc Mrc.Prog Mrc.Spec Mrc.Props XR
variable {F : Type} [FloatOps F]

/-- what is read is what is there. -/
theorem run_reading {cfg : Cfg F} {w0 : World F} {junk : Nat → Byte} {evs : List (Ev F)} {s : Sys F} (h : Sys.Run cfg w0 junk evs s) {i : Fin 8} {sv : Servo F}
    (hm : .servo i sv ∈ acts evs) : ∃ evs1 s1 evs2, evs = evs1 ++ .act (.servo i sv) :: evs2 ∧ Sys.Run cfg w0 junk evs1 s1 ∧ sv = s1.w.servos i := by
  induction h with
  | init => simp [acts] at hm
  | @step evs s e t h hd ih =>
    rw [acts_append, List.mem_append] at hm
    rcases hm with hm | hm
    · obtain ⟨e1, s1, e2, rfl, h1, h2⟩ := ih hm
      exact ⟨e1, s1, e2 ++ [e], by simp, h1, h2⟩
    · cases hd with
      | servo =>
        simp only [acts, List.filterMap_cons, List.filterMap_nil, List.mem_singleton] at hm
        cases hm
        exact ⟨evs, _, [], rfl, h, rfl⟩
      | _ => simp [acts] at hm

/-- a prefix of the accesses is the accesses of a prefix. -/
theorem acts_split {evs : List (Ev F)} {a b : List (Act F)} (h : acts evs = a ++ b) : ∃ evs1 evs2, evs = evs1 ++ evs2 ∧ acts evs1 = a := by
  obtain ⟨l1, l2, e, h1, _⟩ := List.filterMap_eq_append_iff.1 h
  exact ⟨l1, l2, e, h1⟩

/-- a prefix of a history is a history. -/
theorem run_prefix {cfg : Cfg F} {w0 : World F} {junk : Nat → Byte} {evs1 evs2 : List (Ev F)} {s : Sys F} (h : Sys.Run cfg w0 junk (evs1 ++ evs2) s) :
    ∃ s1, Sys.Run cfg w0 junk evs1 s1 := by
  induction evs2 using List.reverseRecOn generalizing s with
  | nil => exact ⟨s, by simpa using h⟩
  | append_singleton l x ih =>
    rw [← List.append_assoc] at h
    generalize hg : evs1 ++ l ++ [x] = g at h
    cases h with
    | init => simp at hg
    | step h' hd =>
      obtain ⟨e1, _⟩ := List.append_inj' hg rfl
      exact ih (e1 ▸ h')

theorem tick_target (s : Servo F) (d : ℕ) : (s.tick d).target = s.target := by
  unfold Servo.tick
  simp only
  split
  · rfl
  · split <;> rfl

/-- a servo read after its last target was stored has that target. -/
theorem run_target {cfg : Cfg F} {w0 : World F} {junk : Nat → Byte} {evs : List (Ev F)} {s : Sys F} (h : Sys.Run cfg w0 junk evs s) {i : Fin 8} {x : F} {p1 p2 : List (Act F)}
    (e : acts evs = p1 ++ .micro i (.setTarget x) :: p2) (hn : ∀ y, .micro i (.setTarget y) ∉ p2) :
    (s.w.servos i).target = x ∧ ∀ sv, .servo i sv ∈ p2 → sv.target = x := by
  induction h generalizing p2 with
  | init => simp [acts] at e
  | @step evs s ev t h hd ih =>
    rw [acts_append] at e
    have hsv := do_servos hd i
    by_cases ha : ∃ a, ev = .act a
    · obtain ⟨a, rfl⟩ := ha
      have ea : acts [Ev.act a] = [a] := rfl
      rw [ea] at e
      rcases List.eq_nil_or_concat p2 with rfl | ⟨q, b, rfl⟩
      · obtain ⟨e1, e2⟩ := List.append_inj' e rfl
        cases e2
        refine ⟨?_, by simp⟩
        rw [hsv]; simp [evServo, Servo.micro]
      · have e' : acts evs ++ [a] = (p1 ++ .micro i (.setTarget x) :: q) ++ [b] := by rw [e]; simp
        obtain ⟨e1, e2⟩ := List.append_inj' e' rfl
        cases e2
        obtain ⟨h1, h2⟩ := ih e1 fun y hy => hn y (by simp [hy])
        refine ⟨?_, fun sv hv => ?_⟩
        · rw [hsv]
          cases a with
          | micro j m =>
            simp only [evServo]
            split
            · rename_i hij; subst hij
              cases m with
              | setTarget y => exact absurd (by simp) (hn y)
              | _ => exact h1
            · exact h1
          | _ => exact h1
        · rw [List.concat_eq_append, List.mem_append, List.mem_singleton] at hv
          rcases hv with hv | rfl
          · exact h2 sv hv
          · cases hd; exact h1
    · have ea : acts [ev] = [] := by
        cases ev with
        | act a => exact absurd ⟨a, rfl⟩ ha
        | _ => rfl
      rw [ea, List.append_nil] at e
      obtain ⟨h1, h2⟩ := ih e hn
      refine ⟨?_, h2⟩
      rw [hsv]
      cases ev with
      | act a => exact absurd ⟨a, rfl⟩ ha
      | isr => rw [evServo, tick_target]; exact h1
      | _ => exact h1

/-- readings report the limits of power-up. -/
theorem run_limits {cfg : Cfg F} {w0 : World F} {junk : Nat → Byte} {evs : List (Ev F)} {s : Sys F} (h : Sys.Run cfg w0 junk evs s) :
    Limits (fun i => (w0.servos (armServo i)).minA) (fun i => (w0.servos (armServo i)).maxA) (acts evs) := by
  intro i sv hm
  obtain ⟨e1, s1, e2, _, h1, rfl⟩ := run_reading h hm
  obtain ⟨_, _, _, h4, h5, _⟩ := C62_constants h1 (armServo i)
  exact ⟨h4, h5⟩

/-! ### lists -/

theorem last_split {α : Type} {P : α → Prop} {l : List α} (h : ∃ a ∈ l, P a) : ∃ p1 a p2, l = p1 ++ a :: p2 ∧ P a ∧ ∀ b ∈ p2, ¬ P b := by
  induction l using List.reverseRecOn with
  | nil => simp at h
  | append_singleton l x ih =>
    by_cases hx : P x
    · exact ⟨l, x, [], by simp, hx, by simp⟩
    · obtain ⟨a, ha, hp⟩ := h
      have : a ∈ l := by
        rcases List.mem_append.1 ha with ha | ha
        · exact ha
        · rw [List.mem_singleton.1 ha] at hp; exact absurd hp hx
      obtain ⟨p1, y, p2, rfl, hy, hn⟩ := ih ⟨a, this, hp⟩
      refine ⟨p1, y, p2 ++ [x], by simp, hy, fun b hb => ?_⟩
      rcases List.mem_append.1 hb with hb | hb
      · exact hn b hb
      · rw [List.mem_singleton.1 hb]; exact hx

theorem armTargets_cons (a : Act F) (l : List (Act F)) : armTargets (a :: l) = armTargets [a] ++ armTargets l := by
  rw [← armTargets_append]; rfl

/-- when every servo was sent once, the command can be found. -/
theorem sent_split {mid : List (Act F)} {p : Six F} (h : armTargets mid = six6 p) (i : Fin 6) :
    ∃ q1 q2, mid = q1 ++ .micro (armServo i) (.setTarget (p i)) :: q2 ∧ ∀ y, .micro (armServo i) (.setTarget y) ∉ q2 := by
  have hmem : (armServo i, p i) ∈ armTargets mid := by rw [h]; exact List.mem_map.2 ⟨i, List.mem_finRange i, rfl⟩
  have hex : ∃ a ∈ mid, ∃ y, a = .micro (armServo i) (.setTarget y) := by
    rw [armTargets, List.mem_filter, targets, List.mem_filterMap] at hmem
    obtain ⟨⟨a, ha, e⟩, _⟩ := hmem
    match a, e with
    | .micro j (.setTarget y), e => cases e; exact ⟨_, ha, _, rfl⟩
  obtain ⟨q1, a, q2, rfl, ⟨y, rfl⟩, hn⟩ := last_split hex
  have hy : (armServo i, y) ∈ six6 p := by
    rw [← h, armTargets, List.mem_filter]
    refine ⟨?_, by simp [armServo]⟩
    rw [targets, List.mem_filterMap]
    exact ⟨.micro (armServo i) (.setTarget y), by simp, rfl⟩
  obtain ⟨j, _, e⟩ := List.mem_map.1 hy
  simp only [Prod.mk.injEq] at e
  have hj : j = i := by
    have := e.1
    simp only [armServo, Fin.mk.injEq] at this
    exact Fin.ext this
  subst hj
  rw [← e.2]
  exact ⟨q1, q2, rfl, fun y hy => hn _ hy ⟨y, rfl⟩⟩

/-! ### the exact numbers -/

/-- the arm servos at power-up. -/
def Arm (lo hi : Fin 6 → ℝ) (w0 : World XR) : Prop :=
  ∀ i, ∃ pin m f1 f2 home, w0.servos (armServo i) = Servo.new pin (fin m) f1 f2 (fin (lo i)) (fin (hi i)) (fin home) ∧ 0 < m ∧ lo i ≤ home ∧ home ≤ hi i

/-- no NaN was stored into the arm servos. -/
def NoNaN (tr : List (Act XR)) : Prop := ∀ i, Act.micro (armServo i) (.setTarget nan) ∉ tr ∧ Act.micro (armServo i) (.setVel nan) ∉ tr

variable {cfg : Cfg XR} {lo hi : Fin 6 → ℝ} {w0 : World XR} {junk : Nat → Byte} {evs : List (Ev XR)} {s : Sys XR}

/-- every reading of an arm servo is a number in the range of the servo. -/
theorem reading_good (h0 : Arm lo hi w0) (h : Sys.Run cfg w0 junk evs s) (hn : NoNaN (acts evs)) {i : Fin 6} {sv : Servo XR} (hm : .servo (armServo i) sv ∈ acts evs) :
    (∃ x, sv.cur = fin x ∧ lo i ≤ x ∧ x ≤ hi i) ∧ (∃ t, sv.target = fin t) ∧ ∃ m, sv.maxVel = fin m ∧ 0 < m := by
  obtain ⟨e1, s1, e2, rfl, h1, rfl⟩ := run_reading h hm
  have hg := (allGood_run (lo := lo) (hi := hi) (fun i => by
    obtain ⟨pin, m, f1, f2, home, e, h1, h2, h3⟩ := h0 i
    rw [e]; exact goodServo_new h1.le h2 h3) h1 (fun i => by
      have := hn i
      rw [acts_append] at this
      simp only [List.mem_append, not_or] at this
      exact ⟨this.1.1, this.2.1⟩)).1 i
  obtain ⟨x, ex, x1, x2⟩ := hg.cur
  obtain ⟨t, et, _⟩ := hg.target
  obtain ⟨pin, m, f1, f2, home, e, m0, _⟩ := h0 i
  obtain ⟨_, _, _, _, _, h6⟩ := C62_constants h1 (armServo i)
  refine ⟨⟨x, ex, x1, x2⟩, ⟨t, et⟩, m, ?_, m0⟩
  rw [h6, e]; rfl

theorem atTarget_fin {sv : Servo XR} {c t : ℝ} (hc : sv.cur = fin c) (ht : sv.target = fin t) (h : sv.atTarget = true) : |c - t| < 1 / 1000000 := by
  unfold Servo.atTarget at h
  rw [hc, ht] at h
  simp [flt] at h
  have : ((1 / 1000000 : ℚ) : ℝ) = 1 / 1000000 := by push_cast; rfl
  simpa using h

theorem le_inf (x : ℝ) : FloatOps.le (inf false) (fin x) = false := rfl
theorem le_ninf (x : ℝ) : FloatOps.le (inf true) (fin x) = true := rfl
theorem lt_inf (x : ℝ) : FloatOps.lt (inf false) (fin x) = false := rfl
theorem lt_ninf (x : ℝ) : FloatOps.lt (inf true) (fin x) = true := rfl
theorem lit_zero : (lit 0 : XR) = fin 0 := by simp [lit]

/-- no time needed: everything is there. -/
theorem timeFor_zero {p c m : Fin 6 → ℝ} {v : Fin 6 → Servo XR} (hc : ∀ i, (v i).cur = fin (c i)) (hm : ∀ i, (v i).maxVel = fin (m i)) (hp : ∀ i, 0 < m i) {mt : XR}
    (h : feq (timeFor (finS p) v mt) (lit 0) = true) (i : Fin 6) : c i = p i := by
  have key : ∀ (l : List (Fin 6)) (acc : XR), feq (l.foldl (fun acc i => if fgt (fin (|p i - c i| / m i)) acc then fin (|p i - c i| / m i) else acc) acc) (lit 0) = true →
      (∀ i ∈ l, |p i - c i| / m i ≤ 0) ∧ FloatOps.le acc (lit 0) = true := by
    intro l
    induction l with
    | nil =>
      intro acc h
      refine ⟨by simp, ?_⟩
      simp only [List.foldl_nil, feq, Bool.and_eq_true] at h
      exact h.1
    | cons j l ih =>
      intro acc h
      rw [List.foldl_cons] at h
      obtain ⟨h1, h2⟩ := ih _ h
      split at h2
      · rename_i hg
        have h3 : |p j - c j| / m j ≤ 0 := by simpa [lit] using h2
        refine ⟨fun k hk => ?_, ?_⟩
        · rcases List.mem_cons.1 hk with rfl | hk
          · exact h3
          · exact h1 k hk
        · cases acc with
          | fin a => simp [fgt, lit] at hg ⊢; linarith
          | inf s => cases s <;> simp_all [fgt, lit_zero, le_inf, le_ninf, lt_inf, lt_ninf]
          | nan => simp [fgt] at hg
      · rename_i hg
        refine ⟨fun k hk => ?_, h2⟩
        rcases List.mem_cons.1 hk with rfl | hk
        · cases acc with
          | fin a => simp [fgt, lit] at hg h2; linarith
          | inf s => cases s <;> simp_all [fgt, lit_zero, le_inf, le_ninf, lt_inf, lt_ninf]
          | nan => simp [lit] at h2
        · exact h1 k hk
  have e : timeFor (finS p) v mt = (List.finRange 6).foldl (fun acc i => if fgt (fin (|p i - c i| / m i)) acc then fin (|p i - c i| / m i) else acc) mt := by
    unfold timeFor
    refine Mrc.foldl_congr _ _ _ (fun a i _ => ?_) _
    have e : FloatOps.div (FloatOps.abs (FloatOps.sub (finS p i) (v i).cur)) (v i).maxVel = fin (|p i - c i| / m i) := by
      rw [hc, hm]
      have : FloatOps.sub (finS p i) (fin (c i)) = fin (p i - c i) := fin_sub _ _
      rw [this, ops_abs, ops_div, fin_div _ _ (hp i).ne']
    simp only [e]
  rw [e] at h
  have h1 := (key _ _ h).1 i (List.mem_finRange i)
  have h2 := hp i
  have h3 : |p i - c i| ≤ 0 := by
    rw [div_le_iff₀ h2] at h1; linarith
  have := abs_nonpos_iff.1 h3
  linarith

/-- **what a finished point to point move means**: the servos were seen where they were sent. -/
theorem seen_moved (h0 : Arm lo hi w0) (h : Sys.Run cfg w0 junk evs s) (hn : NoNaN (acts evs)) {p0 mid rest : List (Act XR)} (e : acts evs = p0 ++ (mid ++ rest))
    {L U A : Six XR} {p : Fin 6 → ℝ} (hp : cfg.l2p A = finS p) (hf : Fits cfg.toRCfg L U A) (hm : Moved cfg.toRCfg L U A mid) :
    ∃ b : Fin 6 → ℝ, SeenAt mid b ∧ ((∀ i, |b i - p i| < 1 / 1000000) ∨ RC.anglesEqual (cfg.p2l (finS b)) A = true) := by
  have hin : ∀ {x}, x ∈ mid → x ∈ acts evs := fun hx => by rw [e]; simp [hx]
  have still : ∀ (v : Fin 6 → Servo XR), ArmStill mid → (∀ i, .servo (armServo i) (v i) ∈ mid) → ∀ b : Fin 6 → ℝ, (∀ i, (v i).cur = fin (b i)) → SeenAt mid b := by
    intro v hs hv b hb i
    obtain ⟨p1, p2, rfl⟩ := List.append_of_mem (hv i)
    exact ⟨p1, v i, p2, rfl, hb i, fun m hm => hs i m (by simp [hm])⟩
  cases hm with
  | refused h1 => exact absurd hf h1
  | there b h1 h2 h3 =>
    choose v hv hb using h1
    have : ∀ i, ∃ x, (v i).cur = fin x := fun i => by
      obtain ⟨⟨x, ex, _⟩, _⟩ := reading_good h0 h hn (hin (hv i)); exact ⟨x, ex⟩
    choose x hx using this
    refine ⟨x, still v h3 hv x hx, .inr ?_⟩
    have : b = finS x := funext fun i => by rw [hb, hx]; rfl
    rw [← this]; exact h2
  | noTime v mt h1 h2 h3 h4 =>
    have : ∀ i, ∃ x m, (v i).cur = fin x ∧ (v i).maxVel = fin m ∧ 0 < m := fun i => by
      obtain ⟨⟨x, ex, _⟩, _, m, em, m0⟩ := reading_good h0 h hn (hin (h2 i)); exact ⟨x, m, ex, em, m0⟩
    choose x m hx hmv h0 using this
    refine ⟨x, still v h4 h2 x hx, .inl fun i => ?_⟩
    rw [hp] at h3
    rw [timeFor_zero hx hmv h0 h3 i]; simp
  | went h1 h2 h3 =>
    have : ∀ i, ∃ (p1 : List (Act XR)) (sv : Servo XR) (p2 : List (Act XR)) (x : ℝ), mid = p1 ++ .servo (armServo i) sv :: p2 ∧ sv.cur = fin x ∧ (∀ m, .micro (armServo i) m ∉ p2) ∧ |x - p i| < 1 / 1000000 := by
      intro i
      obtain ⟨q1, q2, e1, hq⟩ := sent_split h2 i
      -- the last store into this servo
      have hex : ∃ a ∈ Act.micro (armServo i) (.setTarget (cfg.l2p A i)) :: q2, ∃ m, a = .micro (armServo i) m := ⟨.micro (armServo i) (.setTarget (cfg.l2p A i)), List.mem_cons_self, _, rfl⟩
      obtain ⟨r1, a, r2, e2, ⟨m, rfl⟩, hr⟩ := last_split hex
      obtain ⟨sv, hs1, hs2⟩ := h3 i (q1 ++ r1) m r2 (by rw [e1, e2, List.append_assoc])
      have hs3 : .servo (armServo i) sv ∈ q2 := by
        cases r1 with
        | nil => simp only [List.nil_append, List.cons.injEq] at e2; rw [e2.2]; exact hs1
        | cons y r1 => simp only [List.cons_append, List.cons.injEq] at e2; rw [e2.2]; simp [hs1]
      have hmid : .servo (armServo i) sv ∈ mid := by rw [e1]; simp [hs3]
      obtain ⟨⟨x, ex, _⟩, ⟨t, et⟩, _⟩ := reading_good h0 h hn (hin hmid)
      -- its target at that moment
      obtain ⟨u1, u2, e3⟩ := List.append_of_mem hs1
      have hacts : acts evs = (p0 ++ q1) ++ .micro (armServo i) (.setTarget (cfg.l2p A i)) :: (q2 ++ rest) := by rw [e, e1]; simp
      have htar : sv.target = cfg.l2p A i := by
        obtain ⟨v1, v2, e4⟩ := List.append_of_mem hs3
        -- cut the history at the reading
        obtain ⟨evs1, evs2, e5, e6⟩ : ∃ evs1 evs2, evs = evs1 ++ evs2 ∧ acts evs1 = (p0 ++ q1) ++ .micro (armServo i) (.setTarget (cfg.l2p A i)) :: (v1 ++ [.servo (armServo i) sv]) := by
          have : acts evs = ((p0 ++ q1) ++ .micro (armServo i) (.setTarget (cfg.l2p A i)) :: (v1 ++ [.servo (armServo i) sv])) ++ (v2 ++ rest) := by rw [hacts, e4]; simp
          exact acts_split this
        obtain ⟨s1, hr1⟩ := run_prefix (e5 ▸ h)
        exact (run_target hr1 e6 fun y hy => hq y (by
          rw [e4]
          rcases List.mem_append.1 hy with hy | hy
          · simp [hy]
          · simp at hy)).2 sv (by simp)
      rw [hp] at htar
      have ht : t = p i := by
        rw [et] at htar
        injection htar
      refine ⟨q1 ++ r1 ++ .micro (armServo i) m :: u1, sv, u2, x, ?_, ex, fun m' hm' => ?_, ?_⟩
      · rw [e1, e2, e3]; simp
      · exact hr _ (by rw [e3]; simp [hm']) ⟨m', rfl⟩
      · rw [← ht]; exact atTarget_fin ex et hs2
    choose p1 sv p2 x h4 h5 h6 h7 using this
    exact ⟨x, fun i => ⟨p1 i, sv i, p2 i, h4 i, h5 i, h6 i⟩, .inl h7⟩

end Mrc.Told
