import Verif.Proof.Brisk
import Verif.Proof.Span
import Verif.Props.Host
/-
C100: with a careful host that does not ask for crawling speeds the arm servos settle, provided the servo interrupt does not fall into the command of a slow
servo. Over the exact numbers XR.
-/
set_option linter.unusedSimpArgs false
namespace Mrc.Brisk
open Mrc Mrc.Spec Mrc.Prog Mrc.Props Mrc.Host XR
open scoped Mrc.Num

/-- the way of the servo fits its speed. -/
def Fit (s : Servo XR) : Prop := ∃ a t v : ℝ, s.start = fin a ∧ s.target = fin t ∧ s.vel = fin v ∧ 0 < v ∧ |t - a| ≤ v * T

theorem Fit.settles {s : Servo XR} (h : Fit s) : Settles s := by
  obtain ⟨a, t, v, h1, h2, h3, h4, h5⟩ := h
  refine settles_XR h1 h2 h3 h4 (lt_of_le_of_lt h5 ?_)
  unfold T
  rw [lt_div_iff₀ (by norm_num)]
  nlinarith

theorem Fit.tick {s : Servo XR} (h : Fit s) (d : ℕ) : Fit (s.tick d) := by
  obtain ⟨a, t, v, h1, h2, h3, h4, h5⟩ := h
  rw [tick_fin s a t v d h1 h2 h3]
  refine ⟨_, t, v, rfl, h2, h3, h4, ?_⟩
  split
  · simp only [sub_self, abs_zero]; unfold T; positivity
  · exact h5

variable {cfg : Cfg XR} {w0 : World XR} {junk : Nat → Byte} {σ : ℕ → Sys XR} {ev : ℕ → Ev XR} {lo hi : Fin 6 → ℝ}

section
variable (h : Endless cfg w0 junk σ ev)
include h

/-- without a store into servo `i` it stays fit. -/
theorem fit_step {n : ℕ} {i : Fin 6} (hn : ∀ m, ev n ≠ .act (.micro (armServo i) m)) (hf : Fit ((σ n).w.servos (armServo i))) : Fit ((σ (n + 1)).w.servos (armServo i)) := by
  rw [do_servos (h.step n) (armServo i)]
  generalize he : ev n = e at hn
  match e, hn with
  | .isr, _ => exact hf.tick 20
  | .act (.micro j m), hn =>
    simp only [evServo]
    rw [if_neg (fun e => hn m (by rw [e]))]; exact hf
  | .act (.servo _ _), _ | .act (.now _), _ | .act (.pin _ _), _ | .act (.rx _), _ | .act (.eeRead _), _ | .act (.eeWrite _ _), _
  | .act (.out _), _ | .next, _ | .clock _, _ | .pins _, _ | .arrive _, _ => exact hf

theorem fit_stays {a b : ℕ} {i : Fin 6} (hab : a ≤ b) (hn : ∀ j, a ≤ j → j < b → ∀ m, ev j ≠ .act (.micro (armServo i) m)) (hf : Fit ((σ a).w.servos (armServo i))) :
    Fit ((σ b).w.servos (armServo i)) := by
  induction b, hab using Nat.le_induction with
  | base => exact hf
  | succ b hb ih => exact fit_step h (hn b hb (by omega)) (ih fun j h1 h2 => hn j h1 (by omega))

/-- a command leaves the servo fit. -/
theorem fit_command (hS : ∀ n, Servos2 lo hi (σ n).w) (hr : ∀ i, -10 ≤ lo i ∧ hi i ≤ 10) (hu : Undivided ev) {i : Fin 6} {x y : Servo XR} {c t τ : ℝ} (hc : x.cur = fin c)
    (h0 : 0 < τ) (h1 : τ ≤ T) {n1 n2 n3 n4 n5 n6 : ℕ} (o12 : n1 < n2) (o23 : n2 < n3) (o34 : n3 < n4) (o45 : n4 < n5) (o56 : n5 < n6)
    (e1 : ev n1 = .act (.servo (armServo i) x)) (e2 : ev n2 = .act (.micro (armServo i) (.setVel (fin (|t - c| / τ))))) (e3 : ev n3 = .act (.servo (armServo i) y))
    (e4 : ev n4 = .act (.micro (armServo i) (.setStart y.cur))) (e5 : ev n5 = .act (.micro (armServo i) .zeroElapsed)) (e6 : ev n6 = .act (.micro (armServo i) (.setTarget (fin t))))
    (q12 : ∀ j, n1 + 1 ≤ j → j < n2 → ∀ z, ev j ≠ .act z) (q23 : ∀ j, n2 + 1 ≤ j → j < n3 → ∀ z, ev j ≠ .act z) (q34 : ∀ j, n3 + 1 ≤ j → j < n4 → ∀ z, ev j ≠ .act z)
    (q45 : ∀ j, n4 + 1 ≤ j → j < n5 → ∀ z, ev j ≠ .act z) (q56 : ∀ j, n5 + 1 ≤ j → j < n6 → ∀ z, ev j ≠ .act z)
    (qn : ∀ j, n1 < j → j < n6 → ev j ≠ .next) : Fit ((σ (n6 + 1)).w.servos (armServo i)) := by
  -- where the accesses between the stores are
  have hall : ∀ j, n1 < j → j < n6 → ∀ z, ev j = .act z → j = n2 ∨ j = n3 ∨ j = n4 ∨ j = n5 := by
    intro j g1 g2 z hz
    by_contra hcon
    simp only [not_or] at hcon
    rcases Nat.lt_or_ge j n2 with g | g
    · exact q12 j (by omega) g z hz
    rcases Nat.lt_or_ge j n3 with g | g
    · exact q23 j (by omega) g z hz
    rcases Nat.lt_or_ge j n4 with g | g
    · exact q34 j (by omega) g z hz
    rcases Nat.lt_or_ge j n5 with g | g
    · exact q45 j (by omega) g z hz
    · exact q56 j (by omega) g2 z hz
  obtain ⟨m, em, hm⟩ := (hS n2).fast i
  -- the speed
  have ev6 : ((σ n6).w.servos (armServo i)).vel = fin (if m < |t - c| / τ then m else if |t - c| / τ ≤ 0 then 1 / 10 else |t - c| / τ) := by
    have ha : ((σ (n2 + 1)).w.servos (armServo i)).vel = fin (if m < |t - c| / τ then m else if |t - c| / τ ≤ 0 then 1 / 10 else |t - c| / τ) := by
      rw [servo_step h, e2]
      simp only [evServo, if_true, Servo.micro, em]
      exact clampVel_fin m _
    rw [← ha]
    refine proj_stays h Servo.vel (by omega) fun j g1 g2 => ?_
    cases hj : ev j with
    | isr =>
      have := (hS j).servos.all (armServo i)
      obtain ⟨_, ⟨u, eu⟩, _, ⟨st, es⟩, ⟨tg, et⟩⟩ := this
      simp only [evServo]
      rw [tick_fin _ st tg u 20 es et eu]
    | act z =>
      rcases hall j (by omega) g2 z hj with e | e | e | e
      · omega
      · rw [e, e3] at hj; injection hj with hj; subst hj; rfl
      · rw [e, e4] at hj; injection hj with hj; subst hj; simp [evServo, Servo.micro]
      · rw [e, e5] at hj; injection hj with hj; subst hj; simp [evServo, Servo.micro]
    | _ => rfl
  -- the rest of the record after the last store
  obtain ⟨a, ea, a1, a2⟩ := ((hS n6).servos.arm i).1.start
  have hlast : (σ (n6 + 1)).w.servos (armServo i) = { (σ n6).w.servos (armServo i) with target := fin t } := by
    rw [servo_step h, e6]; simp [evServo, Servo.micro]
  obtain ⟨t', et', t1, t2⟩ := ((hS (n6 + 1)).servos.arm i).1.target
  have : t' = t := by rw [hlast] at et'; injection et' with et'; exact et'.symm
  subst this
  have hab : |t' - a| ≤ 20 := by
    have := hr i
    exact abs_le.2 ⟨by linarith, by linarith⟩
  rw [hlast]
  by_cases g1 : m < |t' - c| / τ
  · rw [if_pos g1] at ev6
    exact ⟨a, t', m, ea, rfl, ev6, by linarith, by unfold T; linarith⟩
  rw [if_neg g1] at ev6
  by_cases g2 : |t' - c| / τ ≤ 0
  · rw [if_pos g2] at ev6
    exact ⟨a, t', 1 / 10, ea, rfl, ev6, by norm_num, by unfold T; linarith⟩
  rw [if_neg g2] at ev6
  rw [not_le] at g2
  by_cases g3 : 1/1000 ≤ |t' - c| / τ
  · exact ⟨a, t', _, ea, rfl, ev6, g2, by unfold T; linarith⟩
  · rw [not_le] at g3
    -- a slow servo: nothing moved it between the readings
    have hno := hu i x _ _ n1 n2 n6 o12 (by omega) g2 g3 e1 e2 e6 (fun j k1 k2 => q12 j (by omega) k2) (fun j k1 k2 z hz => by
      rcases hall j (by omega) k2 z hz with e | e | e | e
      · omega
      · rw [e, e3] at hz; injection hz with hz; exact .inl ⟨y, hz.symm⟩
      · rw [e, e4] at hz; injection hz with hz; exact .inr (.inl ⟨_, hz.symm⟩)
      · rw [e, e5] at hz; injection hz with hz; exact .inr (.inr hz.symm)) qn
    have ex := h.read e1
    have ey := h.read e3
    have hcur : y.cur = x.cur := by
      rw [ex, ey]
      refine proj_stays h Servo.cur (by omega) fun j k1 k2 => ?_
      cases hj : ev j with
      | isr =>
        rcases Nat.eq_or_lt_of_le k1 with rfl | k1
        · rw [e1] at hj; cases hj
        · exact absurd hj (hno j k1 (by omega))
      | act z =>
        rcases Nat.eq_or_lt_of_le k1 with rfl | k1
        · rw [e1] at hj; injection hj with hj; subst hj; rfl
        · rcases hall j k1 (by omega) z hj with e | e | e | e
          · rw [e, e2] at hj; injection hj with hj; subst hj; simp [evServo, Servo.micro]
          all_goals omega
      | _ => rfl
    have hstart : ((σ n6).w.servos (armServo i)).start = fin c := by
      have ha : ((σ (n4 + 1)).w.servos (armServo i)).start = fin c := by
        rw [servo_step h, e4]
        simp only [evServo, if_true, Servo.micro]
        rw [hcur, hc]
      rw [← ha]
      refine proj_stays h Servo.start (by omega) fun j k1 k2 => ?_
      cases hj : ev j with
      | isr => exact absurd hj (hno j (by omega) k2)
      | act z =>
        rcases hall j (by omega) k2 z hj with e | e | e | e
        · omega
        · omega
        · omega
        · rw [e, e5] at hj; injection hj with hj; subst hj; simp [evServo, Servo.micro]
      | _ => rfl
    refine ⟨c, t', _, hstart, rfl, ev6, g2, ?_⟩
    rw [div_mul_eq_mul_div, le_div_iff₀ h0]
    exact mul_le_mul_of_nonneg_left h1 (abs_nonneg _)

/-- a sequence of commands leaves the servos fit. -/
theorem fit_blocks (hS : ∀ n, Servos2 lo hi (σ n).w) (hr : ∀ i, -10 ≤ lo i ∧ hi i ≤ 10) (hu : Undivided ev) {l : List (Act XR)} (hl : Blocks l) {a k : ℕ}
    (he : acts (span ev a k) = l) (hx : ∀ j, a ≤ j → j < a + k → ev j ≠ .next) (i : Fin 6) (hf : Fit ((σ a).w.servos (armServo i))) : Fit ((σ (a + k)).w.servos (armServo i)) := by
  induction hl generalizing a k with
  | nil => exact fit_stays h (by omega) (fun j h1 h2 m => no_act he j h1 h2 _) hf
  | @plain x l hp _ ih =>
    obtain ⟨n, h1, h2, h3, h4, h5⟩ := next_act he
    have := ih h5 (fun j g1 g2 => hx j (by omega) (by omega)) (fit_stays h (by omega) (fun j g1 g2 m => ?_) hf)
    · rwa [show n + 1 + (a + k - (n + 1)) = a + k by omega] at this
    · rcases Nat.lt_or_ge j n with g | g
      · exact h4 j g1 g _
      · rw [show j = n by omega, h3]; intro e; injection e with e; exact hp i m e
  | @command g l hg _ ih =>
    obtain ⟨i', x, y, c, t, τ, hc, h0, h1, rfl⟩ := hg
    obtain ⟨n1, a1, b1, e1, q1, r1⟩ := next_act he
    obtain ⟨n2, a2, b2, e2, q2, r2⟩ := next_act r1
    obtain ⟨n3, a3, b3, e3, q3, r3⟩ := next_act r2
    obtain ⟨n4, a4, b4, e4, q4, r4⟩ := next_act r3
    obtain ⟨n5, a5, b5, e5, q5, r5⟩ := next_act r4
    obtain ⟨n6, a6, b6, e6, q6, r6⟩ := next_act r5
    have key : Fit ((σ (n6 + 1)).w.servos (armServo i)) := by
      by_cases hi : i = i'
      · subst hi
        exact fit_command h hS hr hu hc h0 h1 (by omega) (by omega) (by omega) (by omega) (by omega) e1 e2 e3 e4 e5 e6 q2 q3 q4 q5 q6
          fun j g1 g2 => hx j (by omega) (by omega)
      · refine fit_stays h (by omega) (fun j g1 g2 m hm => ?_) hf
        have hne : armServo i ≠ armServo i' := fun e => hi (armServo_inj e)
        rcases Nat.lt_or_ge j n1 with g | g
        · exact q1 j g1 g _ hm
        rcases Nat.eq_or_lt_of_le g with rfl | g
        · rw [e1] at hm; cases hm
        rcases Nat.lt_or_ge j n2 with g' | g'
        · exact q2 j (by omega) g' _ hm
        rcases Nat.eq_or_lt_of_le g' with rfl | g'
        · rw [e2] at hm; injection hm with hm; injection hm with hm; exact hne hm.symm
        rcases Nat.lt_or_ge j n3 with g' | g'
        · exact q3 j (by omega) g' _ hm
        rcases Nat.eq_or_lt_of_le g' with rfl | g'
        · rw [e3] at hm; cases hm
        rcases Nat.lt_or_ge j n4 with g' | g'
        · exact q4 j (by omega) g' _ hm
        rcases Nat.eq_or_lt_of_le g' with rfl | g'
        · rw [e4] at hm; injection hm with hm; injection hm with hm; exact hne hm.symm
        rcases Nat.lt_or_ge j n5 with g' | g'
        · exact q5 j (by omega) g' _ hm
        rcases Nat.eq_or_lt_of_le g' with rfl | g'
        · rw [e5] at hm; injection hm with hm; injection hm with hm; exact hne hm.symm
        rcases Nat.lt_or_ge j n6 with g' | g'
        · exact q6 j (by omega) g' _ hm
        · rw [show j = n6 by omega, e6] at hm; injection hm with hm; injection hm with hm; exact hne hm.symm
    have := ih r6 (fun j g1 g2 => hx j (by omega) (by omega)) key
    rwa [show n6 + 1 + (n5 + 1 + (n4 + 1 + (n3 + 1 + (n2 + 1 + (n1 + 1 + (a + k - (n1 + 1)) - (n2 + 1)) - (n3 + 1)) - (n4 + 1)) - (n5 + 1)) - (n6 + 1)) = a + k by omega] at this
end

/-- the accesses of a pass. -/
theorem pass_blocks (C : Compact cfg.toRCfg lo hi) (H : RobotFin cfg.toRCfg lo hi) {s s' : FW XR} {tr : List (Act XR)} (hx : Exec (loopBody cfg s) tr (.ret s'))
    (hc : CoreBrisk s.core) (hE : ∀ a ∈ tr, E2 lo hi a) : Blocks tr := by
  unfold loopBody at hx
  simp only [bind_def] at hx
  obtain ⟨a, t1, u, rfl, h1, hx⟩ := exec_bind_ret hx
  obtain ⟨b, t2, u, rfl, h2, hx⟩ := exec_bind_ret hx
  obtain ⟨s2, t3, u, rfl, h3, hx⟩ := exec_bind_ret hx
  obtain ⟨c3, t4, t5, rfl, h4, h5⟩ := exec_bind_ret hx
  obtain ⟨r1, t1', u1, rfl, k1, h1'⟩ := exec_bind_ret h1
  obtain ⟨rfl, e1⟩ := exec_ret h1'
  have e1 : a = { s with core := { s.core with rc := r1 } } := by simpa using e1
  subst e1
  obtain ⟨r2, t2', u2, rfl, k2, h2'⟩ := exec_bind_ret h2
  obtain ⟨rfl, e2⟩ := exec_ret h2'
  obtain ⟨b1, f1, g1⟩ := process_blocks C H hc.1.1 hc.2 k1 fun a ha => hE a (by simp [ha])
  obtain ⟨b2, f2, g2⟩ := process_blocks C H f1 g1 k2 fun a ha => hE a (by simp [ha])
  have p3 : Blocks t3 := blocks_plain fun x hx i m => (only_exec h3 (serial_arm cfg SERIAL_BYTES _)).1 x hx i m
  have p4 : Blocks t4 := blocks_plain fun x hx i m he => by
    have := (only_exec h4 (mrilProcess_only _)).1 x hx
    rw [he] at this; exact this
  have p5 : Blocks t5 := blocks_plain fun x hx i m => (only_exec h5 (process_arm cfg _)).1 x hx i m
  exact (b1.append .nil).append ((b2.append .nil).append (p3.append (p4.append p5)))

/-- between two passes all arm servos are fit. -/
theorem fit_between (C : Compact cfg.toRCfg lo hi) (H : RobotFin cfg.toRCfg lo hi) (hm : cfg.pinMap.length = 10) (h0 : Servos2 lo hi w0)
    (hf0 : ∀ i, Fit (w0.servos (armServo i))) (hmem : Program BriskInstr w0.ee) (h : Endless cfg w0 junk σ ev) (hc : ∀ n, BrisklySent (w0.rxq ++ arrivals (sofar ev n)))
    (hu : Undivided ev) (n : ℕ) : ∀ s, Between σ n s → ∀ i, Fit ((σ n).w.servos (armServo i)) := by
  have hrun := fun n => brisk_run C H hm h0 hmem (h.run n) (hc n)
  have hS := fun n => (hrun n).1
  have hE : ∀ n x, ev n = .act x → E2 lo hi x := by
    intro n x hx
    cases x with
    | servo i s =>
      have := h.read hx
      subst this
      refine ⟨⟨((hS n).servos.all i).cur, fun j e => by
        subst e
        exact ⟨((hS n).servos.arm j).1.minA, ((hS n).servos.arm j).1.maxA, ((hS n).servos.arm j).1.cur, ((hS n).servos.arm j).2⟩⟩, fun j s e => by
        injection e with e1 e2; subst e1; subst e2; exact (hS n).fast j⟩
    | _ => exact ⟨trivial, fun j s e => by cases e⟩
  induction n using Nat.strong_induction_on with
  | _ n ih =>
    intro s hs i
    rcases last_next ev n with ⟨a, h1, h2, h3⟩ | h1
    · obtain ⟨s0, hb, hp, hw⟩ := h.atNext h2
      have hfa := ih a h1 s0 hb i
      have hx := h.exec (a + 1) (n - (a + 1)) fun j g1 g2 => h3 j (by omega) (by omega)
      rw [hp, show a + 1 + (n - (a + 1)) = n by omega, show (σ n).p = .ret s from hs] at hx
      have hbl := pass_blocks C H hx ((hrun a).2.1 s0 hb) fun x hx => by
        obtain ⟨j, _, _, e⟩ := mem_span.1 (acts_mem.1 hx)
        exact hE j x e
      have := fit_blocks h hS C.range hu hbl rfl (fun j g1 g2 => h3 j (by omega) (by omega)) i (by rw [hw]; exact hfa)
      rwa [show a + 1 + (n - (a + 1)) = n by omega] at this
    · have hx := h.exec 0 n fun j g1 g2 => h1 j (by omega)
      rw [h.boot] at hx
      have ho : (setup cfg junk).only (fun a : Act XR => ∀ i m, a ≠ .micro i m) (fun _ => True) := by
        simp only [setup, RC.new, RC.getCurrentPose, RC.getCurrentLogicalAngles, RC.readAngles, readServo, bind_def, pure_def, Prog.bind, Prog.only]
        simp
      have hno := (only_exec hx ho).1
      have hfz : Fit ((σ 0).w.servos (armServo i)) := by rw [h.boot]; exact hf0 i
      refine fit_stays h (Nat.zero_le n) (fun j g1 g2 m e => ?_) hfz
      exact hno _ (acts_mem.2 (mem_span.2 ⟨j, g1, by omega, e⟩)) _ m rfl

end Mrc.Brisk
