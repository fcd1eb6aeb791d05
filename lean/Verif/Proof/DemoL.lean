import Verif.Proof.Schedule
/-
Endless runs of the kit's firmware (toy arithmetic), used only in examples.
-/
set_option linter.unusedSectionVars false
set_option linter.unusedSimpArgs false
namespace Mrc.Demo
open Mrc Mrc.Prog Mrc.Spec

theorem parts_toy : @Parts Rat toyFloat := by
  intro p q n h
  simp only [RC.linearSteps] at h
  split at h
  · rename_i d a hd ha
    injection h with h
    rw [← h]
    simp only [FloatOps.toInt] at hd ha
    split at hd
    · rename_i hb
      split at ha
      · rename_i hb2
        injection hd with hd
        injection ha with ha
        have h0 : (0 : Rat) ≤ @RC.distance Rat toyFloat p q := by
          show (0 : Rat) ≤ (q 0 - p 0) * (q 0 - p 0) + (q 1 - p 1) * (q 1 - p 1) + (q 2 - p 2) * (q 2 - p 2)
          have := mul_self_nonneg (q 0 - p 0)
          have := mul_self_nonneg (q 1 - p 1)
          have := mul_self_nonneg (q 2 - p 2)
          linarith
        have h1 : (1 : Rat) ≤ @RC.distance Rat toyFloat p q / (1/2) + 1 := by
          have := div_nonneg h0 (show (0 : Rat) ≤ 1/2 by norm_num)
          linarith
        have hd1 : 1 ≤ d := by
          rw [← hd]
          exact Rat.le_floor_iff.2 (by exact_mod_cast h1)
        have hd2 : d ≤ 2147483647 := by rw [← hd]; exact hb.2
        have ha2 : a ≤ 2147483647 := by rw [← ha]; exact hb2.2
        unfold u32OfInt
        split <;> omega
      · cases ha
    · cases hd
  · cases h

/-- a tick in toy arithmetic. -/
theorem tick_toy (s : Servo Rat) (dt : ℕ) :
    @Servo.tick Rat toyFloat s dt = (if |s.target - s.start| < |s.vel * (u32 (s.elapsed + dt) : ℕ) / 1000| then { s with elapsed := u32 (s.elapsed + dt), cur := s.target, start := s.target }
      else if s.start < s.target then { s with elapsed := u32 (s.elapsed + dt), cur := s.start + s.vel * (u32 (s.elapsed + dt) : ℕ) / 1000 }
      else { s with elapsed := u32 (s.elapsed + dt), cur := s.start - s.vel * (u32 (s.elapsed + dt) : ℕ) / 1000 }) := by
  have habs : ∀ x : Rat, (if x < 0 then -x else x) = |x| := by
    intro x; split
    · rename_i h; rw [abs_of_neg h]
    · rename_i h; rw [abs_of_nonneg (not_lt.1 h)]
  unfold Servo.tick
  simp only [fgt, flt, Servo.ofNat, lit, FloatOps.abs, FloatOps.lt, FloatOps.mul, FloatOps.div, FloatOps.sub, FloatOps.add, FloatOps.ofRat, decide_eq_true_eq, habs]
  rw [← habs (s.vel * _ / 1000)]
  rfl

/-- in toy arithmetic a servo arrives if its timer does not overflow before. -/
theorem settles_toy {s : Servo Rat} (hv : 0 < s.vel) (hd : |s.target - s.start| * 1000 < s.vel * 4294967276) : @Settles Rat toyFloat s := by
  let T : Servo Rat → Servo Rat := fun s => @Servo.tick Rat toyFloat s 20
  have there1 : ∀ (s : Servo Rat), s.start = s.target → (T s).start = (T s).target ∧ (T s).cur = (T s).target := by
    intro s g1
    simp only [T, tick_toy, g1, sub_self, abs_zero, lt_irrefl, if_false]
    split
    · exact ⟨rfl, rfl⟩
    · rename_i h
      have : s.vel * ((u32 (s.elapsed + 20) : ℕ) : Rat) / 1000 = 0 := by by_contra hne; exact h (abs_pos.2 hne)
      rw [this]; exact ⟨rfl, by simp⟩
  have there : ∀ k (s : Servo Rat), s.start = s.target → (T^[k + 1] s).cur = (T^[k + 1] s).target := by
    intro k
    induction k with
    | zero => intro s g1; exact (there1 s g1).2
    | succ k ih => intro s g1; rw [Function.iterate_succ_apply]; exact ih _ (there1 s g1).1
  -- one tick on the way
  have step : ∀ (s : Servo Rat), (T s).target = s.target ∧ (T s).vel = s.vel ∧ (T s).elapsed = u32 (s.elapsed + 20) ∧ ((T s).start = s.target ∨ (T s).start = s.start) := by
    intro s
    simp only [T, tick_toy]
    split
    · exact ⟨rfl, rfl, rfl, .inl rfl⟩
    · split <;> exact ⟨rfl, rfl, rfl, .inr rfl⟩
  have hit : ∀ (s : Servo Rat), |s.target - s.start| < |s.vel * (u32 (s.elapsed + 20) : ℕ) / 1000| → (T s).start = (T s).target := by
    intro s h; simp only [T, tick_toy, if_pos h]
  have go : ∀ j (s : Servo Rat), 0 < s.vel → |s.target - s.start| * 1000 < s.vel * 4294967276 → s.elapsed + 20 * j < 4294967276 → 4294967276 ≤ s.elapsed + 20 * (j + 1) →
      ∃ k, (T^[k] s).start = (T^[k] s).target := by
    intro j
    induction j with
    | zero =>
      intro s hv hd hlt hge
      refine ⟨1, hit s ?_⟩
      have eu : u32 (s.elapsed + 20) = s.elapsed + 20 := Nat.mod_eq_of_lt (by omega)
      have hge' : (4294967276 : Rat) ≤ ((s.elapsed + 20 : ℕ) : Rat) := by exact_mod_cast (by omega)
      rw [eu, abs_of_nonneg (a := s.vel * _ / 1000) (by positivity)]
      have := mul_le_mul_of_nonneg_left hge' hv.le
      linarith
    | succ j ih =>
      intro s hv hd hlt hge
      obtain ⟨g1, g2, g3, g4⟩ := step s
      have eu : u32 (s.elapsed + 20) = s.elapsed + 20 := Nat.mod_eq_of_lt (by omega)
      rcases g4 with g4 | g4
      · exact ⟨1, by show (T s).start = (T s).target; rw [g1, g4]⟩
      · obtain ⟨k, hk⟩ := ih (T s) (by rw [g2]; exact hv) (by rw [g1, g2, g4]; exact hd) (by rw [g3, eu]; omega) (by rw [g3, eu]; omega)
        exact ⟨k + 1, by rw [Function.iterate_succ_apply]; exact hk⟩
  have fin_ : (∃ k, (T^[k] s).start = (T^[k] s).target) → @Settles Rat toyFloat s := by
    rintro ⟨k, g1⟩
    refine ⟨k + 1, fun m hm => ?_⟩
    obtain ⟨d, rfl⟩ := Nat.exists_eq_add_of_le hm
    have e : (T^[k + 1 + d] s).cur = (T^[k + 1 + d] s).target := by
      rw [show k + 1 + d = (d + 1) + k by omega, Function.iterate_add_apply]
      exact there d _ g1
    have e : ((fun s => @Servo.tick Rat toyFloat s 20)^[k + 1 + d] s).cur = ((fun s => @Servo.tick Rat toyFloat s 20)^[k + 1 + d] s).target := e
    simp only [Servo.atTarget, e, flt, lit, FloatOps.abs, FloatOps.lt, FloatOps.sub, FloatOps.ofRat]
    norm_num
  apply fin_
  by_cases hlt : s.elapsed < 4294967276
  · exact go ((4294967275 - s.elapsed) / 20) s hv hd (by omega) (by omega)
  · obtain ⟨g1, g2, g3, g4⟩ := step s
    rcases g4 with g4 | g4
    · exact ⟨1, by show (T s).start = (T s).target; rw [g1, g4]⟩
    · by_cases hlt2 : u32 (s.elapsed + 20) < 4294967276
      · obtain ⟨k, hk⟩ := go ((4294967275 - (T s).elapsed) / 20) (T s) (by rw [g2]; exact hv) (by rw [g1, g2, g4]; exact hd) (by rw [g3]; omega) (by rw [g3]; omega)
        exact ⟨k + 1, by rw [Function.iterate_succ_apply]; exact hk⟩
      · refine ⟨1, hit s ?_⟩
        have hge' : (4294967276 : Rat) ≤ ((u32 (s.elapsed + 20) : ℕ) : Rat) := by exact_mod_cast (by omega)
        rw [abs_of_nonneg (a := s.vel * _ / 1000) (by positivity)]
        have := mul_le_mul_of_nonneg_left hge' hv.le
        linarith

theorem settles_tick {F : Type} [FloatOps F] {s : Servo F} (h : Settles s) : Settles (s.tick 20) := by
  obtain ⟨K, hK⟩ := h
  refine ⟨K, fun k hk => ?_⟩
  rw [← Function.iterate_succ_apply (fun s : Servo F => s.tick 20)]
  exact hK _ (by omega)

/-- the kit at power-up with the bytes `rx` on the line, storage erased, clock at 1 ms. -/
def boot (rx : String) : Sys Rat := ⟨demoWorld (@Kit.servos Rat toyFloat 0) (str rx), @setup Rat toyFloat (@Kit.cfg Rat toyFloat) fun _ => 0⟩
/-- its history under the fair scheduler. -/
def kσ (rx : String) : ℕ → Sys Rat := @hist Rat toyFloat (@Kit.cfg Rat toyFloat) (boot rx)
def kev (rx : String) : ℕ → Ev Rat := @evs Rat toyFloat (@Kit.cfg Rat toyFloat) (boot rx)
def kafter (rx : String) : ℕ → Sys Rat × Bool := @after Rat toyFloat (@Kit.cfg Rat toyFloat) (boot rx)
def kstep (x : Sys Rat × Bool) : Ev Rat × (Sys Rat × Bool) := @sched Rat toyFloat (@Kit.cfg Rat toyFloat) x

/-- test all of the next `k` steps. -/
def allFrom (t : Ev Rat → Sys Rat × Bool → Bool) : ℕ → Sys Rat × Bool → Bool
  | 0, _ => true
  | k + 1, x => match kstep x with | (e, y) => t e x && allFrom t k y

theorem allFrom_spec (t : Ev Rat → Sys Rat × Bool → Bool) (rx : String) (k : ℕ) : ∀ n0, allFrom t k (kafter rx n0) = true → ∀ n, n0 ≤ n → n < n0 + k → t (kev rx n) (kafter rx n) = true := by
  induction k with
  | zero => intro n0 _ n h1 h2; omega
  | succ k ih =>
    intro n0 h n h1 h2
    have h : (t (kev rx n0) (kafter rx n0) && allFrom t k (kstep (kafter rx n0)).2) = true := h
    rw [Bool.and_eq_true] at h
    rcases Nat.eq_or_lt_of_le h1 with rfl | h3
    · exact h.1
    · refine ih (n0 + 1) ?_ n h3 (by omega)
      have : kafter rx (n0 + 1) = (kstep (kafter rx n0)).2 := @after_succ Rat toyFloat _ _ _
      rw [this]; exact h.2

def noFault (x : Sys Rat × Bool) : Bool := match x.1.p with | .fault _ => false | _ => true
def servoOK (s : Servo Rat) : Bool := decide (0 < s.vel) && decide (|s.target - s.start| * 1000 < s.vel * 4294967276)
def quietEv : Ev Rat → Bool
  | .act (.rx (some _)) => false
  | .act (.out (.ghost .immediate _)) => false
  | _ => true
def isBegin : Ev Rat → Bool
  | .act (.out (.ghost _ _)) => true
  | _ => false
def armsOK (x : Sys Rat × Bool) : Bool := (List.finRange 6).all fun i => servoOK (x.1.w.servos (armServo i))
/-- calm at the end of a pass. -/
def calm? (x : Sys Rat × Bool) : Bool :=
  match x.1.p with
  | .ret s => decide (s.core.rc.state = .idle) && (s.mode != .queue || s.rb.getSize == 0) && s.mode != .eeprom && s.core.conds.isEmpty && s.core.waitUntil == 0 && x.1.w.rxq.isEmpty && x.1.w.now == 1 && x.1.w.ee 0 == 0
  | _ => false

/-- what the tests establish. -/
theorem kit_endless (rx : String) (n0 d : ℕ) (h1 : allFrom (fun _ x => noFault x) (n0 + d) (kafter rx 0) = true)
    (h2 : allFrom (fun e x => quietEv e && armsOK x) d (kafter rx n0) = true) (h3 : (calm? (kafter rx (n0 + d)) && armsOK (kafter rx (n0 + d))) = true) :
    @Endless Rat toyFloat (@Kit.cfg Rat toyFloat) (demoWorld (@Kit.servos Rat toyFloat 0) (str rx)) (fun _ => 0) (kσ rx) (kev rx) ∧
    (∀ n, n0 ≤ n → ∀ i, @Settles Rat toyFloat ((kσ rx n).w.servos (armServo i))) ∧ @Fair Rat (kσ rx) (kev rx) ∧
    (∀ n, n0 ≤ n → quietEv (kev rx n) = true) ∧ ∀ n, n0 + d ≤ n → ¬ Begins (kev rx) n := by
  letI := toyFloat
  rw [Bool.and_eq_true] at h3
  have hcalm : @StaysCalm Rat (kafter rx (n0 + d)) ∧ (kσ rx (n0 + d)).w.now = 1 ∧ ∃ s, (kσ rx (n0 + d)).p = .ret s := by
    have := h3.1
    unfold calm? at this
    split at this
    · rename_i s hp
      simp only [Bool.and_eq_true, decide_eq_true_eq, Bool.or_eq_true, bne_iff_ne, ne_eq, beq_iff_eq, List.isEmpty_iff] at this
      obtain ⟨⟨⟨⟨⟨⟨⟨a1, a2⟩, a3⟩, a4⟩, a5⟩, a6⟩, a7⟩, a8⟩ := this
      refine ⟨⟨a6, a8, ?_⟩, a7, s, hp⟩
      rw [hp]
      exact ⟨a1, fun hm => a2.resolve_left (fun h => h hm), a3, a4, a5⟩
    · cases this
  obtain ⟨hc, hnow, sN, hsN⟩ := hcalm
  have hstay := fun n hn => calm_after (@Kit.cfg Rat toyFloat) (boot rx) (N := n0 + d) hc n hn
  have hev := fun n (hn : n0 + d ≤ n) => (calm_sched (@Kit.cfg Rat toyFloat) _ (hstay n hn).1).2
  have hE : Endless (@Kit.cfg Rat toyFloat) (demoWorld (@Kit.servos Rat toyFloat 0) (str rx)) (fun _ => 0) (kσ rx) (kev rx) := by
    refine endless _ _ _ fun n f hf => ?_
    rcases Nat.lt_or_ge n (n0 + d) with hn | hn
    · have := allFrom_spec _ rx (n0 + d) 0 h1 n (by omega) (by omega)
      simp only [noFault] at this
      have hf : (kafter rx n).1.p = .fault f := hf
      rw [hf] at this; cases this
    · have := (hstay n hn).1.prog
      have hf : (after (@Kit.cfg Rat toyFloat) (boot rx) n).1.p = .fault f := hf
      rw [hf] at this; exact this
  have hset0 : ∀ n, armsOK (kafter rx n) = true → ∀ i, Settles ((kσ rx n).w.servos (armServo i)) := by
    intro n hn i
    have := List.all_eq_true.1 hn i (List.mem_finRange i)
    simp only [servoOK, Bool.and_eq_true, decide_eq_true_eq] at this
    exact settles_toy this.1 this.2
  have htest := fun n h4 h5 => allFrom_spec (fun e x => quietEv e && armsOK x) rx d n0 h2 n h4 h5
  refine ⟨hE, ?_, ?_, ?_, ?_⟩
  · intro n hn i
    rcases Nat.lt_or_ge n (n0 + d) with hn' | hn'
    · have := htest n hn hn'
      rw [Bool.and_eq_true] at this
      exact hset0 n this.2 i
    · induction n, hn' using Nat.le_induction with
      | base => exact hset0 _ h3.2 i
      | succ n hn' ih =>
        have ih := ih (by omega)
        rw [do_servos (hE.step n) (armServo i)]
        have hm := (hev n hn').2.2.1
        have hm : ∀ j m, kev rx n ≠ .act (.micro j m) := hm
        generalize kev rx n = e at hm
        match e, hm with
        | .isr, _ => exact settles_tick ih
        | .act (.micro j m), hm => exact absurd rfl (hm j m)
        | .act (.servo _ _), _ | .act (.now _), _ | .act (.pin _ _), _ | .act (.rx _), _ | .act (.eeRead _), _ | .act (.eeWrite _ _), _
        | .act (.out _), _ | .next, _ | .clock _, _ | .pins _, _ | .arrive _, _ => exact ih
  · intro n
    obtain ⟨a, ha, hn⟩ := hE.loops (n + (n0 + d))
    obtain ⟨s, hp⟩ := hE.pass hn
    refine ⟨a, _, s, by omega, hp, fun k hk _ => ?_⟩
    have hcs : Calm s := by
      have := (hstay a (by omega)).1.prog
      have hs : (after (@Kit.cfg Rat toyFloat) (boot rx) a).1.p = .ret s := hp.start
      rw [hs] at this; exact this
    obtain ⟨_, _, _, c4, c5⟩ := hcs
    refine ⟨fun c hc => absurd (c4 ▸ hc) (by simp), ?_⟩
    rw [c5]
    have : (kσ rx k).w.now = (kσ rx (n0 + d)).w.now := (hstay k (by omega)).2.1
    rw [this, hnow]; decide
  · intro n hn
    rcases Nat.lt_or_ge n (n0 + d) with hn' | hn'
    · have := htest n hn hn'
      rw [Bool.and_eq_true] at this
      exact this.1
    · obtain ⟨e1, e2, _⟩ := hev n hn'
      have e1 : ∀ src m, kev rx n ≠ .act (.out (.ghost src m)) := e1
      have e2 : ∀ b, kev rx n ≠ .act (.rx (some b)) := e2
      unfold quietEv
      split
      · rename_i b h; exact absurd h (e2 b)
      · rename_i m h; exact absurd h (e1 _ m)
      · rfl
  · rintro n hn ⟨src, m, h⟩
    exact (hev n hn).1 src m h

end Mrc.Demo
