import Verif.Proof.Angles
import Verif.Props.LivenessR
import Verif.Props.Joints
/-
C104: the kit in binary32 with a host that moves it by joint angles only: no undefined behaviour, no NaN for an arm servo, servos within
their ranges, and (with C77-C95) the instructions are executed.
-/
set_option linter.unusedSectionVars false
set_option linter.unusedSimpArgs false
set_option maxRecDepth 100000
namespace Mrc.Props
open Mrc Mrc.Prog Mrc.Spec Mrc.Demo Mrc.Ang XR
open scoped Mrc.Num
variable [L : RX.Libm binary32]

theorem eps4 : 0 < binary32.rnd (1/10000) := by
  have := (b32_bounds (x := 1/10000) (by norm_num)).1
  norm_num at this ⊢
  linarith

/-- the numbers of the kit. -/
theorem kit_numbers : ∃ (l h : Fin 6 → ℝ), (∀ i, (deg (Kit.minDeg (armServo i)) : F32).val = fin (l i)) ∧ (∀ i, (deg (Kit.maxDeg (armServo i)) : F32).val = fin (h i)) ∧
    (∀ i, |l i| ≤ 4) ∧ (∀ i, |h i| ≤ 4) ∧ (∀ i, l i ≤ 0) ∧ (∀ i, 0 ≤ h i) ∧ ∃ v : ℝ, 0 ≤ v ∧ ∀ i, (deg (Kit.velDeg (armServo i)) : F32).val = fin v := by
  have hpi0 := Real.two_le_pi
  have hpi1 := Real.pi_le_four
  choose lo hi v k1 k2 k3 k4 k5 k6 k7 k8 k9 using kit_ints
  choose l el hl using fun i => deg32 (lo i) (by have := k4 i; have := k5 i; rw [abs_le]; constructor <;> omega)
  choose h eh hh using fun i => deg32 (hi i) (by have := k6 i; have := k7 i; rw [abs_le]; constructor <;> omega)
  obtain ⟨vr, ev, hv⟩ := deg32 300 (by norm_num)
  have c4 : ∀ i, (-140 : ℝ) ≤ lo i := fun i => by exact_mod_cast k4 i
  have c5 : ∀ i, (lo i : ℝ) ≤ -45 := fun i => by exact_mod_cast k5 i
  have c6 : ∀ i, (15 : ℝ) ≤ hi i := fun i => by exact_mod_cast k6 i
  have c7 : ∀ i, (hi i : ℝ) ≤ 135 := fun i => by exact_mod_cast k7 i
  refine ⟨l, h, fun i => by rw [k1]; exact el i, fun i => by rw [k2]; exact eh i, fun i => ?_, fun i => ?_, fun i => ?_, fun i => ?_, vr, ?_, fun i => by rw [k3, k8]; exact ev⟩
  · have := (abs_le.1 (hl i))
    have := c4 i
    have := c5 i
    rw [abs_le]; constructor <;> nlinarith
  · have := (abs_le.1 (hh i))
    have := c6 i
    have := c7 i
    rw [abs_le]; constructor <;> nlinarith
  · have := (abs_le.1 (hl i)).2
    have := c5 i
    nlinarith
  · have := (abs_le.1 (hh i)).1
    have := c6 i
    nlinarith
  · have := (abs_le.1 hv).1
    push_cast at this
    nlinarith

/-- the kit's couplings and limits, with any kinematics. -/
structure KitAngles (cfg : Cfg F32) : Prop where
  lo : ∀ i, cfg.lo i = deg (Kit.minDeg (armServo i))
  hi : ∀ i, cfg.hi i = deg (Kit.maxDeg (armServo i))
  l2p : cfg.l2p = Kit.l2p
  p2l : cfg.p2l = Kit.p2l
  pins : cfg.pinMap.length = 10

theorem kit_angleRobot {cfg : Cfg F32} (hk : KitAngles cfg) {l h : Fin 6 → ℝ} (el : ∀ i, (deg (Kit.minDeg (armServo i)) : F32).val = fin (l i))
    (eh : ∀ i, (deg (Kit.maxDeg (armServo i)) : F32).val = fin (h i)) (hl : ∀ i, |l i| ≤ 4) (hh : ∀ i, |h i| ≤ 4) : AngleRobot cfg.toRCfg l h 4 where
  lo i := ⟨l i, by rw [hk.lo]; exact el i, by linarith [hl i]⟩
  hi i := ⟨h i, by rw [hk.hi]; exact eh i, by linarith [hh i]⟩
  l2p a ha i := by
    rw [hk.l2p]
    unfold Kit.l2p
    refine upd_nn (fun i => (ha i).nn) _ ?_ i
    obtain ⟨x, ex, _⟩ := ha 2
    obtain ⟨y, ey, _⟩ := ha 1
    show binary32.post (XR.add (a 2).val (a 1).val) ≠ nan
    rw [ex, ey]
    exact post_nn (fun h => by cases h)
  p2l a ha i := by
    rw [hk.p2l]
    have hS := slack32
    have hb : ∀ i, FinB 5 (a i) := fun i => by
      obtain ⟨x, e, x1, x2⟩ := ha i
      have := abs_le.1 (hl i)
      have := abs_le.1 (hh i)
      exact ⟨x, e, abs_le.2 ⟨by linarith, by linarith⟩⟩
    unfold Kit.p2l RC.upd
    split
    · obtain ⟨x, ex, hx⟩ := hb 2
      obtain ⟨y, ey, hy⟩ := hb 1
      have hxy := abs_sub x y
      have hbig := b32_big
      refine ⟨binary32.rnd (x - y), ?_, ?_⟩
      · rw [RX.sub_val, ex, ey, RX.sub_fin, binary32.post_fin]
        norm_num at hbig ⊢
        linarith
      · have h1 := abs_le.1 (b32_err (x - y))
        have h2 := abs_le.1 (show |x - y| ≤ 10 by linarith)
        rw [abs_le]; constructor <;> norm_num at h1 ⊢ <;> linarith [h1.1, h1.2]
    · obtain ⟨x, ex, hx⟩ := hb i
      exact ⟨x, ex, by linarith⟩

section
variable {cfg : Cfg F32} {w0 : World F32} {junk : Nat → Byte} {evs : List (Ev F32)} {s : Sys F32}

theorem kit_angle_run (hk : KitAngles cfg) (hw : w0.servos = Kit.servos) (hmem : ∃ L, StoredProgram w0.ee L ∧ ∀ m ∈ L, SafeText 0 m ∧ AngleText m)
    (hr : Sys.Run cfg w0 junk evs s) (hc : LegiblySent (w0.rxq ++ arrivals evs)) (ha : ∀ p ∈ decode (w0.rxq ++ arrivals evs), AngleFrame (frame p)) :
    (∀ f, s.p ≠ .fault f) ∧ ∃ l h : Fin 6 → ℝ, ∀ i m, Act.micro (armServo i) m ∈ acts evs → goodMicroRX (l i) (h i) 4 m := by
  obtain ⟨l, h, el, eh, hl, hh, l0, h0, v, v0, ev⟩ := kit_numbers
  have hS := binary32.slack_nonneg (show (0 : ℝ) ≤ 4 by norm_num)
  have key := angle_run hk.pins (w0 := w0) (junk := junk) (l := l) (h := h) (M := 4) eps4 (kit_angleRobot hk el eh hl hh) (by norm_num) hl hh (fun i => ?_) (program_of hmem) hr (clean_of_angle hc ha)
  · exact ⟨key.1, l, h, key.2⟩
  · rw [hw]
    have hz : InRX (l i - binary32.slack 4) (h i + binary32.slack 4) (lit 0 : F32) := ⟨0, zero_val, by linarith [l0 i], by linarith [h0 i]⟩
    exact ⟨⟨el i, eh i, ⟨v, ev i, v0⟩, ⟨v, ev i, v0⟩, hz, hz, 0, zero_val, l0 i, h0 i⟩, rfl, rfl⟩

/-- **C104**: the robot kit in binary32, with any libm and any kinematics (the poses do not matter). A host sends any legible frames; the instructions in them
move the arm by joint angles only (no X, Y, Z, A, B, C with a value; "M0" with every move), their numbers are written with digits, '.' and '-'
in any order and of any size; speeds may be zero or negative; the same holds for the stored program. Then, whatever the timing, the inputs and
the interrupts: nothing undefined happens, and the firmware never stores a NaN as target angle or speed of an arm servo. -/
theorem C104_numbers (hk : KitAngles cfg) (hw : w0.servos = Kit.servos) (hmem : ∃ L, StoredProgram w0.ee L ∧ ∀ m ∈ L, SafeText 0 m ∧ AngleText m)
    (hr : Sys.Run cfg w0 junk evs s) (hc : LegiblySent (w0.rxq ++ arrivals evs)) (ha : ∀ p ∈ decode (w0.rxq ++ arrivals evs), AngleFrame (frame p)) :
    (∀ f, s.p ≠ .fault f) ∧ ∀ i x, x.val = nan → Act.micro (armServo i) (.setTarget x) ∉ acts evs ∧ Act.micro (armServo i) (.setVel x) ∉ acts evs := by
  obtain ⟨h1, l, h, h2⟩ := kit_angle_run hk hw hmem hr hc ha
  refine ⟨h1, fun i x hx => ⟨fun hi => ?_, fun hi => ?_⟩⟩
  · obtain ⟨t, e, _⟩ := h2 i _ hi
    rw [hx] at e; cases e
  · exact h2 i _ hi hx

/-- **C104/2**: and every arm servo stays within its configured angles up to a hundred-thousandth of a radian, its pulse width within the
calibration (at most one µs below the smaller value). -/
theorem C104_range (hk : KitAngles cfg) (hw : w0.servos = Kit.servos) (hmem : ∃ L, StoredProgram w0.ee L ∧ ∀ m ∈ L, SafeText 0 m ∧ AngleText m)
    (hr : Sys.Run cfg w0 junk evs s) (hc : LegiblySent (w0.rxq ++ arrivals evs)) (ha : ∀ p ∈ decode (w0.rxq ++ arrivals evs), AngleFrame (frame p)) (i : Fin 6) :
    (∃ x : ℝ, (s.w.servos (armServo i)).cur.val = fin x ∧ (Kit.minDeg (armServo i) : ℝ) * (Real.pi / 180) - 1 / 100000 ≤ x ∧
      x ≤ (Kit.maxDeg (armServo i) : ℝ) * (Real.pi / 180) + 1 / 100000) ∧
    ∃ p, (s.w.servos (armServo i)).pulse = some p ∧ min ((Kit.freq (armServo i)).1 : ℤ) (Kit.freq (armServo i)).2 - 1 ≤ p ∧
      p ≤ max ((Kit.freq (armServo i)).1 : ℤ) (Kit.freq (armServo i)).2 :=
  C62_kit_rounded hw hr (fun i => (C104_numbers hk hw hmem hr hc ha).2 i nanRX rfl) i
end

/-- what remains of the assumptions of C77/4 ff. (`Kit32`) for such a host: the speeds. -/
theorem kit32_angles {cfg : Cfg F32} {w0 : World F32} {junk : Nat → Byte} {σ : ℕ → Sys F32} {ev : ℕ → Ev F32} (hk : KitAngles cfg) (hw : w0.servos = Kit.servos)
    (hrun : Endless cfg w0 junk σ ev) (hsq : SqrtNonneg binary32) (hmem : ∃ L, StoredProgram w0.ee L ∧ ∀ m ∈ L, SafeText 0 m ∧ AngleText m)
    (hc : ∀ n, LegiblySent (w0.rxq ++ arrivals (sofar ev n))) (ha : ∀ n, ∀ p ∈ decode (w0.rxq ++ arrivals (sofar ev n)), AngleFrame (frame p))
    (hfast : ∀ n i v x, ev n = .act (.micro (armServo i) (.setVel v)) → v.val = fin x → x ≤ 0 ∨ 1/1000 ≤ x) : Kit32 cfg w0 junk σ ev where
  servos := hw
  run := hrun
  sqrt := hsq
  fast := hfast
  nums n i := by
    have key := (C104_numbers hk hw hmem (hrun.run (n + 1)) (hc (n + 1)) (ha (n + 1))).2 i nanRX rfl
    rw [sofar_succ, acts_append] at key
    refine ⟨fun e => key.1 ?_, fun e => key.2 ?_⟩ <;> rw [e] <;> simp [acts]

/-- **C104/3**: every numbered instruction such a host has started is reported, if it starts no immediate ones afterwards and no speed is positive and below 1/1000 rad/s. -/
theorem C104_reported {cfg : Cfg F32} {w0 : World F32} {junk : Nat → Byte} {σ : ℕ → Sys F32} {ev : ℕ → Ev F32} (hk : KitAngles cfg) (hw : w0.servos = Kit.servos)
    (hrun : Endless cfg w0 junk σ ev) (hf : Fair σ ev) (hsq : SqrtNonneg binary32) (hmem : ∃ L, StoredProgram w0.ee L ∧ ∀ m ∈ L, SafeText 0 m ∧ AngleText m)
    (hc : ∀ n, LegiblySent (w0.rxq ++ arrivals (sofar ev n))) (ha : ∀ n, ∀ p ∈ decode (w0.rxq ++ arrivals (sofar ev n)), AngleFrame (frame p))
    (hfast : ∀ n i v x, ev n = .act (.micro (armServo i) (.setVel v)) → v.val = fin x → x ≤ 0 ∨ 1/1000 ≤ x)
    {k : ℕ} {src : Src} {m : List Byte} {n : Int} (hs : ev k = .act (.out (.ghost src m))) (hsrc : src ≠ .immediate)
    (hm : Numbered m n) (hi : OnlyAsksNow ev (k + 1)) :
    ∃ j, k < j ∧ ev j = .act (.out (.msg (.n1 n))) ∧ ∀ i, k < i → i < j → ¬ Orders ev i :=
  C80_kit_rounded (kit32_angles hk hw hrun hsq hmem hc ha hfast) hs hsrc hm hi hf

/-! ### such a host -/

/-- joint angles, questions for the pose, speed zero and below, absurd numbers, missing numbers. -/
def angleStream : List Byte := str ":QN1M0V0R010.5R1-20\r:QV-5M0R099999999999X\r:QM0R2-.-5,3 R4 # X10\r:EM0O05R7.\r:QX"

theorem angleStream_sent : LegiblySent angleStream ∧ ∀ p ∈ decode angleStream, AngleFrame (frame p) := by
  have e : decode angleStream = [str "QN1M0V0R010.5R1-20", str "QV-5M0R099999999999X", str "QM0R2-.-5,3R4", str "EM0O05R7."] := by decide +kernel
  have e1 : frame (str "QN1M0V0R010.5R1-20") = .put (str "N1M0V0R010.5R1-20") := by decide +kernel
  have e2 : frame (str "QV-5M0R099999999999X") = .put (str "V-5M0R099999999999X") := by decide +kernel
  have e3 : frame (str "QM0R2-.-5,3R4") = .put (str "M0R2-.-5,3R4") := by decide +kernel
  have e4 : frame (str "EM0O05R7.") = .now (str "M0O05R7.") := by decide +kernel
  have h1 : SafeText 0 (str "N1M0V0R010.5R1-20") := by decide +kernel
  have h2 : SafeText 0 (str "V-5M0R099999999999X") := by decide +kernel
  have h3 : SafeText 0 (str "M0R2-.-5,3R4") := by decide +kernel
  have h4 : SafeText 10 (str "M0O05R7.") := by decide +kernel
  have j1 : AngleText (str "N1M0V0R010.5R1-20") := by decide +kernel
  have j2 : AngleText (str "V-5M0R099999999999X") := by decide +kernel
  have j3 : AngleText (str "M0R2-.-5,3R4") := by decide +kernel
  have j4 : AngleText (str "M0O05R7.") := by decide +kernel
  refine ⟨⟨by decide +kernel, by decide +kernel, ?_⟩, ?_⟩
  all_goals
    rw [e]
    intro p hp
    simp only [List.mem_cons, List.not_mem_nil, or_false] at hp
    rcases hp with rfl | rfl | rfl | rfl
  · rw [e1]; exact h1
  · rw [e2]; exact h2
  · rw [e3]; exact h3
  · rw [e4]; exact h4
  · rw [e1]; exact j1
  · rw [e2]; exact j2
  · rw [e3]; exact j3
  · rw [e4]; exact j4

/-- not such texts: a NaN, a pose. -/
example : ¬ AngleText (str "M0R0,N,A,N") ∧ ¬ AngleText (str "M0X10") ∧ ¬ AngleText (str "R010") := by decide +kernel

theorem kitAngles : KitAngles (Kit.cfg : Cfg F32) := ⟨fun _ => rfl, fun _ => rfl, rfl, rfl, rfl⟩

/-- the kit with this stream waiting, after any number of steps of the scheduler. -/
example (w0 : World F32) (hs : w0.servos = Kit.servos) (hw : w0.rxq = angleStream) (hee : w0.ee = fun _ => 0) (junk : Nat → Byte) (k : ℕ) :
    ∀ f, (steps (Kit.cfg : Cfg F32) k (⟨w0, setup Kit.cfg junk⟩, false)).2.1.p ≠ .fault f := by
  refine (C104_numbers kitAngles (w0 := w0) (junk := junk) hs ⟨[], ⟨by simp, by decide, ?_⟩, by simp⟩ (steps_run k (evs := []) _ .init) ?_ ?_).1
  · intro k b _ hb
    rw [hee]
    cases k with
    | zero => simpa using hb
    | succ k => simp at hb
  · rw [List.nil_append, steps_quiet, List.append_nil, hw]
    exact angleStream_sent.1
  · rw [List.nil_append, steps_quiet, List.append_nil, hw]
    exact angleStream_sent.2

end Mrc.Props
