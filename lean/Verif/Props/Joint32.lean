import Verif.Props.Brisk32
import Verif.Props.Told32
import Verif.Props.Waiting
/-
C107: the kit in binary32 with a host that moves the arm by joint angles and asks for no crawling speeds: liveness and total correctness from assumptions about the
host and the interrupts alone.
-/
set_option linter.unusedSimpArgs false
set_option linter.unusedSectionVars false
namespace Mrc.Props
open Mrc Mrc.Prog Mrc.Spec Mrc.Ang Mrc.Brisk32 XR
open scoped Mrc.Num
variable [L : RX.Libm binary32]

/-- the kit is not too large. -/
theorem kit_compact32 {cfg : Cfg F32} (hk : KitAngles cfg) {l h : Fin 6 → ℝ} (el : ∀ i, (deg (Kit.minDeg (armServo i)) : F32).val = fin (l i))
    (eh : ∀ i, (deg (Kit.maxDeg (armServo i)) : F32).val = fin (h i)) (hl : ∀ i, |l i| ≤ 4) (hh : ∀ i, |h i| ≤ 4) : Compact cfg.toRCfg l h where
  lo i := ⟨l i, by rw [hk.lo]; exact el i, by linarith [hl i]⟩
  hi i := ⟨h i, by rw [hk.hi]; exact eh i, by linarith [hh i]⟩
  l := hl
  h := hh
  p2l a ha i := by
    rw [hk.p2l]
    have hS := slack32
    have hb : ∀ i, FinB 5 (a i) := fun i => by
      obtain ⟨x, e, x1, x2⟩ := ha i
      have := abs_le.1 (hl i)
      have := abs_le.1 (hh i)
      exact ⟨x, e, abs_le.2 ⟨by linarith, by linarith⟩⟩
    unfold Kit.p2l RC.upd
    split
    · obtain ⟨x, ex, hx⟩ := hb 2
      obtain ⟨y, ey, hy⟩ := hb 1
      obtain ⟨z, ez, hz⟩ := sub_near ex ey (by linarith) (by linarith)
      have h1 := abs_le.1 hz
      have h2 := abs_le.1 (show |x - y| ≤ 10 by have := abs_sub x y; linarith)
      exact ⟨z, ez, abs_le.2 ⟨by linarith [h1.1], by linarith [h1.2]⟩⟩
    · obtain ⟨x, ex, hx⟩ := hb i
      exact ⟨x, ex, by linarith⟩

/-- the speed of the kit's servos. -/
theorem kit_speed : ∃ v : ℝ, 1/1000 ≤ v ∧ ∀ i, (deg (Kit.velDeg (armServo i)) : F32).val = fin v := by
  have hp := Real.two_le_pi
  choose lo hi v k1 k2 k3 k4 k5 k6 k7 k8 k9 using kit_ints
  obtain ⟨vr, ev, hv⟩ := deg32 300 (by norm_num)
  refine ⟨vr, ?_, fun i => by rw [k3, k8]; exact ev⟩
  have := (abs_le.1 hv).1
  push_cast at this
  nlinarith

theorem joint_angle_mem {w0 : World F32} (hmem : ∃ L, StoredProgram w0.ee L ∧ ∀ m ∈ L, SafeText 0 m ∧ JointText m) : ∃ L, StoredProgram w0.ee L ∧ ∀ m ∈ L, SafeText 0 m ∧ AngleText m := by
  obtain ⟨L, h1, h2⟩ := hmem
  exact ⟨L, h1, fun m hm => ⟨(h2 m hm).1, (h2 m hm).2.angles⟩⟩

theorem joint_angle_frame {f : Frame} (h : JointFrame f) : AngleFrame f := by
  cases f with
  | now m => exact JointText.angles h
  | put m => exact JointText.angles h
  | store m => exact JointText.angles h
  | free | clear | erase | empty => trivial

section
variable {cfg : Cfg F32} {w0 : World F32} {junk : Nat → Byte} {σ : ℕ → Sys F32} {ev : ℕ → Ev F32} (hk : KitAngles cfg) (hw : w0.servos = Kit.servos) (hrun : Endless cfg w0 junk σ ev)
  (hsq : SqrtNonneg binary32) (hmem : ∃ L, StoredProgram w0.ee L ∧ ∀ m ∈ L, SafeText 0 m ∧ JointText m) (hc : ∀ n, LegiblySent (w0.rxq ++ arrivals (sofar ev n)))
  (hj : ∀ n, ∀ p ∈ decode (w0.rxq ++ arrivals (sofar ev n)), JointFrame (frame p)) (hu : Undivided32 ev)
include hk hw hrun hmem hc hj hu

/-- the arm servos settle. -/
theorem joint_settles (n : ℕ) (s : FW F32) (hb : Between σ n s) (i : Fin 6) : Settles ((σ n).w.servos (armServo i)) := by
  obtain ⟨l, h, el, eh, hl, hh, l0, h0, _⟩ := kit_numbers
  obtain ⟨v, v0, ev'⟩ := kit_speed
  have hS := binary32.slack_nonneg (show (0 : ℝ) ≤ 4 by norm_num)
  refine (fit_between (kit_compact32 hk el eh hl hh) (kit_angleRobot hk el eh hl hh) hk.pins el eh ⟨fun i => ?_, fun i => ?_⟩ (fun i => ?_) (program_of hmem) hrun
    (fun n => clean_of_joint (hc n) (hj n)) hu n s hb i).settles
  · rw [hw]
    have hz : InRX (l i - binary32.slack 4) (h i + binary32.slack 4) (lit 0 : F32) := ⟨0, zero_val, by linarith [l0 i], by linarith [h0 i]⟩
    exact ⟨⟨el i, eh i, ⟨v, ev' i, by linarith⟩, ⟨v, ev' i, by linarith⟩, hz, hz, 0, zero_val, l0 i, h0 i⟩, rfl, rfl⟩
  · rw [hw]; exact ⟨v, ev' i, v0⟩
  · rw [hw]
    refine ⟨0, 0, v, zero_val, zero_val, ev' i, by linarith, ?_, ?_, .inl ?_⟩ <;> norm_num

include hsq

/-- **C107**: the robot kit in binary32 (any libm whose square roots are not negative, any kinematics), with a host that moves it by joint angles (C104) and never tells a
speed between 0 and 1/1000, and interrupts that do not divide the command of a servo that is given a positive speed below 1/1000 rad/s: the arm comes to rest whenever
no instruction begins any more. No assumption about the speeds the firmware computes. -/
theorem C107_rest (n0 : ℕ) (hq : ∀ n, n0 ≤ n → ¬ Orders ev n) :
    ∃ n1, n0 ≤ n1 ∧ ∀ n, n1 ≤ n → (∀ (i : Fin 6) m, ev n ≠ .act (.micro (armServo i) m)) ∧ (∀ i, ((σ n).w.servos (armServo i)).atTarget = true) ∧
      ∀ s, Between σ n s → s.core.rc.isMoving = false :=
  C77_rest hrun (parts_RX one32 hsq) n0 hq fun n s _ hb i => joint_settles hk hw hrun hmem hc hj hu n s hb i

section
variable (hf : Fair σ ev)
include hf

/-- **C107**, C80: every numbered instruction from queue or storage is reported as finished. -/
theorem C107_reported {k : ℕ} {src : Src} {m : List Byte} {n : Int} (hs : ev k = .act (.out (.ghost src m))) (hsrc : src ≠ .immediate) (hm : Numbered m n) (hi : OnlyAsksNow ev (k + 1)) :
    ∃ j, k < j ∧ ev j = .act (.out (.msg (.n1 n))) ∧ ∀ i, k < i → i < j → ¬ Orders ev i :=
  C80_reported hrun (parts_RX one32 hsq) hs hsrc hm hi hf fun n s _ hb i => joint_settles hk hw hrun hmem hc hj hu n s hb i

/-- **C107**, C79: the queue is worked off. -/
theorem C107_drained (q : List (List Byte)) {n0 : ℕ} (h1 : ∃ k ≤ n0, ev k = .next) (hsel : (view ev n0).sel = .queue) (hq : ∃ x, (view ev n0).queue = q ++ x)
    (hkq : KeepsQueue ev n0) (hi : OnlyAsksNow ev n0) : ∃ n, n0 ≤ n ∧ (view ev n).started = (view ev n0).started ++ q :=
  C79_drained hrun (parts_RX one32 hsq) hf q h1 hsel hq hkq hi fun n s _ hb i => joint_settles hk hw hrun hmem hc hj hu n s hb i

/-- **C107**, C90: everything a counting host has sent is executed. -/
theorem C107_executed (hh : ∀ n, CountingHost w0.rxq (sofar ev n)) (hq : ∀ n, QueueOnly (sent w0.rxq (sofar ev n))) (n : ℕ) :
    ∃ m, n ≤ m ∧ puts (sent w0.rxq (sofar ev n)) <+: (view ev m).started :=
  C90_executed hrun (parts_RX one32 hsq) hf hh hq (fun n s hb i => joint_settles hk hw hrun hmem hc hj hu n s hb i) n

/-- **C107**, C95: a stored program runs forever. -/
theorem C107_again {P : List (List Byte)} (h0 : StoredProgram w0.ee P) {n0 : ℕ} (h1 : ∃ k ≤ n0, ev k = .next) (hsel : (view ev n0).sel = .storage)
    (hL : 2 ≤ (program P (rxBytes (acts (sofar ev n0)))).length) (hks : KeepsStorage ev n0) (hi : OnlyAsksNow ev n0) {m : List Byte}
    (hm : m ∈ (program P (rxBytes (acts (sofar ev n0)))).tail) (n1 : ℕ) : ∃ n, n1 ≤ n ∧ ev n = .act (.out (.ghost .eeprom m)) :=
  C95_again hrun (parts_RX one32 hsq) (storedProgram_has h0) h1 hsel hL hks hi hf (fun n s _ hb i => joint_settles hk hw hrun hmem hc hj hu n s hb i) hm n1

/-- **C107**, C105: total correctness of a numbered move to six angles from the queue or the storage. -/
theorem C107_told {k : ℕ} {src : Src} {cs : List Cmd} (hs : ev k = .act (.out (.ghost src (text cs)))) (hsrc : src ≠ .immediate) (ht : TellsAngles cs) (hM : Chooses 48 cs) {n : Int}
    (hm : Numbered (text cs) n) {d : Fin 6 → Dec} (hd : ∀ i, Last NamesAngle cs i (d i)) (hfit : KitFitsBy (1 / 100000) fun i => radians (d i)) (hi : OnlyAsksNow ev (k + 1)) :
    ∃ j, k < j ∧ ev j = .act (.out (.msg (.n1 n))) ∧ (∀ i, k < i → i < j → ¬ Orders ev i) ∧
      ∃ b, SeenAt32 (acts ((sofar ev j).drop (k + 1))) b ∧ ∀ i, |kitLogical b i - radians (d i)| < 11 / 100000 := by
  obtain ⟨j, h1, h2, h3⟩ := C107_reported hk hw hrun hsq hmem hc hj hu hf hs hsrc hm hi
  exact ⟨j, h1, h2, h3, told32_at hk hw hrun (joint_angle_mem hmem) hc (fun n p hp => joint_angle_frame (hj n p hp)) hs hsrc ht hM hd hfit h1 h2 (undirected h3)⟩
end

/-! ### with a host that never makes the controller wait (C106) -/

section
variable (hq0 : QuickStorage w0.ee) (hnw : ∀ n, NeverWaits (w0.rxq ++ arrivals (sofar ev n))) (hclk : ClockRuns σ ev)
  (hh : ∀ n, CountingHost w0.rxq (sofar ev n)) (hq : ∀ n, QueueOnly (sent w0.rxq (sofar ev n)))
include hq0 hnw hclk hh hq

/-- **C107**: every numbered instruction a counting host sends to the queue is executed and reported as finished before any other begins. -/
theorem C107_sent {t : ℕ} {m : List Byte} (hm : m ∈ puts (sent w0.rxq (sofar ev t))) {n : Int} (hn : Numbered m n) :
    ∃ k j, ev k = .act (.out (.ghost .queue m)) ∧ k < j ∧ ev j = .act (.out (.msg (.n1 n))) ∧ ∀ i, k < i → i < j → ¬ Orders ev i := by
  have hf := C106_ready hrun hq0 hnw hclk
  obtain ⟨t', -, h1⟩ := C107_executed hk hw hrun hsq hmem hc hj hu hf hh hq t
  obtain ⟨k, -, hk'⟩ := started_event (h1.subset hm)
  obtain ⟨j, h2, h3, h4⟩ := C107_reported hk hw hrun hsq hmem hc hj hu hf hk' (by simp) hn fun i _ => queueOnly_noImmediate hrun hq i (by omega)
  exact ⟨k, j, hk', h2, h3, h4⟩

/-- **C107**: every numbered move to six angles (M0) within the ranges that a counting host sends to the queue is executed and reported as finished, and then the arm has been
seen at these angles, to 1.1e-4 radians. -/
theorem C107_sent_angles {t : ℕ} {cs : List Cmd} (hm : text cs ∈ puts (sent w0.rxq (sofar ev t))) (ht : TellsAngles cs) (hM : Chooses 48 cs) {n : Int} (hn : Numbered (text cs) n)
    {d : Fin 6 → Dec} (hd : ∀ i, Last NamesAngle cs i (d i)) (hfit : KitFitsBy (1 / 100000) fun i => radians (d i)) :
    ∃ k j, ev k = .act (.out (.ghost .queue (text cs))) ∧ k < j ∧ ev j = .act (.out (.msg (.n1 n))) ∧ (∀ i, k < i → i < j → ¬ Orders ev i) ∧
      ∃ b, SeenAt32 (acts ((sofar ev j).drop (k + 1))) b ∧ ∀ i, |kitLogical b i - radians (d i)| < 11 / 100000 := by
  have hf := C106_ready hrun hq0 hnw hclk
  obtain ⟨t', -, h1⟩ := C107_executed hk hw hrun hsq hmem hc hj hu hf hh hq t
  obtain ⟨k, -, hk'⟩ := started_event (h1.subset hm)
  obtain ⟨j, h2, h3, h4, h5⟩ := C107_told hk hw hrun hsq hmem hc hj hu hf hk' (by simp) ht hM hn hd hfit fun i _ => queueOnly_noImmediate hrun hq i (by omega)
  exact ⟨k, j, hk', h2, h3, h4, h5⟩
end
end

end Mrc.Props
