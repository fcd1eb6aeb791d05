import Verif.Proof.Careful
import Verif.Props.LivenessDemo
import Verif.Props.RoundTrip
/-
C81-C83: with a careful host the firmware never runs into undefined behaviour, all numbers stay finite, and safety and liveness hold without the
assumption about NaN. Over the exact numbers XR.
-/
set_option linter.unusedSimpArgs false
namespace Mrc.Props
open Mrc Mrc.Spec Mrc.Prog Mrc.Host Mrc.Kine XR
open scoped Mrc.Num

theorem holds_of_get {mem : EMem} {p : Nat} {bs : List Byte} (h : ∀ k b, bs[k]? = some b → mem (p + k) = b) : EE.Holds mem p bs := by
  induction bs generalizing p with
  | nil => trivial
  | cons b bs ih =>
    refine ⟨h 0 b rfl, ih fun k b hk => ?_⟩
    have := h (k + 1) b (by simpa using hk)
    rwa [show p + (k + 1) = p + 1 + k by omega] at this

theorem program_of {P : List Byte → Prop} {mem : EMem} (h : ∃ L, StoredProgram mem L ∧ ∀ m ∈ L, P m) : Program P mem := by
  obtain ⟨L, ⟨h1, h2, h3⟩, hc⟩ := h
  have hlen : (EE.enc L).length = eSize L := EE.enc_length L
  have h3 : ∀ k b, k < 2048 → (EE.enc L ++ [0])[k]? = some b → mem k = b := h3
  refine ⟨L, ⟨fun m hm => ⟨(h1 m hm).1, by have := (h1 m hm).2; omega⟩, ?_, h2, ?_⟩, fun m hm => ⟨(h1 m hm).2, hc m hm⟩⟩
  · apply holds_of_get
    intro k b hk
    rw [Nat.zero_add]
    have hlt : k < (EE.enc L).length := by
      by_contra hge
      rw [List.getElem?_eq_none (by omega)] at hk; cases hk
    refine h3 k b (by omega) ?_
    rw [List.getElem?_append_left hlt, hk]
  · rw [EE.read]
    split
    · rename_i hlt
      refine h3 _ _ hlt ?_
      rw [List.getElem?_append_right (by omega), hlen, Nat.sub_self]; rfl
    · rfl

theorem program_of_storage {mem : EMem} (h : CarefulStorage mem) : Program CarefulInstr mem := program_of h

theorem rot_entry {M : Mat3} (h : IsRotation M) (i j : Fin 3) : |M i j| ≤ 1 := by
  have h1 := congrFun (congrFun h.1 j) j
  simp only [Matrix.mul_apply, Matrix.transpose_apply, Fin.sum_univ_three, Matrix.one_apply_eq] at h1
  rw [← sq_le_one_iff_abs_le_one]
  fin_cases i <;> simp only [Fin.zero_eta, Fin.mk_one, Fin.reduceFinMk] <;> nlinarith [sq_nonneg (M 0 j), sq_nonneg (M 1 j), sq_nonneg (M 2 j)]

/-- the tool point is nowhere further away than the sum of all link coordinates. -/
theorem tool_near (G : Fin 5 → Vec3) (A : Fin 6 → ℝ) (i : Fin 3) : |jointPos G A 5 i| ≤ ∑ k, ∑ j, |G k j| := by
  have e : jointPos G A 5 i = ∑ k : Fin 5, ∑ j, linkFrame A k i j * G k j := by
    simp only [jointPos]
    rw [Finset.sum_apply]
    refine Finset.sum_congr rfl fun k _ => ?_
    rw [if_pos k.isLt]
    rfl
  rw [e]
  refine (Finset.abs_sum_le_sum_abs _ _).trans (Finset.sum_le_sum fun k _ => (Finset.abs_sum_le_sum_abs _ _).trans (Finset.sum_le_sum fun j _ => ?_))
  rw [abs_mul]
  exact mul_le_of_le_one_left (abs_nonneg _) (rot_entry (linkFrame_rot A k) i j)

/-- a six axis arm (any links of reasonable size) with couplings that give numbers for numbers. -/
theorem robotFin_arm {cfg : RCfg XR} {G : Fin 5 → Vec3} {lo hi : Fin 6 → ℝ} (hf : cfg.fwd = (Kin.new (finG G)).forward) (hi' : cfg.inv = (Kin.new (finG G)).inverse)
    (hu : 0 < upperLen G) (hl : 0 < foreLen G) (hs : ∑ k, ∑ j, |G k j| ≤ 100000000) (h1 : ∀ a, ∃ b, cfg.l2p (finS a) = finS b) (h2 : ∀ a, ∃ b, cfg.p2l (finS a) = finS b) :
    RobotFin cfg lo hi where
  fwd a := by
    rw [hf, forward_eq]
    refine ⟨_, rfl, fun i hi => ?_⟩
    have t := fun i => (tool_near G a i).trans hs
    match i, hi with
    | 0, _ => exact t 0
    | 1, _ => exact t 1
    | 2, _ => exact t 2
  inv p t h := by
    rw [hi'] at h
    by_cases hr : InReach G p
    · obtain ⟨A, hA, _⟩ := inverse_some hu hl hr
      rw [hA] at h; injection h with h
      exact ⟨A, h.symm⟩
    · rw [inverse_none hu hl hr] at h; cases h
  l2p a _ := h1 a
  p2l a _ := h2 a

theorem robotFin_kit (lo hi : Fin 6 → ℝ) : RobotFin (Kit.cfg : Cfg XR).toRCfg lo hi := by
  refine robotFin_arm (G := kitG) ?_ ?_ ?_ ?_ ?_ ?_ ?_
  · rw [kitG_eq]; rfl
  · rw [kitG_eq]; rfl
  · rw [kitG_upper]; norm_num
  · have := kitG_fore; linarith
  · simp [kitG, Fin.sum_univ_five, Fin.sum_univ_three, abs_of_pos]
    norm_num [abs_of_pos, abs_of_neg]
  · intro a
    refine ⟨fun i => if i = 2 then a 2 + a 1 else a i, ?_⟩
    funext i
    show Kit.l2p (finS a) i = _
    simp only [Kit.l2p, RC.upd, finS, fin_add]
    split <;> rfl
  · intro a
    refine ⟨fun i => if i = 2 then a 2 - a 1 else a i, ?_⟩
    funext i
    show Kit.p2l (finS a) i = _
    simp only [Kit.p2l, RC.upd, finS, fin_sub]
    split <;> rfl

theorem kit_servos {w0 : World XR} (hw : w0.servos = Kit.servos) :
    Servos (fun i => (Kit.minDeg (armServo i) : ℝ) * (Real.pi / 180)) (fun i => (Kit.maxDeg (armServo i) : ℝ) * (Real.pi / 180)) w0 := by
  refine ⟨fun i => ⟨?_, ?_⟩, fun i => ?_⟩
  · obtain ⟨pin, m, home, e, h⟩ := kit_ready w0 hw i
    rw [e]; exact goodServo_new h.1 h.2.1 h.2.2
  · rw [hw]
    refine ⟨(Kit.velDeg (armServo i) : ℝ) * (Real.pi / 180), by simp only [Kit.servos, deg_fin, Servo.new], ?_⟩
    have : (0 : ℝ) < (Kit.velDeg (armServo i) : ℝ) := by
      have : (0 : ℚ) < Kit.velDeg (armServo i) := by fin_cases i <;> decide
      exact_mod_cast this
    have := Real.pi_pos
    positivity
  · rw [hw]
    simp only [Kit.servos, deg_fin, lit]
    exact ⟨⟨_, rfl⟩, ⟨_, rfl⟩, ⟨_, rfl⟩, ⟨_, rfl⟩, ⟨_, rfl⟩⟩

/-- arm servos ready at power-up, and no number among the servo data that is not finite. -/
structure Ready (lo hi : Fin 6 → ℝ) (w0 : World XR) : Prop where
  arm : ∀ i, ∃ pin m f1 f2 home, w0.servos (armServo i) = Servo.new pin (fin m) f1 f2 (fin (lo i)) (fin (hi i)) (fin home) ∧ 0 < m ∧ lo i ≤ home ∧ home ≤ hi i
  other : ∀ i : Fin 8, 6 ≤ i.val → ∃ pin m f1 f2 a b home, w0.servos i = Servo.new pin (fin m) f1 f2 a b (fin home)

theorem Ready.servos {lo hi : Fin 6 → ℝ} {w0 : World XR} (h : Ready lo hi w0) : Servos lo hi w0 := by
  refine ⟨fun i => ?_, fun i => ?_⟩
  · obtain ⟨pin, m, f1, f2, home, e, hm, h1, h2⟩ := h.arm i
    rw [e]; exact ⟨goodServo_new hm.le h1 h2, m, rfl, hm⟩
  · by_cases hi : i.val < 6
    · obtain ⟨pin, m, f1, f2, home, e, -⟩ := h.arm ⟨i.val, hi⟩
      rw [show i = armServo ⟨i.val, hi⟩ from rfl, e]
      exact ⟨⟨_, rfl⟩, ⟨_, rfl⟩, ⟨_, rfl⟩, ⟨_, rfl⟩, ⟨_, rfl⟩⟩
    · obtain ⟨pin, m, f1, f2, a, b, home, e⟩ := h.other i (by omega)
      rw [e]
      exact ⟨⟨_, rfl⟩, ⟨_, rfl⟩, ⟨_, rfl⟩, ⟨_, rfl⟩, ⟨_, rfl⟩⟩

/-- **C81**: a careful host (frames that fit, existing axes and pins, decimal numbers, a speed that is not zero, at most ten input conditions, none in immediate
instructions) and a storage with careful instructions: whatever the timing, the inputs and the interrupts, at no point does the firmware access memory
outside its buffers, convert a number that does not fit or use an uninitialised one; it always goes on. -/
theorem C81_any {cfg : Cfg XR} {lo hi : Fin 6 → ℝ} (H : RobotFin cfg.toRCfg lo hi) (hm : cfg.pinMap.length = 10) {w0 : World XR} {junk : Nat → Byte} (h0 : Ready lo hi w0)
    (hmem : CarefulStorage w0.ee) {evs : List (Ev XR)} {s : Sys XR} (h : Sys.Run cfg w0 junk evs s) (hc : WellSent (w0.rxq ++ arrivals evs)) :
    (∀ f, s.p ≠ .fault f) ∧ (∀ i, IsFin (s.w.servos i).cur) ∧ (∀ i m, Act.micro i m ∈ acts evs → MicroFin m) ∧
      ∀ n ps, Act.out (.msg (.reply n ps)) ∈ acts evs → ∀ p ∈ ps, PartFin p := by
  obtain ⟨h1, h2, h3⟩ := careful_run H hm h0.servos (program_of_storage hmem) h hc
  exact ⟨h2, fun i => (h1.all i).cur, fun i m hm => (h3 _ hm rfl).1, fun n ps hm => h3 _ hm rfl⟩

/-- **C81** for the robot kit as configured. -/
theorem C81_kit {w0 : World XR} (hw : w0.servos = Kit.servos) {junk : Nat → Byte} (hmem : CarefulStorage w0.ee) {evs : List (Ev XR)} {s : Sys XR}
    (h : Sys.Run Kit.cfg w0 junk evs s) (hc : WellSent (w0.rxq ++ arrivals evs)) :
    (∀ f, s.p ≠ .fault f) ∧ (∀ i, IsFin (s.w.servos i).cur) ∧ (∀ i m, Act.micro i m ∈ acts evs → MicroFin m) ∧
      ∀ n ps, Act.out (.msg (.reply n ps)) ∈ acts evs → ∀ p ∈ ps, PartFin p := by
  obtain ⟨h1, h2, h3⟩ := careful_run (robotFin_kit _ _) rfl (kit_servos hw) (program_of_storage hmem) h hc
  exact ⟨h2, fun i => (h1.all i).cur, fun i m hm => (h3 _ hm rfl).1, fun n ps hm => h3 _ hm rfl⟩

/-- **C82**: with a careful host the arm servos of the kit never leave their ranges and their pulses never leave the calibrated widths — no assumption about NaN. -/
theorem C82_kit {w0 : World XR} (hw : w0.servos = Kit.servos) {junk : Nat → Byte} (hmem : CarefulStorage w0.ee) {evs : List (Ev XR)} {s : Sys XR}
    (h : Sys.Run Kit.cfg w0 junk evs s) (hc : WellSent (w0.rxq ++ arrivals evs)) (i : Fin 6) :
    (∃ x : ℝ, (s.w.servos (armServo i)).cur = fin (x * (Real.pi / 180)) ∧ Kit.minDeg (armServo i) ≤ x ∧ x ≤ Kit.maxDeg (armServo i)) ∧
    ∃ p, (s.w.servos (armServo i)).pulse = some p ∧ min ((Kit.freq (armServo i)).1 : ℤ) (Kit.freq (armServo i)).2 ≤ p ∧
      p ≤ max ((Kit.freq (armServo i)).1 : ℤ) (Kit.freq (armServo i)).2 := by
  have hf := (C81_kit hw hmem h hc).2.2.1
  refine C62_kit hw h (fun i => ⟨fun hm => ?_, fun hm => ?_⟩) i
  · obtain ⟨t, e⟩ := hf _ _ hm; cases e
  · obtain ⟨t, e⟩ := hf _ _ hm; cases e

/-- **C83**: with a careful host the arm of the kit comes to rest whenever no instruction begins any more, provided no positive speed below 1/1000 rad/s is ever
commanded — no assumption about NaN. -/
theorem C83_kit {w0 : World XR} (hw : w0.servos = Kit.servos) {junk : Nat → Byte} {σ : ℕ → Sys XR} {ev : ℕ → Ev XR} (h : Endless Kit.cfg w0 junk σ ev)
    (hmem : CarefulStorage w0.ee) (hc : ∀ n, WellSent (w0.rxq ++ arrivals (sofar ev n)))
    (hv : ∀ n i x, ev n = .act (.micro (armServo i) (.setVel (.fin x))) → x ≤ 0 ∨ 1/1000 ≤ x)
    (n0 : ℕ) (hq : ∀ n, n0 ≤ n → ¬ Orders ev n) :
    ∃ n1, n0 ≤ n1 ∧ ∀ n, n1 ≤ n → (∀ (i : Fin 6) m, ev n ≠ .act (.micro (armServo i) m)) ∧ (∀ i, ((σ n).w.servos (armServo i)).atTarget = true) ∧
      ∀ s, Between σ n s → s.core.rc.isMoving = false := by
  have hf : ∀ n i m, ev n = .act (.micro i m) → MicroFin m := fun n i m e => by
    refine (C81_kit hw hmem (h.run (n + 1)) (hc _)).2.2.1 i m ?_
    rw [acts_mem]
    exact List.mem_map.2 ⟨n, List.mem_range.2 (Nat.lt_succ_self n), e⟩
  refine C77_kit hw h (fun n i => ⟨fun e => ?_, fun e => ?_⟩) hv n0 hq
  · obtain ⟨t, e⟩ := hf _ _ _ e; cases e
  · obtain ⟨t, e⟩ := hf _ _ _ e; cases e

/-! ### the hypotheses can be met -/

/-- what a host sends to make the arm draw a line, read a position and switch an output. -/
def carefulStream : List Byte := str ":QN5V20M1X10.5Y-3Z25\r:QN6R0-45.5I31D100\r:EN7XR6\r:WO31D500O30\r:B\r:Q"

theorem careful_plain (c : Byte) (arg : List Byte) (h1 : (⟨c, arg⟩ : Cmd).Ok) (h2 : c ∉ str "XYZABCVRIO") : Careful ⟨c, arg⟩ := by
  refine ⟨h1, ?_, ?_, ?_, ?_, ?_⟩
  · rintro (rfl | rfl | rfl) <;> exact absurd (by decide) h2
  · rintro (rfl | rfl | rfl) <;> exact absurd (by decide) h2
  · rintro rfl; exact absurd (by decide) h2
  · rintro rfl; exact absurd (by decide) h2
  · rintro (rfl | rfl) <;> exact absurd (by decide) h2

theorem careful_number (c : Byte) (d : Dec) (h1 : (⟨c, d.text⟩ : Cmd).Ok) (hd : d.Ok) (hc : c = 88 ∨ c = 89 ∨ c = 90 ∨ c = 86) (h : -100000000 ≤ d.val ∧ d.val ≤ 100000000 ∧ d.val ≠ 0) :
    Careful ⟨c, d.text⟩ := by
  refine ⟨h1, fun _ => .inr ⟨d, hd, rfl, h.1, h.2.1⟩, fun _ => .inr ⟨d, hd, rfl, trivial⟩, fun _ => .inr ⟨d, hd, rfl, h.2.2⟩, ?_, ?_⟩
  · rintro rfl; simp at hc
  · rintro (rfl | rfl) <;> simp at hc

theorem careful_axis (o : Fin 10) (ho : o.val < 8) (d : Dec) (h1 : (⟨82, digitChar o :: d.text⟩ : Cmd).Ok) (hd : d.Ok) : Careful ⟨82, digitChar o :: d.text⟩ :=
  ⟨h1, by simp, by simp, by simp, fun _ => ⟨o, _, ho, rfl, .inr ⟨d, hd, rfl, trivial⟩⟩, by simp⟩

theorem careful_read (c : Byte) (h1 : (⟨c, []⟩ : Cmd).Ok) (hc : c ∉ str "RIO") : Careful ⟨c, []⟩ := by
  refine ⟨h1, fun _ => .inl rfl, fun _ => .inl rfl, fun _ => .inl rfl, ?_, ?_⟩
  · rintro rfl; exact absurd (by decide) hc
  · rintro (rfl | rfl) <;> exact absurd (by decide) hc

theorem careful_readAxis (o : Fin 10) (ho : o.val < 8) : Careful ⟨82, [digitChar o]⟩ :=
  ⟨⟨by simp, by revert o; decide, by simp⟩, by simp, by simp, by simp, fun _ => ⟨o, _, ho, rfl, .inl rfl⟩, by simp⟩

theorem careful_pin (c : Byte) (hc : c = 73 ∨ c = 79) (p st : Fin 10) : Careful ⟨c, [digitChar p, digitChar st]⟩ := by
  have ha : ∀ p st : Fin 10, ∀ b ∈ [digitChar p, digitChar st], argChar b = true := by decide
  refine ⟨⟨?_, ha p st, by simp⟩, ?_, ?_, ?_, ?_, fun _ => ⟨p, st, [], rfl⟩⟩ <;> rcases hc with rfl | rfl <;> simp

theorem carefulStream_wellSent : WellSent carefulStream := by
  refine ⟨by decide +kernel, by decide +kernel, ?_⟩
  have e : decode carefulStream = [str "QN5V20M1X10.5Y-3Z25", str "QN6R0-45.5I31D100", str "EN7XR6", str "WO31D500O30", str "B"] := by decide +kernel
  rw [e]
  intro p hp
  simp only [List.mem_cons, List.not_mem_nil, or_false] at hp
  rcases hp with rfl | rfl | rfl | rfl | rfl
  · refine ⟨[⟨78, str "5"⟩, ⟨86, Dec.text ⟨false, [2, 0], none⟩⟩, ⟨77, str "1"⟩, ⟨88, Dec.text ⟨false, [1, 0], some [5]⟩⟩, ⟨89, Dec.text ⟨true, [3], none⟩⟩,
      ⟨90, Dec.text ⟨false, [2, 5], none⟩⟩], by decide +kernel, ?_, by decide +kernel⟩
    intro c hc
    simp only [List.mem_cons, List.not_mem_nil, or_false] at hc
    rcases hc with rfl | rfl | rfl | rfl | rfl | rfl
    · exact careful_plain _ _ ⟨by decide, by decide, by decide⟩ (by decide)
    · exact careful_number _ _ ⟨by decide, by decide, by decide⟩ (.inl (by decide)) (by decide) (by decide +kernel)
    · exact careful_plain _ _ ⟨by decide, by decide, by decide⟩ (by decide)
    · exact careful_number _ _ ⟨by decide, by decide, by decide⟩ (.inl (by decide)) (by decide) (by decide +kernel)
    · exact careful_number _ _ ⟨by decide, by decide, by decide⟩ (.inl (by decide)) (by decide) (by decide +kernel)
    · exact careful_number _ _ ⟨by decide, by decide, by decide⟩ (.inl (by decide)) (by decide) (by decide +kernel)
  · refine ⟨[⟨78, str "6"⟩, ⟨82, digitChar 0 :: Dec.text ⟨true, [4, 5], some [5]⟩⟩, ⟨73, [digitChar 3, digitChar 1]⟩, ⟨68, str "100"⟩], by decide +kernel, ?_, by decide +kernel⟩
    intro c hc
    simp only [List.mem_cons, List.not_mem_nil, or_false] at hc
    rcases hc with rfl | rfl | rfl | rfl
    · exact careful_plain _ _ ⟨by decide, by decide, by decide⟩ (by decide)
    · exact careful_axis 0 (by decide) _ ⟨by decide, by decide, by decide⟩ (.inl (by decide))
    · exact careful_pin _ (.inl rfl) 3 1
    · exact careful_plain _ _ ⟨by decide, by decide, by decide⟩ (by decide)
  · refine ⟨[⟨78, str "7"⟩, ⟨88, []⟩, ⟨82, [digitChar 6]⟩], by decide +kernel, ?_, by decide +kernel⟩
    intro c hc
    simp only [List.mem_cons, List.not_mem_nil, or_false] at hc
    rcases hc with rfl | rfl | rfl
    · exact careful_plain _ _ ⟨by decide, by decide, by decide⟩ (by decide)
    · exact careful_read _ ⟨by decide, by decide, by decide⟩ (by decide)
    · exact careful_readAxis 6 (by decide)
  · refine ⟨[⟨79, [digitChar 3, digitChar 1]⟩, ⟨68, str "500"⟩, ⟨79, [digitChar 3, digitChar 0]⟩], by decide +kernel, ?_, by decide +kernel⟩
    intro c hc
    simp only [List.mem_cons, List.not_mem_nil, or_false] at hc
    rcases hc with rfl | rfl | rfl
    · exact careful_pin _ (.inr rfl) 3 1
    · exact careful_plain _ _ ⟨by decide, by decide, by decide⟩ (by decide)
    · exact careful_pin _ (.inr rfl) 3 0
  · exact trivial

theorem careful_empty (mem : Nat → Byte) (h : mem 0 = 0) : CarefulStorage mem :=
  ⟨[], ⟨by simp, by decide, fun k b _ hk => by
    cases k with
    | zero => simp at hk; rw [h, hk]
    | succ k => simp at hk⟩, by simp⟩

/-- C81-C83: the kit, an erased program, and the stream above arriving: all hypotheses hold, and the firmware is at work. -/
example : ∃ (w0 : World XR) (evs : List (Ev XR)) (s : Sys XR), w0.servos = Kit.servos ∧ CarefulStorage w0.ee ∧ Sys.Run Kit.cfg w0 (fun _ => 0) evs s ∧
    WellSent (w0.rxq ++ arrivals evs) ∧ arrivals evs = carefulStream ∧ evs.length = 4 := by
  let w0 : World XR := { servos := Kit.servos, now := 1, pins := fun _ => false, rxq := [], ee := fun _ => 0, outs := [] }
  refine ⟨w0, _, _, rfl, careful_empty _ rfl, .step (.step (.step (.step .init (.arrive carefulStream)) .isr) .servo) .isr, ?_, ?_, rfl⟩
  · simpa [arrivals, w0] using carefulStream_wellSent
  · simp [arrivals]

theorem sched_quiet {F : Type} [FloatOps F] (cfg : Cfg F) (x : Sys F × Bool) (bs : List Byte) : (Demo.sched cfg x).1 ≠ .arrive bs := by
  obtain ⟨⟨w, p⟩, b⟩ := x
  cases p with
  | ret s => cases b <;> exact nofun
  | rx k =>
    simp only [Demo.sched, Demo.mainEv]
    split <;> exact nofun
  | _ => exact nofun

/-- C83: with this stream in the receive buffer there is an endless run of the kit. (That it never faults is C81.) -/
example : ∃ (w0 : World XR) (σ : ℕ → Sys XR) (ev : ℕ → Ev XR), w0.servos = Kit.servos ∧ w0.rxq = carefulStream ∧ Endless Kit.cfg w0 (fun _ => 0) σ ev ∧ CarefulStorage w0.ee ∧
    ∀ n, WellSent (w0.rxq ++ arrivals (sofar ev n)) := by
  let w0 : World XR := { servos := Kit.servos, now := 1, pins := fun _ => false, rxq := carefulStream, ee := fun _ => 0, outs := [] }
  let s0 : Sys XR := ⟨w0, setup Kit.cfg fun _ => 0⟩
  have ha : ∀ n, arrivals (sofar (Demo.evs Kit.cfg s0) n) = [] := by
    intro n
    unfold sofar
    induction n with
    | zero => rfl
    | succ n ih =>
      rw [List.range_succ, List.map_append, arrivals_append, ih]
      show arrivals [Demo.evs Kit.cfg s0 n] = []
      have h := sched_quiet (Kit.cfg : Cfg XR) (Demo.after Kit.cfg s0 n)
      unfold Demo.evs
      cases he : (Demo.sched Kit.cfg (Demo.after Kit.cfg s0 n)).1 with
      | arrive bs => exact absurd he (h bs)
      | _ => rfl
  have hw : ∀ n, WellSent (w0.rxq ++ arrivals (sofar (Demo.evs Kit.cfg s0) n)) := fun n => by
    rw [ha, List.append_nil]; exact carefulStream_wellSent
  have hr : ∀ n, Sys.Run Kit.cfg w0 (fun _ => 0) (sofar (Demo.evs Kit.cfg s0) n) (Demo.hist Kit.cfg s0 n) := by
    intro n
    induction n with
    | zero => exact .init
    | succ n ih =>
      rw [sofar, List.range_succ, List.map_append]
      refine .step ih ?_
      show Sys.Do _ _ _ (Demo.after Kit.cfg s0 (n + 1)).1
      rw [Demo.after_succ]
      exact Demo.sched_do _ _
  exact ⟨w0, _, _, rfl, rfl, Demo.endless Kit.cfg w0 (fun _ => 0) fun n => (C81_kit rfl (careful_empty _ rfl) (hr n) (hw n)).1, careful_empty _ rfl, hw⟩

end Mrc.Props
