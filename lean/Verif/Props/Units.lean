import Verif.Props.Mril
import Verif.Props.Coupling
/-
C28, read side: what a read returns after a completed write, over the exact numbers.
-/
set_option linter.unusedSectionVars false
namespace Mrc.Props
open Mrc Mrc.Prog Mrc.Spec XR

theorem rad_deg (q : Rat) : FloatOps.mul (rad (FloatOps.ofRat q : XR)) radToDeg = fin (q : ℝ) := by
  have h : ((180 : Rat) : ℝ) ≠ 0 := by norm_num
  have hp := Real.pi_ne_zero
  simp only [rad, radToDeg, lit, ops_pi, ops_lit, ops_div, fin_div _ _ h, fin_div _ _ hp, ops_mul, fin_mul]
  congr 1; push_cast; field_simp

theorem div_deg (q : Rat) : FloatOps.mul (FloatOps.mul (FloatOps.div (FloatOps.ofRat q : XR) (FloatOps.ofRat 180)) FloatOps.pi) radToDeg = fin (q : ℝ) := by
  have h : ((180 : Rat) : ℝ) ≠ 0 := by norm_num
  have hp := Real.pi_ne_zero
  simp only [radToDeg, lit, ops_pi, ops_lit, ops_div, fin_div _ _ h, fin_div _ _ hp, ops_mul, fin_mul]
  congr 1; push_cast; field_simp

theorem dec_ne {d : Dec} (hd : d.Ok) : d.text ≠ [] := by
  intro h
  simp only [Dec.text, List.append_eq_nil_iff] at h
  rcases hd with h1 | ⟨f, h1, _⟩
  · exact h1 (by simpa using h.1.2)
  · rw [h1] at h; simp at h

/-- **C28, read back of R0..R5**: R<i><number> is executed; later the arm stands where the command told it to (the servos show the
physical angles of the target, the coupling is undone by its inverse there); then reading R<i> answers the number that was written. -/
theorem C28_axis_back (cfg : Cfg XR) (i : Fin 6) {s : Core XR} {l : Loc XR} {d : Dec} (hd : d.Ok) {tr : List (Act XR)} {r : Core XR × Loc XR}
    (hw : Does (Mril.exec cfg s l (82 :: digit i.val :: d.text)) tr r)
    (hc : cfg.p2l (cfg.l2p r.1.rc.targetAngles) = r.1.rc.targetAngles)
    {s' : Core XR} {l' : Loc XR} {tr' : List (Act XR)} {r' : Core XR × Loc XR}
    (hr : Does (Mril.exec cfg s' l' [82, digit i.val]) tr' r')
    (hat : ∀ j v, .servo (armServo j) v ∈ tr' → v.cur = cfg.l2p r.1.rc.targetAngles j) :
    r'.2.resp = l'.resp ++ [.angle i.val (fin (d.val : ℝ))] := by
  obtain ⟨_, e⟩ := C28_axis cfg s l i d.text (dec_ne hd) tr r hw
  obtain ⟨a, ha, e'⟩ := C23_read_command cfg s' l' ⟨82, [digit i.val]⟩ (.axis ⟨i.val, by omega⟩) tr' r' hr
  have hta : r.1.rc.targetAngles i = rad (FloatOps.ofRat d.val) := by
    rw [e]; simp [RC.upd, C27_decimal d hd]
  generalize hcmd : (⟨82, [digit i.val]⟩ : Cmd) = c at ha
  have dinj : ∀ a b : ℕ, a < 10 → b < 10 → digit a = digit b → a = b := (fun a b ha hb => (by decide : ∀ a, a < 10 → ∀ b, b < 10 → digit a = digit b → a = b) a ha b hb)
  cases ha with
  | method => simp at hcmd
  | velocity => simp at hcmd
  | position k v => simp at hcmd
  | orientation k v => simp at hcmd
  | axis k v =>
    simp only [Cmd.mk.injEq, List.cons.injEq, and_true, true_and] at hcmd
    have hk : i = k := Fin.ext (dinj _ _ (by omega) (by omega) hcmd)
    subst hk
    have : (fun j => (v j).cur) = cfg.l2p r.1.rc.targetAngles := by
      funext j; exact hat j (v j) (by simp only [sixReads, List.mem_map]; exact ⟨j, List.mem_finRange j, rfl⟩)
    rw [e', this, hc, hta, rad_deg]
  | additional k v =>
    simp only [Cmd.mk.injEq, List.cons.injEq, and_true, true_and] at hcmd
    have := dinj _ _ (by omega) (by omega) hcmd; omega

/-- the couplings of both robots are undone on the targets (the kit: on all; robot D: axis 2 within its limits). -/
example (A : Fin 6 → ℝ) : (Kit.cfg (F := XR)).p2l (Kit.cfg.l2p (finS A)) = finS A := (C58_kit A).1
example (A : Fin 6 → ℝ) (h : -(25 * (Real.pi / 180)) ≤ A 2 ∧ A 2 ≤ Real.pi / 2) : (RobotD.cfg (F := XR)).p2l (RobotD.cfg.l2p (finS A)) = finS A := (C59_robotD h).2

/-- **C28, read back of R6, R7**: the additional axis is given a target; when it stands there, reading it answers the written number. -/
theorem C28_additional_back (cfg : Cfg XR) (i : Fin 2) {s : Core XR} {l : Loc XR} {d : Dec} (hd : d.Ok) {tr : List (Act XR)} {r : Core XR × Loc XR}
    (hw : Does (Mril.exec cfg s l (82 :: digit (6 + i.val) :: d.text)) tr r) :
    ∃ t, .micro ⟨6 + i.val, by omega⟩ (.setTarget t) ∈ tr ∧
    ∀ {s' : Core XR} {l' : Loc XR} {tr' : List (Act XR)} {r' : Core XR × Loc XR},
      Does (Mril.exec cfg s' l' [82, digit (6 + i.val)]) tr' r' → (∀ v, .servo ⟨6 + i.val, by omega⟩ v ∈ tr' → v.cur = t) →
      r'.2.resp = l'.resp ++ [.angle (6 + i.val) (fin (d.val : ℝ))] := by
  obtain ⟨_, sv, e⟩ := C28_additional_axis cfg s l i d.text (dec_ne hd) tr r hw
  refine ⟨_, by rw [e]; simp; rfl, ?_⟩
  intro s' l' tr' r' hr hat
  obtain ⟨a, ha, e'⟩ := C23_read_command cfg s' l' ⟨82, [digit (6 + i.val)]⟩ (.axis ⟨6 + i.val, by omega⟩) tr' r' hr
  have dinj : ∀ a b : ℕ, a < 10 → b < 10 → digit a = digit b → a = b := (fun a b ha hb => (by decide : ∀ a, a < 10 → ∀ b, b < 10 → digit a = digit b → a = b) a ha b hb)
  generalize hcmd : (⟨82, [digit (6 + i.val)]⟩ : Cmd) = c at ha
  cases ha with
  | method => simp at hcmd
  | velocity => simp at hcmd
  | position k v => simp at hcmd
  | orientation k v => simp at hcmd
  | axis k v =>
    simp only [Cmd.mk.injEq, List.cons.injEq, and_true, true_and] at hcmd
    have := dinj _ _ (by omega) (by omega) hcmd; omega
  | additional k v =>
    simp only [Cmd.mk.injEq, List.cons.injEq, and_true, true_and] at hcmd
    have hk : i = k := Fin.ext (by have := dinj _ _ (by omega) (by omega) hcmd; omega)
    subst hk
    rw [e', hat v (by simp)]
    show _ ++ [Part.angle _ (FloatOps.mul (FloatOps.mul (FloatOps.div (atof d.text) (FloatOps.ofRat 180)) FloatOps.pi) radToDeg)] = _
    rw [C27_decimal d hd, div_deg]

/-- **C28, read back of X, Y, Z, A, B, C**: the number is written as target; later the arm stands in a pose whose coordinate is the target's; then reading
answers the number that was written. `k` is the letter's place in X,Y,Z,A,B,C. -/
theorem C28_pose_back (cfg : Cfg XR) (k : Fin 6) {s : Core XR} {l : Loc XR} {d : Dec} (hd : d.Ok) {tr : List (Act XR)} {r : Core XR × Loc XR}
    (hw : Does (Mril.exec cfg s l ((str "XYZABC").getD k.val 0 :: d.text)) tr r)
    {s' : Core XR} {l' : Loc XR} {tr' : List (Act XR)} {r' : Core XR × Loc XR}
    (hr : Does (Mril.exec cfg s' l' [(str "XYZABC").getD k.val 0]) tr' r')
    {v : Fin 6 → Servo XR} (hv : tr' = sixReads v) (hat : cfg.fwd (cfg.p2l fun j => (v j).cur) k = r.1.rc.targetPose k) :
    r'.2.resp = l'.resp ++ [.pose ((str "XYZABC").getD k.val 0) (fin (d.val : ℝ))] := by
  have sinj : ∀ u : Fin 6 → Servo XR, sixReads v = sixReads u → (fun j => (u j).cur) = fun j => (v j).cur := by
    intro u h
    funext j
    have h' := congrArg (fun L => L[j.val]?) h
    simp only [sixReads, List.getElem?_map] at h'
    have : (List.finRange 6)[j.val]? = some j := by fin_cases j <;> rfl
    simp only [this, Option.map_some, Option.some.injEq, Act.servo.injEq, true_and] at h'
    rw [h']
  by_cases hk : k.val < 3
  · have hl : (str "XYZABC").getD k.val 0 = 88 + UInt8.ofNat k.val := by
      obtain ⟨k, _⟩ := k; rcases (show k = 0 ∨ k = 1 ∨ k = 2 by simp at hk; omega) with rfl | rfl | rfl <;> rfl
    rw [hl] at hw hr ⊢
    obtain ⟨_, e⟩ := C28_position cfg s l ⟨k.val, hk⟩ d.text (dec_ne hd) tr r hw
    have ht : r.1.rc.targetPose k = fin (d.val : ℝ) := by rw [e]; simp [RC.upd, C27_decimal d hd]
    obtain ⟨a, ha, e'⟩ := C23_read_command cfg s' l' ⟨88 + UInt8.ofNat k.val, []⟩ (.simple _ (by rw [← hl]; fin_cases k <;> decide)) tr' r' hr
    generalize hcmd : (⟨88 + UInt8.ofNat k.val, []⟩ : Cmd) = c at ha
    subst hv
    generalize htt : sixReads v = tt at ha
    have linj : ∀ a b : ℕ, a < 3 → b < 3 → (88 + UInt8.ofNat a : UInt8) = 88 + UInt8.ofNat b → a = b := (fun a b ha hb => (by decide : ∀ a, a < 3 → ∀ b, b < 3 → (88 + UInt8.ofNat a : UInt8) = 88 + UInt8.ofNat b → a = b) a ha b hb)
    have lab : ∀ a b : ℕ, a < 3 → b < 3 → (88 + UInt8.ofNat a : UInt8) ≠ 65 + UInt8.ofNat b := (fun a b ha hb => (by decide : ∀ a, a < 3 → ∀ b, b < 3 → (88 + UInt8.ofNat a : UInt8) ≠ 65 + UInt8.ofNat b) a ha b hb)
    cases ha with
    | method => simp [sixReads] at htt
    | velocity => simp [sixReads] at htt
    | position q u =>
      simp only [Cmd.mk.injEq, and_true] at hcmd
      have := linj _ _ hk q.isLt hcmd
      rw [e', sinj u htt]
      have hq : (⟨q.val, by omega⟩ : Fin 6) = k := Fin.ext this.symm
      rw [hq, hat, ht, ← this]
    | orientation q u =>
      simp only [Cmd.mk.injEq, and_true] at hcmd
      exact absurd hcmd (lab _ _ hk q.isLt)
    | axis q u => simp at hcmd
    | additional q u => simp at hcmd
  · have hl : (str "XYZABC").getD k.val 0 = 65 + UInt8.ofNat (k.val - 3) := by
      obtain ⟨k, _⟩ := k; rcases (show k = 3 ∨ k = 4 ∨ k = 5 by simp at hk; omega) with rfl | rfl | rfl <;> rfl
    rw [hl] at hw hr ⊢
    obtain ⟨_, e⟩ := C28_orientation cfg s l ⟨k.val - 3, by omega⟩ d.text (dec_ne hd) tr r hw
    have hk3 : (⟨3 + (k.val - 3), by omega⟩ : Fin 6) = k := Fin.ext (by simp; omega)
    have ht : r.1.rc.targetPose k = rad (FloatOps.ofRat d.val) := by rw [e]; simp [RC.upd, C27_decimal d hd, hk3]
    obtain ⟨a, ha, e'⟩ := C23_read_command cfg s' l' ⟨65 + UInt8.ofNat (k.val - 3), []⟩ (.simple _ (by rw [← hl]; fin_cases k <;> decide)) tr' r' hr
    generalize hcmd : (⟨65 + UInt8.ofNat (k.val - 3), []⟩ : Cmd) = c at ha
    subst hv
    generalize htt : sixReads v = tt at ha
    have linj : ∀ a b : ℕ, a < 3 → b < 3 → (65 + UInt8.ofNat a : UInt8) = 65 + UInt8.ofNat b → a = b := (fun a b ha hb => (by decide : ∀ a, a < 3 → ∀ b, b < 3 → (65 + UInt8.ofNat a : UInt8) = 65 + UInt8.ofNat b → a = b) a ha b hb)
    have lab : ∀ a b : ℕ, a < 3 → b < 3 → (65 + UInt8.ofNat a : UInt8) ≠ 88 + UInt8.ofNat b := (fun a b ha hb => (by decide : ∀ a, a < 3 → ∀ b, b < 3 → (65 + UInt8.ofNat a : UInt8) ≠ 88 + UInt8.ofNat b) a ha b hb)
    cases ha with
    | method => simp [sixReads] at htt
    | velocity => simp [sixReads] at htt
    | position q u =>
      simp only [Cmd.mk.injEq, and_true] at hcmd
      exact absurd hcmd (lab _ _ (by omega) q.isLt)
    | orientation q u =>
      simp only [Cmd.mk.injEq, and_true] at hcmd
      have := linj _ _ (by omega) q.isLt hcmd
      rw [e', sinj u htt]
      have hq : (⟨3 + q.val, by omega⟩ : Fin 6) = k := Fin.ext (by simp; omega)
      rw [hq, hat, ht, rad_deg, ← this]
    | axis q u => simp at hcmd
    | additional q u => simp at hcmd

/-- **C28, read back of V and M**: a read of the speed (or method) with no other write in between answers the number written. -/
theorem C28_velocity_back (cfg : Cfg XR) {s : Core XR} {l : Loc XR} {d : Dec} (hd : d.Ok) {tr : List (Act XR)} {r : Core XR × Loc XR}
    (hw : Does (Mril.exec cfg s l (86 :: d.text)) tr r) {l' : Loc XR} {tr' : List (Act XR)} {r' : Core XR × Loc XR}
    (hr : Does (Mril.exec cfg r.1 l' [86]) tr' r') : r'.2.resp = l'.resp ++ [.velocity (fin (d.val : ℝ))] := by
  obtain ⟨_, e⟩ := C20_velocity cfg s l d.text (dec_ne hd) tr r hw
  obtain ⟨a, ha, e'⟩ := C23_read_command cfg r.1 l' ⟨86, []⟩ (.simple _ (by decide)) tr' r' hr
  have lab : ∀ a : ℕ, a < 3 → (86 : UInt8) ≠ 65 + UInt8.ofNat a ∧ (86 : UInt8) ≠ 88 + UInt8.ofNat a := by decide
  generalize hcmd : (⟨86, []⟩ : Cmd) = c at ha
  cases ha with
  | velocity => rw [e', e]; simp [C27_decimal d hd]
  | position q u => simp only [Cmd.mk.injEq, and_true] at hcmd; exact absurd hcmd (lab _ q.isLt).2
  | orientation q u => simp only [Cmd.mk.injEq, and_true] at hcmd; exact absurd hcmd (lab _ q.isLt).1
  | _ => simp at hcmd

theorem C28_method_back (cfg : Cfg XR) {s : Core XR} {l : Loc XR} (b : Bool) {tr : List (Act XR)} {r : Core XR × Loc XR}
    (hw : Does (Mril.exec cfg s l [77, digit b.toNat]) tr r) {l' : Loc XR} {tr' : List (Act XR)} {r' : Core XR × Loc XR}
    (hr : Does (Mril.exec cfg r.1 l' [77]) tr' r') : r'.2.resp = l'.resp ++ [.method b.toNat] := by
  obtain ⟨_, e⟩ := C20_method cfg s l [digit b.toNat] (by simp) tr r hw
  obtain ⟨a, ha, e'⟩ := C23_read_command cfg r.1 l' ⟨77, []⟩ (.simple _ (by decide)) tr' r' hr
  have lab : ∀ a : ℕ, a < 3 → (77 : UInt8) ≠ 65 + UInt8.ofNat a ∧ (77 : UInt8) ≠ 88 + UInt8.ofNat a := by decide
  generalize hcmd : (⟨77, []⟩ : Cmd) = c at ha
  cases ha with
  | method =>
    rw [e', e]
    cases b
    · have : atol [digit (false.toNat)] = 0 := by decide
      rw [if_pos this]; rfl
    · have : atol [digit (true.toNat)] = 1 := by decide
      rw [this]; rfl
  | position q u => simp only [Cmd.mk.injEq, and_true] at hcmd; exact absurd hcmd (lab _ q.isLt).2
  | orientation q u => simp only [Cmd.mk.injEq, and_true] at hcmd; exact absurd hcmd (lab _ q.isLt).1
  | _ => simp at hcmd

/-- a concrete use of C28_axis_back: "R1-45.5" is written to the kit; the servos show the target; "R1" is read. -/
example (s : Core XR) (A : Fin 6 → ℝ) (hA : s.rc.targetAngles = finS A) :
    let d : Dec := ⟨true, [4, 5], some [5]⟩
    d.text = str "-45.5" ∧ d.Ok ∧ ∃ r tr' r', Does (Mril.exec Kit.cfg s {} (str "R1-45.5")) [] r ∧ Does (Mril.exec Kit.cfg r.1 {} (str "R1")) tr' r' ∧
      (∀ j v, .servo (armServo j) v ∈ tr' → v.cur = Kit.cfg.l2p r.1.rc.targetAngles j) ∧ Kit.cfg.p2l (Kit.cfg.l2p r.1.rc.targetAngles) = r.1.rc.targetAngles := by
  refine ⟨by decide, .inl (by simp), ?_⟩
  have e : Mril.exec (Kit.cfg (F := XR)) s {} (str "R1-45.5") = .ret ({ s with rc := s.rc.setTargetLogicalAngle 1 (rad (atof (str "-45.5"))) }, { ({} : Loc XR) with ctype := .write }) := rfl
  have hta : (s.rc.setTargetLogicalAngle 1 (rad (atof (str "-45.5")))).targetAngles = finS (Function.update A 1 (-45.5 * (Real.pi / 180))) := by
    have hd : Dec.val ⟨true, [4, 5], some [5]⟩ = (-91 / 2 : ℚ) := by decide +kernel
    have : (atof (str "-45.5") : XR) = fin (-91 / 2) := by
      have := C27_decimal (F := XR) ⟨true, [4, 5], some [5]⟩ (.inl (by simp))
      rw [hd] at this
      rw [show str "-45.5" = Dec.text ⟨true, [4, 5], some [5]⟩ by decide, this]
      simp only [ops_lit]; congr 1; norm_num
    have h : ((180 : Rat) : ℝ) ≠ 0 := by norm_num
    funext j
    simp only [RC.setTargetLogicalAngle, RC.upd, hA, this, rad, ops_pi, ops_lit, ops_div, fin_div _ _ h, ops_mul, fin_mul, finS, Function.update]
    split
    · simp; norm_num
    · simp
  let w : World XR := { servos := fun i => { Kit.servos i with cur := if h : i.val < 6 then Kit.cfg.l2p (s.rc.setTargetLogicalAngle 1 (rad (atof (str "-45.5")))).targetAngles ⟨i.val, h⟩ else fin 0 }
                        now := 1, pins := fun _ => false, rxq := [], ee := fun _ => 0, outs := [] }
  refine ⟨_, ((Mril.exec Kit.cfg _ {} (str "R1")).play w).1, _, by rw [e]; exact .nil _, play_exec _ w, ?_, ?_⟩
  · intro j v h
    have hh : ∀ i v, Act.servo i v ∈ ((Mril.exec (Kit.cfg (F := XR)) { s with rc := s.rc.setTargetLogicalAngle 1 (rad (atof (str "-45.5"))) } {} (str "R1")).play w).1 → v = w.servos i := by
      intro i v h
      simp only [List.mem_cons, Act.servo.injEq, List.not_mem_nil, or_false, show ((Mril.exec (Kit.cfg (F := XR)) { s with rc := s.rc.setTargetLogicalAngle 1 (rad (atof (str "-45.5"))) } {} (str "R1")).play w).1 =
        [.servo 0 (w.servos 0), .servo 1 (w.servos 1), .servo 2 (w.servos 2), .servo 3 (w.servos 3), .servo 4 (w.servos 4), .servo 5 (w.servos 5)] from rfl] at h
      rcases h with ⟨rfl, rfl⟩ | ⟨rfl, rfl⟩ | ⟨rfl, rfl⟩ | ⟨rfl, rfl⟩ | ⟨rfl, rfl⟩ | ⟨rfl, rfl⟩ <;> rfl
    rw [hh _ _ h]
    simp [w, armServo]
  · show Kit.p2l (Kit.l2p _) = _
    rw [hta]; exact (C58_kit _).1

end Mrc.Props
