import Verif.Proof.Run
import Verif.Proof.Wp
import Verif.Spec.Device
import Verif.Model.Config
import Verif.Spec.Controller
/- Executable demonstration runs, used only in the examples that show hypotheses to be satisfiable. -/
namespace Mrc.Demo
open Mrc Mrc.Prog Mrc.Spec
variable {F : Type} [FloatOps F]
/-- power-up with an empty storage, then `n` uninterrupted passes. -/
def demoWorld (sv : Servo F) (rx : List Byte) : World F := { servos := fun _ => sv, now := 1, pins := fun _ => false, rxq := rx, ee := fun _ => 0, outs := [] }
def passes (cfg : Cfg F) : Nat → List (Act F) × Prog F (FW F) × World F → List (Act F) × Prog F (FW F) × World F
  | 0, x => x
  | n+1, (tr, .ret s, w) => let r := (loopBody cfg s).play w; passes cfg n (tr ++ r.1, r.2)
  | _+1, x => x
def demo (cfg : Cfg F) (w : World F) (n : Nat) := passes cfg n ((setup cfg fun _ => 0).play w)
theorem demo_trace (cfg : Cfg F) (w : World F) (n : Nat) : Trace cfg (fun _ => 0) (demo cfg w n).1 (demo cfg w n).2.1 := by
  have : ∀ n (x : List (Act F) × Prog F (FW F) × World F), Trace cfg (fun _ => 0) x.1 x.2.1 → Trace cfg (fun _ => 0) (passes cfg n x).1 (passes cfg n x).2.1 := by
    intro n
    induction n with
    | zero => intro x h; exact h
    | succ n ih =>
      intro x h
      obtain ⟨tr, p, w⟩ := x
      cases p <;> first | exact h | exact ih _ (h.next.exec (play_exec _ _))
  refine this n _ ?_
  have := (Trace.init (cfg := cfg) (junk := fun _ => 0)).exec (play_exec _ w)
  exact this

/-- rational arithmetic with constant transcendental functions: only for executable examples. -/
@[reducible] def toyFloat : FloatOps Rat where
  add := (· + ·)
  sub := (· - ·)
  mul := (· * ·)
  div := (· / ·)
  neg := (- ·)
  abs x := if x < 0 then -x else x
  sqrt x := x
  sin _ := 0
  cos _ := 1
  acos _ := 0
  asin _ := 0
  atan2 _ _ := 0
  fmod x _ := x
  lt x y := decide (x < y)
  le x y := decide (x ≤ y)
  ofRat x := x
  pi := 3
  inf := 0
  nan := 0
  isNaN _ := false
  toInt x := if -2147483648 ≤ x.floor ∧ x.floor ≤ 2147483647 then some x.floor else none
  hexFloat _ := 0


/-- `n` passes of the kit's firmware fed with the bytes `rx`, storage erased, clock at 1 ms. -/
def kit (rx : String) (n : Nat) : List (Act Rat) × Prog Rat (FW Rat) × World Rat :=
  @demo Rat toyFloat (@Kit.cfg Rat toyFloat) (demoWorld (@Kit.servos Rat toyFloat 0) (str rx)) n

theorem kit_trace (rx : String) (n : Nat) :
    @Trace Rat toyFloat (@Kit.cfg Rat toyFloat) (fun _ => 0) (kit rx n).1 (kit rx n).2.1 :=
  @demo_trace Rat toyFloat _ _ _

/-- like `passes`, the timer interrupt runs once before every pass. -/
def passesT (cfg : Cfg F) : Nat → List (Act F) × Prog F (FW F) × World F → List (Act F) × Prog F (FW F) × World F
  | 0, x => x
  | n+1, (tr, .ret s, w) => let r := (loopBody cfg s).play w.isr; passesT cfg n (tr ++ r.1, r.2)
  | _+1, x => x

theorem passesT_trace (cfg : Cfg F) (n : Nat) (x : List (Act F) × Prog F (FW F) × World F) (h : Trace cfg (fun _ => 0) x.1 x.2.1) :
    Trace cfg (fun _ => 0) (passesT cfg n x).1 (passesT cfg n x).2.1 := by
  induction n generalizing x with
  | zero => exact h
  | succ n ih =>
    obtain ⟨tr, p, w⟩ := x
    cases p <;> first | exact h | exact ih _ (h.next.exec (play_exec _ _))

/-- `kit` with the timer interrupt. -/
def kitT (rx : String) (n : Nat) : List (Act Rat) × Prog Rat (FW Rat) × World Rat :=
  @passesT Rat toyFloat (@Kit.cfg Rat toyFloat) n (@Prog.play Rat _ toyFloat (@setup Rat toyFloat (@Kit.cfg Rat toyFloat) fun _ => 0) (demoWorld (@Kit.servos Rat toyFloat 0) (str rx)))

theorem kitT_trace (rx : String) (n : Nat) :
    @Trace Rat toyFloat (@Kit.cfg Rat toyFloat) (fun _ => 0) (kitT rx n).1 (kitT rx n).2.1 :=
  @passesT_trace Rat toyFloat _ _ _ (@Trace.exec Rat toyFloat _ _ _ _ _ _ (@Trace.init Rat toyFloat (@Kit.cfg Rat toyFloat) (fun _ => 0)) (@play_exec Rat _ toyFloat _ _))

/-! a small robot for examples about the controller alone -/

/-- kinematics and couplings are the identity; poses with X > 5 are unreachable; logical limits ±10. -/
def plain : RCfg Rat where
  fwd p := p
  inv p := if p 0 > 5 then none else some p
  lo _ := -10
  hi _ := 10
  l2p a := a
  p2l a := a
/-- a servo at 0 with limits ±8. -/
def plainServo : Servo Rat := Servo.new 0 1 500 2500 (-8) 8 0
def plainWorld : World Rat := { servos := fun _ => plainServo, now := 1, pins := fun _ => false, rxq := [], ee := fun _ => 0, outs := [] }
/-- the controller of that robot after power-up. -/
def plainRC : RC Rat := { startAngles := fun _ => 0, targetAngles := fun _ => 0, targetPose := fun _ => 0, startPose := fun _ => 0, anglesChanged := false, poseChanged := false, inTransaction := false, state := .idle, maxVelocity := 70, method := .p2p, step := 0, total := 0 }
/-- one uninterrupted process() call in the world `w`. -/
def step (r : RC Rat) (w : World Rat) := @Prog.play Rat _ toyFloat (@RC.process Rat toyFloat plain r) w
theorem step_exec (r : RC Rat) (w : World Rat) : Exec (@RC.process Rat toyFloat plain r) (step r w).1 (step r w).2.1 := @play_exec Rat _ toyFloat _ w

/-- all servo readings of a trace report the limits ±8. -/
def lim8 (tr : List (Act Rat)) : Bool := tr.all fun | .servo _ s => s.minA == -8 && s.maxA == 8 | _ => true
theorem limits_of {tr : List (Act Rat)} (h : lim8 tr = true) : Limits (fun _ => -8) (fun _ => 8) tr := by
  intro i s hs
  have := List.all_eq_true.1 h _ hs
  simp only [Bool.and_eq_true, beq_iff_eq] at this
  exact this
/-- no fault and no open program: the controller state reached. -/
def fin? (p : Prog Rat (RC Rat)) : Option (RC Rat) := match p with | .ret r => some r | _ => none
theorem fin_eq {p : Prog Rat (RC Rat)} {r : RC Rat} (h : fin? p = some r) : p = .ret r := by
  cases p <;> simp [fin?] at h <;> rw [h]

/-- an uninterrupted process() call that ends without fault and passes the test `t`. -/
theorem run_ok (r : RC Rat) (w : World Rat) (t : List (Act Rat) → RC Rat → Bool)
    (h : (match fin? (step r w).2.1 with | some r' => lim8 (step r w).1 && t (step r w).1 r' | none => false) = true) :
    ∃ tr r', Exec (@RC.process Rat toyFloat plain r) tr (.ret r') ∧ Limits (fun _ => -8) (fun _ => 8) tr ∧ t tr r' = true := by
  cases hf : fin? (step r w).2.1 with
  | none => rw [hf] at h; cases h
  | some r' =>
    rw [hf] at h
    simp only [Bool.and_eq_true] at h
    exact ⟨_, r', (fin_eq hf) ▸ step_exec r w, limits_of h.1, h.2⟩

/-- all servo readings of a trace report the angle `x`. -/
def reads (x : Rat) (tr : List (Act Rat)) : Bool := tr.all fun | .servo _ s => s.cur == x | _ => true
theorem reads_of {x : Rat} {tr : List (Act Rat)} (h : reads x tr = true) {a : Six Rat} (ha : Reading tr a) : a = fun _ => x := by
  funext i
  obtain ⟨s, hs, e⟩ := ha i
  have := List.all_eq_true.1 h _ hs
  simp only [beq_iff_eq] at this
  rw [e, this]
/-- the small robot with all axes at `x`. -/
def plainAt (x : Rat) : World Rat := { plainWorld with servos := fun _ => { plainServo with cur := x, start := x, target := x } }

end Mrc.Demo
