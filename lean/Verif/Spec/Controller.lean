import Verif.Model.ControllerRun
/-
Vocabulary for the motion controller properties (C41-C52): what an outside observer of the servos sees.
-/
namespace Mrc.Spec
open Mrc
variable {F : Type} [FloatOps F]

/-- the arm servos report the physical limits L, U in every reading of `tr`. -/
def Limits (L U : Six F) (tr : List (Act F)) : Prop :=
  ∀ i s, .servo (armServo i) s ∈ tr → s.minA = L i ∧ s.maxA = U i

/-- the logical angles `t` violate neither the logical limits nor, converted, the physical limits. -/
def Fits (cfg : RCfg F) (L U : Six F) (t : Six F) : Prop :=
  (∀ i, flt (t i) (cfg.lo i) = false ∧ fgt (t i) (cfg.hi i) = false) ∧
  (∀ i, flt (cfg.l2p t i) (L i) = false ∧ fgt (cfg.l2p t i) (U i) = false)

/-- no servo is touched. -/
def Still (tr : List (Act F)) : Prop := ∀ j m, .micro j m ∉ tr

/-- the target angles given to servos, in order. -/
def targets (tr : List (Act F)) : List (Fin 8 × F) :=
  tr.filterMap fun | .micro j (.setTarget x) => some (j, x) | _ => none
/-- the speeds given to servos, in order. -/
def speeds (tr : List (Act F)) : List (Fin 8 × F) :=
  tr.filterMap fun | .micro j (.setVel x) => some (j, x) | _ => none

/-- all six arm servos are given the angles `p`, each once. -/
def Commanded (p : Six F) (tr : List (Act F)) : Prop := targets tr = (List.finRange 6).map fun i => (armServo i, p i)

/-- `a` consists of servo angles read in `tr`. -/
def Reading (tr : List (Act F)) (a : Six F) : Prop := ∀ i, ∃ s, .servo (armServo i) s ∈ tr ∧ a i = s.cur

/-- the controller gave up: nothing moved, idle, and the targets are where the robot is. -/
def GaveUp (cfg : RCfg F) (tr : List (Act F)) (r' : RC F) : Prop :=
  Still tr ∧ r'.state = .idle ∧ ∃ a b, Reading tr a ∧ Reading tr b ∧ r'.targetPose = cfg.fwd (cfg.p2l a) ∧ r'.targetAngles = cfg.p2l b

/-- a linear way point: the point after `k` of `n` equal parts of the way from `p` to `q`, with the orientation of `q`. -/
def linePoint (p q : Six F) (k n : Nat) : Six F := fun i =>
  if i.val < 3 then FloatOps.add (p i) (FloatOps.mul (FloatOps.sub (q i) (p i)) (FloatOps.div (Servo.ofNat k) (Servo.ofNat n))) else q i

/-- the wrist singularity test of the code (RobotController.cpp:673). -/
def NearSingular (t : Six F) : Prop := flt (FloatOps.abs (FloatOps.sub (t 4) (FloatOps.div FloatOps.pi (lit 2)))) (lit (5/100)) = true

/-- the logical angles the next move goes to: the angles set, or those of the pose set. -/
def Goal (cfg : RCfg F) (r : RC F) (t : Six F) : Prop :=
  r.anglesChanged = true ∧ r.poseChanged = false ∧ t = r.targetAngles ∨
  r.anglesChanged = false ∧ r.poseChanged = true ∧ cfg.inv r.targetPose = some t

/-- the servo `i` after the stores of `tr`, no timer tick falling in between. -/
def after (i : Fin 6) (tr : List (Act F)) (sv : Servo F) : Servo F :=
  tr.foldl (fun s a => match a with | .micro j m => if j = armServo i then s.micro m else s | _ => s) sv

end Mrc.Spec
