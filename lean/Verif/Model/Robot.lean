import Verif.Model.Prog
import Verif.Model.Kinematic
/-
src/RobotController.cpp / .h.
-/
namespace Mrc
open scoped Mrc.Num
variable {F : Type} [FloatOps F]

/-- RobotController.h:35. -/
inductive Method where
  | p2p | linear | circular
  deriving DecidableEq, Repr

/-- enum values LINEAR=1, P2P=0, CIRCULAR=2 (RobotController.h:35). -/
def Method.code : Method → Nat
  | .p2p => 0 | .linear => 1 | .circular => 2

/-- RobotController.h:36. -/
inductive RState where
  | idle | moving | startMove | prepareMove
  deriving DecidableEq, Repr

/-- constructor arguments of RobotController (RobotController.cpp:47-58): kinematics (`inverse` = none means
OUT_OF_RANGE), logical limits, coupling functions. -/
structure RCfg (F : Type) where
  fwd : Six F → Six F
  inv : Six F → Option (Six F)
  lo : Six F
  hi : Six F
  l2p : Six F → Six F
  p2l : Six F → Six F

/-- object state (RobotController.h:91-124) plus the two `static` locals of process() (359-360).
Orientation vectors used only for the step count are recomputed locally; `moveAsFarAsPossibleOnOutOfBound` and
the increments (constants 0.5 and 15, lines 63-64) are left out. -/
structure RC (F : Type) where
  startAngles : Six F
  targetAngles : Six F
  targetPose : Six F
  startPose : Six F
  anglesChanged : Bool
  poseChanged : Bool
  inTransaction : Bool
  state : RState
  maxVelocity : F
  method : Method
  step : Nat
  total : Nat

/-- the arm servo `Servos[i]`, i < 6, is servos[i] of main.cpp. -/
def armServo (i : Fin 6) : Fin 8 := ⟨i.val, by omega⟩

namespace RC

/-- the six current servo angles, each read separately (RobotController.cpp:107-111, 277-279). -/
def readAngles : Prog F (Six F) := do
  let a ← Prog.readServo 0
  let b ← Prog.readServo 1
  let c ← Prog.readServo 2
  let d ← Prog.readServo 3
  let e ← Prog.readServo 4
  let f ← Prog.readServo 5
  return six a.cur b.cur c.cur d.cur e.cur f.cur

/-- RobotController.cpp:276-281. -/
def getCurrentLogicalAngles (cfg : RCfg F) : Prog F (Six F) := do
  let a ← readAngles
  return cfg.p2l a

/-- RobotController.cpp:104-123. -/
def getCurrentPose (cfg : RCfg F) : Prog F (Six F) := do
  let a ← readAngles
  return cfg.fwd (cfg.p2l a)

/-- RobotController.cpp:327-330. -/
def getCurrentPhysicalAngles (cfg : RCfg F) : Prog F (Six F) := do
  let a ← getCurrentLogicalAngles cfg
  return cfg.l2p a

/-- RobotController.cpp:340-343. -/
def getTargetPhysicalAngles (cfg : RCfg F) (r : RC F) : Six F := cfg.l2p r.targetAngles

/-- constructor, RobotController.cpp:47-74. -/
def new (cfg : RCfg F) : Prog F (RC F) := do
  let pose ← getCurrentPose cfg
  let angles ← getCurrentLogicalAngles cfg
  return { startAngles := fun _ => lit 0, targetAngles := angles, targetPose := pose, startPose := fun _ => lit 0
           anglesChanged := false, poseChanged := false, inTransaction := false, state := .idle
           maxVelocity := lit 70, method := .p2p, step := 0, total := 0 }

/-- RobotController.cpp:76-78. -/
def startTransaction (r : RC F) : RC F := { r with inTransaction := true }
/-- RobotController.cpp:80-82. -/
def endTransaction (r : RC F) : RC F := { r with inTransaction := false }
/-- RobotController.cpp:84-86. -/
def stop (r : RC F) : RC F := { r with state := .idle }
/-- RobotController.cpp:88-90. -/
def setMaxVelocity (r : RC F) (v : F) : RC F := { r with maxVelocity := v }
/-- RobotController.cpp:96-98. -/
def setMovementMethod (r : RC F) (m : Method) : RC F := { r with method := m }

/-- update one entry. RobotController.cpp:202-231, 305-311. -/
def upd (a : Six F) (i : Fin 6) (v : F) : Six F := fun j => if j = i then v else a j

/-- RobotController.cpp:202-231 (POSITION X..C = 0..5). -/
def setTargetPoseAt (r : RC F) (i : Fin 6) (v : F) : RC F :=
  { r with targetPose := upd r.targetPose i v, poseChanged := true, state := .prepareMove }
/-- RobotController.cpp:163-200 (both overloads). -/
def setTargetPose (r : RC F) (p : Six F) : RC F :=
  { r with targetPose := p, poseChanged := true, state := .prepareMove }
/-- RobotController.cpp:290-303. -/
def setTargetLogicalAngles (r : RC F) (a : Six F) : RC F :=
  { r with targetAngles := a, anglesChanged := true, state := .prepareMove }
/-- RobotController.cpp:305-311 (index < 6; larger indices write out of bounds, callers check). -/
def setTargetLogicalAngle (r : RC F) (i : Fin 6) (v : F) : RC F :=
  { r with targetAngles := upd r.targetAngles i v, anglesChanged := true, state := .prepareMove }
/-- RobotController.cpp:354-356. -/
def isMoving (r : RC F) : Bool := r.state != .idle

/-- RobotController.cpp:769-776. -/
def anglesEqual (a b : Six F) : Bool :=
  (List.finRange 6).all fun i => !(fge (FloatOps.abs (a i - b i)) (lit (1/10000)))

/-- macro DOTVP (RobotController.cpp:45). -/
def dot (u v : V3 F) : F := u.x * v.x + u.y * v.y + u.z * v.z

/-- macro NORM (RobotController.cpp:13-18). -/
def norm (u : V3 F) : V3 F :=
  let len := FloatOps.sqrt (u.x * u.x + u.y * u.y + u.z * u.z)
  ⟨u.x / len, u.y / len, u.z / len⟩

/-- orientation vector of a pose (RobotController.cpp:492-508). -/
def orientation (p : Six F) : V3 F :=
  let cb := FloatOps.cos (p 4); let sb := FloatOps.sin (p 4)
  let cc := FloatOps.cos (p 5); let sc := FloatOps.sin (p 5)
  ⟨cb * cc, cb * sc, -sb⟩

/-- RobotController.cpp:511-520 interpolationRotationAngle. -/
def rotationAngle (startPose targetPose : Six F) : F :=
  FloatOps.acos (dot (norm (orientation startPose)) (norm (orientation targetPose)))

/-- Euclidean distance of the positions (RobotController.cpp:523-530, 588-590, 615). -/
def distance (startPose targetPose : Six F) : F :=
  let dx := targetPose 0 - startPose 0
  let dy := targetPose 1 - startPose 1
  let dz := targetPose 2 - startPose 2
  FloatOps.sqrt (dx * dx + dy * dy + dz * dz)

/-- RobotController.cpp:532-538: number of interpolation steps; none = undefined float→int conversion.
(`unsigned = int`: negative values, impossible here for XR, would wrap.) -/
def linearSteps (startPose targetPose : Six F) : Option Nat :=
  match FloatOps.toInt (distance startPose targetPose / lit (1/2) + lit 1),
        FloatOps.toInt (rotationAngle startPose targetPose / lit 15 + lit 1) with
  | some d, some a => some (u32OfInt (if d > a then d else a))
  | _, _ => none

/-- lines 666-669 / 703-706 / 721-724: "set targets to prevent locking of other axis", state = IDLE. -/
def reject (cfg : RCfg F) (r : RC F) : Prog F (RC F) := do
  let pose ← getCurrentPose cfg
  let angles ← getCurrentLogicalAngles cfg
  return { r with targetPose := pose, targetAngles := angles, state := .idle }

/-- way point of the current step (RobotController.cpp:586-638). -/
def waypoint (r : RC F) : Six F :=
  let fraction : F := Servo.ofNat r.step / Servo.ofNat r.total
  six (r.startPose 0 + (r.targetPose 0 - r.startPose 0) * fraction)
      (r.startPose 1 + (r.targetPose 1 - r.startPose 1) * fraction)
      (r.startPose 2 + (r.targetPose 2 - r.startPose 2) * fraction)
      (r.targetPose 3) (r.targetPose 4) (r.targetPose 5)

/-- P2P: maximum angle change (RobotController.cpp:566-572). -/
def maxAngleChange (r : RC F) : F :=
  (List.finRange 6).foldl (fun m i =>
    let delta := FloatOps.abs (r.startAngles i - r.targetAngles i)
    if fgt delta m then delta else m) (lit 0)

/-- first limit check (RobotController.cpp:695-708): some angle out of the logical limits. -/
def violatesLogical (cfg : RCfg F) (t : Six F) : Bool :=
  (List.finRange 6).any fun i => flt (t i) (cfg.lo i) || fgt (t i) (cfg.hi i)

/-- second limit check (RobotController.cpp:713-726); reads the (constant) limits of the servos. -/
def violatesPhysical (t : Six F) : List (Fin 6) → Prog F Bool
  | [] => return false
  | i :: is => do
    let s ← Prog.readServo (armServo i)
    if flt (t i) s.minA || fgt (t i) s.maxA then return true
    else violatesPhysical t is

/-- RobotController.cpp:728-737. -/
def minTime (t : Six F) : List (Fin 6) → F → Prog F F
  | [], acc => return acc
  | i :: is, acc => do
    let s ← Prog.readServo (armServo i)
    let dAngle := FloatOps.abs (t i - s.cur)
    let mt := dAngle / s.maxVel
    minTime t is (if fgt mt acc then mt else acc)

/-- RobotController.cpp:745-751: velocity, then setTargetRadAngle (VarSpeedServo.cpp:111-115) store by store. -/
def apply (t : Six F) (time : F) : List (Fin 6) → Prog F Unit
  | [] => return ()
  | i :: is => do
    let s ← Prog.readServo (armServo i)
    let dAngle := FloatOps.abs (t i - s.cur)
    Prog.doMicro (armServo i) (.setVel (dAngle / time))
    let s ← Prog.readServo (armServo i)
    Prog.doMicro (armServo i) (.setStart s.cur)
    Prog.doMicro (armServo i) .zeroElapsed
    Prog.doMicro (armServo i) (.setTarget (t i))
    apply t time is

/-- lines 687-755: limit checks, timing and command of the servos for the logical angles `t`. -/
def command (cfg : RCfg F) (r : RC F) (t : Six F) (moveInTime : F) : Prog F (RC F) := do
  if violatesLogical cfg t then reject cfg r
  else
    let ph := cfg.l2p t
    let bad ← violatesPhysical ph (List.finRange 6)
    if bad then reject cfg r
    else
      let time ← minTime ph (List.finRange 6) moveInTime
      if feq time (lit 0) then return { r with state := .moving }
      else
        apply ph time (List.finRange 6)
        return { r with state := .moving }

/-- case START_MOVE, RobotController.cpp:552-756. -/
def startMove (cfg : RCfg F) (r0 : RC F) : Prog F (RC F) := do
  let r := { r0 with step := r0.step + 1 }                               -- 559
  match r.method with
  | .p2p =>                                                              -- 562-577
    let moveInTime := r.maxAngleChange / r.maxVelocity * radToDeg
    Prog.emit (.raw (.moveInTime moveInTime))
    command cfg r r.targetAngles moveInTime
  | .linear =>                                                           -- 579-680
    let d := distance r.startPose r.targetPose
    let moveInTime := d / Servo.ofNat r.total / r.maxVelocity
    match cfg.inv r.waypoint with
    | none => reject cfg r                                               -- 662-670
    | some t =>
      if flt (FloatOps.abs (t 4 - FloatOps.pi / lit 2)) (lit (5/100)) then  -- 673-677
        let s3 ← Prog.readServo 3
        let s5 ← Prog.readServo 5
        command cfg r (upd (upd t 3 s3.cur) 5 s5.cur) moveInTime
      else command cfg r t moveInTime
  | .circular =>                                                         -- 682-685, 694 ff.: tmpTargetAngles uninitialised
    Prog.emit (.raw (.error "CIRCULAR interpolation not implemented, yet"))
    .fault .uninit

/-- lines 418-441: synchronise angles and pose; the return code of inverse() is ignored. -/
def sync (cfg : RCfg F) (r : RC F) : RC F :=
  if r.anglesChanged then { r with targetPose := cfg.fwd r.targetAngles }
  else if r.poseChanged then
    match cfg.inv r.targetPose with
    | some a => { r with targetAngles := a }
    | none => r
  else { r with state := .idle }

/-- case PREPARE_MOVE, RobotController.cpp:401-550. -/
def prepare (cfg : RCfg F) (r0 : RC F) : Prog F (RC F) := do
  if r0.inTransaction then return r0                                      -- 406-409
  else
    let r := sync cfg r0
    if !r0.anglesChanged && !r0.poseChanged then
      Prog.emit (.raw (.error "nothing changed, still PREPARE MOVE"))     -- 437
    if r.poseChanged && r.anglesChanged then                              -- 443-449
      Prog.emit (.raw (.error "Do not change pose and angles in one transaction!"))
      return { r with anglesChanged := false, poseChanged := false, state := .idle }
    else
      let r := { r with anglesChanged := false, poseChanged := false }
      let sp ← getCurrentPose cfg                                         -- 455
      let sa ← getCurrentLogicalAngles cfg                                -- 456
      let r := { r with startPose := sp, startAngles := sa }
      if anglesEqual r.startAngles r.targetAngles then                    -- 472-475
        return { r with state := .idle }
      else
        match r.method with
        | .p2p => startMove cfg { r with step := 0, total := 1, state := .startMove }
        | .linear =>
          match linearSteps r.startPose r.targetPose with
          | none => .fault .badConv
          | some n => startMove cfg { r with step := 0, total := n, state := .startMove }
        | .circular => startMove cfg { r with step := 0, state := .startMove }

/-- all six servos at their target (RobotController.cpp:371-379; every servo is queried). -/
def allAtTarget : List (Fin 6) → Bool → Prog F Bool
  | [], acc => return acc
  | i :: is, acc => do
    let s ← Prog.readServo (armServo i)
    allAtTarget is (acc && s.atTarget)

/-- case MOVING, RobotController.cpp:366-399. -/
def moving (cfg : RCfg F) (r : RC F) : Prog F (RC F) := do
  let b ← allAtTarget (List.finRange 6) true
  if b then
    if r.step = r.total then return { r with state := .idle }
    else startMove cfg { r with state := .startMove }
  else return r

/-- RobotController.cpp:358-758. -/
def process (cfg : RCfg F) (r : RC F) : Prog F (RC F) :=
  match r.state with
  | .idle => return r
  | .moving => moving cfg r
  | .prepareMove => prepare cfg r
  | .startMove => startMove cfg r

end RC
end Mrc
