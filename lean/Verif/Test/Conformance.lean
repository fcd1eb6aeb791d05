import Verif.Model.Config
/-
Validation of the model, not a proof: the unit tests that ship with the code (/repo/test/tests) replayed on the model, with
IEEE double precision as arithmetic.  Nothing else imports this module.  A failing check makes the build fail.
-/
namespace Mrc.Test
open Mrc

/-- `2^63` bounds are far outside of what the code converts. -/
def floatToInt (x : Float) : Option Int :=
  if x.isNaN || x.abs > 2147483647.0 then none
  else some (if x < 0 then -((-x).toUInt64.toNat : Int) else (x.toUInt64.toNat : Int))

def ofRat (q : Rat) : Float :=
  let m := (Float.ofNat q.num.natAbs) / (Float.ofNat q.den)
  if q.num < 0 then -m else m

/-- C `fmod`. -/
def fmod (x y : Float) : Float := let q := (x.abs / y.abs).floor; let r := x.abs - q * y.abs; if x < 0 then -r else r

instance : FloatOps Float where
  add := (· + ·)
  sub := (· - ·)
  mul := (· * ·)
  div := (· / ·)
  neg := (- ·)
  abs := Float.abs
  sqrt := Float.sqrt
  sin := Float.sin
  cos := Float.cos
  acos := Float.acos
  asin := Float.asin
  atan2 := Float.atan2
  fmod := fmod
  lt x y := x < y
  le x y := x ≤ y
  ofRat := ofRat
  pi := 3.14159265358979323846
  inf := 1.0 / 0.0
  nan := 0.0 / 0.0
  isNaN := Float.isNaN
  toInt := floatToInt
  hexFloat _ := 0

def check (name : String) (b : Bool) : IO Unit := if b then pure () else throw (IO.userError ("check failed: " ++ name))
def near (x y e : Float) : Bool := (x - y).abs ≤ e
def pi : Float := FloatOps.pi
def d (x : Float) : Float := x * pi / 180

/-- test/tests/KinematicTest.cpp:8-14. -/
def geo : Fin 5 → V3 Float
  | 0 => ⟨5, 0, 7.3⟩ | 1 => ⟨0, 0, 13⟩ | 2 => ⟨1, 0, 2⟩ | 3 => ⟨12.6, 0, 0⟩ | 4 => ⟨0, 0, -3.6⟩
def K : Kin Float := Kin.new geo
def vec (a b _c : Float) : List Float := [b.sin, -(a.sin) * b.cos, a.cos * b.cos]
/-- EULER_EQUALS. -/
def eulerEq (p q : Six Float) : Bool := ((vec (p 3) (p 4) (p 5)).zip (vec (q 3) (q 4) (q 5))).all fun (x, y) => near x y 1e-5
def sixNear (p q : Six Float) (e : Float) : Bool := (List.finRange 6).all fun i => near (p i) (q i) e
def posNear (p q : Six Float) (e : Float) : Bool := near (p 0) (q 0) e && near (p 1) (q 1) e && near (p 2) (q 2) e
def zero6 : Six Float := fun _ => 0

-- KinematicTest.cpp forwardHome, forward, inverseHome, forwardEqualsInverseHome, forwardEqualsInverse
def kinematicTests : IO Unit := do
  let home := K.forward zero6
  check "forwardHome" (posNear home (six 18.6 0 18.7 0 0 0) 1e-6)
  let p := K.forward (six 0 0 (-pi / 2) 0 0 0)
  check "forward" (posNear p (six (5 + 0 - 2 - 0 + 3.6) 0 (7.3 + 13 + 1 + 12.6 + 0) 0 0 0) 1e-6)
  match K.inverse (six 18.6 0 18.7 0 pi 0) with
  | none => throw (IO.userError "inverseHome")
  | some a => check "inverseHome" (sixNear a zero6 1e-6)
  match K.inverse home with
  | none => throw (IO.userError "forwardEqualsInverseHome")
  | some a => check "forwardEqualsInverseHome" (sixNear a zero6 1e-6)
  for t in [six 10 10 10 0 pi 0, six 10 10 10 0 pi pi, six 10 10 10 (-pi / 2) pi (pi / 3), six 10 10 10 0 (pi / 2) 0] do
    match K.inverse t with
    | none => throw (IO.userError "forwardEqualsInverse: out of range")
    | some a =>
      check "forwardEqualsInverse position" (posNear (K.forward a) t 1e-5)
      check "forwardEqualsInverse orientation" (eulerEq (K.forward a) t)

-- RobotControllerTest.cpp
def sv0 : Servo Float := Servo.new 1 100 500 1000 (d (-180)) (d 180) 0
def cfg : RCfg Float := { fwd := K.forward, inv := K.inverse, lo := fun _ => d (-180), hi := fun _ => d 180, l2p := id, p2l := id }
def w0 : World Float := { servos := fun _ => sv0, now := 1, pins := fun _ => false, rxq := [], ee := fun _ => 0, outs := [] }

structure St where
  r : RC Float
  w : World Float

def runP {α} (p : Prog Float α) (w : World Float) : IO (α × World Float) :=
  match p.run w with | .ok x => pure x | .error _ => throw (IO.userError "fault")
def start (cfg : RCfg Float) : IO St := do let (r, w) ← runP (RC.new cfg) w0; pure ⟨r, w⟩
def process (cfg : RCfg Float) (s : St) : IO St := do let (r, w) ← runP (RC.process cfg s.r) s.w; pure ⟨r, w⟩
/-- helper_processServos. -/
def servos (s : St) : St :=
  let tbl := (List.range 8).toArray.map fun i => (s.w.servos ⟨i % 8, by omega⟩).tick 1000000
  { s with w := { s.w with servos := fun i => tbl.getD i.val sv0 } }
/-- helper_moveToTargetPose (bounded). -/
def moveTo (cfg : RCfg Float) : Nat → St → IO St
  | 0, _ => throw (IO.userError "does not end")
  | n+1, s => if s.r.isMoving then do moveTo cfg n (servos (← process cfg s)) else pure s
def pose (cfg : RCfg Float) (s : St) : IO (Six Float) := do let (p, _) ← runP (RC.getCurrentPose cfg) s.w; pure p
def logical (cfg : RCfg Float) (s : St) : IO (Six Float) := do let (p, _) ← runP (RC.getCurrentLogicalAngles cfg) s.w; pure p

def transaction : IO Unit := do
  let s ← start cfg
  let s := { s with r := s.r.startTransaction.setTargetLogicalAngle 0 (d 45) }
  let s ← process cfg s
  let s ← process cfg s
  check "Transaction: not before the end" (near (s.w.servos 0).target 0 1e-9)
  let s ← process cfg { s with r := s.r.endTransaction }
  check "Transaction: afterwards" (near (s.w.servos 0).target (d 45) 1e-9)
def stop : IO Unit := do
  let s ← start cfg
  let s ← process cfg { s with r := s.r.setTargetLogicalAngle 0 (d 45) }
  check "stop 1" s.r.isMoving
  check "stop 2" (!s.r.stop.isMoving)
def movementMethod : IO Unit := do
  let s ← start cfg
  let p ← pose cfg s
  check "MovementMethod: idle" (!s.r.isMoving)
  let mut s := { s with r := (s.r.setMovementMethod .linear).setTargetPose (RC.upd p 0 (p 0 + 5)) }
  for k in [1:12] do
    s := servos (← process cfg s)
    let q ← pose cfg s
    check s!"MovementMethod step {k}" (near (q 0) (18.6 + 5.0 / 11.0 * k.toFloat) 1e-5)
    check s!"MovementMethod moving {k}" s.r.isMoving
  s ← process cfg s
  check "MovementMethod: idle at the end" (!s.r.isMoving)
def getCurrentPose : IO Unit := do
  let s ← start cfg
  let s := servos (← process cfg { s with r := s.r.setTargetPose (six 10 10 10 0 pi 0) })
  let q ← pose cfg s
  check "getCurrentPose" (posNear q (six 10 10 10 0 0 0) 1e-4 && eulerEq q (six 0 0 0 0 pi 0))
  let s := { s with r := s.r.setTargetPose (six (-10) 10 (-10) 0 pi pi) }
  let q ← pose cfg s
  check "getCurrentPose 2" (posNear q (six 10 10 10 0 0 0) 1e-4)
def someAngles : Six Float := six (d 90) (d 110) (d (-30)) (d (-15)) (d 45) (d 130)
def setTargetLogicalAngles : IO Unit := do
  let s ← start cfg
  let s ← moveTo cfg 100 { s with r := s.r.setTargetLogicalAngles someAngles }
  check "setTargetLogicalAngles" (sixNear (← logical cfg s) someAngles 1e-5)
def pastSingularity : IO Unit := do
  let s ← start cfg
  let a := six 0 0 0 0 (d (-90)) 0
  let s ← moveTo cfg 100 { s with r := s.r.setTargetLogicalAngles a }
  check "MovePastsingularity 1" (sixNear (← logical cfg s) a 1e-5)
  let a := six 0 0 0 0 (d (-120)) 0
  let s ← moveTo cfg 100 { s with r := s.r.setTargetLogicalAngles a }
  check "MovePastsingularity 2" (sixNear (← logical cfg s) a 1e-5)
def setTargetLogicalAngle : IO Unit := do
  let s ← start cfg
  let s ← moveTo cfg 100 { s with r := s.r.setTargetLogicalAngle 3 (d 42) }
  check "setTargetLogicalAngle" (near ((← logical cfg s) 3) (d 42) 1e-7)
  let s ← start cfg
  check "getTargetLogicalAngle" (near ((s.r.setTargetLogicalAngle 3 (d 42)).targetAngles 3) (d 42) 1e-7)
def logicalPhysical : IO Unit := do
  let cfg := { cfg with l2p := fun a => RC.upd a 2 (a 2 + a 1), p2l := fun a => RC.upd a 2 (a 2 - a 1) }
  let s ← start cfg
  let s ← moveTo cfg 100 { s with r := s.r.setTargetLogicalAngles someAngles }
  check "LogicalPhysicalAngles 1" (sixNear (← logical cfg s) someAngles 1e-5)
  let (ph, _) ← runP (RC.getCurrentPhysicalAngles cfg) s.w
  check "LogicalPhysicalAngles 2" ((List.finRange 6).all fun i => near (s.w.servos (armServo i)).cur (ph i) 1e-5)
def linearTransition : IO Unit := do
  let s ← start cfg
  let s ← moveTo cfg 100 { s with r := (s.r.setMovementMethod .linear).setTargetPose (six 10 0 10 0 pi 0) }
  let s ← moveTo cfg 100 { s with r := s.r.setTargetPose (six 10 (-5) 11 0 (pi / 3) 0) }
  check "linearTransitionBetweenPoses" (posNear (← pose cfg s) (six 10 (-5) 11 0 0 0) 1e-4)
def limits : IO Unit := do
  let cfg := { cfg with lo := fun _ => d (-90), hi := fun _ => d 90 }
  let s ← start cfg
  let still (s t : St) : Bool := (List.finRange 6).all fun i => (s.w.servos (armServo i)).target == (t.w.servos (armServo i)).target
  let t ← process cfg { s with r := s.r.setTargetPose (six (-10) (-10) (-10) 0 pi 0) }
  check "dontMoveWhenTargetIsOutOfLogicalLimits 1" (still s t)
  let s ← process cfg { t with r := t.r.setTargetPose (six 10 10 10 0 pi 0) }
  check "dontMoveWhenTargetIsOutOfLogicalLimits 2" (!still s t)
  let s := { s with r := (List.finRange 6).foldl (fun r i => r.setTargetLogicalAngle i (d 80)) s.r }
  let s ← moveTo cfg 100 s
  check "dontMoveWhenTargetIsOutOfLogicalLimits 3" (sixNear (← logical cfg s) (fun _ => d 80) 1e-5)
  let t ← process cfg { s with r := (List.finRange 6).foldl (fun r i => r.setTargetLogicalAngle i (d 91)) s.r }
  check "dontMoveWhenTargetIsOutOfLogicalLimits 4" (still s t && !t.r.isMoving)

-- RingBufferTest.cpp
def ringBufferTests : IO Unit := do
  let msg : List Byte := [49, 50, 51]
  check "canNotPutMoreBytesThanSize" (((RB.new 2).putBytes msg).2 == RB.STATUS_FULL)
  check "canPutBytesInBuffer" (((RB.new 10).putBytes msg).2 == RB.STATUS_OK)
  let r := ((RB.new 10).putBytes msg).1
  check "getMessageFromBuffer" (r.getMessage.1 == msg)
  let (a, r1) := r.get; let (b, r2) := r1.get; let (c, r3) := r2.get
  check "addENDAfterMessage" ([a, b, c, r3.get.1] == [49, 50, 51, RB.END])
  let (a, r1) := r.getFromBack; let (b, r2) := r1.getFromBack; let (c, r3) := r2.getFromBack
  check "getFromBack" ([a, b, c, r3.getFromBack.1] == [RB.END, 51, 50, 49])

-- IOLogicTest.cpp, MRILParserTest.cpp, MRCPParserTest.cpp
def pinMap : List Nat := [8, 11, 12, 7, 21, 1, 0, 0, 0, 0]
def isOut (pin : Nat) (lvl : Bool) : Out Float → Bool | .digitalWrite p l => p == pin && l == lvl | _ => false
def isMode (pin : Nat) (m : PinMode) : Out Float → Bool | .pinMode p x => p == pin && x == m | _ => false
def ioTests : IO Unit := do
  let (_, w) ← runP (IOL.setOutput (F := Float) pinMap 3 1) w0
  check "IOLogic setOutput" (w.outs.any (isOut 7 true) && w.outs.any (isMode 7 .output) && w.outs.length == 2)
  let wh := { w0 with pins := fun _ => true }
  let (c, w) ← runP (IOL.addCondition (F := Float) pinMap [] 4 1) wh
  let ((b, _), _) ← runP (IOL.isDone (F := Float) c) w
  check "IOLogic waitForInput" (b && w.outs.any (isMode 21 .input_pulldown))
  let (c, w) ← runP (IOL.addCondition (F := Float) pinMap [] 4 0) wh
  let ((b, _), _) ← runP (IOL.isDone (F := Float) c) w
  check "IOLogic waitForInputIsNotDone" (!b && w.outs.any (isMode 21 .input_pullup))

def mcfg : Cfg Float := { cfg with pinMap := pinMap }
def bytes (s : String) : List Byte := s.toList.map fun c => UInt8.ofNat c.toNat
def core (s : St) : Core Float := { rc := s.r, conds := [], waitUntil := 0, commandNumber := -1, done := true }
def parse (text : String) : IO (Core Float × World Float) := do
  let s ← start mcfg.toRCfg
  runP (Mril.parse mcfg (core s) (bytes text)) s.w
def msgs (w : World Float) : List (Msg Float) := w.outs.filterMap fun | .msg m => some m | _ => none
def mrilTests : IO Unit := do
  let (_, w) ← parse "O31"
  check "setOutputToHigh" (w.outs.any (isOut 7 true) && w.outs.any (isMode 7 .output))
  let (c, _) ← parse "I41"
  check "waitForInput" (c.conds.length == 1)
  let (c, w) ← runP (Mril.process (F := Float) c) w
  check "waitForInput 2" (c.conds.length == 1 && w.pins 21 == false)
  for (t, i, v) in [("X15.0", (0 : Fin 6), (15 : Float)), ("Y15.0", 1, 15), ("Z15.0", 2, 15), ("A15.0", 3, d 15), ("B15.0", 4, d 15), ("C15.0", 5, d 15), ("Y-002", 1, -2)] do
    let (c, _) ← parse t
    check ("set " ++ t) (near (c.rc.targetPose i) v 1e-9 && c.rc.poseChanged)
  let (c, _) ← parse "Z3A4B5C6"
  check "setMultipleCoordinates" (near (c.rc.targetPose 2) 3 1e-9 && near (c.rc.targetPose 3) (d 4) 1e-9 && near (c.rc.targetPose 4) (d 5) 1e-9 && near (c.rc.targetPose 5) (d 6) 1e-9)
  let (_, w) ← parse "XYZABC"
  check "getXYZABC" (match msgs w with
    | [.reply none ps] => ps.filterMap (fun | .pose s _ => some s | _ => none) == bytes "XYZABC" && ps.length == 6
    | _ => false)
  for t in ["#X2", "(X2"] do
    let (c, _) ← parse t
    check "dontParseComments" (!c.rc.poseChanged)
  let (c, _) ← parse "V12"
  check "setVelocity" (near c.rc.maxVelocity 12 1e-9)
  let (_, w) ← parse "VV"
  check "getVelocity" (match msgs w with | [.reply none [.velocity x, .velocity y]] => near x 70 1e-9 && near y 70 1e-9 | _ => false)
  let (c, _) ← parse "M01"
  check "setMovementMethod 1" (c.rc.method == .linear)
  let (c, _) ← parse "M00"
  check "setMovementMethod 2" (c.rc.method == .p2p)
  let (_, w) ← parse "M"
  check "getMovementMethod" (match msgs w with | [.reply none [.method 0]] => true | _ => false)
  let (c, _) ← parse "R290"
  check "setAngle 1" (near (c.rc.targetAngles 2) (d 90) 1e-9 && c.rc.anglesChanged)
  let (c, _) ← parse "R4-10"
  check "setAngle 2" (near (c.rc.targetAngles 4) (d (-10)) 1e-9)
  let (_, w) ← parse "R3"
  check "getAngle" (match msgs w with | [.reply none [.angle 3 x]] => near x 0 1e-9 | _ => false)
  let s ← start mcfg.toRCfg
  let (c, _) ← runP (Mril.parse mcfg (core s) (bytes "D42")) { s.w with now := 1200 }
  check "setWait" (Wait.isDone 1200 0 && !Wait.isDone 1200 c.waitUntil)
  let (_, w) ← parse "N42X5"
  check "sendExecutingCommandNumber" (match msgs w with | [.n0 42] => true | _ => false)
  let (_, w) ← parse "N42X"
  check "sendExecutedCommandNumber" (match msgs w with | [.n0 42, .reply (some 42) [.pose 88 _]] => true | _ => false)

def handed (w : World Float) : List (List Byte) := w.outs.filterMap fun | .ghost _ i => some i | _ => none
def mrcpTests : IO Unit := do
  let w := { w0 with now := 2000 }
  let (s, w) ← runP (setup mcfg fun _ => 0) w
  let feed (s : FW Float) (w : World Float) (t : String) : IO (FW Float × World Float) :=
    (bytes t).foldlM (fun (s, w) c => runP (Mrcp.parseChar mcfg s c) w) (s, w)
  let (s1, w1) ← feed s w ":QX15\r:QY15\r"
  check "queueIn 1" (handed w1 == [])
  let (c, w1) ← runP (Mril.process (F := Float) s1.core) w1
  let (s1, w1) ← runP (Mrcp.process mcfg { s1 with core := c }) w1
  check "queueIn 2" (handed w1 == [bytes "X15"] && s1.core.rc.isMoving)
  let (_, w1) ← feed s w ":EX15\r:EY15\r"
  check "execute" (handed w1 == [bytes "X15", bytes "Y15"])

-- EEPromStorageTest.cpp
def eepromTests : IO Unit := do
  let m : EMem := fun _ => 7
  check "clear" (EE.clear m 0 == 0 && EE.clear m 1 == 7)

#eval kinematicTests
#eval transaction
#eval stop
#eval movementMethod
#eval getCurrentPose
#eval setTargetLogicalAngles
#eval pastSingularity
#eval setTargetLogicalAngle
#eval logicalPhysical
#eval linearTransition
#eval limits
#eval ringBufferTests
#eval ioTests
#eval mrilTests
#eval mrcpTests
#eval eepromTests
end Mrc.Test
