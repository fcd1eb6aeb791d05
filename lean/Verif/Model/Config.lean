import Verif.Model.Mrcp
/-
config/mp-robot-kit.h, config/mp-robot-d.h, config/servodata.h.
-/
namespace Mrc
open scoped Mrc.Num
variable {F : Type} [FloatOps F]

/-- `x * DEG_TO_RAD`. config/mp-robot-kit.h:16-21, 75-77; config/servodata.h:10-15. -/
def deg (q : Rat) : F := lit q * degToRad

namespace Kit
/-- config/mp-robot-kit.h:25-31. -/
def geometry : Fin 5 → V3 F
  | 0 => ⟨lit (46/10), lit 0, lit (79/10)⟩
  | 1 => ⟨lit 0, lit 0, lit (117/10)⟩
  | 2 => ⟨lit 1, lit 0, lit (15/10)⟩
  | 3 => ⟨lit (1215/100), lit 0, lit 0⟩
  | 4 => ⟨lit 0, lit 0, lit (-3)⟩

/-- min angle in degrees, config/mp-robot-kit.h:15-22 and 74-78. -/
def minDeg : Fin 8 → Rat
  | 0 => -90 | 1 => -45 | 2 => -45 | 3 => -90 | 4 => -140 | 5 => -90 | 6 => 0 | 7 => -90
/-- max angle in degrees. config/mp-robot-kit.h:15-22 and 74-78. -/
def maxDeg : Fin 8 → Rat
  | 0 => 90 | 1 => 90 | 2 => 135 | 3 => 85 | 4 => 15 | 5 => 60 | 6 => 1 | 7 => 90
/-- max velocity in degrees per second. config/mp-robot-kit.h:15-22 and 74-78. -/
def velDeg : Fin 8 → Rat
  | 6 => 160 | 7 => 160 | _ => 300
/-- calibration pulse widths. config/mp-robot-kit.h:15-22 and 74-78. -/
def freq : Fin 8 → Nat × Nat
  | 0 => (700, 2380) | 1 => (710, 1909) | 2 => (2290, 650) | 3 => (740, 2260) | 4 => (730, 2340) | 5 => (740, 2200)
  | 6 => (1888, 1122) | 7 => (1000, 2000)
/-- pins. config/mp-robot-kit.h:4-12, config/servoports.h:4-14. -/
def pin : Fin 8 → Int
  | 0 => 3 | 1 => 4 | 2 => 5 | 3 => 6 | 4 => 9 | 5 => 10 | 6 => 20 | 7 => -1

/-- main.cpp:86-108: the eight servos (home angle 0). -/
def servos : Fin 8 → Servo F := fun i =>
  Servo.new (pin i) (deg (velDeg i)) (freq i).1 (freq i).2 (deg (minDeg i)) (deg (maxDeg i)) (lit 0)

/-- config/mp-robot-kit.h:50-52. -/
def l2p (a : Six F) : Six F := RC.upd a 2 (a 2 + a 1)
/-- config/mp-robot-kit.h:54-56. -/
def p2l (a : Six F) : Six F := RC.upd a 2 (a 2 - a 1)

/-- pinMap, config/mp-robot-kit.h:80. -/
def pinMap : List Nat := [8, 11, 12, 7, 0, 1, 0, 0, 0, 0]

/-- the configuration main.cpp builds; logical limits = physical limits of the servos (mp-robot-kit.h:34-47). -/
def cfg : Cfg F :=
  { fwd := (Kin.new geometry).forward
    inv := (Kin.new geometry).inverse
    lo := fun i => deg (minDeg (armServo i))
    hi := fun i => deg (maxDeg (armServo i))
    l2p := l2p
    p2l := p2l
    pinMap := pinMap }

end Kit

namespace RobotD
/-- config/mp-robot-d.h:28-31. -/
def v_1 : F := lit (95/10)
/-- config/mp-robot-d.h:29. -/
def h_1 : F := lit (2619/1000)
/-- config/mp-robot-d.h:30. -/
def h_2 : F := lit (1029/100)
/-- config/mp-robot-d.h:31. -/
def h_3 : F := lit (33/10)

/-- config/mp-robot-d.h:34-44. -/
def l2p (a : Six F) : Six F :=
  let alpha := a 2
  let alpha_ := alpha + FloatOps.pi / lit 2
  let diag2 : F := FloatOps.sqrt (v_1 * v_1 - lit 2 * v_1 * h_3 * FloatOps.cos alpha_ + h_3 * h_3)
  let beta1 : F := FloatOps.acos ((-h_2 * h_2 + h_1 * h_1 + diag2 * diag2) / (lit 2 * h_1 * diag2))
  let beta2 : F := FloatOps.acos ((-h_3 * h_3 + v_1 * v_1 + diag2 * diag2) / (lit 2 * v_1 * diag2))
  RC.upd a 2 (FloatOps.pi / lit 2 - (beta1 + beta2) + a 1)

/-- config/mp-robot-d.h:46-55. -/
def p2l (a : Six F) : Six F :=
  let beta := a 2 - a 1
  let beta_ := FloatOps.pi / lit 2 - beta
  let diag1 : F := FloatOps.sqrt (v_1 * v_1 - lit 2 * v_1 * h_1 * FloatOps.cos beta_ + h_1 * h_1)
  let alpha1 : F := FloatOps.acos ((-h_2 * h_2 + h_3 * h_3 + diag1 * diag1) / (lit 2 * h_3 * diag1))
  let alpha2 : F := FloatOps.acos ((-h_1 * h_1 + v_1 * v_1 + diag1 * diag1) / (lit 2 * v_1 * diag1))
  RC.upd a 2 (alpha1 + alpha2 - FloatOps.pi / lit 2)

/-- config/mp-robot-d.h:4-10. -/
def geometry : Fin 5 → V3 F
  | 0 => ⟨lit (42/10), lit 0, lit (85/10)⟩
  | 1 => ⟨lit 0, lit 0, lit (95/10)⟩
  | 2 => ⟨lit 1, lit 0, lit (185/100)⟩
  | 3 => ⟨lit (148/10), lit 0, lit 0⟩
  | 4 => ⟨lit 0, lit 0, lit (-22/10)⟩

/-- config/servodata.h:9-16 (arm servos) and mp-robot-d.h:61-65. -/
def minDeg : Fin 8 → Rat
  | 0 => -90 | 1 => -70 | 2 => -90+1 | 3 => -90 | 4 => -127 | 5 => -75 | 6 => 0 | 7 => -90
/-- config/servodata.h:9-16 and mp-robot-d.h:61-65: max angle in degrees. -/
def maxDeg : Fin 8 → Rat
  | 0 => 90 | 1 => 90 | 2 => 135-1 | 3 => 75 | 4 => 14 | 5 => 86 | 6 => 1 | 7 => 90
/-- config/servodata.h:9-16 and mp-robot-d.h:61-65: max velocity in degrees per second. -/
def velDeg : Fin 8 → Rat
  | 6 => 160 | 7 => 160 | _ => 150
/-- config/servodata.h:9-16 and mp-robot-d.h:61-65: calibration pulse widths. -/
def freq : Fin 8 → Nat × Nat
  | 0 => (852, 2091) | 1 => (710, 1780) | 2 => (2099, 571) | 3 => (650, 2370) | 4 => (2370, 860) | 5 => (2290, 570)
  | 6 => (1888, 1122) | 7 => (1000, 2000)

/-- main.cpp:86-108: the eight servos. -/
def servos : Fin 8 → Servo F := fun i =>
  Servo.new (Kit.pin i) (deg (velDeg i)) (freq i).1 (freq i).2 (deg (minDeg i)) (deg (maxDeg i)) (lit 0)

/-- mp-robot-d.h:13-26: axis 2 has logical limits -25°..48°. -/
def cfg : Cfg F :=
  { fwd := (Kin.new geometry).forward
    inv := (Kin.new geometry).inverse
    lo := fun i => if i = 2 then deg (-25) else deg (minDeg (armServo i))
    hi := fun i => if i = 2 then deg 48 else deg (maxDeg (armServo i))
    l2p := l2p
    p2l := p2l
    pinMap := Kit.pinMap }
end RobotD
end Mrc
