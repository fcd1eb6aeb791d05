import Verif.Model.Display
/-
src/Display.h `displayRobotGeometry` (120-172): the picture of the arm on the start screen, drawn once by `setup` (main.cpp:80).
-/
namespace Mrc
open scoped Mrc.Num
variable {F : Type} [FloatOps F]

namespace Disp

/-- Display.h:126-149: one of the two pairs of extremes (the same code for x and y): running sum, maximum and minimum
(`else if`, as in the code) over the first four links. -/
def extremes : List F → F → F → F → F × F
  | [], _, hi, lo => (hi, lo)
  | g :: gs, t, hi, lo =>
    let t := t + g
    if fgt t hi then extremes gs t t lo
    else if flt t lo then extremes gs t hi t
    else extremes gs t hi lo

/-- Display.h:151-152: `int` of the difference; none = undefined. -/
def extent (gs : List F) : Option Int :=
  let e := extremes gs (lit 0) (lit 0) (lit 0)
  FloatOps.toInt (e.1 - e.2)

/-- Display.h:157-161. -/
def startScale (width height : Int) (maxWidth maxHeight : Nat) : F :=
  if fgt (lit (width : Rat) / lit (height : Rat) : F) (Servo.ofNat maxWidth / Servo.ofNat maxHeight)
  then Servo.ofNat maxWidth / lit (width : Rat) else Servo.ofNat maxHeight / lit (height : Rat)

/-- `unsigned int` of a float, Display.h:168-169; undefined (none) for −1 and below, and (simplified: the conversion is defined up to
2³²) from 2³¹ on. -/
def convU (x : F) : Option Nat :=
  match FloatOps.toInt x with
  | some i => if 0 ≤ i then some i.toNat else none
  | none => none

/-- Display.h:163-170: the loop over the links; none = an undefined conversion. -/
def chain (sc : F) : List (F × F) → Nat → Nat → Option (List Draw)
  | [], _, _ => some []
  | (gx, gy) :: gs, x, y =>
    match conv16 ((Servo.ofNat x + gx * sc) * lit 2), conv16 (Servo.ofNat y - gy * sc), convU (Servo.ofNat x + gx * sc), convU (Servo.ofNat y - gy * sc) with
    | some a, some b, some x', some y' =>
      match chain sc gs x' y' with
      | some ds => some (.line (wrap16 (u32 (x * 2) : Nat)) (wrap16 y) a b :: ds)
      | none => none
    | _, _, _, _ => none

/-- Display.h:120-172. -/
def startPicture (geometry : Fin 5 → V3 F) (xPos yPos maxWidth maxHeight : Nat) : Option (List Draw) :=
  match extent [(geometry 0).x, (geometry 1).x, (geometry 2).x, (geometry 3).x], extent [(geometry 0).y, (geometry 1).y, (geometry 2).y, (geometry 3).y] with
  | some w, some h =>
    chain (startScale w h maxWidth maxHeight) ((List.finRange 5).map fun i => ((geometry i).x, (geometry i).y)) xPos yPos
  | _, _ => none

/-- main.cpp:80 with the default arguments of Display.h:121-124. -/
def startScreen (geometry : Fin 5 → V3 F) : Option (List Draw) := startPicture geometry 30 32 64 20

end Disp
end Mrc
