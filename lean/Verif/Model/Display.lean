import Verif.Model.Mrcp
import Verif.Model.Config
/-
src/Display.h and main.cpp `renderDisplay` (228-294): the drawing commands given to the graphics library, in order.
What the library makes of them (pixels, I2C) is not modelled.  All coordinates of the library are `int16_t`.
-/
namespace Mrc
open scoped Mrc.Num
variable {F : Type} [FloatOps F]

/-- a call of the graphics library. Display.h:86, 213-228, 55-60; main.cpp:280-288. -/
inductive Draw where
  | line (x0 y0 x1 y1 : Int)            -- drawLine
  | fill (x y w h : Int)                -- fillRect
  | rect (x y w h : Int)                -- drawRect
  | text (x y : Int) (s : List Byte)    -- setCursor, println
  deriving DecidableEq

namespace Disp

/-- implicit conversion float → int16_t; undefined (none) outside of the range.
Arguments of drawLine, Display.h:86-90. -/
def conv16 (x : F) : Option Int :=
  match FloatOps.toInt x with
  | some i => if -32768 ≤ i ∧ i ≤ 32767 then some i else none
  | none => none

/-- unsigned int (or int) → int16_t: the low 16 bits. Arguments of fillRect, Display.h:213-228. -/
def wrap16 (i : Int) : Int := (i + 32768) % 65536 - 32768

/-- where a joint is drawn, Display.h:82-115: view 0 = front, 1 = top, 2 = side. -/
def proj (view x y : Nat) (scale : F) (p : V3 F) : F × F :=
  let h := if view = 2 then p.z else p.x
  let v := if view = 0 then p.z else p.y
  (Servo.ofNat x + h * scale * lit 2, Servo.ofNat y + -v * scale)

/-- one link, Display.h:86-90. -/
def link (view x y : Nat) (scale : F) (p q : V3 F) : Option Draw :=
  match conv16 (proj view x y scale p).1, conv16 (proj view x y scale p).2, conv16 (proj view x y scale q).1, conv16 (proj view x y scale q).2 with
  | some a, some b, some c, some d => some (.line a b c d)
  | _, _, _, _ => none

/-- the loop over the links. Display.h:85-91, 95-101, 107-113. -/
def links (view x y : Nat) (scale : F) : List (V3 F) → Option (List Draw)
  | p :: q :: ps =>
    match link view x y scale p q, links view x y scale (q :: ps) with
    | some d, some ds => some (d :: ds)
    | _, _ => none
  | _ => some []

/-- Display.h:71-118 (views 0..2; Kinematic.cpp:383-385: joint 0 is the origin). -/
def displayRobot (K : Kin F) (cfg : RCfg F) (x y : Nat) (scale : F) (view : Nat) : Prog F (List Draw) := do
  let a ← RC.getCurrentLogicalAngles cfg
  let C := K.coords a
  match links view x y scale [⟨lit 0, lit 0, lit 0⟩, C.J1, C.J2, C.J3, C.J4, C.J5] with
  | some ds => return ds
  | none => .fault .badConv

/-- Display.h:62-69, 178-183: `(int)map_float2(v, min, max, 0, width)`. -/
def mapped (v lo hi : F) (width : Nat) : Option Int :=
  FloatOps.toInt (Servo.mapFloat v lo hi (lit 0) (Servo.ofNat width))

/-- one bar, Display.h:177-229, from the values read; `i` = number of the servo. The rectangle sizes of the default case of the
switch (offsets 1, 2) are those of heights 18 and 24, the heights used. -/
def bar (x y width height i : Nat) (home lo hi target cur : F) : Option (List Draw) :=
  match mapped home lo hi width, mapped target lo hi width, mapped cur lo hi width with
  | some n, some t, some c =>
    let per := height / 6
    let one := if height = 6 then 0 else if height = 12 then 0 else 1
    let two := if height = 6 then 0 else if height = 12 then 1 else 2
    let span (k : Int) (off : Nat) : Draw :=
      if n - k > 0 then .fill (wrap16 (x + k)) (wrap16 (y + off + i * per)) (wrap16 (-k + n)) 1
      else .fill (wrap16 (x + n)) (wrap16 (y + off + i * per)) (wrap16 (k - n)) 1
    some [.fill (wrap16 (x + n)) (wrap16 (y + i * per)) 1 (wrap16 per), span t one, span c two]
  | _, _, _ => none

/-- Display.h:175-231: target and current angle are read separately. -/
def bars (x y width height : Nat) : List (Fin 6) → Prog F (List Draw)
  | [] => return []
  | i :: is => do
    let s ← Prog.readServo (armServo i)
    let s' ← Prog.readServo (armServo i)
    match bar x y width height i.val s.home s.minA s.maxA s.target s'.cur with
    | none => .fault .badConv
    | some ds =>
      let rest ← bars x y width height is
      return ds ++ rest

/-- main.cpp:272-291: the required input states; none = read beyond pinMap. -/
def ioMarks (pinMap : List Nat) (c : Conds) : List Nat → Option (List Draw)
  | [] => some []
  | i :: is =>
    match IOL.getTargetState pinMap c i, ioMarks pinMap c is with
    | some st, some ds =>
      let x : Int := 70 + 6 * i
      let y : Int := 28
      some ((if st = 0 then [.rect x y 4 3] else if st = 1 then [.fill x y 4 3] else if st = 2 then [.rect x y 4 1] else []) ++ ds)
    | _, _ => none

/-- main.cpp:228-294; `fl1` stands for `String(float, 1)`. -/
def render (fl1 : F → List Byte) (K : Kin F) (cfg : Cfg F) (s : FW F) : Prog F (List Draw) := do
  let a ← displayRobot K cfg.toRCfg 10 20 (lit (1/2)) 1
  let b ← displayRobot K cfg.toRCfg 35 28 (lit (1/2)) 0
  let first := (match s.core.rc.method with | .p2p => str "M00" | .linear => str "M01" | .circular => str "M02") ++
    str " V " ++ fl1 s.core.rc.maxVelocity
  let status ← (match s.mode with
    | .eeprom => .eeRead fun m => .ret [Draw.text 72 0 (str "W " ++ natStr s.eePtr ++ str "/" ++ natStr (EE.getNumberOfMessages m))]
    | .queue => .ret [Draw.text 72 0 (str "B " ++ natStr s.rb.getSize ++ str "/" ++ natStr s.rb.getCapacity)]
    | _ => .ret [] : Prog F (List Draw))
  let c ← bars 64 8 64 18 (List.finRange 6)
  match ioMarks cfg.pinMap s.core.conds (List.range 10) with
  | none => .fault .oobRead
  | some d => return a ++ b ++ status ++ [.text 0 0 first] ++ c ++ d

/-- main.cpp:193-226 with the display: a pass in which the picture is redrawn between the two calls of the controller. -/
def loopBodyDraw (fl1 : F → List Byte) (K : Kin F) (cfg : Cfg F) (s : FW F) : Prog F (FW F) := do
  let s ← rcProcess cfg s
  let _ ← render fl1 K cfg s
  let s ← rcProcess cfg s
  let s ← serialProcess cfg SERIAL_BYTES s
  let c ← Mril.process s.core
  Mrcp.process cfg { s with core := c }

end Disp
end Mrc
