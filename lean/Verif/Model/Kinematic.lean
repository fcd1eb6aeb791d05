import Verif.Model.Num
/-
src/Kinematic.cpp / .h.  Literal transcription; `pow(x,2)` is written `x*x`; log output left out.
-/
namespace Mrc
open scoped Mrc.Num
variable {F : Type} [FloatOps F]

/-- `float[3]`. Kinematic.h, Kinematic.cpp:472-501. -/
@[ext] structure V3 (F : Type) where
  x : F
  y : F
  z : F

/-- six numbers: angles or a pose (`float[6]`). Kinematic.cpp:325-352; RobotController.h:91-96. -/
abbrev Six (F : Type) := Fin 6 → F

/-- build a `float[6]`. Kinematic.cpp:325-352. -/
def six (a b c d e f : F) : Six F := fun i =>
  match i with
  | 0 => a | 1 => b | 2 => c | 3 => d | 4 => e | 5 => f

/-- object state (Kinematic.h:56-60); `geometry[i]` are the link vectors. -/
structure Kin (F : Type) where
  g : Fin 5 → V3 F
  v1len : F                -- V1_length_x_z
  v4len : F                -- V4_length_x_y_z
  j1 : V3 F                -- J_initial_absolute[1]
  j4 : V3 F                -- J_initial_absolute[4]
  aCorr1 : F               -- A_corrected[1]
  aCorr2 : F               -- A_corrected[2]
  aCorr4 : F               -- A_corrected[4]   (A_corrected[0,3,5] are 0)

namespace Kin

/-- The literal 0 of Kinematic.cpp:354-432. -/
def zero : F := lit 0
/-- `PI / 2.0`. Kinematic.cpp:126. -/
def halfPi : F := FloatOps.pi / lit 2

/-- constructor, Kinematic.cpp:17-52 (only the entries of J_initial_absolute and A_corrected that are used). -/
def new (g : Fin 5 → V3 F) : Kin F :=
  { g := g
    v1len := FloatOps.sqrt ((g 1).x * (g 1).x + (g 1).z * (g 1).z)
    v4len := FloatOps.sqrt ((g 4).x * (g 4).x + (g 4).z * (g 4).z + (g 4).y * (g 4).y)
    j1 := ⟨zero + (g 0).x, zero + (g 0).y, zero + (g 0).z⟩
    j4 := ⟨zero + (g 0).x + (g 1).x + (g 2).x + (g 3).x,
           zero + (g 0).y + (g 1).y + (g 2).y + (g 3).y,
           zero + (g 0).z + (g 1).z + (g 2).z + (g 3).z⟩
    aCorr1 := zero + halfPi - FloatOps.atan2 (g 1).x (g 1).z
    aCorr2 := zero + halfPi + FloatOps.atan2 ((g 2).z + (g 3).z) ((g 2).x + (g 3).x)
                + FloatOps.atan2 (g 1).x (g 1).z
    aCorr4 := zero + halfPi }

/-- Kinematic.cpp:472-476. -/
def cross (a b : V3 F) : V3 F :=
  ⟨a.y * b.z - a.z * b.y, a.z * b.x - a.x * b.z, a.x * b.y - a.y * b.x⟩

/-- Kinematic.cpp:499-501. -/
def length3 (v : V3 F) : F := FloatOps.sqrt (v.x * v.x + v.y * v.y + v.z * v.z)

/-- Kinematic.cpp:503-505. -/
def length2 (a b : F) : F := FloatOps.sqrt (a * a + b * b)

/-- Kinematic.cpp:482-497. -/
def angleBetween (a b ref : V3 F) : F :=
  let norm := length3 (cross a b)
  let angle := FloatOps.atan2 norm (b.x * a.x + b.y * a.y + b.z * a.z)
  let tmp := ref.x * a.x + ref.y * a.y + ref.z * a.z
  let sign : F := if fgt tmp (lit 0) then lit 1 else lit (-1)
  angle * sign

/-- the joint positions J1..J5 and the matrix M of Kinematic.cpp:354-432. -/
structure Coords (F : Type) where
  J1 : V3 F
  J2 : V3 F
  J3 : V3 F
  J4 : V3 F
  J5 : V3 F
  M00 : F
  M01 : F
  M02 : F
  M10 : F
  M11 : F
  M12 : F
  M20 : F
  M21 : F
  M22 : F

/-- Kinematic.cpp:354-432 (jointsResult[0..5] and M). -/
def coords (K : Kin F) (R : Six F) : Coords F :=
  let a := FloatOps.cos (R 0); let b := FloatOps.sin (R 0)
  let c := (K.g 0).x; let d := (K.g 0).y; let e := (K.g 0).z
  let f := FloatOps.cos (R 1); let g := FloatOps.sin (R 1)
  let h := (K.g 1).x; let i := (K.g 1).y; let j := (K.g 1).z
  let k := FloatOps.cos (R 2); let l := FloatOps.sin (R 2)
  let m := (K.g 2).x; let n := (K.g 2).y; let o := (K.g 2).z
  let p := FloatOps.cos (R 3); let q := FloatOps.sin (R 3)
  let r := (K.g 3).x; let s := (K.g 3).y; let t := (K.g 3).z
  let u := FloatOps.cos (R 4); let v := FloatOps.sin (R 4)
  let w := (K.g 4).x; let x := (K.g 4).y; let y := (K.g 4).z
  let A := FloatOps.cos (R 5); let B := FloatOps.sin (R 5)
  let j10 := zero + a * c - b * d
  let j11 := zero + b * c + a * d
  let j12 := zero + e
  let j20 := j10 + a * f * h - b * i + a * g * j
  let j21 := j11 + b * f * h + a * i + b * g * j
  let j22 := j12 + -g * h + f * j
  let j30 := j20 + a * f * k * m - a * g * l * m - b * n + a * g * k * o + a * f * l * o
  let j31 := j21 + b * f * k * m - b * g * l * m + a * n + b * g * k * o + b * f * l * o
  let j32 := j22 - g * k * m - f * l * m + f * k * o - g * l * o
  let j40 := j30 + a * f * k * r - a * g * l * r - b * p * s + a * g * k * q * s + a * f * l * q * s + a * g *
              k * p * t + a * f * l * p * t + b * q * t
  let j41 := j31 + b * f * k * r - b * g * l * r + a * p * s + b * g * k * q * s + b * f * l * q * s + b * g *
              k * p * t + b * f * l * p * t - a * q * t
  let j42 := j32 - g * k * r - f * l * r + f * k * q * s - g * l * q * s + f * k * p * t - g * l * p * t
  let j50 := j40 + a * f * k * u * w - a * g * l * u * w - a * g * k * p * v * w - a * f * l * p * v * w - b *
              q * v * w - b * p * x + a * g * k * q * x + a * f * l * q * x + a * g * k * p * u * y + a * f * l * p * u * y + b *
              q * u * y + a * f * k * v * y - a * g * l * v * y
  let j51 := j41 + b * f * k * u * w - b * g * l * u * w - b * g * k * p * v * w - b * f * l * p * v * w + a *
              q * v * w + a * p * x + b * g * k * q * x + b * f * l * q * x + b * g * k * p * u * y + b * f * l * p * u * y - a *
              q * u * y + b * f * k * v * y - b * g * l * v * y
  let j52 := j42 - g * k * u * w - f * l * u * w - f * k * p * v * w + g * l * p * v * w + f * k * q * x - g *
              l * q * x + f * k * p * u * y - g * l * p * u * y - g * k * v * y - f * l * v * y
  { J1 := ⟨j10, j11, j12⟩, J2 := ⟨j20, j21, j22⟩, J3 := ⟨j30, j31, j32⟩, J4 := ⟨j40, j41, j42⟩, J5 := ⟨j50, j51, j52⟩
    M00 := -B * b * p - -B * a * g * k * q - -B * a * f * l * q - A * a * f * k * u + A * a * g * l * u + A * a * g * k * p * v + A * a * f *
            l * p * v + A * b * q * v
    M01 := -A * b * p + A * a * g * k * q + A * a * f * l * q - -B * a * f * k * u + -B * a * g * l * u + -B * a * g * k * p * v + -B * a *
            f * l * p * v + -B * b * q * v
    M02 := -a * g * k * p * u - a * f * l * p * u - b * q * u - a * f * k * v + a * g * l * v
    M10 := B * a * p - -B * b * g * k * q - -B * b * f * l * q - A * b * f * k * u + A * b * g * l * u + A * b * g * k * p * v + A * b * f *
            l * p * v - A * a * q * v
    M11 := A * a * p + A * b * g * k * q + A * b * f * l * q - -B * b * f * k * u + -B * b * g * l * u + -B * b * g * k * p * v + -B * b *
            f * l * p * v - -B * a * q * v
    M12 := -b * g * k * p * u - b * f * l * p * u + a * q * u - b * f * k * v + b * g * l * v
    M20 := B * f * k * q + -B * g * l * q + A * g * k * u + A * f * l * u + A * f * k *
            p * v - A * g * l * p * v
    M21 := A * f * k * q - A * g * l * q + -B * g * k * u + -B * f * l * u + -B * f *
            k * p * v - -B * g * l * p * v
    M22 := -f * k * p * u + g * l * p * u + g * k * v + f * l * v }

/-- Kinematic.cpp:434-453: Euler angles (thetaX, thetaY, thetaZ) of the matrix. -/
def euler (C : Coords F) : V3 F :=
  if flt C.M02 (lit 1) then
    if fgt C.M02 (lit (-1)) then
      ⟨FloatOps.atan2 (-C.M12) C.M22, FloatOps.asin C.M02, FloatOps.atan2 (-C.M01) C.M00⟩
    else ⟨-(FloatOps.atan2 C.M10 C.M11), -FloatOps.pi / lit 2, lit 0⟩
  else ⟨FloatOps.atan2 C.M10 C.M11, FloatOps.pi / lit 2, lit 0⟩

/-- Kinematic.cpp:325-352: pose x y z a b c. -/
def forward (K : Kin F) (R : Six F) : Six F :=
  let C := K.coords R
  let E := euler C
  six C.J5.x C.J5.y C.J5.z E.x E.y E.z

/-- targetVectorZ, Kinematic.cpp:59-71. -/
def targetZ (P : Six F) : V3 F :=
  let b := P 4; let a := P 3
  let cb := FloatOps.cos b; let sb := FloatOps.sin b
  let ca := FloatOps.cos a; let sa := FloatOps.sin a
  ⟨sb, -sa * cb, ca * cb⟩

/-- J[4], Kinematic.cpp:110-116. -/
def wrist (K : Kin F) (P : Six F) : V3 F :=
  let tz := targetZ P
  ⟨P 0 - K.v4len * tz.x, P 1 - K.v4len * tz.y, P 2 - K.v4len * tz.z⟩

/-- R[0], Kinematic.cpp:126-127 (A_corrected[0] = 0). -/
def ik0 (K : Kin F) (J4 : V3 F) : F :=
  let R0 := zero + (halfPi - FloatOps.acos (-K.j4.y / length2 (-J4.y) J4.x))
  R0 + FloatOps.atan2 J4.y J4.x

/-- J4_x_z[0], Kinematic.cpp:150 (J4_x_z[1] is not used, J4_x_z[2] = J[4][2]). -/
def ikx (R0 : F) (J4 : V3 F) : F := FloatOps.cos R0 * J4.x + FloatOps.sin R0 * J4.y

/-- J1J4_projected_length_square, Kinematic.cpp:158-160. -/
def ikpls (K : Kin F) (jx jz : F) : F :=
  (jx - K.j1.x) * (jx - K.j1.x) + (jz - K.j1.z) * (jz - K.j1.z)

/-- J2J4_length_x_z, Kinematic.cpp:169. -/
def ikl (K : Kin F) : F := length2 ((K.g 2).x + (K.g 3).x) ((K.g 2).z + (K.g 3).z)

/-- R[2], Kinematic.cpp:172-174. -/
def ik2 (K : Kin F) (pls : F) : F :=
  K.aCorr2 - FloatOps.acos ((-pls + K.ikl * K.ikl + K.v1len * K.v1len) / (lit 2 * K.ikl * K.v1len))

/-- R[1], Kinematic.cpp:180-184. -/
def ik1 (K : Kin F) (jx jz pls : F) : F :=
  let pl := FloatOps.sqrt pls
  let R1 := K.aCorr1 - FloatOps.atan2 (jz - K.j1.z) (jx - K.j1.x)
  R1 - FloatOps.acos ((pls - K.ikl * K.ikl + K.v1len * K.v1len) / (lit 2 * pl * K.v1len))

/-- J[2] and J[3], Kinematic.cpp:190-218. -/
def ikJ3 (K : Kin F) (R0 R1 R2 : F) : V3 F :=
  let ta := FloatOps.cos R0; let tb := FloatOps.sin R0
  let tc := (K.g 0).x; let e := -(K.g 0).y; let d := (K.g 0).z
  let f := FloatOps.cos R1; let g := FloatOps.sin R1
  let h := (K.g 1).x; let j := -(K.g 1).y; let i := (K.g 1).z
  let k := FloatOps.cos R2; let l := FloatOps.sin R2
  let m := (K.g 2).x; let o := -(K.g 2).y; let n := (K.g 2).z
  let j20 := ta * tc + tb * e + ta * f * h - ta * -g * i + tb * j
  let j21 := -(-tb * tc + ta * e - tb * f * h + tb * -g * i + ta * j)
  let j22 := d + -g * h + f * i
  let j30 := j20 + ta * f * k * m - ta * -g * -l * m - ta * -g * k * n - ta * f * -l * n + tb * o
  let j31 := j21 - (-tb * f * k * m + tb * -g * -l * m + tb * -g * k * n + tb * f * -l * n + ta * o)
  let j32 := j22 + -g * k * m + f * -l * m + f * k * n + g * -l * n
  ⟨j30, j31, j32⟩

/-- XY_parallel_aligned_vector, Kinematic.cpp:235-237. -/
def ikxy (R0 : F) : V3 F := ⟨lit 10 * FloatOps.cos (R0 + halfPi), lit 10 * FloatOps.sin (R0 + halfPi), lit 0⟩

/-- J4J5_J4J3_normal_vector, Kinematic.cpp:231-249. -/
def ikn (R0 : F) (J45 J43 : V3 F) : V3 F :=
  let nv := cross J45 J43
  let cr := cross (ikxy R0) ⟨lit 0, lit 0, lit 1⟩
  if fge (FloatOps.abs (angleBetween nv (ikxy R0) cr) - halfPi) (lit (1/10000)) then
    ⟨nv.x * lit (-1), nv.y * lit (-1), nv.z * lit (-1)⟩
  else nv

/-- R[3], Kinematic.cpp:251-255. -/
def ik3 (R0 : F) (J43 nv : V3 F) : F := angleBetween nv (ikxy R0) (cross (ikxy R0) J43)

/-- R[4], Kinematic.cpp:261-265 (`3 / 2` is an integer division: 1). -/
def ik4 (K : Kin F) (J45 J43 nv : V3 F) : F :=
  let R4 := K.aCorr4 - angleBetween J45 J43 (cross J43 nv)
  FloatOps.fmod (lit 1 * FloatOps.pi + R4) (lit 2 * FloatOps.pi) - lit 1 * FloatOps.pi

/-- targetVectorY, Kinematic.cpp:271-275. -/
def targetY (P : Six F) : V3 F :=
  let a := P 3; let b := P 4; let c := P 5
  let cc := FloatOps.cos c; let sc := FloatOps.sin c
  let cb := FloatOps.cos b; let sb := FloatOps.sin b
  let ca := FloatOps.cos a; let sa := FloatOps.sin a
  ⟨-cb * sc, ca * cc - sa * sb * sc, sa * cc + ca * sb * sc⟩

/-- R[5], Kinematic.cpp:278-284 (A_corrected[5] = 0). -/
def ik5 (P : Six F) (nv : V3 F) : F :=
  let R5 := zero - angleBetween nv (targetY P) (cross (targetZ P) (targetY P))
  if fgt R5 FloatOps.pi then -FloatOps.pi + FloatOps.fmod R5 FloatOps.pi else R5

/-- Kinematic.cpp:55-323: `none` = OUT_OF_RANGE (angles untouched), `some R` = OK. -/
def inverse (K : Kin F) (P : Six F) : Option (Six F) :=
  let J5 : V3 F := ⟨P 0, P 1, P 2⟩
  let J4 := K.wrist P
  let R0 := K.ik0 J4
  let jx := ikx R0 J4
  let jz := J4.z
  let pls := K.ikpls jx jz
  let R2 := K.ik2 pls
  let R1 := K.ik1 jx jz pls
  let J3 := K.ikJ3 R0 R1 R2
  -- 224-225
  let J45 : V3 F := ⟨J5.x - J4.x, J5.y - J4.y, J5.z - J4.z⟩
  let J43 : V3 F := ⟨J3.x - J4.x, J3.y - J4.y, J3.z - J4.z⟩
  let nv := ikn R0 J45 J43
  let R3 := ik3 R0 J43 nv
  let R4 := K.ik4 J45 J43 nv
  let R5 := ik5 P nv
  -- 286-322
  if FloatOps.isNaN R0 || FloatOps.isNaN R1 || FloatOps.isNaN R2 || FloatOps.isNaN R3 ||
      FloatOps.isNaN R4 || FloatOps.isNaN R5 then none
  else some (six R0 R1 R2 R3 R4 R5)

end Kin
end Mrc
