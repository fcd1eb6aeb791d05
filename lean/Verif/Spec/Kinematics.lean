import Verif.Model.Kinematic
import Verif.Model.XR
import Verif.Spec.Motion
import Mathlib.LinearAlgebra.Matrix.Notation
import Mathlib.LinearAlgebra.Matrix.Determinant.Basic
/-
Text book description of a six axis serial arm (C53-C57): rotation matrices, joint frames, joint positions, orientation as
three successive rotations.  Nothing in here refers to the formulas of /repo.
-/
namespace Mrc.Spec
open Mrc XR Matrix

/-- 3×3 matrices and vectors of real numbers. -/
abbrev Mat3 := Matrix (Fin 3) (Fin 3) ℝ
abbrev Vec3 := Fin 3 → ℝ

/-- rotation about the x, y, z axis (right handed). -/
noncomputable def rotX (t : ℝ) : Mat3 := !![1, 0, 0; 0, Real.cos t, -Real.sin t; 0, Real.sin t, Real.cos t]
noncomputable def rotY (t : ℝ) : Mat3 := !![Real.cos t, 0, Real.sin t; 0, 1, 0; -Real.sin t, 0, Real.cos t]
noncomputable def rotZ (t : ℝ) : Mat3 := !![Real.cos t, -Real.sin t, 0; Real.sin t, Real.cos t, 0; 0, 0, 1]

/-- the rotation each of the first five joints makes about its own axis: base z, shoulder y, elbow y, forearm x, wrist y. -/
noncomputable def jointRot (A : Fin 6 → ℝ) : Fin 5 → Mat3
  | 0 => rotZ (A 0) | 1 => rotY (A 1) | 2 => rotY (A 2) | 3 => rotX (A 3) | 4 => rotY (A 4)

/-- orientation of link `k` in the world: the product of the rotations of joints 0..k. -/
noncomputable def linkFrame (A : Fin 6 → ℝ) : Fin 5 → Mat3
  | 0 => jointRot A 0
  | 1 => jointRot A 0 * jointRot A 1
  | 2 => jointRot A 0 * jointRot A 1 * jointRot A 2
  | 3 => jointRot A 0 * jointRot A 1 * jointRot A 2 * jointRot A 3
  | 4 => jointRot A 0 * jointRot A 1 * jointRot A 2 * jointRot A 3 * jointRot A 4

/-- position of joint `k` (k = 5: the tool point): the sum of the link vectors 0..k-1, each turned by its frame. -/
noncomputable def jointPos (G : Fin 5 → Vec3) (A : Fin 6 → ℝ) (k : ℕ) : Vec3 :=
  ∑ j : Fin 5, if j.val < k then linkFrame A j *ᵥ G j else 0

/-- orientation of the tool: the flange points down (half turn about y) and is turned by joint 5 about its z axis. -/
noncomputable def toolFrame (A : Fin 6 → ℝ) : Mat3 := linkFrame A 4 * rotY Real.pi * rotZ (A 5)

/-- orientation given by three angles a, b, c. -/
noncomputable def orient (a b c : ℝ) : Mat3 := rotX a * rotY b * rotZ c

/-- a proper rotation. -/
def IsRotation (M : Mat3) : Prop := M.transpose * M = 1 ∧ Matrix.det M = 1

/-- Euclidean length. -/
noncomputable def len3 (v : Vec3) : ℝ := Real.sqrt (v 0 ^ 2 + v 1 ^ 2 + v 2 ^ 2)

/-- three finite numbers / a finite geometry, as the constructor argument of /repo. -/
noncomputable def finV (v : Vec3) : V3 XR := ⟨fin (v 0), fin (v 1), fin (v 2)⟩
noncomputable def finG (G : Fin 5 → Vec3) : Fin 5 → V3 XR := fun i => finV (G i)

/-- a pose: position and orientation angles. -/
noncomputable def poseOf (p : Vec3) (a b c : ℝ) : Fin 6 → ℝ
  | 0 => p 0 | 1 => p 1 | 2 => p 2 | 3 => a | 4 => b | 5 => c

/-- the orientation part of a pose. -/
noncomputable def orientOf (P : Fin 6 → ℝ) : Mat3 := orient (P 3) (P 4) (P 5)

/-- the arms the inverse kinematics is written for: the forearm lies along its own axis (link 3 = (r,0,0), r > 0) and the hand hangs straight down
(link 4 = (0,0,-t), t > 0); links 0, 1, 2 are arbitrary. -/
structure Supported (G : Fin 5 → Vec3) : Prop where
  fore : 0 < G 3 0 ∧ G 3 1 = 0 ∧ G 3 2 = 0
  hand : G 4 0 = 0 ∧ G 4 1 = 0 ∧ G 4 2 < 0

/-- where the wrist must be for the tool to have pose `P`: the length of the hand back along the z axis of the tool. -/
noncomputable def wristOf (G : Fin 5 → Vec3) (P : Fin 6 → ℝ) : Vec3 :=
  ![P 0, P 1, P 2] - len3 (G 4) • (orientOf P *ᵥ ![0, 0, 1])

/-- sideways offset of the wrist from the plane of the arm. -/
def offset (G : Fin 5 → Vec3) : ℝ := G 0 1 + G 1 1 + G 2 1 + G 3 1
/-- horizontal distance of the wrist from the base axis. -/
noncomputable def axisDist (G : Fin 5 → Vec3) (P : Fin 6 → ℝ) : ℝ := Real.sqrt (wristOf G P 0 ^ 2 + wristOf G P 1 ^ 2)
/-- length of upper arm and forearm in the plane of the arm. -/
noncomputable def upperLen (G : Fin 5 → Vec3) : ℝ := Real.sqrt (G 1 0 ^ 2 + G 1 2 ^ 2)
noncomputable def foreLen (G : Fin 5 → Vec3) : ℝ := Real.sqrt ((G 2 0 + G 3 0) ^ 2 + (G 2 2 + G 3 2) ^ 2)
/-- distance shoulder - wrist in the plane of the arm (arm turned towards the wrist). -/
noncomputable def reach (G : Fin 5 → Vec3) (P : Fin 6 → ℝ) : ℝ :=
  Real.sqrt ((Real.sqrt (axisDist G P ^ 2 - offset G ^ 2) - G 0 0) ^ 2 + (wristOf G P 2 - G 0 2) ^ 2)

/-- a pose in the working range: the wrist is outside the cylinder around the base axis the arm cannot enter and between the
smallest and the largest distance from the shoulder the two arm parts can span (and not exactly on the base axis or the shoulder). -/
structure InReach (G : Fin 5 → Vec3) (P : Fin 6 → ℝ) : Prop where
  off_axis : 0 < axisDist G P
  cylinder : |offset G| ≤ axisDist G P
  off_shoulder : 0 < reach G P
  near : |upperLen G - foreLen G| ≤ reach G P
  far : reach G P ≤ upperLen G + foreLen G

/-- the elbow is not bent backwards: seen in the plane of the arm the forearm does not point to the back of the upper arm. -/
def ElbowUp (G : Fin 5 → Vec3) (A : Fin 6 → ℝ) : Prop :=
  G 1 0 * (rotY (A 2) *ᵥ (G 2 + G 3)) 2 ≤ G 1 2 * (rotY (A 2) *ᵥ (G 2 + G 3)) 0

/-- the wrist is on the side of the base axis the arm is turned to. -/
def InFront (G : Fin 5 → Vec3) (A : Fin 6 → ℝ) : Prop :=
  0 ≤ Real.cos (A 0) * jointPos G A 4 0 + Real.sin (A 0) * jointPos G A 4 1

/-- the wrist is neither on the base axis nor at the shoulder (projected to the plane of the arm). -/
def WristFree (G : Fin 5 → Vec3) (A : Fin 6 → ℝ) : Prop :=
  0 < jointPos G A 4 0 ^ 2 + jointPos G A 4 1 ^ 2 ∧
  0 < (Real.cos (A 0) * jointPos G A 4 0 + Real.sin (A 0) * jointPos G A 4 1 - G 0 0) ^ 2 + (jointPos G A 4 2 - G 0 2) ^ 2

/-- the same position of a joint, up to full turns. -/
def SameAngle (x y : ℝ) : Prop := Real.cos x = Real.cos y ∧ Real.sin x = Real.sin y

end Mrc.Spec
