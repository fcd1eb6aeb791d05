import Verif.Spec.Controller
import Verif.Spec.Host
import Verif.Spec.Aside
import Verif.Model.XR
import Verif.Model.Config
/-
Vocabulary for "the arm is where it was told" (C84-C86): what an instruction tells, and what has happened to the arm when it is reported as finished.
-/
namespace Mrc.Spec
open Mrc
variable {F : Type} [FloatOps F]

/-! ### instructions -/

/-- the command gives the arm axis `i` the angle `d` degrees: R, the digit of the axis, the number. -/
def NamesAngle (c : Cmd) (i : Fin 6) (d : Dec) : Prop := d.Ok ∧ c = ⟨82, digitChar ⟨i.val, by omega⟩ :: d.text⟩

/-- the letters of the pose coordinates: X Y Z A B C. -/
def poseLetter (i : Fin 6) : Byte := match i with | 0 => 88 | 1 => 89 | 2 => 90 | 3 => 65 | 4 => 66 | 5 => 67

/-- the command gives the pose coordinate `i` the value `d`. -/
def NamesPose (c : Cmd) (i : Fin 6) (d : Dec) : Prop := d.Ok ∧ c = ⟨poseLetter i, d.text⟩

/-- the last command of the instruction that satisfies `N i ·` satisfies `N i d`. -/
def Last (N : Cmd → Fin 6 → Dec → Prop) (cs : List Cmd) (i : Fin 6) (d : Dec) : Prop :=
  ∃ a c b, cs = a ++ c :: b ∧ N c i d ∧ ∀ c' ∈ b, ∀ d', ¬ N c' i d'

/-- plain commands, every R with an axis digit and at most a number, every pose letter with at most a number. -/
structure Plain (cs : List Cmd) : Prop where
  ok : ∀ c ∈ cs, c.Ok
  axis : ∀ c ∈ cs, c.letter = 82 → ∃ (o : Fin 10) (rest : List Byte), c.arg = digitChar o :: rest ∧ NumArg (fun _ => True) rest
  pose : ∀ c ∈ cs, ∀ i, c.letter = poseLetter i → NumArg (fun _ => True) c.arg

/-- the instruction chooses the movement method M<b>: once or more, and no other. -/
def Chooses (b : Byte) (cs : List Cmd) : Prop := (∃ c ∈ cs, c = ⟨77, [b]⟩) ∧ ∀ c ∈ cs, c.letter = 77 → c.arg = [] ∨ c.arg = [b]

/-- the instruction tells angles: at least one, and no pose coordinate. -/
structure TellsAngles (cs : List Cmd) : Prop extends Plain cs where
  some : ∃ c ∈ cs, ∃ i d, NamesAngle c i d
  noPose : ∀ c ∈ cs, ∀ i d, ¬ NamesPose c i d

/-- the instruction tells a pose: at least one coordinate, and no angle. -/
structure TellsPose (cs : List Cmd) : Prop extends Plain cs where
  some : ∃ c ∈ cs, ∃ i d, NamesPose c i d
  noAngle : ∀ c ∈ cs, ∀ i d, ¬ NamesAngle c i d

/-- an angle given in degrees. -/
def angle (d : Dec) : F := FloatOps.mul (atof d.text) degToRad
/-- a pose coordinate: X Y Z as given, A B C in degrees. -/
def coordinate (i : Fin 6) (d : Dec) : F := if i.val < 3 then atof d.text else FloatOps.mul (atof d.text) degToRad

/-! ### what happened to the arm -/

/-- an instruction begins. -/
def BeginsI (a : Act F) : Prop := ∃ src m, a = .out (.ghost src m)

/-- an instruction begins that names a place for the arm. -/
def PlacesI (a : Act F) : Prop := ∃ src m, a = .out (.ghost src m) ∧ ¬ NoPlace m

/-- no move is under way, and the host knows: since power-up, or since the last report of completion (N1), nothing was begun that names a place for the arm. -/
def Calm (pre : List (Act F)) : Prop :=
  (∀ a ∈ pre, ¬ PlacesI a) ∨ ∃ p n q, pre = p ++ .out (.msg (.n1 n)) :: q ∧ ∀ a ∈ q, ¬ PlacesI a

/-- everything begun is reported as finished: since power-up, or since the last report of completion (N1), nothing was begun except for questions asked at once. -/
def AllDone (pre : List (Act F)) : Prop :=
  (∀ a ∈ pre, ¬ OrdersI a) ∨ ∃ p n q, pre = p ++ .out (.msg (.n1 n)) :: q ∧ ∀ a ∈ q, ¬ OrdersI a

/-- the targets given to the arm servos, in order. -/
def armTargets (tr : List (Act F)) : List (Fin 8 × F) := (targets tr).filter fun x => decide (x.1.val < 6)

/-- no arm servo was touched. -/
def ArmStill (tr : List (Act F)) : Prop := ∀ (i : Fin 6) m, .micro (armServo i) m ∉ tr

/-- one command for each arm servo: go to `p`. -/
def six6 (p : Six F) : List (Fin 8 × F) := (List.finRange 6).map fun i => (armServo i, p i)

/-- every arm servo was, after the last store into it, seen at its target. -/
def Arrived (tr : List (Act F)) : Prop :=
  ∀ (i : Fin 6) p1 m p2, tr = p1 ++ .micro (armServo i) m :: p2 → ∃ s, .servo (armServo i) s ∈ p2 ∧ s.atTarget = true

/-- the time the slowest servo needs from the positions `v` to `p`, at least `mt`. -/
def timeFor (p : Six F) (v : Fin 6 → Servo F) (mt : F) : F :=
  (List.finRange 6).foldl (fun acc i => let x := FloatOps.div (FloatOps.abs (FloatOps.sub (p i) (v i).cur)) (v i).maxVel; if fgt x acc then x else acc) mt

/-- what has happened to the arm when a point to point move to the logical angles `t` is over. -/
inductive Moved (cfg : RCfg F) (L U t : Six F) (mid : List (Act F)) : Prop
  /-- every servo was sent to its angle, once, and was seen there -/
  | went : Fits cfg L U t → armTargets mid = six6 (cfg.l2p t) → Arrived mid → Moved cfg L U t mid
  /-- the arm was there already (to 1e-4) and was left alone -/
  | there (b : Six F) : Reading mid b → RC.anglesEqual (cfg.p2l b) t = true → ArmStill mid → Moved cfg L U t mid
  /-- no servo needed any time to get there, and the arm was left alone -/
  | noTime (v : Fin 6 → Servo F) (mt : F) : Fits cfg L U t → (∀ i, .servo (armServo i) (v i) ∈ mid) → feq (timeFor (cfg.l2p t) v mt) (lit 0) = true →
      ArmStill mid → Moved cfg L U t mid
  /-- the angles violate the limits, and the arm was left alone -/
  | refused : ¬ Fits cfg L U t → ArmStill mid → Moved cfg L U t mid

/-- `t` are the angles of the way point `k` of `n` from `S` to `P`; near the wrist singularity axes 3 and 5 get the readings of servos 3 and 5. -/
inductive WayPoint (cfg : RCfg F) (S P : Six F) (n k : ℕ) (mid : List (Act F)) : Six F → Prop
  | plain {t} : cfg.inv (linePoint S P k n) = some t → ¬ NearSingular t → WayPoint cfg S P n k mid t
  | singular {t s3 s5} : cfg.inv (linePoint S P k n) = some t → NearSingular t → .servo 3 s3 ∈ mid → .servo 5 s5 ∈ mid →
      WayPoint cfg S P n k mid (RC.upd (RC.upd t 3 s3.cur) 5 s5.cur)

/-- the first `k` of `n` way points of the line from `S` to `P` have been passed, the arm was last sent to the angles `t`. -/
inductive Line (cfg : RCfg F) (L U S P : Six F) (n : ℕ) : ℕ → Option (Six F) → List (Act F) → Prop
  /-- `S` is where the arm was seen before it was touched -/
  | begin {mid a} : ArmStill mid → Reading mid a → S = cfg.fwd (cfg.p2l a) → Line cfg L U S P n 0 none mid
  /-- the next way point: reached so far, then every servo is sent there (or needs no time) -/
  | next {k o t mid tr} : Line cfg L U S P n k o mid → Arrived mid → WayPoint cfg S P n (k + 1) tr t → Fits cfg L U t →
      (armTargets tr = six6 (cfg.l2p t) ∨ ArmStill tr ∧ ∃ (v : Fin 6 → Servo F) (mt : F), (∀ i, .servo (armServo i) (v i) ∈ tr) ∧ feq (timeFor (cfg.l2p t) v mt) (lit 0) = true) →
      Line cfg L U S P n (k + 1) (some t) (mid ++ tr)
  | wait {k o mid tr} : Line cfg L U S P n k o mid → ArmStill tr → Line cfg L U S P n k o (mid ++ tr)

/-- what has happened to the arm when a linear move to the pose `P` with the angles `A` is over. -/
inductive LineMoved (cfg : RCfg F) (L U P A : Six F) (mid : List (Act F)) : Prop
  /-- it passed all `n` way points of the line from where it was, every servo was seen at the last one -/
  | along (S : Six F) (n : ℕ) (o : Option (Six F)) : 0 < n → RC.linearSteps S P = some n → Line cfg L U S P n n o mid → Arrived mid →
      LineMoved cfg L U P A mid
  /-- it passed `k` way points and stopped at the last of them: the next one is out of reach or violates the limits -/
  | stopped (S : Six F) (n k : ℕ) (o : Option (Six F)) : RC.linearSteps S P = some n → (0 < n → k < n) → Line cfg L U S P n k o mid → Arrived mid →
      (cfg.inv (linePoint S P (k + 1) n) = none ∨ ∃ m tr t, mid = m ++ tr ∧ ArmStill tr ∧ WayPoint cfg S P n (k + 1) tr t ∧ ¬ Fits cfg L U t) → LineMoved cfg L U P A mid
  /-- the arm was there already (to 1e-4) and was left alone -/
  | there (b : Six F) : Reading mid b → RC.anglesEqual (cfg.p2l b) A = true → ArmStill mid → LineMoved cfg L U P A mid

/-- every arm servo was seen at the angle `b i`, and has not been touched since. -/
def SeenAt (mid : List (Act XR)) (b : Fin 6 → ℝ) : Prop :=
  ∀ i, ∃ p1 s p2, mid = p1 ++ .servo (armServo i) s :: p2 ∧ s.cur = .fin (b i) ∧ ∀ m, .micro (armServo i) m ∉ p2

/-- the robot kit: logical angles of the servo angles `b` (axis 2 is driven relative to axis 1). -/
def kitLogical (b : Fin 6 → ℝ) : Fin 6 → ℝ := fun i => if i = 2 then b 2 - b 1 else b i

/-- the robot kit: the angles (radians) are within the ranges of the axes, and the servo of axis 2, that has to turn to the sum of angles 1 and 2, can do so. -/
def KitFits (a : Fin 6 → ℝ) : Prop :=
  (∀ i, (Kit.minDeg (armServo i) : ℝ) * (Real.pi / 180) ≤ a i ∧ a i ≤ (Kit.maxDeg (armServo i) : ℝ) * (Real.pi / 180)) ∧
  (Kit.minDeg 2 : ℝ) * (Real.pi / 180) ≤ a 2 + a 1 ∧ a 2 + a 1 ≤ (Kit.maxDeg 2 : ℝ) * (Real.pi / 180)

/-- the angle, in radians, that a number of degrees stands for. -/
noncomputable def radians (d : Dec) : ℝ := (d.val : ℝ) * (Real.pi / 180)
/-- the pose that six numbers stand for: lengths, and angles in degrees. -/
noncomputable def poseOfDec (d : Fin 6 → Dec) : Fin 6 → ℝ := fun i => if i.val < 3 then ((d i).val : ℝ) else radians (d i)

/-! ### what a whole history tells -/

/-- movement commands: only M0, or M as a question. -/
def PtP (cs : List Cmd) : Prop := ∀ c ∈ cs, c.letter = 77 → c.arg = [] ∨ c.arg = [48]

/-- the instruction tells neither angle nor pose. -/
structure TellsNothing (cs : List Cmd) : Prop extends Plain cs where
  noAngle : ∀ c ∈ cs, ∀ i d, ¬ NamesAngle c i d
  noPose : ∀ c ∈ cs, ∀ i d, ¬ NamesPose c i d

/-- the angles, and the pose, the arm is meant to have: after an instruction, from those before it. What is not mentioned is kept. -/
inductive Tells (cfg : RCfg F) (cs : List Cmd) (A P : Six F) : Six F → Six F → Prop
  | angles {A'} : TellsAngles cs → (∀ i d, Last NamesAngle cs i d → A' i = angle d) → (∀ i, (∀ c ∈ cs, ∀ d, ¬ NamesAngle c i d) → A' i = A i) →
      Tells cfg cs A P A' (cfg.fwd A')
  | pose {A' P'} : TellsPose cs → (∀ i d, Last NamesPose cs i d → P' i = coordinate i d) → (∀ i, (∀ c ∈ cs, ∀ d, ¬ NamesPose c i d) → P' i = P i) → cfg.inv P' = some A' →
      Tells cfg cs A P A' P'

/-- the instruction tells everything: all six angles, or all six coordinates. -/
inductive TellsAll (cfg : RCfg F) (cs : List Cmd) : Six F → Six F → Prop
  | angles {A} : TellsAngles cs → (∀ i, ∃ d, Last NamesAngle cs i d ∧ A i = angle d) → TellsAll cfg cs A (cfg.fwd A)
  | pose {A P} : TellsPose cs → (∀ i, ∃ d, Last NamesPose cs i d ∧ P i = coordinate i d) → cfg.inv P = some A → TellsAll cfg cs A P

/-- a course of point to point moves: anything, then an instruction that tells everything; from then on the instructions tell angles or a pose within reach and limits, never with
M1, and immediate ones tell nothing. `A`, `P`: what has been told so far; `mid`: what happened since the last instruction that told something. -/
inductive Course (cfg : RCfg F) (L U : Six F) : List (Act F) → Six F → Six F → List (Act F) → Prop
  | home (tr : List (Act F)) {src cs A P} : src ≠ .immediate → TellsAll cfg cs A P → Chooses 48 cs → Fits cfg L U A → Course cfg L U (tr ++ [.out (.ghost src (text cs))]) A P []
  | act {tr A P mid a} : Course cfg L U tr A P mid → ¬ BeginsI a → Course cfg L U (tr ++ [a]) A P (mid ++ [a])
  | quiet {tr A P mid src cs} : Course cfg L U tr A P mid → TellsNothing cs → PtP cs → Course cfg L U (tr ++ [.out (.ghost src (text cs))]) A P (mid ++ [.out (.ghost src (text cs))])
  | tell {tr A P mid src cs A' P'} : Course cfg L U tr A P mid → src ≠ .immediate → Tells cfg cs A P A' P' → PtP cs → Fits cfg L U A' →
      Course cfg L U (tr ++ [.out (.ghost src (text cs))]) A' P' []

end Mrc.Spec
