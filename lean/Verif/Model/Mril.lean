import Verif.Model.Robot
import Verif.Model.IO
/-
src/MRILParser.cpp / .h and src/AdditionalAxisController.h.
-/
namespace Mrc
open scoped Mrc.Num
variable {F : Type} [FloatOps F]

/-- MRIL_COMMAND_SIZE (MRILParser.h:13). -/
def MRIL_COMMAND_SIZE : Nat := 20

/-- MRILParser.cpp:28. -/
inductive CmdType where
  | read | write | none
  deriving DecidableEq, Repr

/-- everything MRILParser works on: the controller, IOLogic's conditions, WaitController's waitUntil and the
parser's own members `done` and `commandNumber` (MRILParser.h:69-74). -/
structure Core (F : Type) where
  rc : RC F
  conds : Conds
  waitUntil : Nat
  done : Bool
  commandNumber : Int

/-- static configuration. main.cpp:110-137. -/
structure Cfg (F : Type) extends RCfg F where
  pinMap : List Nat

/-- locals of MRILParser::parse that survive from command to command (26, 29, 34); `lastCommandType` only
influences log output and is left out. MRILParser.cpp:26, 29, 34. -/
structure Loc (F : Type) where
  tmpNumber : Int := -1
  ctype : CmdType := .none
  resp : List (Part F) := []

/-- `additional axis` servo number `option - 6` (main.cpp:126: servos + 6, two of them). -/
def axisServo (option : Nat) : Option (Fin 8) :=
  if option = 6 then some 6 else if option = 7 then some 7 else none

/-- the arm axis `option`, < 6. MRILParser.cpp:217-230. -/
def armAxis (option : Nat) : Option (Fin 6) := if h : option < 6 then some ⟨option, h⟩ else none

/-- `(int)command[k] - 48` as unsigned, with the terminating NUL at index `length` (MRILParser.cpp:217,262,263,271,272);
for k beyond the NUL the byte is stale or uninitialised: none. -/
def optionAt (tok : List Byte) (k : Nat) : Option Nat :=
  if k < tok.length then (tok[k]?).map fun c => u32OfInt ((c.toNat : Int) - 48)
  else if k = tok.length then some (u32OfInt (-48))
  else none

/-- pose index of a letter (MRILParser.cpp:144-173). -/
def poseIdx (c : Byte) : Option (Fin 6) :=
  if c = 88 then some 0 else if c = 89 then some 1 else if c = 90 then some 2
  else if c = 65 then some 3 else if c = 66 then some 4 else if c = 67 then some 5 else none

namespace Mril

/-- AdditionalAxisController.h:14-16 → VarSpeedServo.cpp:111-115. -/
def setAxis (i : Fin 8) (x : F) : Prog F Unit := do
  let s ← Prog.readServo i
  Prog.doMicro i (.setStart s.cur)
  Prog.doMicro i .zeroElapsed
  Prog.doMicro i (.setTarget x)

/-- One finished command (token `tok`, nonempty), MRILParser.cpp:75-303. -/
def exec (cfg : Cfg F) (s : Core F) (l : Loc F) (tok : List Byte) : Prog F (Core F × Loc F) :=
  let sym := tok.headD 0
  -- 78-82
  let ct : CmdType := if sym = 78 then .none else if tok.length = 1 then .read else .write
  let l := { l with ctype := ct }
  if sym = 77 then                                                      -- M 95-120
    if ct = .read then .ret (s, { l with resp := l.resp ++ [.method s.rc.method.code] })
    else
      let code := u32OfInt (atol (tok.drop 1))
      if code = 0 then .ret ({ s with rc := s.rc.setMovementMethod .p2p }, l)
      else if code = 1 then .ret ({ s with rc := s.rc.setMovementMethod .linear }, l)
      else .ret (s, l)
  else if sym = 86 then                                                 -- V 122-133
    if ct = .read then .ret (s, { l with resp := l.resp ++ [.velocity s.rc.maxVelocity] })
    else do
      let v : F := atof (tok.drop 1)
      Prog.doMicro 6 (.setVel v)
      Prog.doMicro 7 (.setVel v)
      return ({ s with rc := s.rc.setMaxVelocity v }, l)
  else if let some i := poseIdx sym then                                -- X Y Z A B C 135-213
    if ct = .read then do
      let p ← RC.getCurrentPose cfg.toRCfg
      let v := if i.val < 3 then p i else p i * radToDeg
      return (s, { l with resp := l.resp ++ [.pose sym v] })
    else
      let v : F := atof (tok.drop 1)
      let v := if i.val < 3 then v else v * degToRad
      .ret ({ s with rc := s.rc.setTargetPoseAt i v }, l)
  else if sym = 82 then                                                 -- R 215-244
    match optionAt tok 1 with
    | none => .fault .oobRead
    | some o =>
      if ct = .read || tok.length = 2 then
        let l := { l with ctype := .read }
        if o ≥ 6 then
          match axisServo o with
          | none => .fault .oobRead
          | some a => do
            let sv ← Prog.readServo a
            return (s, { l with resp := l.resp ++ [.angle o (sv.cur * radToDeg)] })
        else
          match armAxis o with
          | none => .fault .oobRead
          | some i => do
            let q ← RC.getCurrentLogicalAngles cfg.toRCfg
            return (s, { l with resp := l.resp ++ [.angle o (q i * radToDeg)] })
      else
        let v : F := atof (tok.drop 2)
        if o ≥ 6 then
          match axisServo o with
          | none => .fault .oobRead
          | some a => do
            setAxis a (v / lit 180 * FloatOps.pi)
            return (s, l)
        else
          match armAxis o with
          | none => .fault .oobWrite
          | some i => .ret ({ s with rc := s.rc.setTargetLogicalAngle i (v * degToRad) }, l)
  else if sym = 73 then                                                 -- I 260-267
    match optionAt tok 1, optionAt tok 2 with
    | some p, some st => do
      let c ← IOL.addCondition cfg.pinMap s.conds p st
      return ({ s with conds := c }, l)
    | _, _ => .fault .oobRead
  else if sym = 79 then                                                 -- O 269-276
    match optionAt tok 1, optionAt tok 2 with
    | some p, some st => do
      IOL.setOutput cfg.pinMap p st
      return (s, l)
    | _, _ => .fault .oobRead
  else if sym = 68 then                                                 -- D 278-283
    .now fun t => .ret ({ s with waitUntil := Wait.waitMs t (u32OfInt (atol (tok.drop 1))) }, l)
  else if sym = 78 then do                                              -- N 285-292
    let n := atol (tok.drop 1)
    Prog.send (.n0 n)
    return (s, { l with tmpNumber := n })
  else .ret (s, l)                                                      -- U, F, H, unknown: log output only

/-- MRILParser.cpp:47-49: `commandFinished` given the remaining text. -/
def finished : List Byte → Bool
  | [] => true
  | c :: _ => isUpper c || c == 35 || c == 40

/-- characters copied into the token (MRILParser.cpp:58). -/
def tokChar (c : Byte) : Bool := isDigit c || c == 46 || c == 45 || isUpper c

/-- the loop over the characters, MRILParser.cpp:44-305; `tok` = command[0..commandPointer). -/
def loop (cfg : Cfg F) : List Byte → Core F → Loc F → List Byte → Prog F (Core F × Loc F)
  | [], s, l, _ => .ret (s, l)
  | c :: cs, s, l, tok =>
    if c = 35 || c = 40 then .out (.raw .comment) (.ret (s, l))          -- 51-54
    else if tokChar c then
      if tok.length ≥ MRIL_COMMAND_SIZE then .fault .oobWrite            -- 59
      else
        let tok := tok ++ [c]
        if finished cs then
          if tok.length ≥ MRIL_COMMAND_SIZE then .fault .oobWrite        -- 92
          else (exec cfg s l tok).bind fun (s, l) => loop cfg cs s l []
        else loop cfg cs s l tok
    else loop cfg cs s l tok                                             -- 65-70

/-- lines 309-321. -/
def finish (s : Core F) (l : Loc F) : Prog F (Core F) :=
  match l.ctype with
  | .read => do
    Prog.send (.reply (if l.tmpNumber > 0 then some l.tmpNumber else none) l.resp)
    return s
  | .write => .ret { s with commandNumber := l.tmpNumber }
  | .none => .ret s

/-- MRILParser.cpp:24-325. -/
def parse (cfg : Cfg F) (s : Core F) (instr : List Byte) : Prog F (Core F) :=
  if instr.length = 0 then .ret s
  else
    (loop cfg instr { s with rc := s.rc.startTransaction } {} []).bind fun (s, l) =>
      finish { s with rc := s.rc.endTransaction } l

/-- MRILParser.cpp:327-339; C++ evaluates the three conditions left to right with short circuit. -/
def process (s : Core F) : Prog F (Core F) :=
  (IOL.isDone s.conds).bind fun r =>
    let s := { s with conds := r.2 }
    if r.1 && !s.rc.isMoving then
      .now fun t =>
        if Wait.isDone t s.waitUntil then
          if 0 < s.commandNumber then
            .out (.msg (.n1 s.commandNumber)) (.ret { s with commandNumber := -1, done := true })
          else .ret { s with done := true }
        else .ret { s with done := false }
    else .ret { s with done := false }

end Mril
end Mrc
