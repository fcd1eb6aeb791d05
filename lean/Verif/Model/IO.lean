import Verif.Model.Prog
/-
src/IOLogic.cpp / .h and src/WaitController.h.
-/
namespace Mrc
variable {F : Type}

/-- `conditionBuffer[0..conditionBufferLength)`: (physical pin, required state) (IOLogic.h:25-26). -/
abbrev Conds := List (Nat × Nat)

/-- MAX_NUMBER_OF_PINS (IOLogic.h:4). -/
def MAX_PINS : Nat := 10

namespace IOL

/-- IOLogic.cpp:12-25.  `pin` is the logical pin; `pinMap` has 10 entries, conditionBuffer 10 rows. -/
def addCondition (pinMap : List Nat) (c : Conds) (pin state : Nat) : Prog F Conds :=
  match pinMap[pin]? with
  | none => .fault .oobRead
  | some p =>
    .out (.pinMode p (if state = 1 then .input_pulldown else .input_pullup)) <|
      if c.length ≥ MAX_PINS then .fault .oobWrite else .ret (c ++ [(p, state)])

/-- IOLogic.cpp:27-49. -/
def setOutput (pinMap : List Nat) (pin state : Nat) : Prog F Unit :=
  match pinMap[pin]? with
  | none => .fault .oobRead
  | some p =>
    .out (.pinMode p .output) <|
      if state = 1 then .out (.digitalWrite p true) (.ret ())
      else if state = 0 then .out (.digitalWrite p false) (.ret ())
      else .ret ()

/-- the checking loop of IOLogic.cpp:55-84: pins are read one after the other; stops at the first unmet one. -/
def check : Conds → Prog F Bool
  | [] => .ret true
  | (p, s) :: cs =>
    if s = 1 then .pin p (fun b => if b then check cs else .ret false)
    else if s = 0 then .pin p (fun b => if b then .ret false else check cs)
    else check cs

/-- IOLogic.cpp:51-90: result and new condition buffer (emptied on success). -/
def isDone (c : Conds) : Prog F (Bool × Conds) :=
  (check c).bind fun b => .ret (if b then (true, []) else (false, c))

/-- IOLogic.cpp:92-101. none = out of bounds read of pinMap. -/
def getTargetState (pinMap : List Nat) (c : Conds) (pin : Nat) : Option Nat :=
  match pinMap[pin]? with
  | none => none
  | some p =>
    match c.find? (fun x => x.1 == p) with
    | some x => some x.2
    | none => some 2

end IOL

namespace Wait
/-- src/WaitController.h:11-13: returns the new `waitUntil` (32-bit). -/
def waitMs (now ms : Nat) : Nat := u32 (now + ms)
/-- src/WaitController.h:15-17. -/
def isDone (now waitUntil : Nat) : Bool := decide (now > waitUntil)
end Wait

end Mrc
