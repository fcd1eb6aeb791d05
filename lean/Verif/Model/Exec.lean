import Verif.Model.Mrcp
/-
Executions of the firmware against an arbitrary environment.  Every answer of the environment (servo records as left by
the timer interrupt, clock, pins, serial bytes, EEPROM contents) is unconstrained, so that every interleaving with the
interrupt `updateServos` (src/main.cpp:175-188) and every behaviour of the outside is covered.
-/
namespace Mrc
variable {F : Type} [FloatOps F] {α : Type}

/-- one access of the main program to the outside (see `Prog`). main.cpp:193-226 and everything it calls. -/
inductive Act (F : Type) where
  | servo (i : Fin 8) (s : Servo F)            -- read a servo record, answer `s`
  | micro (i : Fin 8) (m : Servo.Micro F)      -- store into a servo record
  | now (t : Nat)                              -- millis() = t
  | pin (p : Nat) (b : Bool)                   -- digitalRead(p) = b
  | rx (b : Option Byte)                       -- Serial.read()
  | eeRead (m : EMem)
  | eeWrite (a : Nat) (b : Byte)
  | out (o : Out F)

/-- the environment determines these. main.cpp:175-188 and the hardware. -/
def Act.isInput : Act F → Bool
  | .servo .. | .now _ | .pin .. | .rx _ | .eeRead _ => true
  | _ => false

/-- one step of a program. main.cpp:193-226. -/
inductive Prog.Step : Prog F α → Act F → Prog F α → Prop
  | servo (i k s) : Step (.servo i k) (.servo i s) (k s)
  | micro (i m k) : Step (.micro i m k) (.micro i m) k
  | now (k t) : Step (.now k) (.now t) (k t)
  | pin (p k b) : Step (.pin p k) (.pin p b) (k b)
  | rx (k b) : Step (.rx k) (.rx b) (k b)
  | eeRead (k m) : Step (.eeRead k) (.eeRead m) (k m)
  | eeWrite (a b k) : Step (.eeWrite a b k) (.eeWrite a b) k
  | out (o k) : Step (.out o k) (.out o) k

/-- `Exec p tr q`: program `p` performs the accesses `tr` and `q` remains to be executed. main.cpp:193-226. -/
inductive Prog.Exec : Prog F α → List (Act F) → Prog F α → Prop
  | nil (p) : Exec p [] p
  | cons {p a q tr r} : Prog.Step p a q → Exec q tr r → Exec p (a :: tr) r

/-- A run of the firmware from power-up (main.cpp:72-226): setup, then loop passes for ever.  `Trace cfg junk tr p`:
after the accesses `tr` the program `p` remains of the current pass.  There is no step from `fault`: the model
says nothing about what happens after undefined behaviour. -/
inductive Trace (cfg : Cfg F) (junk : Nat → Byte) : List (Act F) → Prog F (FW F) → Prop
  | init : Trace cfg junk [] (setup cfg junk)
  | next {tr s} : Trace cfg junk tr (.ret s) → Trace cfg junk tr (loopBody cfg s)
  | step {tr p a q} : Trace cfg junk tr p → Prog.Step p a q → Trace cfg junk (tr ++ [a]) q

/-- the outputs of a trace. MRCPR.h:23-27, IOLogic.cpp. -/
def outs (tr : List (Act F)) : List (Out F) := tr.filterMap fun | .out o => some o | _ => none
/-- the serial bytes consumed in a trace. SerialIO.h:22-26. -/
def rxBytes (tr : List (Act F)) : List Byte := tr.filterMap fun | .rx b => b | _ => none
/-- the messages sent in a trace. MRCPR.h:23-27. -/
def msgs (tr : List (Act F)) : List (Msg F) := tr.filterMap fun | .out (.msg m) => some m | _ => none

end Mrc
