import Verif.Model.Servo
import Verif.Model.Eeprom
import Verif.Model.Text
/-
Execution model.  A piece of firmware code is a tree of accesses to things it shares with the outside
(the servo records, which the timer interrupt `updateServos` (src/main.cpp:175-188) modifies, the clock,
input pins, the serial line, the EEPROM).  Between any two accesses the interrupt may run and the environment
may change.  Everything else is ordinary Lean computation on values private to the main loop.
-/
namespace Mrc

/-- One element of a reply to a read instruction (src/MRILParser.cpp:97,125,181,187,223-227). -/
inductive Part (F : Type) where
  | method (code : Nat)                 -- M<code>
  | velocity (v : F)                    -- V<v>
  | pose (sym : Byte) (v : F)           -- X/Y/Z/A/B/C <v>
  | angle (option : Nat) (v : F)        -- R<option><v>

/-- Messages sent through MRCPR::sendMessage (src/MRCPR.h:23-27). -/
inductive Msg (F : Type) where
  | free (n : Int)                      -- "B"<free bytes>          MRCPParser.cpp:198
  | n0 (n : Int)                        -- "N0"<n>                   MRILParser.cpp:290
  | n1 (n : Int)                        -- "N1"<n>                   MRILParser.cpp:332
  | reply (num : Option Int) (parts : List (Part F))  -- ["N1"<n>" "]<parts>   MRILParser.cpp:312-317

/-- Text printed outside of frames directly with `Serial.print*`.
MRILParser.cpp:52, RobotController.cpp:574, Logger.cpp:84-89. -/
inductive Raw (F : Type) where
  | comment                             -- "comment-breaking"        MRILParser.cpp:52
  | moveInTime (t : F)                  -- RobotController.cpp:574
  | error (text : String)               -- logger.error, LOG_LEVEL 1  Logger.cpp

/-- pin modes used by src/IOLogic.cpp. -/
inductive PinMode where
  | input_pulldown | input_pullup | output
  deriving DecidableEq

/-- Ghost marks: which instruction the loop hands to MRILParser::parse, and from where. Not part of the code;
they only make "instruction X is executed now" observable in traces.
The three call sites are MRCPParser.cpp:42, 175, 184. -/
inductive Src where
  | immediate | queue | eeprom
  deriving DecidableEq

/-- Observable outputs. MRCPR.h:23-27, IOLogic.cpp. -/
inductive Out (F : Type) where
  | msg (m : Msg F)
  | raw (r : Raw F)
  | pinMode (pin : Nat) (m : PinMode)
  | digitalWrite (pin : Nat) (level : Bool)
  | ghost (src : Src) (instr : List Byte)

/-- programs. The statements of main.cpp:193-226 and everything it calls. -/
inductive Prog (F : Type) (α : Type) where
  | ret (a : α)
  | fault (f : Fault)
  | servo (i : Fin 8) (k : Servo F → Prog F α)            -- read (one field of) a servo record
  | micro (i : Fin 8) (m : Servo.Micro F) (k : Prog F α)   -- one store into a servo record
  | now (k : Nat → Prog F α)                               -- millis()
  | pin (p : Nat) (k : Bool → Prog F α)                    -- digitalRead
  | rx (k : Option Byte → Prog F α)                        -- Serial.available() ? Serial.read() : –
  | eeRead (k : EMem → Prog F α)                           -- EEPROM (written only by the main loop, so a snapshot)
  | eeWrite (a : Nat) (b : Byte) (k : Prog F α)            -- one EEPROM.write
  | out (o : Out F) (k : Prog F α)

namespace Prog
variable {F α β : Type}

/-- Sequencing of statements (`;`) in main.cpp:193-226 and everything it calls. -/
def bind : Prog F α → (α → Prog F β) → Prog F β
  | ret a, f => f a
  | fault e, _ => fault e
  | servo i k, f => servo i (fun s => (k s).bind f)
  | micro i m k, f => micro i m (k.bind f)
  | now k, f => now (fun t => (k t).bind f)
  | pin p k, f => pin p (fun b => (k b).bind f)
  | rx k, f => rx (fun b => (k b).bind f)
  | eeRead k, f => eeRead (fun m => (k m).bind f)
  | eeWrite a b k, f => eeWrite a b (k.bind f)
  | out o k, f => out o (k.bind f)

/-- Sequencing of statements (`;`) in main.cpp:193-226 and everything it calls. -/
instance : Monad (Prog F) where
  pure := ret
  bind := bind

/-- Reading a field of a servo, e.g. VarSpeedServo.cpp:169-171. -/
def readServo (i : Fin 8) : Prog F (Servo F) := servo i ret
/-- One store into a servo, VarSpeedServo.cpp:111-133. -/
def doMicro (i : Fin 8) (m : Servo.Micro F) : Prog F Unit := micro i m (ret ())
/-- pinMode, digitalWrite (IOLogic.cpp), Serial.print, MRCPR.h:23-27. -/
def emit (o : Out F) : Prog F Unit := out o (ret ())
/-- MRCPR.h:23-27. -/
def send (m : Msg F) : Prog F Unit := out (.msg m) (ret ())
/-- EEPromStorage.cpp:23-32: one EEPROM.write after the other. -/
def eeWrites : List (Nat × Byte) → Prog F Unit
  | [] => ret ()
  | w :: ws => eeWrite w.1 w.2 (eeWrites ws)

end Prog

/-- The outside of the main loop: servo records, clock, pins, unread serial input, EEPROM, and the outputs so
far (newest last). main.cpp:50-61 and the hardware. -/
structure World (F : Type) where
  servos : Fin 8 → Servo F
  now : Nat
  pins : Nat → Bool
  rxq : List Byte
  ee : EMem
  outs : List (Out F)

variable {F α : Type} [FloatOps F]

/-- replace the i-th servo record. main.cpp:180-182. -/
def World.setServo (w : World F) (i : Fin 8) (s : Servo F) : World F :=
  { w with servos := fun j => if j = i then s else w.servos j }

/-- uninterrupted execution. main.cpp:193-226 without interrupt. -/
def Prog.run : Prog F α → World F → Except Fault (α × World F)
  | .ret a, w => .ok (a, w)
  | .fault f, _ => .error f
  | .servo i k, w => (k (w.servos i)).run w
  | .micro i m k, w => k.run (w.setServo i ((w.servos i).micro m))
  | .now k, w => (k w.now).run w
  | .pin p k, w => (k (w.pins p)).run w
  | .rx k, w => match w.rxq with
    | [] => (k none).run w
    | b :: bs => (k (some b)).run { w with rxq := bs }
  | .eeRead k, w => (k w.ee).run w
  | .eeWrite a b k, w => k.run { w with ee := EE.write w.ee a b }
  | .out o k, w => k.run { w with outs := w.outs ++ [o] }

/-- src/main.cpp:175-188 `updateServos`: all eight servos, dt = updateServosEveryMs = 20. -/
def World.isr (w : World F) : World F := { w with servos := fun i => (w.servos i).tick 20 }

end Mrc
