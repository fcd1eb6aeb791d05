import Verif.Model.Mril
import Verif.Model.Framer
import Verif.Model.RingBuffer
/-
src/MRCPParser.cpp (parseCommand, process, constructor), src/SerialIO.h (process), src/main.cpp (setup, loop).
-/
namespace Mrc
variable {F : Type} [FloatOps F]

/-- MRCPParser.h:32 (HALT is never entered but exists). -/
inductive Mode where
  | halt | queue | eeprom | execute
  deriving DecidableEq, Repr

/-- the firmware state private to the main loop. `eePtr` = EEPromStorage::messagePointer.
main.cpp:60-61, MRCPParser.cpp:12-23 and 104-107. -/
structure FW (F : Type) where
  core : Core F
  mode : Mode
  rb : RB
  eePtr : Nat
  framer : Framer

namespace Mrcp

/-- MRCPParser.cpp:197-199. -/
def freeMsg (rb : RB) : Msg F := .free ((rb.getCapacity : Int) - rb.getSize)

/-- hand an instruction to MRILParser::parse (with ghost mark). MRCPParser.cpp:42, 175, 184. -/
def handOver (cfg : Cfg F) (src : Src) (s : FW F) (instr : List Byte) : Prog F (FW F) :=
  .out (.ghost src instr) ((Mril.parse cfg s.core instr).bind fun c => .ret { s with core := c })

/-- MRCPParser.cpp:25-101. -/
def parseCommand (cfg : Cfg F) (s : FW F) (p : List Byte) : Prog F (FW F) :=
  match p with
  | [] => .ret s                                                         -- 26-28
  | c :: rest =>
    if c = 66 then .out (.msg (freeMsg s.rb)) (.ret s)                   -- B
    else if c = 69 then handOver cfg .immediate s rest                   -- E
    else if c = 81 then                                                  -- Q
      if rest = [] then .ret { s with mode := .queue, rb := s.rb.clear }
      else .ret { s with mode := .queue, rb := (s.rb.putBytes rest).1 }
    else if c = 87 then                                                  -- W
      if rest = [] then .eeWrite 0 0 (.ret { s with eePtr := 1 })
      else .eeRead fun m =>
        let refused := (EE.scan m).2 + rest.length + 1 > EEPROM_SIZE
        let go : Prog F (FW F) := (Prog.eeWrites (EE.appendWrites m rest)).bind fun _ => .ret { s with mode := .eeprom }
        if refused then .out (.raw (.error "access out of EEProm max size")) go else go
    else .ret { s with mode := .queue, rb := (s.rb.putBytes (c :: rest)).1 }

/-- the effects of the events of one parseChar call, in order. MRCPParser.cpp:121-157. -/
def events (cfg : Cfg F) (s : FW F) : List FEv → Prog F (FW F)
  | [] => .ret s
  | .oob :: _ => .fault .oobWrite
  | .cmd p :: es => (parseCommand cfg s p).bind fun s => events cfg s es

/-- MRCPParser.cpp:103-159. -/
def parseChar (cfg : Cfg F) (s : FW F) (c : Byte) : Prog F (FW F) :=
  let (f, es) := s.framer.step c
  -- the reset of the static flags (130-132) happens after parseCommand, which does not use them
  events cfg { s with framer := f } es

/-- MRCPParser.cpp:161-191. -/
def process (cfg : Cfg F) (s : FW F) : Prog F (FW F) :=
  if s.mode = .halt then .ret s
  else if s.core.done then
    match s.mode with
    | .queue =>
      if s.rb.getSize > 0 then
        .out (.msg (freeMsg s.rb)) <|
          let (m, rb) := s.rb.getMessage
          -- getMessage stores m.length + 1 bytes into mrilInstruction[80]
          if m.length + 1 > INPUT_BUFFER_SIZE then .fault .oobWrite
          else handOver cfg .queue { s with rb := rb } m
      else .ret s
    | .eeprom => .eeRead fun mem =>
      let (m, ptr) := EE.getNextMessage mem s.eePtr
      if m.length > INPUT_BUFFER_SIZE then .fault .oobWrite
      else if m.length ≠ 0 then handOver cfg .eeprom { s with eePtr := ptr } m
      else .ret { s with eePtr := ptr }
    | _ => .ret s
  else .ret s

end Mrcp

/-- SerialIO.h:8. -/
def SERIAL_BYTES : Nat := 30

/-- SerialIO.h:19-28: at most 30 bytes (fuel) per call. -/
def serialProcess (cfg : Cfg F) : Nat → FW F → Prog F (FW F)
  | 0, s => .ret s
  | n + 1, s => .rx fun b =>
    match b with
    | none => .ret s
    | some c => (Mrcp.parseChar cfg s c).bind (serialProcess cfg n)

/-- RoboCon->process() on the firmware state. main.cpp:200, 211. -/
def rcProcess (cfg : Cfg F) (s : FW F) : Prog F (FW F) :=
  (RC.process cfg.toRCfg s.core.rc).bind fun rc => .ret { s with core := { s.core with rc := rc } }

/-- main.cpp:193-226, one pass (display refresh left out: it only reads; `getOutOfRange` is always false). -/
def loopBody (cfg : Cfg F) (s : FW F) : Prog F (FW F) := do
  let s ← rcProcess cfg s
  let s ← rcProcess cfg s
  let s ← serialProcess cfg SERIAL_BYTES s
  let c ← Mril.process s.core
  Mrcp.process cfg { s with core := c }

/-- main.cpp:72-165 after construction of the servos: controller, parsers, LINEAR, V = 10, ring buffer of 300 bytes.
MRILParser.h:69,74: done = false, commandNumber = 0; WaitController.h:21: waitUntil = 0. -/
def setup (cfg : Cfg F) (junk : Nat → Byte) : Prog F (FW F) := do
  let rc ← RC.new cfg.toRCfg
  let rc := (rc.setMovementMethod .linear).setMaxVelocity (lit 10)
  .eeRead fun m => .ret
    { core := { rc := rc, conds := [], waitUntil := 0, done := false, commandNumber := 0 }
      mode := if EE.getNumberOfMessages m > 0 then .eeprom else .execute     -- MRCPParser.cpp:20-22
      rb := RB.new 300 junk
      eePtr := 1
      framer := {} }

/-- The running system: the world and the rest of the current loop pass.
main.cpp:193-226 with the interrupt 175-188. -/
structure Sys (F : Type) where
  w : World F
  p : Prog F (FW F)

/-- Small-step semantics: the main program performs one access, or the timer interrupt runs, or the environment
changes, or serial bytes arrive.  A finished pass starts the next one. A `fault` program has no main step.
main.cpp:193-226 with the interrupt 175-188. -/
inductive Sys.Step (cfg : Cfg F) : Sys F → Sys F → Prop
  | loop {w s} : Step cfg ⟨w, .ret s⟩ ⟨w, loopBody cfg s⟩
  | servo {w i k} : Step cfg ⟨w, .servo i k⟩ ⟨w, k (w.servos i)⟩
  | micro {w i m k} : Step cfg ⟨w, .micro i m k⟩ ⟨w.setServo i ((w.servos i).micro m), k⟩
  | now {w k} : Step cfg ⟨w, .now k⟩ ⟨w, k w.now⟩
  | pin {w p k} : Step cfg ⟨w, .pin p k⟩ ⟨w, k (w.pins p)⟩
  | rxNone {w k} (h : w.rxq = []) : Step cfg ⟨w, .rx k⟩ ⟨w, k none⟩
  | rxSome {w b bs k} (h : w.rxq = b :: bs) : Step cfg ⟨w, .rx k⟩ ⟨{ w with rxq := bs }, k (some b)⟩
  | eeRead {w k} : Step cfg ⟨w, .eeRead k⟩ ⟨w, k w.ee⟩
  | eeWrite {w a b k} : Step cfg ⟨w, .eeWrite a b k⟩ ⟨{ w with ee := EE.write w.ee a b }, k⟩
  | out {w o k} : Step cfg ⟨w, .out o k⟩ ⟨{ w with outs := w.outs ++ [o] }, k⟩
  | isr {w p} : Step cfg ⟨w, p⟩ ⟨w.isr, p⟩
  | clock {w p} (t : Nat) (ht : t < 4294967296) : Step cfg ⟨w, p⟩ ⟨{ w with now := t }, p⟩
  | pins {w p} (f : Nat → Bool) : Step cfg ⟨w, p⟩ ⟨{ w with pins := f }, p⟩
  | arrive {w p} (bs : List Byte) : Step cfg ⟨w, p⟩ ⟨{ w with rxq := w.rxq ++ bs }, p⟩

/-- reachable from power-up with servos `sv`, EEPROM `mem` and arbitrary environment. main.cpp:72-226. -/
inductive Sys.Reach (cfg : Cfg F) (w0 : World F) (junk : Nat → Byte) : Sys F → Prop
  | init : Reach cfg w0 junk ⟨w0, setup cfg junk⟩
  | step {s t} : Reach cfg w0 junk s → Sys.Step cfg s t → Reach cfg w0 junk t

end Mrc
