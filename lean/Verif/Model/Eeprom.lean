import Verif.Model.Num
/-
src/EEPromStorage.cpp / .h over the Teensy 3.2 EEPROM library.
Environment (trusted): `EEPROM.read(a)` for `a >= 2048` returns 0 and `EEPROM.write(a)` for `a >= 2048` is
dropped (Teensyduino eeprom.c).
-/
namespace Mrc

/-- EEPROM_SIZE (EEPromStorage.h:5). -/
def EEPROM_SIZE : Nat := 2048

/-- EEPROM contents. EEPromStorage.cpp uses it only through EEPROM.read/write (14-15, 23-32, 42-55, 73-75, 93). -/
abbrev EMem := Nat → Byte

namespace EE

/-- `EEPROM.read` (Teensy semantics). EEPromStorage.cpp:14, 15, 42, 45, 48, 55, 73, 75. -/
def read (m : EMem) (a : Nat) : Byte := if a < EEPROM_SIZE then m a else 0

/-- `EEPROM.write` (Teensy semantics). EEPromStorage.cpp:23, 28, 32, 93. -/
def write (m : EMem) (a : Nat) (b : Byte) : EMem :=
  fun j => if j = a ∧ a < EEPROM_SIZE then b else m j

/-- a sequence of single byte writes. EEPromStorage.cpp:23-32. -/
def writes (m : EMem) (ws : List (Nat × Byte)) : EMem := ws.foldl (fun m w => write m w.1 w.2) m

/-- the scanning loop `while (EEPROM.read(pointer) != 0) pointer += EEPROM.read(pointer) + 1`
(EEPromStorage.cpp:14-16 and 73-76): returns the number of iterations and the final pointer.
Fuel 2049 always suffices because reads beyond the EEPROM give 0 (proved: `scan_fuel`). -/
def scanFrom (m : EMem) : Nat → Nat → Nat × Nat
  | 0, p => (0, p)
  | n + 1, p =>
    if read m p = 0 then (0, p)
    else
      let (k, q) := scanFrom m n (p + (read m p).toNat + 1)
      (k + 1, q)

/-- The whole scan, EEPromStorage.cpp:14-16 and 73-76: (number of messages, address of the terminator). -/
def scan (m : EMem) : Nat × Nat := scanFrom m (EEPROM_SIZE + 1) 0

/-- EEPromStorage.cpp:69-78. -/
def getNumberOfMessages (m : EMem) : Nat := (scan m).1

/-- the individual writes of appendMessage, in program order (EEPromStorage.cpp:9-36); empty if refused (line 18).
(`message[length] = 0` at line 34 writes into the caller's buffer, within bounds for payloads ≤ 79.) -/
def appendWrites (m : EMem) (msg : List Byte) : List (Nat × Byte) :=
  let p := (scan m).2
  if p + msg.length + 1 > EEPROM_SIZE then []
  else (p, UInt8.ofNat msg.length) ::
    (msg.zipIdx (p + 1)).map (fun x => (x.2, x.1)) ++ [(p + 1 + msg.length, 0)]

/-- EEPromStorage.cpp:9-36. -/
def appendMessage (m : EMem) (msg : List Byte) : EMem := writes m (appendWrites m msg)

/-- position of message `i` (EEPromStorage.cpp:39-46); none = "last message" return at line 43. -/
def msgPos (m : EMem) : Nat → Nat → Option Nat
  | 0, p => some p
  | i + 1, p => if read m p = 0 then none else msgPos m i (p + (read m p).toNat + 1)

/-- EEPromStorage.cpp:38-59: the bytes stored into the caller's array; the returned length is the list's length. -/
def getMessage (m : EMem) (i : Nat) : List Byte :=
  match msgPos m i 0 with
  | none => []
  | some p => (List.range (read m p).toNat).map (fun k => read m (p + 1 + k))

/-- EEPromStorage.cpp:84-90 with the member `messagePointer` as argument/result. -/
def getNextMessage (m : EMem) (ptr : Nat) : List Byte × Nat :=
  let p := if getNumberOfMessages m ≤ ptr then 1 else ptr
  (getMessage m p, p + 1)

/-- EEPromStorage.cpp:92-95 (memory part; the pointer is reset to 1). -/
def clear (m : EMem) : EMem := write m 0 0

end EE
end Mrc
