import Verif.Model.Text
/-
src/MRCPParser.cpp `parseChar` (lines 103-159) and `toUpper` (201-213).
-/
namespace Mrc

/-- INPUT_BUFFER_SIZE (MRCPParser.h:15, MRILParser.h:15). -/
def INPUT_BUFFER_SIZE : Nat := 80

/-- MRCPParser.cpp:201-213. -/
def toUpper (c : Byte) : Byte := if 97 ≤ c && c ≤ 122 then 65 + c - 97 else c

/-- characters that are stored (MRCPParser.cpp:139-141): digits, letters, and 43..46 = `+ , - .`. -/
def allowed (c : Byte) : Bool := isDigit c || isUpper c || (43 ≤ c && c ≤ 46)

/-- The `static` locals of parseChar (104-107, 119).  `buf` are the bytes
inputByteBuffer[0..inputByteBufferPointer) (the rest of the array is never read). -/
structure Framer where
  started : Bool := false
  buf : List Byte := []
  full : Bool := false
  comment : Bool := false

/-- What parseChar does to the outside: call parseCommand, or store outside the 80-byte array.
MRCPParser.cpp:124, 129, 143. -/
inductive FEv where
  | cmd (payload : List Byte)
  | oob
  deriving DecidableEq

/-- MRCPParser.cpp:103-159. -/
def Framer.step (s : Framer) (c0 : Byte) : Framer × List FEv :=
  let c := toUpper c0
  -- 112-116 (AUTO_OPEN_FRAME is true)
  let s := if !s.started || c == 58 then { s with started := true, buf := [] } else s
  if c = 13 then
    -- 121-132; line 124 writes inputByteBuffer[pointer + 1]
    ({ started := false, buf := s.buf, full := false, comment := false },
      (if s.buf.length + 1 ≥ INPUT_BUFFER_SIZE then [.oob] else []) ++
      (if s.full then [] else [.cmd s.buf]))
  else if c = 35 || c = 40 || s.comment then
    ({ s with comment := true }, [])                                    -- 133-136
  else if c = 58 then (s, [])                                           -- 137-138
  else if allowed c then                                                -- 139-154
    ({ s with buf := s.buf ++ [c], full := s.full || s.buf.length + 1 ≥ INPUT_BUFFER_SIZE },
      if s.buf.length ≥ INPUT_BUFFER_SIZE then [.oob] else [])
  else (s, [])                                                          -- 155-157

/-- a byte stream fed through parseChar. SerialIO.h:19-28 calling main.cpp:167-170. -/
def Framer.run : Framer → List Byte → Framer × List FEv
  | s, [] => (s, [])
  | s, c :: cs =>
    let (s', e) := s.step c
    let (s'', es) := Framer.run s' cs
    (s'', e ++ es)

end Mrc
