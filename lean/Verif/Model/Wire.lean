import Verif.Model.Exec
/-
The bytes on the serial line: src/MRCPR.h:23-27, src/SerialIO.h:46-52, Serial.print* calls.
`fl` stands for Arduino's `String(float)` / `Serial.print(float)` (not modelled).
-/
namespace Mrc
variable {F : Type}

/-- one answer of a read instruction (MRILParser.cpp:97,125,181,187,223-227). -/
def Part.text (fl : F → List Byte) : Part F → List Byte
  | .method c => 77 :: natStr c
  | .velocity v => 86 :: fl v
  | .pose sym v => sym :: fl v
  | .angle o v => 82 :: (natStr o ++ fl v)

/-- the String given to sendMessage. MRCPParser.cpp:198, MRILParser.cpp:290, 312-317, 332. -/
def Msg.text (fl : F → List Byte) : Msg F → List Byte
  | .free n => 66 :: intStr n                                    -- MRCPParser.cpp:198
  | .n0 n => 78 :: 48 :: intStr n                                -- MRILParser.cpp:290
  | .n1 n => 78 :: 49 :: intStr n                                -- MRILParser.cpp:332
  | .reply none ps => ps.flatMap (Part.text fl)                  -- MRILParser.cpp:312-317
  | .reply (some n) ps => 78 :: 49 :: (intStr n ++ 32 :: ps.flatMap (Part.text fl))

/-- MRCPR.h:23-27 with SerialIO.h:46-52: ':' text CR LF. -/
def Msg.wire (fl : F → List Byte) (m : Msg F) : List Byte := 58 :: (m.text fl ++ [13, 10])

/-- text printed directly: Serial.println (MRILParser.cpp:52, RobotController.cpp:574); the domain name and "ERROR: " of
logger.error (Logger.cpp:84-89) are part of the text and left out here. -/
def Raw.wire (fl : F → List Byte) : Raw F → List Byte
  | .comment => str "comment-breaking" ++ [13, 10]
  | .moveInTime t => fl t ++ [13, 10]
  | .error t => str t ++ [13, 10]

/-- everything on the serial line.
MRCPR.h:23-27 and the Serial.print calls of MRILParser.cpp:52, RobotController.cpp:574, Logger.cpp:84-89. -/
def Out.wire (fl : F → List Byte) : Out F → List Byte
  | .msg m => m.wire fl
  | .raw r => r.wire fl
  | _ => []

end Mrc
