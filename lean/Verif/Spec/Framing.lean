import Verif.Model.Num
/-
Independent specification of the serial frame format (properties C05-C10).  Lines end with CR (13); within a line the
text after the last ':' (58) counts; '#' (35) and '(' (40) start a comment; only digits, letters and `+ , - .` count;
letters are upper-cased; frames with 80 or more counting characters are discarded.
-/
namespace Mrc.Spec

/-- split at every occurrence of `sep`. -/
def split (sep : Byte) : List Byte → List (List Byte)
  | [] => [[]]
  | c :: cs =>
    if c = sep then [] :: split sep cs
    else match split sep cs with
      | [] => [[c]]
      | p :: ps => (c :: p) :: ps

/-- the complete lines of a stream (each was terminated by CR). -/
def lines (s : List Byte) : List (List Byte) := (split 13 s).dropLast
/-- the unfinished last line. -/
def tail (s : List Byte) : List Byte := (split 13 s).getLastD []

/-- ASCII upper case. -/
def upper (c : Byte) : Byte := if 97 ≤ c.toNat ∧ c.toNat ≤ 122 then UInt8.ofNat (c.toNat - 32) else c

/-- comment starters. -/
def isComment (c : Byte) : Bool := c == 35 || c == 40

/-- characters that count (already upper-cased): 0-9, A-Z, `+ , - .`. -/
def counts (c : Byte) : Bool :=
  (48 ≤ c.toNat && c.toNat ≤ 57) || (65 ≤ c.toNat && c.toNat ≤ 90) || (43 ≤ c.toNat && c.toNat ≤ 46)

/-- the text before the comment, upper-cased. -/
def code (l : List Byte) : List Byte := (l.map upper).takeWhile (fun c => !isComment c)
/-- the comment, including its starter. -/
def comment (l : List Byte) : List Byte := (l.map upper).dropWhile (fun c => !isComment c)

/-- a line is over-long when some ':'-separated piece of its text has ≥ 80 counting characters. -/
def overlong (l : List Byte) : Bool := (split 58 (code l)).any fun p => decide (80 ≤ (p.filter counts).length)

/-- the payload of a line: the counting characters after the last ':'.  (A ':' inside a comment empties the payload —
this is what the firmware does, see C08.) -/
def payload (l : List Byte) : List Byte :=
  if (58 : Byte) ∈ comment l then []
  else ((split 58 (code l)).getLastD []).filter counts

/-- the payloads delivered for a stream. -/
def decode (s : List Byte) : List (List Byte) := ((lines s).filter fun l => !overlong l).map payload

/-- bytes without any meaning. -/
def isNoise (c : Byte) : Bool := !counts (upper c) && !isComment c && c != 13 && c != 58

end Mrc.Spec
