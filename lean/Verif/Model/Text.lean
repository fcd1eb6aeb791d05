import Verif.Model.Num
/-
C library text/number conversions used by src/MRILParser.cpp (atoi line 99/289, atol line 280, atof lines
127/193/230) and the `String(int)` conversion used for replies.
-/
namespace Mrc

/-- ASCII bytes of a literal. E.g. MRILParser.cpp:52. -/
def str (s : String) : List Byte := s.toList.map Char.toUInt8

/-- `'0'..'9'` : `(c >= 48) && (c <= 57)` (MRCPParser.cpp:139, MRILParser.cpp:58). -/
def isDigit (c : Byte) : Bool := 48 ≤ c && c ≤ 57
/-- `'A'..'Z'` : `(c >= 65) && (c <= 90)` (MRCPParser.cpp:140, MRILParser.cpp:48,58). -/
def isUpper (c : Byte) : Bool := 65 ≤ c && c ≤ 90

/-- value of a digit character. libc (atoi, atol, atof), called at MRILParser.cpp:99, 127, 193, 230, 248, 280, 288. -/
def digitVal (c : Byte) : Nat := c.toNat - 48

/-- value of a run of digits, most significant first.
libc (atoi, atol, atof), called at MRILParser.cpp:99, 127, 193, 230, 248, 280, 288. -/
def digitsVal (ds : List Byte) : Nat := ds.foldl (fun a d => 10 * a + digitVal d) 0

/-- optional minus sign (the `+` sign never reaches the converters: MRILParser.cpp:58 drops it). -/
def takeSign : List Byte → Bool × List Byte
  | [] => (false, [])
  | c :: cs => if c = 45 then (true, cs) else (false, c :: cs)

/-- `long` is 32 bit: newlib's `strtol` saturates.
libc (atoi, atol, atof), called at MRILParser.cpp:99, 127, 193, 230, 248, 280, 288. -/
def satLong (i : Int) : Int :=
  if i > 2147483647 then 2147483647 else if i < -2147483648 then -2147483648 else i

/-- `atol` / `atoi` (newlib: strtol base 10, longest digit prefix, saturating at 32 bit).
MRILParser.cpp:99, 280, 288. -/
def atol (s : List Byte) : Int :=
  let (n, r) := takeSign s
  let v : Int := digitsVal (r.takeWhile isDigit)
  satLong (if n then -v else v)

/-- mantissa of a decimal number: digits, optionally `.` and digits. Returns the exact value, whether any digit
was seen, and the rest of the text.
libc (atoi, atol, atof), called at MRILParser.cpp:99, 127, 193, 230, 248, 280, 288. -/
def scanMantissa (s : List Byte) : Rat × Bool × List Byte :=
  let ip := s.takeWhile isDigit
  let r := s.dropWhile isDigit
  match r with
  | c :: r' =>
    if c = 46 then
      let fp := r'.takeWhile isDigit
      ((digitsVal ip : Rat) + (digitsVal fp : Rat) / (10 ^ fp.length : Nat),
        !(ip.isEmpty && fp.isEmpty), r'.dropWhile isDigit)
    else ((digitsVal ip : Rat), !ip.isEmpty, r)
  | [] => ((digitsVal ip : Rat), !ip.isEmpty, [])

/-- optional exponent `E[-]digits`; absent or malformed: 0.
libc (atoi, atol, atof), called at MRILParser.cpp:99, 127, 193, 230, 248, 280, 288. -/
def scanExp (s : List Byte) : Int :=
  match s with
  | c :: r =>
    if c = 69 then
      let (n, ds) := takeSign r
      let v : Int := digitsVal (ds.takeWhile isDigit)
      if n then -v else v
    else 0
  | [] => 0

/-- `10^e` for an integer exponent.
libc (atoi, atol, atof), called at MRILParser.cpp:99, 127, 193, 230, 248, 280, 288. -/
def pow10 (e : Int) : Rat :=
  match e with
  | .ofNat n => ((10 ^ n : Nat) : Rat)
  | .negSucc n => 1 / ((10 ^ (n + 1) : Nat) : Rat)

/-- `atof` (newlib `strtod`): `INF`/`NAN` prefixes, hexadecimal floats (uninterpreted), otherwise the longest
decimal prefix, 0 if there is none.  The result is exact before `FloatOps.ofRat`.
MRILParser.cpp:127, 193, 230, 248. -/
def atof {F} [FloatOps F] (s : List Byte) : F :=
  let (n, r) := takeSign s
  if (str "NAN").isPrefixOf r then FloatOps.nan
  else if (str "INF").isPrefixOf r then
    if n then FloatOps.neg FloatOps.inf else FloatOps.inf
  else if (str "0X").isPrefixOf r then FloatOps.hexFloat s
  else
    let (m, ok, rest) := scanMantissa r
    if ok then
      let v := m * pow10 (scanExp rest)
      FloatOps.ofRat (if n then -v else v)
    else FloatOps.ofRat 0

/-- decimal digits of a natural number, `String(unsigned)`. E.g. MRILParser.cpp:97. -/
def natStr (n : Nat) : List Byte := (Nat.toDigits 10 n).map Char.toUInt8

/-- `String(int)` / `String(long)`. E.g. MRCPParser.cpp:198, MRILParser.cpp:290, 332. -/
def intStr (i : Int) : List Byte :=
  if i < 0 then 45 :: natStr i.natAbs else natStr i.natAbs

end Mrc
