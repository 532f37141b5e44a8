/-!
# Dates, date times and decimals as text

Characters are `Char`; a text is `List Char`.  Integers that are formatted or read are mathematical integers: no text read
here exceeds the range of `int` unless the value printed did.
-/

namespace Mutable.Calendar

abbrev Str := List Char

/-- The characters `std::ostream::operator<<` writes for an integer (C++ standard, `%d`; no width). -/
def showInt (v : Int) : Str := if v < 0 then '-' :: Nat.toDigits 10 v.natAbs else Nat.toDigits 10 v.natAbs

/-- `std::setw(w)` with `std::internal` and fill `'0'` (include/mutable/util/fn.hpp 487-498, src/IR/Tuple.cpp 22-29): the
padding goes between the sign and the digits. -/
def setwInternal (w : Nat) (v : Int) : Str :=
  if v < 0 then '-' :: (List.replicate (w - 1 - (Nat.toDigits 10 v.natAbs).length) '0' ++ Nat.toDigits 10 v.natAbs)
  else List.replicate (w - (Nat.toDigits 10 v.natAbs).length) '0' ++ Nat.toDigits 10 v.natAbs

/-- `std::setw(w)` with the default adjustment and fill `'0'` (src/IR/Tuple.cpp 46-48): the padding precedes the sign. -/
def setwDefault (w : Nat) (v : Int) : Str := List.replicate (w - (showInt v).length) '0' ++ showInt v

/-- The encoding of a date constant, `int32_t(unsigned(year) << 9 | month << 5 | day)` (src/backend/Interpreter.hpp 271). -/
def encodeDate (year month day : Int) : BitVec 32 :=
  (BitVec.ofInt 32 year <<< 9) ||| (BitVec.ofInt 32 month <<< 5) ||| BitVec.ofInt 32 day

/-- `date >> 9` (src/IR/Tuple.cpp 27). -/
def year (date : BitVec 32) : Int := (date.sshiftRight 9).toInt
/-- `(date >> 5) & 0xF` (src/IR/Tuple.cpp 28). -/
def month (date : BitVec 32) : Int := ((date.sshiftRight 5) &&& 0xF#32).toInt
/-- `date & 0x1F` (src/IR/Tuple.cpp 29). -/
def day (date : BitVec 32) : Int := (date &&& 0x1F#32).toInt

/-- `Value::print()` for `Date` (src/IR/Tuple.cpp 22-32), and the same code of the stack machine's `Print_date`
(src/backend/StackMachine.cpp 1083-1098). -/
def printDate (date : BitVec 32) : Str :=
  setwInternal (if year date > 0 then 4 else 5) (year date) ++ '-' ::
    (setwInternal 2 (month date) ++ '-' :: setwInternal 2 (day date))

/-- The digits an integer is read from: the longest sequence of digits (`%d` of `sscanf`, `std::istream::operator>>(int&)`). -/
def readDigits (s : Str) : Option (Nat × Str) :=
  match s.takeWhile Char.isDigit with
  | [] => none
  | ds => some (Nat.ofDigitChars 10 ds 0, s.dropWhile Char.isDigit)

/-- Reading an integer (`%d`, `operator>>(int&)`): white space (here: blanks), an optional sign, digits. -/
def readInt (s : Str) : Option (Int × Str) :=
  match s.dropWhile (· == ' ') with
  | '-' :: r => (readDigits r).map fun (n, r) => (-(n : Int), r)
  | '+' :: r => (readDigits r).map fun (n, r) => ((n : Int), r)
  | r => (readDigits r).map fun (n, r) => ((n : Int), r)

/-- A literal character of the format, or `in.peek() == c` followed by `in.get()` (include/mutable/util/fn.hpp 512-521). -/
def expect (c : Char) (s : Str) : Option Str := if s.head? = some c then some s.tail else none

/-- `sscanf(text, "d'%d-%d-%d'", &year, &month, &day)` returning 3 (src/backend/Interpreter.hpp 269): what follows the third
number is not examined.  `none`: the assertion at line 270 fails. -/
def scanDate (s : Str) : Option (Int × Int × Int) := do
  let s ← expect 'd' s
  let s ← expect '\'' s
  let (y, s) ← readInt s
  let s ← expect '-' s
  let (m, s) ← readInt s
  let s ← expect '-' s
  let (d, _) ← readInt s
  return (y, m, d)

/-- The value of a date constant (src/backend/Interpreter.hpp 267-272). -/
def interpretDate (s : Str) : Option (BitVec 32) := (scanDate s).map fun (y, m, d) => encodeDate y m d

/-- The check of the semantic analysis for date constants (src/parse/Sema.cpp 409-432): `true` = no error. -/
def semaDate (s : Str) : Bool :=
  match scanDate s with
  | none => false -- `sscanf` assigns fewer than three variables; the others are read uninitialized
  | some (y, m, d) =>
    !(y == 0) && !(decide (m < 1) || decide (m > 12)) &&
    !(decide (d < 1) || (m == 2 && decide (d > 29))
      || ((m == 4 || m == 6 || m == 9 || m == 11) && decide (d > 30))
      || ((m == 1 || m == 3 || m == 5 || m == 7 || m == 8 || m == 10 || m == 12) && decide (d > 31)))

/-- `std::tm`: the fields used. -/
structure Tm where
  year : Int
  mon : Int
  mday : Int
  hour : Int
  min : Int
  sec : Int
  deriving DecidableEq

/-- `operator<<(std::ostream&, const put_tm&)` (include/mutable/util/fn.hpp 485-503). -/
def putTm (t : Tm) : Str :=
  (if t.year < -1900 then '-' :: setwInternal 4 (-(t.year + 1900)) else setwInternal 4 (t.year + 1900)) ++ '-' ::
  (setwInternal 2 (t.mon + 1) ++ '-' ::
  (setwInternal 2 t.mday ++ ' ' ::
  (setwInternal 2 t.hour ++ ':' ::
  (setwInternal 2 t.min ++ ':' ::
  setwInternal 2 t.sec))))

/-- `operator>>(std::istream&, get_tm)` (include/mutable/util/fn.hpp 514-530); `none`: an early return (the fields not yet
read stay uninitialized) or the stream fails. -/
def getTm (s : Str) : Option Tm := do
  let (y, s) ← readInt s
  let s ← expect '-' s
  let (mo, s) ← readInt s
  let s ← expect '-' s
  let (d, s) ← readInt s
  let s ← expect ' ' s
  let (h, s) ← readInt s
  let s ← expect ':' s
  let (mi, s) ← readInt s
  let s ← expect ':' s
  let (sec, _) ← readInt s
  return ⟨y - 1900, mo - 1, d, h, mi, sec⟩

/-- The check of the semantic analysis for datetime constants (src/parse/Sema.cpp 434-474), on the fields `sscanf` assigns; `none`: a failed
assertion (lines 455, 461, 467). -/
def semaDateTime (y m d hour minute second : Int) : Option Bool :=
  if y = 0 then some false
  else if decide (m < 1) || decide (m > 12) then some false
  else if decide (d < 1) || (m == 2 && decide (d > 29)) || ((m == 4 || m == 6 || m == 9 || m == 11) && decide (d > 30))
      || ((m == 1 || m == 3 || m == 5 || m == 7 || m == 8 || m == 10 || m == 12) && decide (d > 31)) then some false
  else if hour < 0 then none
  else if hour > 23 then some false
  else if minute < 0 then none
  else if minute > 59 then some false
  else if second < 0 then none
  else if second > 59 then some false
  else some true

/-- The text of a datetime constant handed to `get_tm`: `str.substr(2, str.length() - 3)`
(src/backend/Interpreter.hpp 276-282). -/
def interpretDateTime (s : Str) : Option Tm := getTm ((s.drop 2).take (s.length - 3))

/-- `Value::print()` for decimals (src/IR/Tuple.cpp 45-54); `/` and `%` truncate. -/
def printDecimal (scale : Nat) (v : Int) : Str :=
  showInt (v.tdiv (10 ^ scale)) ++ '.' :: setwDefault scale (v.tmod (10 ^ scale))

end Mutable.Calendar
