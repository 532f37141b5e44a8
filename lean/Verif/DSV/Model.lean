/-!
# Model of the import of delimiter-separated values (include/mutable/io/Reader.hpp, src/io/DSVReader.cpp)

Bytes are numbers below 256.  The member `c` is a `char`, so `EOF` is indistinguishable from the byte 255.  The stream is
modelled by the list of the bytes from the current one on: `c` is its head (255 if the stream has ended, which is exactly
when the last `get` has failed, i.e. when `in.good()` is false).  Positions are left out.  Floating-point values, dates and
times are represented by their text (`strtod` and `Interpreter::eval` are not modelled).  Timestamps: see `Verif.MVCC`.
-/
namespace Mutable.DSV

abbrev Str := List Nat

def EOF : Nat := 255
def NL : Nat := 10

/-- `Config` (Reader.hpp:45-66). -/
structure Config where
  delimiter : Nat
  quote : Nat
  escape : Nat
  hasHeader : Bool := false
  skipHeader : Bool := false
  numRows : Nat

/-- The types of attributes that can be read (DSVReader.cpp:155-349). -/
inductive Ty where
  | bool | char | date | datetime | int | decimal (scale : Nat) | float
deriving DecidableEq

/-- The values of a tuple. -/
inductive Val where
  | null
  | bool (b : Bool)
  | str (s : Str)
  | int (i : BitVec 64)
  | text (s : Str)
deriving DecidableEq

/-- The current character (Reader.hpp:74). -/
def cur (s : Str) : Nat := s.headD EOF

/-- `step` (Reader.hpp:105-117). -/
def step (s : Str) : Str := s.tail

/-- `accept` (Reader.hpp:121). -/
def accept (b : Nat) (s : Str) : Bool × Str := if cur s = b then (true, step s) else (false, s)

/-- `c == EOF or c == '\n' or c == config().delimiter` -/
def isEnd (cfg : Config) (c : Nat) : Bool := c == EOF || c == NL || c == cfg.delimiter

/-- `while (c != EOF and c != '\n' and c != delimiter) step();` -/
def skipToEnd (cfg : Config) (s : Str) : Str := s.dropWhile fun c => !isEnd cfg c

/-- `discard_cell` (Reader.hpp:123-130). -/
def discardCell (cfg : Config) (s : Str) : Str :=
  if cur s = cfg.quote then
    let s := (step s).dropWhile fun c => !(c == EOF || c == NL || c == cfg.quote)
    (accept cfg.quote s).2
  else skipToEnd cfg s

/-- `discard_row` (Reader.hpp:131). -/
def discardRow (s : Str) : Str := s.dropWhile fun c => !(c == EOF || c == NL)

/-- `is_dec` (include/mutable/util/fn.hpp:589). -/
def isDec (c : Nat) : Bool := decide (48 ≤ c ∧ c ≤ 57)

/-- `read_unsigned_int` (DSVReader.cpp:378-386); overflow is undefined in C++, here it wraps around. -/
def readUInt : BitVec 64 → Str → BitVec 64 × Str
  | i, [] => (i, [])
  | i, c :: s => if isDec c then readUInt (10 * i + BitVec.ofNat 64 c - 48) s else (i, c :: s)

/-- `C.pool(&buf[0])`: a C string ends at the first NUL. -/
def pooled (buf : Str) : Str := buf.takeWhile fun c => c != 0

/-- The loop of a quoted string if `escape == quote` (DSVReader.cpp:178-188). -/
def readRFC (q : Nat) : Str → Str × Str
  | [] => ([], [])
  | [c] => if c = EOF then ([], [c]) else if c ≠ q then ([c], []) else ([], [])
  | c :: d :: s =>
    if c = EOF then ([], c :: d :: s)
    else if c ≠ q then let r := readRFC q (d :: s); (c :: r.1, r.2)
    else if d = q then let r := readRFC q s; (d :: r.1, r.2)
    else ([], d :: s)

/-- The loop of a quoted string with a separate escape character (DSVReader.cpp:190-200). -/
def readEsc (q e : Nat) : Str → Str × Str
  | [] => ([], [])
  | [c] => if c = EOF then ([], [c]) else if c = q then ([], []) else if c = e then ([EOF], []) else ([c], [])
  | c :: d :: s =>
    if c = EOF then ([], c :: d :: s)
    else if c = q then ([], d :: s)
    else if c = e then let r := readEsc q e s; (d :: r.1, r.2)
    else let r := readEsc q e (d :: s); (c :: r.1, r.2)

/-- `operator()(Const<CharacterSequence>&)` (DSVReader.cpp:168-217): the value, the rest of the input and whether there was an
error. -/
def readChar (cfg : Config) (s : Str) : Val × Str × Bool :=
  if cur s = cfg.quote then
    let r := if cfg.escape = cfg.quote then readRFC cfg.quote (step s) else readEsc cfg.quote cfg.escape (step s)
    (.str (pooled r.1), r.2, false)
  else
    let buf := s.takeWhile fun c => !isEnd cfg c
    if cfg.quote ∈ buf then (.null, skipToEnd cfg s, true)
    else (.str (pooled buf), skipToEnd cfg s, false)

/-- `operator()(Const<Boolean>&)` (DSVReader.cpp:155-166): `none` if the tuple is not modified. -/
def readBool (cfg : Config) (s : Str) : Option Val × Str × Bool :=
  let buf := pooled (s.takeWhile fun c => !isEnd cfg c)
  let v := if buf = [84, 82, 85, 69] then some (Val.bool true) else if buf = [70, 65, 76, 83, 69] then some (Val.bool false) else none
  (v, skipToEnd cfg s, v.isNone)

/-- The sign of a number (DSVReader.cpp:288-292). -/
def readSign (s : Str) : Bool × Str :=
  if cur s = 45 then (true, step s) else (false, (accept 43 s).2)

/-- `operator()(Const<Numeric>&)`, integers (DSVReader.cpp:287-303). -/
def readInt (cfg : Config) (s : Str) : Val × Str × Bool :=
  let (neg, s) := readSign s
  let (i, s) := readUInt 0 s
  if isEnd cfg (cur s) then (.int (if neg then -i else i), s, false) else (.null, skipToEnd cfg s, true)

/-- `powi(10, n)` with `T = int` (include/mutable/util/fn.hpp:427-439): 32 bits. -/
def pow10 (n : Nat) : BitVec 64 := (BitVec.ofNat 32 (10 ^ n)).signExtend 64

/-- The digits after the dot (DSVReader.cpp:318-327). -/
def readPost : Nat → BitVec 64 → Str → BitVec 64 × Str
  | 0, p, s => (p * pow10 0, s)
  | n + 1, p, [] => (p * pow10 (n + 1), [])
  | n + 1, p, c :: s => if isDec c then readPost n (10 * p + BitVec.ofNat 64 c - 48) s else (p * pow10 (n + 1), c :: s)

/-- Decimals (DSVReader.cpp:305-339). -/
def readDecimal (cfg : Config) (scale : Nat) (s : Str) : Val × Str × Bool :=
  let (neg, s) := readSign s
  let (d, s) := readUInt 0 s
  let d := d * pow10 scale
  let (d, s) :=
    if cur s = 46 then
      let (p, s) := readPost scale 0 (step s)
      (d + (if d.toInt ≥ 0 then p else -p), s.dropWhile isDec)
    else (d, s)
  if isEnd cfg (cur s) then (.int (if neg then -d else d), s, false) else (.null, skipToEnd cfg s, true)

/-- Reads characters that have to match the classes in the list (`DIGITS` and the separators, DSVReader.cpp:227-233,
256-268); `none` if one does not. -/
def readPattern : List (Nat → Bool) → Str → Option Str × Str
  | [], s => (some [], s)
  | p :: ps, s =>
    if p (cur s) then
      let (r, s') := readPattern ps (step s)
      (r.map (cur s :: ·), s')
    else (none, s)

def digits (n : Nat) : List (Nat → Bool) := List.replicate n isDec

def datePattern : List (Nat → Bool) := digits 4 ++ [(· == 45)] ++ digits 2 ++ [(· == 45)] ++ digits 2

def datetimePattern : List (Nat → Bool) := datePattern ++ [(· == 32)] ++ digits 2 ++ [(· == 58)] ++ digits 2 ++ [(· == 58)] ++ digits 2

/-- Dates and times (DSVReader.cpp:219-246, 248-281); the value is the text between the quotes. -/
def readDate (cfg : Config) (pat : List (Nat → Bool)) (s : Str) : Val × Str × Bool :=
  let (q, s) := accept cfg.quote s
  let (sign, s) := if cur s = 45 then ([45], step s) else ([], s)
  match readPattern pat s with
  | (none, s) => (.null, s, true)
  | (some t, s) =>
    if q then if cur s = cfg.quote then (.text (sign ++ t), step s, false) else (.null, s, true)
    else (.text (sign ++ t), s, false)

/-- Floats (DSVReader.cpp:341-368): the text is kept; `strtod` is a parameter that tells whether the text is a number. -/
def readFloat (cfg : Config) (isNum : Str → Bool) (s : Str) : Val × Str × Bool :=
  let t := s.takeWhile fun c => !isEnd cfg c
  if isNum t then (.text t, skipToEnd cfg s, false) else (.null, skipToEnd cfg s, true)

/-- The state of the reader: the input, the intermediate tuple, the number of errors. -/
structure R where
  inp : Str
  tup : List Val
  errs : Nat := 0
deriving DecidableEq

/-- Dynamic dispatch on the column's type (DSVReader.cpp:119). -/
def readTy (cfg : Config) (isNum : Str → Bool) (id : Nat) (ty : Ty) (s : R) : R :=
  let r : Option Val × Str × Bool := match ty with
    | .bool => readBool cfg s.inp
    | .char => let r := readChar cfg s.inp; (some r.1, r.2)
    | .date => let r := readDate cfg datePattern s.inp; (some r.1, r.2)
    | .datetime => let r := readDate cfg datetimePattern s.inp; (some r.1, r.2)
    | .int => let r := readInt cfg s.inp; (some r.1, r.2)
    | .decimal n => let r := readDecimal cfg n s.inp; (some r.1, r.2)
    | .float => let r := readFloat cfg isNum s.inp; (some r.1, r.2)
  { inp := r.2.1, tup := match r.1 with | some v => s.tup.set id v | none => s.tup, errs := s.errs + (if r.2.2 then 1 else 0) }

/-- A cell (DSVReader.cpp:113-124).  The column is `none` if the header's name is not an attribute of the table. -/
def readCol (cfg : Config) (isNum : Str → Bool) (isLast : Bool) (col : Option (Nat × Ty)) (s : R) : R :=
  match col with
  | some (id, ty) =>
    if (isLast = true ∧ cur s.inp = NL) ∨ (isLast = false ∧ cur s.inp = cfg.delimiter) then { s with tup := s.tup.set id .null }
    else
      let s := readTy cfg isNum id ty s
      { s with inp := discardCell cfg s.inp }
  | none => { s with inp := discardCell cfg s.inp }

/-- The loop over the columns of a row (DSVReader.cpp:103-125); the result tells whether the row is finished. -/
def readCells (cfg : Config) (isNum : Str → Bool) : Bool → List (Option (Nat × Ty)) → R → Bool × R
  | _, [], s => (true, s)
  | first, col :: cols, s =>
    if first = false ∧ cur s.inp ≠ cfg.delimiter then (false, { s with inp := discardRow s.inp, errs := s.errs + 1 })
    else readCells cfg isNum false cols (readCol cfg isNum cols.isEmpty col (if first then s else { s with inp := step s.inp }))

/-- The rows of the store: the tuples that have been written (by the stack machine `W`, which advances by one row with every
write) and the number of rows of the store. -/
structure Store where
  written : List (List Val) := []
  numRows : Nat := 0
deriving DecidableEq

/-- The loop over the rows (DSVReader.cpp:98-150).  `fuel`: every iteration consumes a character. -/
def readRows (cfg : Config) (isNum : Str → Bool) (cols : List (Option (Nat × Ty))) : Nat → Nat → R → Store → R × Store
  | 0, _, s, st => (s, st)
  | fuel + 1, idx, s, st =>
    if s.inp ≠ [] ∧ idx < cfg.numRows then
      let (ok, s) := readCells cfg isNum true cols s
      if ok then
        if cur s.inp ≠ EOF ∧ cur s.inp ≠ NL then
          let s : R := { s with inp := discardRow s.inp, errs := s.errs + 1 }
          readRows cfg isNum cols fuel (idx + 1) { s with inp := step s.inp } { st with numRows := st.numRows + 1 }
        else
          readRows cfg isNum cols fuel (idx + 1) { s with inp := step s.inp } ⟨st.written ++ [s.tup], st.numRows + 1⟩
      else readRows cfg isNum cols fuel idx { s with inp := step s.inp } st
    else (s, st)

/-- The names in the header (DSVReader.cpp:53-79); `fuel`: every iteration consumes a character or ends. -/
def readHeader (cfg : Config) : Nat → Str → List Str × Str
  | 0, s => ([], s)
  | fuel + 1, s =>
    if cur s ≠ EOF ∧ cur s ≠ NL then
      let name := pooled (s.takeWhile fun c => !isEnd cfg c)
      let s := skipToEnd cfg s
      let s := if cur s = cfg.delimiter then step s else s
      let (ns, s) := readHeader cfg fuel s
      (name :: ns, s)
    else ([], s)

/-- The import (DSVReader.cpp:32-155) into an empty table with the given attributes. -/
def read (cfg : Config) (isNum : Str → Bool) (attrs : List (Str × Ty)) (inp : Str) : R × Store :=
  let all := attrs.zipIdx.map fun a => (a.1.1, (a.2, a.1.2))
  let (cols, s) :=
    if cfg.hasHeader ∧ ¬ cfg.skipHeader then
      let (names, s) := readHeader cfg inp.length inp
      (names.map fun n => (all.find? fun a => a.1 == n).map Prod.snd, step s)
    else
      (all.map fun a => some a.2,
        if cfg.skipHeader then ((step inp).dropWhile fun c => c != NL).tail else inp)
  readRows cfg isNum cols (s.length + 1) 0 { inp := s, tup := attrs.map fun _ => .null } {}

end Mutable.DSV
