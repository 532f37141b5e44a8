/-!
# Model of the SQL lexer (src/lex/Lexer.{hpp,cpp})

Simplifications: characters are `Char` instead of bytes (the code only compares them with ASCII characters); the file
name of a position is left out; the string pool (C39) is the identity on texts, except that pooling a C string ends it at
the first NUL (`internalize`).  Keyword token types are represented by the keyword.
-/
namespace Mutable.Lex

/-- `Position` without the file name (include/mutable/util/Position.hpp:11-15). -/
structure Pos where
  line : Nat
  col : Nat
deriving DecidableEq, Repr

/-- Token types (include/mutable/tables/TokenType.tbl, Operators.tbl, Keywords.tbl). -/
inductive TT where
  | identifier | stringLiteral | date | dateTime | instruction
  | octInt | hexInt | decInt | hexFloat | decFloat
  | kw (text : List Char)
  | lpar | rpar | tilde | plus | minus | asterisk | slash | percent | dotdot | equal | bangEqual
  | less | greater | lessEqual | greaterEqual | comma | dot | semicol
  | error | eof
deriving DecidableEq, Repr

/-- `Token` (include/mutable/lex/Token.hpp:14-18). -/
structure Token where
  pos : Pos
  text : List Char
  type : TT
deriving DecidableEq, Repr

/-- include/mutable/tables/Keywords.tbl:8-68 -/
def keywords : List (List Char) :=
  ["AND", "AS", "ASC", "BOOL", "BY", "CASCADE", "CHAR", "CHECK", "CREATE", "DATABASE", "DATE", "DATETIME", "DECIMAL",
   "DEFAULT", "DELETE", "DELIMITER", "DESC", "DOUBLE", "DROP", "DSV", "ESCAPE", "EXISTS", "FALSE", "FLOAT", "FROM",
   "GROUP", "HAS", "HAVING", "HEADER", "IF", "IMPORT", "INDEX", "INSERT", "INT", "INTO", "KEY", "LIKE", "LIMIT", "NOT",
   "NULL", "OFFSET", "ON", "OR", "ORDER", "PRIMARY", "QUOTE", "REFERENCES", "RESTRICT", "ROWS", "SELECT", "SET", "SKIP",
   "TABLE", "TRUE", "UNIQUE", "UPDATE", "USE", "USING", "VALUES", "VARCHAR", "WHERE"].map String.toList

/-! ### Character classes (include/mutable/util/fn.hpp:588-594) -/

def isOct (c : Char) : Bool := decide ('0' ≤ c ∧ c ≤ '7')
def isDec (c : Char) : Bool := decide ('0' ≤ c ∧ c ≤ '9')
def isHex (c : Char) : Bool := isDec c || decide ('a' ≤ c ∧ c ≤ 'f') || decide ('A' ≤ c ∧ c ≤ 'F')
def isLower (c : Char) : Bool := decide ('a' ≤ c ∧ c ≤ 'z')
def isUpper (c : Char) : Bool := decide ('A' ≤ c ∧ c ≤ 'Z')
def isAlpha (c : Char) : Bool := isLower c || isUpper c
def isAlnum (c : Char) : Bool := isDec c || isAlpha c

/-- The predicates applied to `c_`, which may be `EOF`. -/
def is (p : Char → Bool) (c : Option Char) : Bool := c.elim false p

/-- The white space of `next` (Lexer.cpp:26). -/
def isSpace (c : Char) : Bool :=
  c == ' ' || c == '\t' || c == Char.ofNat 11 || c == Char.ofNat 12 || c == '\n' || c == '\r'

/-! ### The state -/

/-- Members `c_`, `pos_`, `buf_` of the lexer (Lexer.hpp:28-30) and the state of the stream `in`: the characters not yet
extracted and the `failbit`. -/
structure Lx where
  c : Option Char
  rest : List Char
  failed : Bool
  pos : Pos
  buf : List Char

/-- The constructor (Lexer.hpp:33-44): `c_` is a newline before the input. -/
def Lx.init (input : List Char) : Lx := ⟨some '\n', input, false, ⟨0, 0⟩, []⟩

/-- The change of `pos_` in `step` (Lexer.hpp:55-64). -/
def bump (p : Pos) (c : Option Char) : Pos := if c = some '\n' then ⟨p.line + 1, 1⟩ else ⟨p.line, p.col + 1⟩

/-- `step` (Lexer.hpp:54-66). `in.get()` at the end of the input sets `eofbit` and `failbit`. -/
def Lx.step (s : Lx) : Lx :=
  if s.failed then { s with c := none, pos := bump s.pos s.c }
  else match s.rest with
    | [] => { s with c := none, failed := true, pos := bump s.pos s.c }
    | x :: r => { s with c := some x, rest := r, pos := bump s.pos s.c }

/-- `UNDO(CHR)` (Lexer.cpp:6). `putback` clears `eofbit` but does nothing if `failbit` is set. -/
def Lx.undo (s : Lx) (chr : Char) : Lx :=
  { s with c := some chr, rest := if s.failed then s.rest else s.c.getD (Char.ofNat 255) :: s.rest,
           pos := ⟨s.pos.line, s.pos.col - 1⟩ }

/-- `push` (Lexer.hpp:68-71); pushing `EOF` (-1) as a `char`. -/
def Lx.push (s : Lx) : Lx := { s with buf := s.buf ++ [s.c.getD (Char.ofNat 255)] }.step

/-- `accept` (Lexer.hpp:73-79). -/
def Lx.accept (s : Lx) (c : Char) : Bool × Lx := if s.c = some c then (true, s.push) else (false, s)

/-- `internalize` (Lexer.hpp:81-84): the pool reads the buffer as a C string. -/
def Lx.internalize (s : Lx) : List Char := s.buf.takeWhile (· ≠ Char.ofNat 0)

/-- `while (p(c_)) push();`, with a bound on the number of iterations (see `pushWhile_spec`). -/
def pushWhile (p : Char → Bool) : Nat → Lx → Lx
  | 0, s => s
  | f + 1, s => if is p s.c then pushWhile p f s.push else s

/-- Number of iterations sufficient for every loop that consumes a character per iteration. -/
def Lx.fuel (s : Lx) : Nat := s.rest.length + 2

/-! ### Tokens -/

/-- `read_keyword_or_identifier` (Lexer.cpp:116-124). -/
def readIdent (start : Pos) (s : Lx) : Token × Lx :=
  let s := pushWhile (fun c => c == '_' || isAlnum c) s.fuel s
  let str := s.internalize
  (⟨start, str, if str ∈ keywords then .kw str else .identifier⟩, s)

/-- `enum { Oct, Dec, Hex }` (Lexer.cpp:130). -/
inductive Base where | oct | dec | hex
deriving DecidableEq, Repr

/-- The loop over the digits before the dot (Lexer.cpp:139-147): `has` and `empty` are updated. -/
def numLoop (b : Base) : Nat → Base → Bool → Lx → Base × Bool × Lx
  | 0, has, empty, s => (has, empty, s)
  | f + 1, has, empty, s =>
    if b = .oct ∧ is isOct s.c then numLoop b f has false s.push
    else if b = .oct ∧ is isDec s.c then numLoop b f .dec false s.push
    else if b = .dec ∧ is isDec s.c then numLoop b f has false s.push
    else if b = .hex ∧ is isHex s.c then numLoop b f has false s.push
    else (has, empty, s)

/-- `if (x == Oct) x = Dec`. -/
def noOct (b : Base) : Base := if b = .oct then .dec else b

/-- State of `read_number` between its parts: `is`, `has`, `is_float`, `empty`. -/
structure Num where
  is : Base
  has : Base
  isFloat : Bool
  empty : Bool
  s : Lx

/-- The prefix (Lexer.cpp:133-136). -/
def numPrefix (s : Lx) : Num :=
  let n : Num := if s.c = some '0' then ⟨.oct, .oct, false, false, s.push⟩ else ⟨.dec, .dec, false, true, s⟩
  if n.s.c = some 'x' ∨ n.s.c = some 'X' then ⟨.hex, .hex, false, true, n.s.push⟩ else n

/-- The digits before the dot (Lexer.cpp:139-147). -/
def numDigits (n : Num) : Num :=
  let r := numLoop n.is n.s.fuel n.has n.empty n.s
  { n with has := r.1, empty := r.2.1, s := r.2.2 }

/-- The dot and the digits behind it (Lexer.cpp:150-159). -/
def numDot (n : Num) : Num :=
  if n.s.c = some '.' then
    let s := n.s.push
    if noOct n.is = .dec then
      ⟨noOct n.is, noOct n.has, true, if is isDec s.c then false else n.empty, pushWhile isDec s.fuel s⟩
    else
      ⟨noOct n.is, noOct n.has, true, if is isHex s.c then false else n.empty, pushWhile isHex s.fuel s⟩
  else n

/-- The exponent (Lexer.cpp:162-172). -/
def numExp (n : Num) : Num :=
  if (n.is = .oct ∧ (n.s.c = some 'e' ∨ n.s.c = some 'E')) ∨ (n.is = .dec ∧ (n.s.c = some 'e' ∨ n.s.c = some 'E')) ∨
      (n.is = .hex ∧ (n.s.c = some 'p' ∨ n.s.c = some 'P')) then
    let s := n.s.push
    let s := if s.c = some '-' ∨ s.c = some '+' then s.push else s
    ⟨noOct n.is, noOct n.has, true, !is isDec s.c, pushWhile isDec s.fuel s⟩
  else n

/-- The type of a number without errors (Lexer.cpp:179-184). -/
def numType (n : Num) : TT :=
  match n.is with
  | .oct => .octInt
  | .dec => if n.isFloat then .decFloat else .decInt
  | .hex => if n.isFloat then .hexFloat else .hexInt

/-- `read_number` (Lexer.cpp:126-186). -/
def readNumber (start : Pos) (s : Lx) : Token × Lx :=
  let n := numExp (numDot (numDigits (numPrefix s)))
  (⟨start, n.s.internalize, if n.empty = true ∨ n.is ≠ n.has then .error else numType n⟩, n.s)

/-- The loop of `read_string_literal` (Lexer.cpp:192-209). -/
def strLoop : Nat → Bool → Lx → Bool × Lx
  | 0, inv, s => (inv, s)
  | f + 1, inv, s =>
    if s.c ≠ none ∧ s.c ≠ some '"' then
      if s.c = some '\\' then
        let s := s.push
        strLoop f (if s.c = some '"' ∨ s.c = some '\\' ∨ s.c = some 'n' ∨ s.c = some 't' then inv else true) s.push
      else strLoop f inv s.push
    else (inv, s)

/-- `read_string_literal` (Lexer.cpp:188-227). -/
def readString (start : Pos) (s : Lx) : Token × Lx :=
  let s := s.push
  let r := strLoop s.fuel false s
  if r.2.c ≠ some '"' then (⟨start, r.2.internalize, .error⟩, r.2)
  else
    let s := r.2.push
    (⟨start, s.internalize, if r.1 then .error else .stringLiteral⟩, s)

/-- `DIGITS(num)` (Lexer.cpp:235). -/
def digits : Nat → Bool × Lx → Bool × Lx
  | 0, r => r
  | k + 1, r => digits k (if is isDec r.2.c then (r.1, r.2.push) else (true, r.2))

/-- `invalid &= accept(c)` (Lexer.cpp:238, 240, 246, 248). -/
def andAccept (c : Char) (r : Bool × Lx) : Bool × Lx :=
  let a := r.2.accept c
  (r.1 && a.1, a.2)

/-- `read_date_or_datetime` (Lexer.cpp:229-268). -/
def readDate (start : Pos) (s : Lx) : Token × Lx :=
  let s := s.push
  let r := (false, (s.accept '-').2)
  let r := digits 2 (andAccept '-' (digits 2 (andAccept '-' (digits 4 r))))
  let a := r.2.accept ' '
  let r := if a.1 then digits 2 (andAccept ':' (digits 2 (andAccept ':' (digits 2 (r.1, a.2))))) else r
  if r.2.c ≠ some '\'' then (⟨start, r.2.internalize, .error⟩, r.2)
  else
    let s := r.2.push
    (⟨start, s.internalize, if r.1 then .error else if a.1 then .dateTime else .date⟩, s)

/-- `read_instruction` (Lexer.cpp:270-276). -/
def readInstruction (start : Pos) (s : Lx) : Token × Lx :=
  let s := s.push
  let s := pushWhile (· ≠ ';') s.fuel s
  (⟨start, s.internalize, .instruction⟩, s)

/-! ### `next` -/

/-- `do step(); while (c_ != EOF and c_ != '\n')` (Lexer.cpp:32). -/
def comment : Nat → Lx → Lx
  | 0, s => s
  | f + 1, s =>
    let s := s.step
    if s.c ≠ none ∧ s.c ≠ some '\n' then comment f s else s

/-- The loop that skips white space and comments (Lexer.cpp:23-43). -/
def skip : Nat → Lx → Lx
  | 0, s => s
  | f + 1, s =>
    match s.c with
    | none => s
    | some x =>
      if isSpace x then skip f s.step
      else if x = '-' then
        let s1 := s.step
        if s1.c = some '-' then skip f (comment s1.fuel s1) else s1.undo '-'
      else s

/-- The punctuators that consist of one character and have no longer alternative (Lexer.cpp:70-86). -/
def single : Char → Option TT
  | '(' => some .lpar | ')' => some .rpar | '~' => some .tilde | '+' => some .plus | '-' => some .minus
  | '*' => some .asterisk | '/' => some .slash | '%' => some .percent | '=' => some .equal | ',' => some .comma
  | ';' => some .semicol | _ => none

/-- The illegal character (Lexer.cpp:103-106). -/
def illegal (start : Pos) (s : Lx) : Token × Lx :=
  let s := s.push
  (⟨start, s.internalize, .error⟩, s)

/-- The dispatch on the first character of a token (Lexer.cpp:49-106); `start` is `start_`. -/
def dispatch (start : Pos) (s : Lx) (x : Char) : Token × Lx :=
  if isDec x then readNumber start s
  else if x = '"' then readString start s
  else if x = 'd' then
    let s1 := s.step
    if s1.c = some '\'' then readDate start { s1 with buf := s1.buf ++ ['d'] }
    else readIdent start (s1.undo 'd')
  else if x = '!' then
    let s1 := s.step
    if s1.c = some '=' then (⟨start, ['!', '='], .bangEqual⟩, s1.step) else illegal start (s1.undo '!')
  else if x = '<' then
    let s1 := s.step
    if s1.c = some '=' then (⟨start, ['<', '='], .lessEqual⟩, s1.step) else (⟨start, ['<'], .less⟩, s1)
  else if x = '>' then
    let s1 := s.step
    if s1.c = some '=' then (⟨start, ['>', '='], .greaterEqual⟩, s1.step) else (⟨start, ['>'], .greater⟩, s1)
  else if x = '.' then
    let s1 := s.step
    if s1.c = some '.' then (⟨start, ['.', '.'], .dotdot⟩, s1.step)
    else if is isDec s1.c then readNumber start (s1.undo '.')
    else (⟨start, ['.'], .dot⟩, s1)
  else if x = '\\' then readInstruction start s
  else match single x with
    | some tt => (⟨start, [x], tt⟩, s.step)
    | none => if x = '_' ∨ isAlpha x then readIdent start s else illegal start s

/-- `next` (Lexer.cpp:20-107). -/
def next (s : Lx) : Token × Lx :=
  let s := skip s.fuel s
  match s.c with
  | none => (⟨s.pos, ['E', 'O', 'F'], .eof⟩, s)
  | some x => dispatch s.pos { s with buf := [] } x

/-- Calling `next` until it returns `TK_EOF`, at most `n` times. -/
def tokens : Nat → Lx → List Token
  | 0, _ => []
  | n + 1, s =>
    let r := next s
    if r.1.type = .eof then [r.1] else r.1 :: tokens n r.2

/-- All tokens of an input. -/
def lex (input : List Char) : List Token := tokens (input.length + 1) (Lx.init input)

end Mutable.Lex
