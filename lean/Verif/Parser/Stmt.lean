import Verif.Parser.Model
/-!
# Model of the parser: data types, statements and instructions (src/parse/Parser.cpp:98-744, 1089-1187)
-/
namespace Mutable.Parse
open Mutable.Lex (TT)

/-! ### Data types (Parser.cpp:1089-1187) -/

/-- The value of a decimal digit. -/
def digitVal (c : Char) : Nat := c.toNat - '0'.toNat

/-- `strtoul(text, nullptr, 10)` on a text without leading white space or sign; `none` if `errno` is set (`ERANGE`). -/
def strtoul (t : Str) : Option Nat :=
  let v := (t.takeWhile Lex.isDec).foldl (fun a c => 10 * a + digitVal c) 0
  if v < 2 ^ 64 then some v else none

/-- `'(' decimal-constant ')'` and the conversion to a number (Parser.cpp:1107-1116, 1133-1142); `none` after an error. -/
def parseSize (mk : Nat → Ty) (s : P) : Option Ty × P :=
  let r := s.expect .lpar
  if r.1 then
    let tok := r.2.tok
    let r := r.2.expect .decInt
    if r.1 then
      let r := r.2.expect .rpar
      if r.1 then
        match strtoul tok.text with
        | some n => (some (mk n), r.2)
        | none => (none, r.2.err)
      else (none, r.2)
    else (none, r.2)
  else (none, r.2)

/-- The scale of a decimal (Parser.cpp:1163-1166): the outer `none` stands for an error. -/
def parseScale (s : P) : Option (Option Tok) × P :=
  let r := s.accept .comma
  if r.1 then
    let tok := r.2.tok
    let r := r.2.expect .decInt
    if r.1 then (some (some tok), r.2) else (none, r.2)
  else (some none, r.2)

/-- The conversion of precision and scale (Parser.cpp:1168-1180).  `Get_Decimal` takes 32-bit integers (Type.cpp:89). -/
def mkDecimal (precision : Tok) (scale : Option Tok) (s : P) : Option Ty × P :=
  match strtoul precision.text with
  | none => (none, s.err)
  | some p =>
    match (match scale with | none => some 0 | some t => strtoul t.text) with
    | none => (none, s.err)
    | some c => (some (.decimal (p % 2 ^ 32) (c % 2 ^ 32)), s)

/-- `DECIMAL`, behind the keyword (Parser.cpp:1159-1180). -/
def parseDecimal (s : P) : Option Ty × P :=
  let r := s.expect .lpar
  if r.1 then
    let precision := r.2.tok
    let r := r.2.expect .decInt
    if r.1 then
      let r := parseScale r.2
      match r.1 with
      | none => (none, r.2)
      | some scale =>
        let r := r.2.expect .rpar
        if r.1 then mkDecimal precision scale r.2 else (none, r.2)
    else (none, r.2)
  else (none, r.2)

/-- The `switch` of `parse_data_type` (Parser.cpp:1091-1181); `none` for `goto error_recovery`.  `Get_Integer` takes a
32-bit integer (Type.cpp:94). -/
def parseTypeOpt (s : P) : Option Ty × P :=
  if s.ty = K "BOOL" then (some .bool, s.consume)
  else if s.ty = K "CHAR" then parseSize .char s.consume
  else if s.ty = K "VARCHAR" then parseSize .varchar s.consume
  else if s.ty = K "DATE" then (some .date, s.consume)
  else if s.ty = K "DATETIME" then (some .datetime, s.consume)
  else if s.ty = K "INT" then parseSize (fun n => .int (n % 2 ^ 32)) s.consume
  else if s.ty = K "FLOAT" then (some .float, s.consume)
  else if s.ty = K "DOUBLE" then (some .double, s.consume)
  else if s.ty = K "DECIMAL" then parseDecimal s.consume
  else (none, s.err)

/-- `parse_data_type` (Parser.cpp:1089-1187). -/
def parseType (s : P) : Ty × P :=
  match parseTypeOpt s with
  | (some t, s) => (t, s)
  | (none, s) => (.error, s.recover Follow.dataType)

/-! ### Statements (Parser.cpp:192-744) -/

/-- `return recover<ErrorStmt>(start, follow_set_STATEMENT);` -/
def failStmt (s : P) : Option (Stmt × P) := some (.error, s.recover Follow.statement)

/-- `if (not expect(tt)) return recover<ErrorStmt>(start, follow_set_STATEMENT);` -/
abbrev expectS (tt : TT) (s : P) (k : P → Option (Stmt × P)) : Option (Stmt × P) :=
  expectOr tt Follow.statement .error s k

/-- `if (not expect(tt)) { consume(); return recover<ErrorStmt>(start, follow_set_STATEMENT); }` -/
abbrev expectS1 (tt : TT) (s : P) (k : P → Option (Stmt × P)) : Option (Stmt × P) :=
  expectFirst tt Follow.statement .error s k

/-- `parse_CreateDatabaseStmt` (Parser.cpp:192-210). -/
def parseCreateDatabase (s : P) : Option (Stmt × P) :=
  expectS1 (K "CREATE") s fun s => expectS (K "DATABASE") s fun s =>
    let name := s.tok.text
    expectS .identifier s fun s => some (.createDatabase name, s)

/-- `[ 'IF' 'EXISTS' ]` (Parser.cpp:225-231, 375-381, 493-499). -/
def parseIfExists (s : P) (k : Bool → P → Option (Stmt × P)) : Option (Stmt × P) :=
  let r := s.accept (K "IF")
  if r.1 then expectS (K "EXISTS") r.2 (k true) else k false r.2

/-- `parse_DropDatabaseStmt` (Parser.cpp:212-239). -/
def parseDropDatabase (s : P) : Option (Stmt × P) :=
  expectS1 (K "DROP") s fun s => expectS (K "DATABASE") s fun s => parseIfExists s fun b s =>
    let name := s.tok.text
    expectS .identifier s fun s => some (.dropDatabase b name, s)

/-- `parse_UseDatabaseStmt` (Parser.cpp:241-256). -/
def parseUse (s : P) : Option (Stmt × P) :=
  expectS1 (K "USE") s fun s =>
    let name := s.tok.text
    expectS .identifier s fun s => some (.useDatabase name, s)

/-- One constraint (Parser.cpp:290-344): `none` if there is no (further) constraint, `some none` for
`goto constraint_error_recovery`. -/
def parseConstraint (s : P) : Option (Option (Option Constraint) × P) :=
  if s.ty = K "PRIMARY" then
    let r := s.consume.expect (K "KEY")
    some (some (if r.1 then some .primaryKey else none), r.2)
  else if s.ty = K "NOT" then
    let r := s.consume.expect (K "NULL")
    some (some (if r.1 then some .notNull else none), r.2)
  else if s.ty = K "UNIQUE" then some (some (some .unique), s.consume)
  else if s.ty = K "CHECK" then
    let r := s.consume.expect .lpar
    if r.1 then do
      let (e, s) ← parseExpr 0 r.2
      let r := s.expect .rpar
      some (some (if r.1 then some (.check e) else none), r.2)
    else some (some none, r.2)
  else if s.ty = K "REFERENCES" then
    let s := s.consume
    let table := s.tok.text
    let r := s.expect .identifier
    if r.1 then
      let r := r.2.expect .lpar
      if r.1 then
        let attr := r.2.tok.text
        let r := r.2.expect .identifier
        if r.1 then
          let r := r.2.expect .rpar
          some (some (if r.1 then some (.references table attr) else none), r.2)
        else some (some none, r.2)
      else some (some none, r.2)
    else some (some none, r.2)
  else some (none, s)

/-- The loop over constraints and its error recovery (Parser.cpp:288-349). -/
def parseConstraints (s : P) : Option (List Constraint × P) := do
  let (c, s) ← parseConstraint s
  match c with
  | none => some ([], s)
  | some none => some ([], s.recover Follow.constraint)
  | some (some c) => do
    let (cs, s) ← parseConstraints s
    some (c :: cs, s)
partial_fixpoint

/-- The loop over attribute definitions (Parser.cpp:280-353): `none` after an error. -/
def parseAttrs (s : P) : Option (Option (List (Str × Ty × List Constraint)) × P) :=
  let id := s.tok.text
  let r := s.expect .identifier
  if r.1 then do
    let t := parseType r.2
    let (cs, s) ← parseConstraints t.2
    let r := s.accept .comma
    if r.1 then do
      let (as, s) ← parseAttrs r.2
      some (as.map ((id, t.1, cs) :: ·), s)
    else some (some [(id, t.1, cs)], r.2)
  else some (none, r.2)
partial_fixpoint

/-- `parse_CreateTableStmt` (Parser.cpp:258-360). -/
def parseCreateTable (s : P) : Option (Stmt × P) :=
  expectS1 (K "CREATE") s fun s => expectS (K "TABLE") s fun s =>
    let name := s.tok.text
    expectS .identifier s fun s => expectS .lpar s fun s => do
      let (as, s) ← parseAttrs s
      match as with
      | none => failStmt s
      | some as => expectS .rpar s fun s => some (.createTable name as, s)

/-- `identifier { ',' identifier }` (Parser.cpp:383-390, 501-508): `none` after an error. -/
def parseNames (s : P) : Option (Option (List Str) × P) :=
  let name := s.tok.text
  let r := s.expect .identifier
  if r.1 then
    let r := r.2.accept .comma
    if r.1 then do
      let (ns, s) ← parseNames r.2
      some (ns.map (name :: ·), s)
    else some (some [name], r.2)
  else some (none, r.2)
partial_fixpoint

/-- `parse_DropTableStmt` (Parser.cpp:362-393). -/
def parseDropTable (s : P) : Option (Stmt × P) :=
  expectS1 (K "DROP") s fun s => expectS (K "TABLE") s fun s => parseIfExists s fun b s => do
    let (ns, s) ← parseNames s
    match ns with
    | none => failStmt s
    | some ns => some (.dropTable b ns, s)

/-- `parse_DropIndexStmt` (Parser.cpp:480-511). -/
def parseDropIndex (s : P) : Option (Stmt × P) :=
  expectS1 (K "DROP") s fun s => expectS (K "INDEX") s fun s => parseIfExists s fun b s => do
    let (ns, s) ← parseNames s
    match ns with
    | none => failStmt s
    | some ns => some (.dropIndex b ns, s)

/-- The name of an index (Parser.cpp:410-423). -/
def parseIndexName (s : P) (k : Bool → Option Str → P → Option (Stmt × P)) : Option (Stmt × P) :=
  let r := s.accept (K "IF")
  if r.1 then expectS (K "NOT") r.2 fun s => expectS (K "EXISTS") s fun s =>
    let name := s.tok.text
    expectS .identifier s fun s => k true (some name) s
  else if r.2.ty = .identifier then k false (some r.2.tok.text) r.2.consume
  else k false none r.2

/-- The index method (Parser.cpp:433-441). -/
def parseMethod (s : P) (k : Option Tok → P → Option (Stmt × P)) : Option (Stmt × P) :=
  let r := s.accept (K "USING")
  if r.1 then
    if r.2.ty ≠ .identifier ∧ r.2.ty ≠ K "DEFAULT" then failStmt r.2.err else k (some r.2.tok) r.2.consume
  else k none r.2

/-- The loop over key fields (Parser.cpp:446-466): `none` after an error. -/
def parseFields (s : P) : Option (Option (List Expr) × P) := do
  let (e, s) ← (if s.ty = .identifier then some (some (.designator none s.tok.text), s.consume)
    else if s.ty = .lpar then do
      let (e, s) ← parseExpr 0 s
      some (some e, s)
    else some (none, s.err) : Option (Option Expr × P))
  match e with
  | none => some (none, s)
  | some e =>
    let r := s.accept .comma
    if r.1 then do
      let (es, s) ← parseFields r.2
      some (es.map (e :: ·), s)
    else some (some [e], r.2)
partial_fixpoint

/-- `parse_CreateIndexStmt` (Parser.cpp:395-478). -/
def parseCreateIndex (s : P) : Option (Stmt × P) :=
  expectS (K "CREATE") s fun s =>
    let unique : Bool := s.ty = K "UNIQUE"
    expectS (K "INDEX") (if unique then s.consume else s) fun s => parseIndexName s fun b name s =>
      expectS (K "ON") s fun s =>
        let table := s.tok.text
        expectS .identifier s fun s => parseMethod s fun method s => expectS .lpar s fun s => do
          let (fs, s) ← parseFields s
          match fs with
          | none => failStmt s
          | some fs => expectS .rpar s fun s => some (.createIndex unique b name table method fs, s)

/-- The elements of a tuple (Parser.cpp:571-589). -/
def parseElems (s : P) : Option (List Elem × P) := do
  let (e, s) ← (if s.ty = K "DEFAULT" then some (.default, s.consume)
    else if s.ty = K "NULL" then some (.null, s.consume)
    else do
      let (e, s) ← parseExpr 0 s
      some (.expr e, s) : Option (Elem × P))
  let r := s.accept .comma
  if r.1 then do
    let (es, s) ← parseElems r.2
    some (e :: es, s)
  else some ([e], r.2)
partial_fixpoint

/-- A tuple (Parser.cpp:568-594): `none` after `goto tuple_error_recovery`. -/
def parseTuple (s : P) : Option (Option (List Elem) × P) :=
  let r := s.expect .lpar
  if r.1 then do
    let (es, s) ← parseElems r.2
    let r := s.expect .rpar
    if r.1 then some (some es, r.2) else some (none, r.2.recover Follow.tuple)
  else some (none, r.2.recover Follow.tuple)

/-- The loop over tuples (Parser.cpp:566-595). -/
def parseTuples (s : P) : Option (List (List Elem) × P) := do
  let (t, s) ← parseTuple s
  let r := s.accept .comma
  if r.1 then do
    let (ts, s) ← parseTuples r.2
    some (t.toList ++ ts, s)
  else some (t.toList, r.2)
partial_fixpoint

/-- `parse_InsertStmt` (Parser.cpp:545-598). -/
def parseInsert (s : P) : Option (Stmt × P) :=
  expectS1 (K "INSERT") s fun s => expectS (K "INTO") s fun s =>
    let name := s.tok.text
    expectS .identifier s fun s => expectS (K "VALUES") s fun s => do
      let (ts, s) ← parseTuples s
      some (.insert name ts, s)

/-- The loop over assignments (Parser.cpp:618-629): `none` after an error. -/
def parseSets (s : P) : Option (Option (List (Str × Expr)) × P) :=
  let id := s.tok.text
  let r := s.expect .identifier
  if r.1 then
    let r := r.2.expect .equal
    if r.1 then do
      let (e, s) ← parseExpr 0 r.2
      let r := s.accept .comma
      if r.1 then do
        let (es, s) ← parseSets r.2
        some (es.map ((id, e) :: ·), s)
      else some (some [(id, e)], r.2)
    else some (none, r.2)
  else some (none, r.2)
partial_fixpoint

/-- `parse_UpdateStmt` (Parser.cpp:600-637). -/
def parseUpdate (s : P) : Option (Stmt × P) :=
  expectS1 (K "UPDATE") s fun s =>
    let name := s.tok.text
    expectS .identifier s fun s => expectS (K "SET") s fun s => do
      let (es, s) ← parseSets s
      match es with
      | none => failStmt s
      | some es => do
        let (w, s) ← parseOptWhere s
        some (.update name es w, s)

/-- `parse_DeleteStmt` (Parser.cpp:639-662). -/
def parseDelete (s : P) : Option (Stmt × P) :=
  expectS1 (K "DELETE") s fun s => expectS (K "FROM") s fun s =>
    let name := s.tok.text
    expectS .identifier s fun s => do
      let (w, s) ← parseOptWhere s
      some (.delete name w, s)

/-- `[ 'ROWS' integer-constant ]` (Parser.cpp:691-700). -/
def parseRows (s : P) (k : Option Tok → P → Option (Stmt × P)) : Option (Stmt × P) :=
  let r := s.accept (K "ROWS")
  if r.1 then
    if r.2.ty = .decInt ∨ r.2.ty = .octInt then k (some r.2.tok) r.2.consume else failStmt r.2.err
  else k none r.2

/-- `[ keyword string-literal ]` (Parser.cpp:702-721). -/
def parseOptString (kw : TT) (s : P) (k : Option Tok → P → Option (Stmt × P)) : Option (Stmt × P) :=
  let r := s.accept kw
  if r.1 then
    let tok := r.2.tok
    expectS .stringLiteral r.2 fun s => k (some tok) s
  else k none r.2

/-- `[ 'HAS' 'HEADER' ]`, `[ 'SKIP' 'HEADER' ]` (Parser.cpp:723-735). -/
def parseHeader (kw : TT) (s : P) (k : Bool → P → Option (Stmt × P)) : Option (Stmt × P) :=
  let r := s.accept kw
  if r.1 then expectS (K "HEADER") r.2 fun s => k true s else k false r.2

/-- `parse_ImportStmt` (Parser.cpp:664-744). -/
def parseImport (s : P) : Option (Stmt × P) :=
  expectS1 (K "IMPORT") s fun s => expectS (K "INTO") s fun s =>
    let name := s.tok.text
    expectS .identifier s fun s =>
      if s.ty = K "DSV" then
        let s := s.consume
        let path := s.tok
        expectS .stringLiteral s fun s => parseRows s fun rows s =>
          parseOptString (K "DELIMITER") s fun delimiter s => parseOptString (K "ESCAPE") s fun escape s =>
            parseOptString (K "QUOTE") s fun quote s => parseHeader (K "HAS") s fun hasHeader s =>
              parseHeader (K "SKIP") s fun skipHeader s =>
                some (.importDSV name path rows delimiter escape quote hasHeader skipHeader, s)
      else failStmt s.err

/-- `expect(TK_SEMICOL); return stmt;` (Parser.cpp:184-185). -/
def finish (r : Option (Stmt × P)) : Option (Stmt × P) := do
  let (st, s) ← r
  some (st, (s.expect .semicol).2)

/-- The error cases of `parse_Stmt` (Parser.cpp:138-142, 148-153, 164-169). -/
def noStmt (s : P) : Option (Stmt × P) := failStmt s.err.consume

/-- `parse_Stmt` (Parser.cpp:133-186). -/
def parseStmt (s : P) : Option (Stmt × P) :=
  if s.ty = .semicol then some (.empty, s.consume)
  else if s.ty = K "CREATE" then
    if s.ty1 = K "DATABASE" then finish (parseCreateDatabase s)
    else if s.ty1 = K "TABLE" then finish (parseCreateTable s)
    else if s.ty1 = K "UNIQUE" ∨ s.ty1 = K "INDEX" then finish (parseCreateIndex s)
    else noStmt s
  else if s.ty = K "DROP" then
    if s.ty1 = K "DATABASE" then finish (parseDropDatabase s)
    else if s.ty1 = K "TABLE" then finish (parseDropTable s)
    else if s.ty1 = K "INDEX" then finish (parseDropIndex s)
    else noStmt s
  else if s.ty = K "USE" then finish (parseUse s)
  else if s.ty = K "SELECT" then finish do
    let (q, s) ← parseSelect s
    some (.select q, s)
  else if s.ty = K "INSERT" then finish (parseInsert s)
  else if s.ty = K "UPDATE" then finish (parseUpdate s)
  else if s.ty = K "DELETE" then finish (parseDelete s)
  else if s.ty = K "IMPORT" then finish (parseImport s)
  else noStmt s

/-! ### Instructions (Parser.cpp:106-131) -/

/-- `" \n"` (Parser.cpp:112). -/
def isDelim (c : Char) : Bool := c = ' ' ∨ c = '\n'

/-- The loop that separates the arguments (Parser.cpp:119-127), at most as many as there are characters. -/
def splitArgs : Nat → Str → List Str
  | 0, _ => []
  | f + 1, w =>
    match w.dropWhile isDelim with
    | [] => []
    | c :: r => (c :: r).takeWhile (fun c => !isDelim c) :: splitArgs f ((c :: r).dropWhile fun c => !isDelim c)

/-- `parse_Instruction` (Parser.cpp:106-131). -/
def parseInstruction (s : P) : Command × P :=
  let w := s.tok.text.tail
  (.instruction s.tok.text (w.takeWhile fun c => !isDelim c) (splitArgs w.length (w.dropWhile fun c => !isDelim c)),
    (s.consume.expect .semicol).2)

/-- `parse` (Parser.cpp:98-104). -/
def parse (s : P) : Option (Command × P) :=
  if s.ty = .instruction then some (parseInstruction s)
  else do
    let (st, s) ← parseStmt s
    some (.stmt st, s)

end Mutable.Parse
