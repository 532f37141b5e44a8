import Verif.Parser.AST
/-!
# Model of the parser (src/parse/Parser.{hpp,cpp}, src/tables/FollowSet.tbl)

The parser works on the tokens of the lexer (`Verif.Lexer`).  Error messages are only counted.  The functions are partial:
`none` means that the function does not terminate (`C37_terminates` proves that this does not happen).  Where a function
returns an `ErrorStmt` or `ErrorClause` after `recover`, the rest of the function is the continuation `k`.
-/
namespace Mutable.Parse
open Mutable.Lex (TT)

/-! ### Follow sets -/
namespace Follow

/-- src/tables/FollowSet.tbl:11 -/
def constraint : List TT := [K "UNIQUE", K "PRIMARY", K "CHECK", K "REFERENCES", .comma, K "NOT", .rpar]

/-- src/tables/FollowSet.tbl:15 -/
def dataType : List TT := [K "UNIQUE", K "PRIMARY", K "CHECK", K "REFERENCES", .comma, K "NOT", .rpar]

/-- src/tables/FollowSet.tbl:17 -/
def designator : List TT := [.plus, K "LIMIT", .minus, .slash, .percent, K "DESC", .lpar, .lessEqual, .greaterEqual,
  .greater, K "AND", K "ORDER", .comma, K "WHERE", .identifier, K "GROUP", .equal, K "OR", K "HAVING", K "AS", .rpar,
  .less, K "ASC", .asterisk, .semicol, .bangEqual, K "FROM"]

/-- src/tables/FollowSet.tbl:21 -/
def expression : List TT := [K "LIMIT", K "HAVING", K "AS", K "DESC", .rpar, K "ASC", .identifier, K "WHERE",
  K "ORDER", .semicol, .comma, K "GROUP", K "FROM"]

/-- src/tables/FollowSet.tbl:22 -/
def fromClause : List TT := [K "LIMIT", K "HAVING", K "WHERE", K "ORDER", K "GROUP", .rpar]

/-- src/tables/FollowSet.tbl:23 -/
def groupByClause : List TT := [K "ORDER", K "LIMIT", K "HAVING", .rpar]

/-- src/tables/FollowSet.tbl:24 -/
def havingClause : List TT := [K "ORDER", K "LIMIT", .rpar]

/-- src/tables/FollowSet.tbl:27 -/
def limitClause : List TT := [.semicol, .rpar]

/-- src/tables/FollowSet.tbl:32 -/
def orderByClause : List TT := [K "LIMIT", .rpar]

/-- src/tables/FollowSet.tbl:33 -/
def postfixExpr : List TT := [.plus, K "LIMIT", .minus, .slash, .percent, K "DESC", .lpar, .lessEqual, .greaterEqual,
  .greater, K "AND", K "ORDER", .comma, K "WHERE", .identifier, K "GROUP", .equal, K "OR", K "HAVING", K "AS", .rpar,
  .less, K "ASC", .asterisk, .semicol, .bangEqual, K "FROM"]

/-- src/tables/FollowSet.tbl:34 -/
def primary : List TT := [.plus, K "LIMIT", .minus, .slash, .percent, K "DESC", .lpar, .lessEqual, .greaterEqual,
  .greater, K "AND", K "ORDER", .comma, K "WHERE", .identifier, K "GROUP", .equal, K "OR", K "HAVING", K "AS", .rpar,
  .less, K "ASC", .asterisk, .semicol, .bangEqual, K "FROM"]

/-- src/tables/FollowSet.tbl:35 -/
def selectClause : List TT := [K "LIMIT", K "HAVING", .rpar, K "WHERE", K "ORDER", K "GROUP", K "FROM"]

/-- src/tables/FollowSet.tbl:37 -/
def statement : List TT := [.semicol]

/-- src/tables/FollowSet.tbl:39 -/
def tuple : List TT := [.semicol, .comma]

/-- src/tables/FollowSet.tbl:44 -/
def whereClause : List TT := [K "LIMIT", K "HAVING", K "ORDER", .semicol, K "GROUP", .rpar]

end Follow

/-! ### Tokens (Parser.hpp:36-76) -/

/-- The parser: the tokens that have not been consumed (at the end there are infinitely many `TK_EOF`) and the number of
error messages. -/
structure P where
  toks : List Tok
  errs : Nat := 0
deriving DecidableEq, Repr

def eofTok : Tok := ⟨['E', 'O', 'F'], .eof⟩

/-- `token()` (Parser.hpp:37). -/
def P.tok (s : P) : Tok := s.toks.headD eofTok

/-- `token().type` -/
def P.ty (s : P) : TT := s.tok.type

/-- `token<1>().type` -/
def P.ty1 (s : P) : TT := (s.toks.tail.headD eofTok).type

/-- `consume` (Parser.hpp:42-48). -/
def P.consume (s : P) : P := { s with toks := s.toks.tail }

/-- `diag.e(...)` -/
def P.err (s : P) : P := { s with errs := s.errs + 1 }

/-- `accept` (Parser.hpp:50-56): an error token is accepted in place of any token. -/
def P.accept (s : P) (tt : TT) : Bool × P := if s.ty = tt ∨ s.ty = .error then (true, s.consume) else (false, s)

/-- `expect` (Parser.hpp:58-62). -/
def P.expect (s : P) (tt : TT) : Bool × P := if s.ty = tt ∨ s.ty = .error then (true, s.consume) else (false, s.err)

/-- `recover` (Parser.hpp:65). -/
def P.recover (s : P) (fs : List TT) : P := { s with toks := s.toks.dropWhile fun t => t.type ≠ .eof ∧ t.type ∉ fs }

/-- `if (not expect(tt)) return recover<T>(start, fs);` -/
def expectOr {α : Type} (tt : TT) (fs : List TT) (e : α) (s : P) (k : P → Option (α × P)) : Option (α × P) :=
  if (s.expect tt).1 then k (s.expect tt).2 else some (e, (s.expect tt).2.recover fs)

/-- `if (not expect(tt)) { consume(); return recover<T>(start, fs); }` -/
def expectFirst {α : Type} (tt : TT) (fs : List TT) (e : α) (s : P) (k : P → Option (α × P)) : Option (α × P) :=
  if (s.expect tt).1 then k (s.expect tt).2 else some (e, (s.expect tt).2.consume.recover fs)

open Lean.Order in
@[partial_fixpoint_monotone]
theorem monotone_expectOr {γ : Type _} [PartialOrder γ] {α : Type} (tt : TT) (fs : List TT) (e : α) (s : P)
    (k : γ → P → Option (α × P)) (h : monotone k) : monotone fun x => expectOr tt fs e s (k x) := by
  intro x y hxy
  unfold expectOr
  split
  · exact h x y hxy _
  · exact PartialOrder.rel_refl

open Lean.Order in
@[partial_fixpoint_monotone]
theorem monotone_expectFirst {γ : Type _} [PartialOrder γ] {α : Type} (tt : TT) (fs : List TT) (e : α) (s : P)
    (k : γ → P → Option (α × P)) (h : monotone k) : monotone fun x => expectFirst tt fs e s (k x) := by
  intro x y hxy
  unfold expectFirst
  split
  · exact h x y hxy _
  · exact PartialOrder.rel_refl

/-! ### Expressions (Parser.cpp:966-1073) -/

/-- `get_precedence` (Parser.cpp:19-51); `none` for −1. -/
def prec (tt : TT) : Option Nat :=
  match tt with
  | .tilde => some 8
  | .asterisk | .slash | .percent => some 7
  | .plus | .minus => some 6
  | .dotdot => some 5
  | .less | .greater | .lessEqual | .greaterEqual | .equal | .bangEqual => some 4
  | .kw w => if w = "LIKE".toList then some 4 else if w = "NOT".toList then some 3 else if w = "AND".toList then some 2
      else if w = "OR".toList then some 1 else none
  | _ => none

/-- The tokens that are constants (Parser.cpp:978-988). -/
def isConst (tt : TT) : Bool :=
  match tt with
  | .stringLiteral | .date | .dateTime | .octInt | .decInt | .hexInt | .decFloat | .hexFloat => true
  | .kw w => w = "NULL".toList ∨ w = "TRUE".toList ∨ w = "FALSE".toList
  | _ => false

/-- `parse_designator` (Parser.cpp:1056-1073). -/
def parseDesignator (s : P) : Expr × P :=
  let lhs := s.tok.text
  let r := s.expect .identifier
  if r.1 then
    if r.2.ty = .dot then
      let s := r.2.consume
      let rhs := s.tok.text
      let r := s.expect .identifier
      if r.1 then (.designator (some lhs) rhs, r.2) else (.error, r.2.recover Follow.designator)
    else (.designator none lhs, r.2)
  else (.error, r.2.recover Follow.designator)

/-- An alias: `[ [ 'AS' ] identifier ]` (Parser.cpp:769-776, 784-791, 825-832, 873-880); `none` after an error. -/
def parseAlias (s : P) : Option (Option Str) × P :=
  let r := s.accept (K "AS")
  if r.1 then
    let t := r.2.tok.text
    let r := r.2.expect .identifier
    if r.1 then (some (some t), r.2) else (none, r.2)
  else if r.2.ty = .identifier then (some (some r.2.tok.text), r.2.consume)
  else (some none, r.2)

/-- `parse_LimitClause` (Parser.cpp:930-960). -/
def parseLimit (s : P) : Option (Clause × P) :=
  expectFirst (K "LIMIT") Follow.limitClause .error s fun s =>
    let limit := s.tok
    if limit.type = .decInt ∨ limit.type = .octInt ∨ limit.type = .hexInt then
      let r := s.consume.accept (K "OFFSET")
      if r.1 then
        let offset := r.2.tok
        if offset.type = .decInt ∨ offset.type = .octInt ∨ offset.type = .hexInt then some (.limit limit (some offset), r.2.consume)
        else some (.error, r.2.err.recover Follow.limitClause)
      else some (.limit limit none, r.2)
    else some (.error, s.err.recover Follow.limitClause)

mutual

/-- `parse_Expr` (Parser.cpp:966-1054). -/
def parseExpr (q : Nat) (s : P) : Option (Expr × P) := do
  let (e, ok, s) ← parsePrimary s
  if ok then
    let (e, s) ← parsePostfix e s
    parseLoop q e s
  else some (e, s)
partial_fixpoint

/-- The primary or unary expression (Parser.cpp:973-1024); `false` if the function returns at once. -/
def parsePrimary (s : P) : Option (Expr × Bool × P) :=
  if s.ty = .identifier then
    let r := parseDesignator s
    some (r.1, true, r.2)
  else if isConst s.ty then some (.const s.tok, true, s.consume)
  else if s.ty = .lpar then do
    let (e, s) ← parseParen s.consume
    let r := s.expect .rpar
    some (e, true, if r.1 then r.2 else r.2.recover Follow.primary)
  else if s.ty = .plus ∨ s.ty = .minus ∨ s.ty = .tilde then do
    let (e, s') ← parseExpr 8 s.consume
    some (.unary s.tok e, true, s')
  else if s.ty = K "NOT" then do
    let (e, s') ← parseExpr 3 s.consume
    some (.unary s.tok e, true, s')
  else some (.error, false, s.err.recover Follow.expression)
partial_fixpoint

/-- Behind an opening parenthesis (Parser.cpp:993-996). -/
def parseParen (s : P) : Option (Expr × P) :=
  if s.ty = K "SELECT" then do
    let (q, s) ← parseSelect s
    some (.query q, s)
  else parseExpr 0 s
partial_fixpoint

/-- The loop over function applications (Parser.cpp:1026-1043). -/
def parsePostfix (e : Expr) (s : P) : Option (Expr × P) :=
  if s.ty = .lpar then do
    let (args, s) ← parseArgs s.consume
    let r := s.expect .rpar
    if r.1 then parsePostfix (.fn e args) r.2 else parsePostfix .error (r.2.recover Follow.postfixExpr)
  else some (e, s)
partial_fixpoint

/-- The arguments (Parser.cpp:1030-1036). -/
def parseArgs (s : P) : Option (List Expr × P) :=
  if s.ty = .asterisk then some ([], s.consume)
  else if s.ty ≠ .rpar then parseExprs s
  else some ([], s)
partial_fixpoint

/-- `do args.push_back(parse_Expr()); while (accept(TK_COMMA));` (Parser.cpp:1033-1035). -/
def parseExprs (s : P) : Option (List Expr × P) := do
  let (e, s) ← parseExpr 0 s
  let r := s.accept .comma
  if r.1 then
    let (es, s) ← parseExprs r.2
    some (e :: es, s)
  else some ([e], r.2)
partial_fixpoint

/-- The loop over binary operators (Parser.cpp:1045-1053). -/
def parseLoop (q : Nat) (lhs : Expr) (s : P) : Option (Expr × P) :=
  match prec s.ty with
  | none => some (lhs, s)
  | some p =>
    if q > p then some (lhs, s)
    else do
      let (rhs, s') ← parseExpr (p + 1) s.consume
      parseLoop q (.binary s.tok lhs rhs) s'
partial_fixpoint

/-- `parse_SelectStmt` (Parser.cpp:513-543). -/
def parseSelect (s : P) : Option (Select × P) := do
  let (sel, s) ← parseSelectClause s
  let (fr, s) ← parseOptFrom s
  let (wh, s) ← parseOptWhere s
  let (gr, s) ← parseOptGroupBy s
  let (ha, s) ← parseOptHaving s
  let (or_, s) ← parseOptOrderBy s
  if s.ty = K "LIMIT" then
    let (li, s) ← parseLimit s
    some (.mk sel fr wh gr ha or_ (some li), s)
  else some (.mk sel fr wh gr ha or_ none, s)
partial_fixpoint

/-- `parse_SelectClause` (Parser.cpp:750-796). -/
def parseSelectClause (s : P) : Option (Clause × P) :=
  expectFirst (K "SELECT") Follow.selectClause .error s fun s =>
    if s.ty = .asterisk then do
      let (is, s) ← parseMoreItems s.consume
      match is with
      | some is => some (.select true is, s)
      | none => some (.error, s.recover Follow.selectClause)
    else do
      let (is, s) ← parseItems s
      match is with
      | some is => some (.select false is, s)
      | none => some (.error, s.recover Follow.selectClause)
partial_fixpoint

/-- Expressions with aliases, separated by commas (Parser.cpp:767-793, 870-882); `none` after an error. -/
def parseItems (s : P) : Option (Option (List (Expr × Option Str)) × P) := do
  let (e, s) ← parseExpr 0 s
  let r := parseAlias s
  match r.1 with
  | none => some (none, r.2)
  | some a => do
    let (is, s) ← parseMoreItems r.2
    some (is.map ((e, a) :: ·), s)
partial_fixpoint

/-- `while (accept(TK_COMMA)) …` (Parser.cpp:781-793, 882). -/
def parseMoreItems (s : P) : Option (Option (List (Expr × Option Str)) × P) :=
  let r := s.accept .comma
  if r.1 then parseItems r.2 else some (some [], r.2)
partial_fixpoint

/-- `if (token() == TK_From) from = parse_FromClause();` (Parser.cpp:523-524). -/
def parseOptFrom (s : P) : Option (Option Clause × P) :=
  if s.ty = K "FROM" then do
    let (c, s) ← parseFromClause s
    some (some c, s)
  else some (none, s)
partial_fixpoint

/-- `parse_FromClause` (Parser.cpp:798-838). -/
def parseFromClause (s : P) : Option (Clause × P) :=
  expectFirst (K "FROM") Follow.fromClause .error s fun s => do
    let (l, s) ← parseSources s
    match l with
    | some l => some (.from_ l, s)
    | none => some (.error, s.recover Follow.fromClause)
partial_fixpoint

/-- The loop of `parse_FromClause` (Parser.cpp:810-835); `none` after an error. -/
def parseSources (s : P) : Option (Option (List Source) × P) := do
  let (x, s) ← parseSource s
  match x with
  | none => some (none, s)
  | some x =>
    let r := s.accept .comma
    if r.1 then do
      let (xs, s) ← parseSources r.2
      some (xs.map (x :: ·), s)
    else some (some [x], r.2)
partial_fixpoint

/-- One table or nested query (Parser.cpp:811-834). -/
def parseSource (s : P) : Option (Option Source × P) :=
  let r := s.accept .lpar
  if r.1 then do
    let (q, s) ← parseSelect r.2
    let r := s.expect .rpar
    if r.1 then
      let s := (r.2.accept (K "AS")).2
      let a := s.tok.text
      let r := s.expect .identifier
      if r.1 then some (some (.nested q a), r.2) else some (none, r.2)
    else some (none, r.2)
  else
    let t := r.2.tok.text
    let r := r.2.expect .identifier
    if r.1 then
      let r := parseAlias r.2
      some (r.1.map (.table t), r.2)
    else some (none, r.2)
partial_fixpoint

/-- `parse_WhereClause` (Parser.cpp:840-854), if there is one (Parser.cpp:525-526). -/
def parseOptWhere (s : P) : Option (Option Clause × P) :=
  if s.ty = K "WHERE" then do
    let (c, s) ← expectFirst (K "WHERE") Follow.whereClause Clause.error s fun s => do
      let (e, s) ← parseExpr 0 s
      some (.where_ e, s)
    some (some c, s)
  else some (none, s)
partial_fixpoint

/-- `parse_GroupByClause` (Parser.cpp:856-885), if there is one (Parser.cpp:527-528). -/
def parseOptGroupBy (s : P) : Option (Option Clause × P) :=
  if s.ty = K "GROUP" then do
    let (c, s) ← expectFirst (K "GROUP") Follow.groupByClause Clause.error s fun s =>
      expectOr (K "BY") Follow.groupByClause .error s fun s => do
        let (is, s) ← parseItems s
        match is with
        | some is => some (.groupBy is, s)
        | none => some (.error, s.recover Follow.groupByClause)
    some (some c, s)
  else some (none, s)
partial_fixpoint

/-- `parse_HavingClause` (Parser.cpp:887-901), if there is one (Parser.cpp:529-530). -/
def parseOptHaving (s : P) : Option (Option Clause × P) :=
  if s.ty = K "HAVING" then do
    let (c, s) ← expectFirst (K "HAVING") Follow.havingClause Clause.error s fun s => do
      let (e, s) ← parseExpr 0 s
      some (.having e, s)
    some (some c, s)
  else some (none, s)
partial_fixpoint

/-- `parse_OrderByClause` (Parser.cpp:903-928), if there is one (Parser.cpp:531-532). -/
def parseOptOrderBy (s : P) : Option (Option Clause × P) :=
  if s.ty = K "ORDER" then do
    let (c, s) ← expectFirst (K "ORDER") Follow.orderByClause Clause.error s fun s =>
      expectOr (K "BY") Follow.orderByClause .error s fun s => do
        let (is, s) ← parseOrders s
        some (.orderBy is, s)
    some (some c, s)
  else some (none, s)
partial_fixpoint

/-- The loop of `parse_OrderByClause` (Parser.cpp:917-925). -/
def parseOrders (s : P) : Option (List (Expr × Bool) × P) := do
  let (e, s) ← parseExpr 0 s
  let d := s.accept (K "DESC")
  let s := if d.1 then d.2 else (d.2.accept (K "ASC")).2
  let r := s.accept .comma
  if r.1 then
    let (es, s) ← parseOrders r.2
    some ((e, !d.1) :: es, s)
  else some ([(e, !d.1)], r.2)
partial_fixpoint

end

end Mutable.Parse
