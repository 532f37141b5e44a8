import Verif.Parser.Printer
/-!
# Model of the translation of query graphs to SQL: `src/IR/QueryGraph2SQL.cpp`

Expressions are those of the parser (`Verif.Parser.AST`); a designator has a table name only if it was written in the query.  A query graph
is what the translation reads of it.  `none`: a failed assertion.  The counter of the unique aliases is static in the code: the translation
takes its value and returns the next one.
-/
namespace Mutable.G2S
open Mutable.Parse (Expr Str S printExpr printNat)

/-- A predicate of a clause: `negative()`, and the expression; `src/IR/QueryGraph2SQL.cpp:203-208`. -/
abbrev Pred := Bool × Expr
/-- `cnf::Clause`, a disjunction: `src/IR/QueryGraph2SQL.cpp:210-217`. -/
abbrev Clause := List Pred
/-- `cnf::CNF`, a conjunction: `src/IR/QueryGraph2SQL.cpp:219-234`. -/
abbrev CNF := List Clause

mutual

/-- `QueryGraph`: `src/IR/QueryGraph2SQL.cpp:9-93`. -/
inductive Graph where
  | mk (projections : List (Expr × Option Str)) (sources : List Source) (joins : List CNF) (groupBy : List (Expr × Option Str))
      (orderBy : List (Expr × Bool)) (limit offset : Nat)

/-- `DataSource`: a base table or a query, an alias and a filter; `src/IR/QueryGraph2SQL.cpp:31-46`. -/
inductive Source where
  | table (name : Str) (alias_ : Option Str) (filter : CNF)
  | query (graph : Graph) (alias_ : Option Str) (filter : CNF)

end

/-- `replace_all` for patterns of one character: `include/mutable/util/fn.hpp:35-43`. -/
def replaceAll (a b : Char) (t : Str) : Str := t.map fun c => if c = a then b else c

/-- The special characters replaced by `_`: `src/IR/QueryGraph2SQL.cpp:105-109`, `:172-176`. -/
def mangle (t : Str) : Str :=
  replaceAll ')' '_' (replaceAll '(' '_' (replaceAll ' ' '_' (replaceAll ',' '_' (replaceAll '.' '_' t))))

mutual

/-- Expressions; `g`: `after_grouping_`.  `src/IR/QueryGraph2SQL.cpp:147-196`, and `:198-201` for nested queries, whose unique name
is printed without its number here. -/
def expr (g : Bool) : Expr → Str
  | .error => []
  | .designator none a => a
  | .designator (some t) a => t ++ S "." ++ a
  | .const tok => tok.text
  | .fn f as => if g then expr g f ++ S "(" ++ args g as ++ S ")" else mangle (printExpr false (.fn f as))
  | .unary op e => S "(" ++ op.text ++ (if op.type = .kw (S "NOT") then S " " else []) ++ expr g e ++ S ")"
  | .binary op l r => S "(" ++ expr g l ++ S " " ++ op.text ++ S " " ++ expr g r ++ S ")"
  | .query _ => S "$q_._res"

/-- The arguments: `src/IR/QueryGraph2SQL.cpp:164-168`. -/
def args (g : Bool) : List Expr → Str
  | [] => []
  | e :: es => expr g e ++ moreArgs g es

/-- All but the first argument: `src/IR/QueryGraph2SQL.cpp:165-166`. -/
def moreArgs (g : Bool) : List Expr → Str
  | [] => []
  | e :: es => S ", " ++ expr g e ++ moreArgs g es

end

/-- A predicate: `src/IR/QueryGraph2SQL.cpp:203-208`. -/
def pred (p : Pred) : Str := (if p.1 then S "NOT " else []) ++ expr false p.2

/-- All but the first predicate of a clause: `src/IR/QueryGraph2SQL.cpp:212-216`. -/
def morePreds : List Pred → Str
  | [] => []
  | p :: ps => S " OR " ++ pred p ++ morePreds ps

/-- A clause: `src/IR/QueryGraph2SQL.cpp:210-217`. -/
def clause : Clause → Str
  | [] => []
  | p :: ps => pred p ++ morePreds ps

/-- All but the first clause of a formula with several clauses: `src/IR/QueryGraph2SQL.cpp:226-232`. -/
def moreClauses : List Clause → Str
  | [] => []
  | c :: cs => S " AND " ++ S "(" ++ clause c ++ S ")" ++ moreClauses cs

/-- A formula: `src/IR/QueryGraph2SQL.cpp:219-234`. -/
def cnf : CNF → Str
  | [] => S "TRUE"
  | [c] => clause c
  | c :: cs => S "(" ++ clause c ++ S ")" ++ moreClauses cs

/-- `insert_projection`: `src/IR/QueryGraph2SQL.cpp:95-115`. -/
def insertProjection (e : Expr) : Str :=
  let alias_ := mangle (printExpr false e)
  if expr true e = alias_ then expr true e else expr true e ++ S " AS " ++ alias_

/-- `translate_projection`: `src/IR/QueryGraph2SQL.cpp:117-131`. -/
def projection : Expr × Option Str → Str
  | (e, some a) => expr true e ++ S " AS " ++ replaceAll '$' '_' a
  | (e, none) => insertProjection e

/-- All but the first projection: `src/IR/QueryGraph2SQL.cpp:18-20`. -/
def moreProjections : List (Expr × Option Str) → Str
  | [] => []
  | p :: ps => S ", " ++ projection p ++ moreProjections ps

/-- SELECT: `src/IR/QueryGraph2SQL.cpp:13-22`. -/
def selectText : List (Expr × Option Str) → Str
  | [] => S "SELECT " ++ S "*"
  | p :: ps => S "SELECT " ++ (projection p ++ moreProjections ps)

/-- A key of GROUP BY: `src/IR/QueryGraph2SQL.cpp:68-70`. -/
def groupKey (p : Expr × Option Str) : Str := expr false p.1 ++ (match p.2 with | none => [] | some a => S " AS " ++ a)

/-- All but the first key: `src/IR/QueryGraph2SQL.cpp:66-70`. -/
def moreKeys : List (Expr × Option Str) → Str
  | [] => []
  | p :: ps => S ", " ++ groupKey p ++ moreKeys ps

/-- GROUP BY: `src/IR/QueryGraph2SQL.cpp:63-72`. -/
def groupText : List (Expr × Option Str) → Str
  | [] => []
  | p :: ps => S " GROUP BY " ++ (groupKey p ++ moreKeys ps)

/-- A key of ORDER BY: `src/IR/QueryGraph2SQL.cpp:80-84`. -/
def orderKey (p : Expr × Bool) : Str := expr true p.1 ++ (if p.2 then S " ASC" else S " DESC")

/-- All but the first key: `src/IR/QueryGraph2SQL.cpp:78-84`. -/
def moreOrders : List (Expr × Bool) → Str
  | [] => []
  | p :: ps => S ", " ++ orderKey p ++ moreOrders ps

/-- ORDER BY: `src/IR/QueryGraph2SQL.cpp:75-86`. -/
def orderText : List (Expr × Bool) → Str
  | [] => []
  | p :: ps => S " ORDER BY " ++ (orderKey p ++ moreOrders ps)

/-- LIMIT: `src/IR/QueryGraph2SQL.cpp:88-92`. -/
def limitText (limit offset : Nat) : Str :=
  if limit ≠ 0 ∨ offset ≠ 0 then S " LIMIT " ++ printNat limit ++ (if offset ≠ 0 then S " OFFSET " ++ printNat offset else []) else []

/-- `DataSource::filter`: `src/IR/QueryGraph2SQL.cpp:55`. -/
def Source.filter : Source → CNF
  | .table _ _ f => f
  | .query _ _ f => f

/-- The condition of WHERE; the conjunction of formulas appends their clauses (`src/IR/CNF.cpp:53-60`): `src/IR/QueryGraph2SQL.cpp:53-57`. -/
def condition (sources : List Source) (joins : List CNF) : CNF := (sources.map Source.filter).flatten ++ joins.flatten

/-- WHERE: `src/IR/QueryGraph2SQL.cpp:58-61`. -/
def whereText (c : CNF) : Str := if c = [] then [] else S " WHERE " ++ cnf c

/-- `make_unique_alias`: `src/IR/QueryGraph2SQL.cpp:133-140`. -/
def uniqueAlias (id : Nat) : Str := S "alias_" ++ printNat id

mutual

/-- `translate`: `src/IR/QueryGraph2SQL.cpp:9-93`. -/
def translate (id : Nat) : Graph → Option (Str × Nat)
  | .mk ps ss js gs os l o =>
    match fromText id ss with
    | none => none
    | some (from_, id') => some (selectText ps ++ (from_ ++ (whereText (condition ss js) ++ (groupText gs ++ (orderText os ++ limitText l o)))), id')

/-- FROM: `src/IR/QueryGraph2SQL.cpp:25-51`. -/
def fromText (id : Nat) : List Source → Option (Str × Nat)
  | [] => some ([], id)
  | s :: ss =>
    match source id s with
    | none => none
    | some (t, id1) =>
      match moreSources id1 ss with
      | none => none
      | some (t', id2) => some (S " FROM " ++ (t ++ t'), id2)

/-- All but the first source: `src/IR/QueryGraph2SQL.cpp:27-29`. -/
def moreSources (id : Nat) : List Source → Option (Str × Nat)
  | [] => some ([], id)
  | s :: ss =>
    match source id s with
    | none => none
    | some (t, id1) =>
      match moreSources id1 ss with
      | none => none
      | some (t', id2) => some (S ", " ++ (t ++ t'), id2)

/-- A source: `src/IR/QueryGraph2SQL.cpp:30-49`.  A table without an alias has a name that differs from its (missing) alias. -/
def source (id : Nat) : Source → Option (Str × Nat)
  | .table name alias_ _ =>
    if some name ≠ alias_ then
      match alias_ with
      | none => none
      | some a => some (name ++ (S " AS " ++ a), id)
    else some (name, id)
  | .query g alias_ _ =>
    match translate id g with
    | none => none
    | some (t, id') =>
      match alias_ with
      | some a => some (S "(" ++ (t ++ (S ") AS " ++ a)), id')
      | none => some (S "(" ++ (t ++ (S ") AS " ++ uniqueAlias id')), id' + 1)

end

end Mutable.G2S
