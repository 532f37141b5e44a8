import Verif.Lexer.Model
/-!
# Abstract syntax trees (include/mutable/parse/AST.hpp)

Positions, the tokens that only serve error messages (e.g. the keyword of a clause) and everything computed by the semantic
analysis are left out.  An artificial token (Token.hpp:32) is `none`.
-/
namespace Mutable.Parse
open Mutable.Lex (TT)

abbrev Str := List Char

/-- The type of the keyword with the given spelling. -/
def K (s : String) : TT := .kw s.toList

/-- `Token` without its position (include/mutable/lex/Token.hpp:14-18). -/
structure Tok where
  text : Str
  type : TT
deriving DecidableEq, Repr

/-- The types of attributes (include/mutable/catalog/Type.hpp:286-430). -/
inductive Ty where
  | error | bool | char (length : Nat) | varchar (length : Nat) | date | datetime
  | int (bytes : Nat) | float | double | decimal (precision scale : Nat)
deriving DecidableEq, Repr

mutual

/-- Expressions (AST.hpp:64-470). -/
inductive Expr where
  | error
  | designator (table : Option Str) (attr : Str)
  | const (tok : Tok)
  | fn (f : Expr) (args : List Expr)
  | unary (op : Tok) (e : Expr)
  | binary (op : Tok) (l r : Expr)
  | query (q : Select)

/-- Clauses (AST.hpp:497-660). -/
inductive Clause where
  | error
  | select (all : Bool) (items : List (Expr × Option Str))
  | from_ (sources : List Source)
  | where_ (e : Expr)
  | groupBy (items : List (Expr × Option Str))
  | having (e : Expr)
  | orderBy (items : List (Expr × Bool))
  | limit (limit : Tok) (offset : Option Tok)

/-- `FromClause::from_type` (AST.hpp:544-560). -/
inductive Source where
  | table (name : Str) (alias_ : Option Str)
  | nested (q : Select) (alias_ : Str)

/-- `SelectStmt` (AST.hpp:925-960). -/
inductive Select where
  | mk (select : Clause) (from_ where_ groupBy having orderBy limit : Option Clause)

end

/-- Constraints (AST.hpp:661-735). -/
inductive Constraint where
  | primaryKey | unique | notNull
  | check (cond : Expr)
  | references (table attr : Str)

/-- `InsertStmt::element_type` (AST.hpp:965-985). -/
inductive Elem where
  | default | null
  | expr (e : Expr)

/-- Statements (AST.hpp:795-1075). -/
inductive Stmt where
  | error | empty
  | createDatabase (name : Str)
  | dropDatabase (ifExists : Bool) (name : Str)
  | useDatabase (name : Str)
  | createTable (name : Str) (attrs : List (Str × Ty × List Constraint))
  | dropTable (ifExists : Bool) (names : List Str)
  | createIndex (unique ifNotExists : Bool) (name : Option Str) (table : Str) (method : Option Tok) (fields : List Expr)
  | dropIndex (ifExists : Bool) (names : List Str)
  | select (q : Select)
  | insert (table : Str) (tuples : List (List Elem))
  | update (table : Str) (set : List (Str × Expr)) (where_ : Option Clause)
  | delete (table : Str) (where_ : Option Clause)
  | importDSV (table : Str) (path : Tok) (rows delimiter escape quote : Option Tok) (hasHeader skipHeader : Bool)

/-- `Command` (AST.hpp:747-795). -/
inductive Command where
  | instruction (text name : Str) (args : List Str)
  | stmt (s : Stmt)

end Mutable.Parse
