import Verif.Parser.AST
/-!
# Model of the pretty printer (src/parse/ASTPrinter.{hpp,cpp}, src/catalog/Type.cpp)

`x` is `expand_nested_queries_`.  It is `true` for a new `ASTPrinter` (ASTPrinter.hpp:19) and `false` for `operator<<`
(src/parse/AST.cpp:179-198), which the printer itself uses for some expressions.
-/
namespace Mutable.Parse
open Mutable.Lex (TT)

abbrev S (s : String) : Str := s.toList

/-- `if (it->second) out << " AS " << it->second.text;` (ASTPrinter.cpp:82, 116-117). -/
def printAlias : Option Str → Str
  | none => []
  | some a => S " AS " ++ a

/-- `operator<<` for a token that may be missing: the keyword and the text. -/
def printOpt (kw : String) : Option Tok → Str
  | none => []
  | some t => S kw ++ t.text

mutual

/-- Expressions (ASTPrinter.cpp:12-66).  The alias of a nested query (AST.cpp:13-19) is printed without its number. -/
def printExpr (x : Bool) : Expr → Str
  | .error => S "[error-expression]"
  | .designator none a => a
  | .designator (some t) a => t ++ S "." ++ a
  | .const tok => tok.text
  | .fn f args => printExpr x f ++ S "(" ++ printArgs x args ++ S ")"
  | .unary op e => S "(" ++ op.text ++ (if op.type = .kw (S "NOT") then S " " else []) ++ printExpr x e ++ S ")"
  | .binary op l r => S "(" ++ printExpr x l ++ S " " ++ op.text ++ S " " ++ printExpr x r ++ S ")"
  | .query q => if x then S "(" ++ printSelect x q ++ S ")" else S "$q_.$q_"

/-- The arguments (ASTPrinter.cpp:33-36). -/
def printArgs (x : Bool) : List Expr → Str
  | [] => []
  | e :: es => printExpr x e ++ printMoreArgs x es

/-- All but the first argument. -/
def printMoreArgs (x : Bool) : List Expr → Str
  | [] => []
  | e :: es => S ", " ++ printExpr x e ++ printMoreArgs x es

/-- Clauses (ASTPrinter.cpp:70-141).  WHERE and HAVING print their condition with `operator<<`. -/
def printClause (x : Bool) : Clause → Str
  | .error => S "[error-clause]"
  | .select true items => S "SELECT " ++ S "*" ++ printMoreItems x items
  | .select false items => S "SELECT " ++ printItems x items
  | .from_ l => S "FROM " ++ printSources x l
  | .where_ e => S "WHERE " ++ printExpr false e
  | .groupBy items => S "GROUP BY " ++ printItems x items
  | .having e => S "HAVING " ++ printExpr false e
  | .orderBy items => S "ORDER BY " ++ printOrders x items
  | .limit l o => S "LIMIT " ++ l.text ++ printOpt " OFFSET " o

/-- Expressions with aliases (ASTPrinter.cpp:79-83, 112-118). -/
def printItems (x : Bool) : List (Expr × Option Str) → Str
  | [] => []
  | (e, a) :: r => printExpr x e ++ printAlias a ++ printMoreItems x r

/-- All but the first item. -/
def printMoreItems (x : Bool) : List (Expr × Option Str) → Str
  | [] => []
  | (e, a) :: r => S ", " ++ printExpr x e ++ printAlias a ++ printMoreItems x r

/-- The sources of FROM (ASTPrinter.cpp:89-101). -/
def printSources (x : Bool) : List Source → Str
  | [] => []
  | s :: r => printSource x s ++ printMoreSources x r

/-- All but the first source. -/
def printMoreSources (x : Bool) : List Source → Str
  | [] => []
  | s :: r => S ", " ++ printSource x s ++ printMoreSources x r

/-- One source (ASTPrinter.cpp:91-100). -/
def printSource (x : Bool) : Source → Str
  | .table t a => t ++ printAlias a
  | .nested q a => S "(" ++ printSelect x q ++ S ")" ++ S " AS " ++ a

/-- The expressions of ORDER BY (ASTPrinter.cpp:129-134). -/
def printOrders (x : Bool) : List (Expr × Bool) → Str
  | [] => []
  | (e, asc) :: r => printExpr x e ++ (if asc then S " ASC" else S " DESC") ++ printMoreOrders x r

/-- All but the first. -/
def printMoreOrders (x : Bool) : List (Expr × Bool) → Str
  | [] => []
  | (e, asc) :: r => S ", " ++ printExpr x e ++ (if asc then S " ASC" else S " DESC") ++ printMoreOrders x r

/-- `SelectStmt` without the final semicolon (ASTPrinter.cpp:274-310). -/
def printSelect (x : Bool) : Select → Str
  | .mk sel fr wh gr ha or_ li => printClause x sel ++ printOptClause x fr ++ printOptClause x wh ++ printOptClause x gr ++
      printOptClause x ha ++ printOptClause x or_ ++ printOptClause x li

/-- `if (c) { out << '\n'; (*this)(*c); }` (ASTPrinter.cpp:281-304). -/
def printOptClause (x : Bool) : Option Clause → Str
  | none => []
  | some c => S "\n" ++ printClause x c

end

/-- A natural number, as printed by `out << n`. -/
def printNat (n : Nat) : Str := (toString n).toList

/-- Types (Type.cpp:269-304). -/
def printType : Ty → Str
  | .error => S "[ErrorType]"
  | .bool => S "BOOL"
  | .char n => S "CHAR" ++ S "(" ++ printNat n ++ S ")"
  | .varchar n => S "VARCHAR" ++ S "(" ++ printNat n ++ S ")"
  | .date => S "DATE"
  | .datetime => S "DATETIME"
  | .int n => S "INT(" ++ printNat n ++ S ")"
  | .float => S "FLOAT"
  | .double => S "DOUBLE"
  | .decimal p c => S "DECIMAL(" ++ printNat p ++ S ", " ++ printNat c ++ S ")"

/-- Constraints (ASTPrinter.cpp:146-169). -/
def printConstraint : Constraint → Str
  | .primaryKey => S "PRIMARY KEY"
  | .unique => S "UNIQUE"
  | .notNull => S "NOT NULL"
  | .check e => S "CHECK (" ++ printExpr false e ++ S ")"
  | .references t a => S "REFERENCES " ++ t ++ S "(" ++ a ++ S ")"

/-- Items separated by `sep`. -/
def printSep {α : Type} (sep : String) (f : α → Str) : List α → Str
  | [] => []
  | a :: l => f a ++ (l.map fun b => S sep ++ f b).flatten

/-- An attribute of `CREATE TABLE` (ASTPrinter.cpp:214-220). -/
def printAttr (a : Str × Ty × List Constraint) : Str :=
  S "\n    " ++ a.1 ++ S " " ++ printType a.2.1 ++ (a.2.2.map fun c => S " " ++ printConstraint c).flatten

/-- `InsertStmt::element_type` (ASTPrinter.cpp:319-323). -/
def printElem : Elem → Str
  | .default => S "DEFAULT"
  | .null => S "NULL"
  | .expr e => printExpr false e

/-- `if (s.index_name) out << s.index_name.text << ' ';` (ASTPrinter.cpp:246-247). -/
def printIndexName : Option Str → Str
  | none => []
  | some n => n ++ S " "

/-- Statements (ASTPrinter.cpp:182-362). -/
def printStmt (x : Bool) : Stmt → Str
  | .error => S "[error-statement];"
  | .empty => S ";"
  | .createDatabase n => S "CREATE DATABASE " ++ n ++ S ";"
  | .dropDatabase b n => S "DROP DATABASE " ++ (if b then S "IF EXISTS " else []) ++ n ++ S ";"
  | .useDatabase n => S "USE " ++ n ++ S ";"
  | .createTable n as => S "CREATE TABLE " ++ n ++ S "\n(" ++ printSep "," printAttr as ++ S "\n);"
  | .dropTable b ns => S "DROP TABLE " ++ (if b then S "IF EXISTS " else []) ++ printSep ", " id ns ++ S ";"
  | .createIndex u b name t m fs => S "CREATE " ++ (if u then S "UNIQUE " else []) ++ S "INDEX " ++
      (if b then S "IF NOT EXISTS " else []) ++ printIndexName name ++ S "ON " ++ t ++
      printOpt " USING " m ++ S "\n(" ++ printSep "," (fun e => S "\n    " ++ printExpr x e) fs ++ S "\n);"
  | .dropIndex b ns => S "DROP INDEX " ++ (if b then S "IF EXISTS " else []) ++ printSep ", " id ns ++ S ";"
  | .select q => printSelect x q ++ S ";"
  | .insert t ts => S "INSERT INTO " ++ t ++ S "\nVALUES\n    " ++
      printSep ",\n    " (fun es => S "(" ++ printSep ", " printElem es ++ S ")") ts ++ S ";"
  | .update t es w => S "UPDATE " ++ t ++ S "\nSET\n" ++
      printSep ",\n" (fun e => S "    " ++ e.1 ++ S " = " ++ printExpr false e.2) es ++ printOptClause false w ++ S ";"
  | .delete t w => S "DELETE FROM " ++ t ++ printOptClause false w ++ S ";"
  | .importDSV t path rows delimiter _ _ has skip => S "IMPORT INTO " ++ t ++ S " DSV " ++ path.text ++
      printOpt " ROWS " rows ++ printOpt " DELIMITER " delimiter ++ (if has then S " HAS HEADER" else []) ++
      (if skip then S " SKIP HEADER" else []) ++ S ";"

/-- Commands; an instruction is printed as its token (ASTPrinter.cpp:174-177). -/
def printCommand (x : Bool) : Command → Str
  | .instruction text _ _ => text
  | .stmt s => printStmt x s

end Mutable.Parse
