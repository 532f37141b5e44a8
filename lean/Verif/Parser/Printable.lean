import Verif.Parser.Spec
import Verif.Lexer.Spec
/-!
# Trees whose printed text can be read again

The printer loses information about some trees (see the counterexamples in `Props`); the trees that are described here keep
it.  `x` says whether nested queries are expanded (`false` within WHERE, HAVING, CHECK, INSERT and UPDATE).
-/
namespace Mutable.Parse.Spec
open Mutable.Parse
open Mutable.Lex (TT)

/-- The text of an identifier. -/
def Ident (a : Str) : Prop := Lex.Spec.Valid .identifier a

/-- A token with a valid text. -/
def ValidTok (t : Tok) : Prop := Lex.Spec.Valid t.type t.text

def AliasOK (a : Option Str) : Prop := ∀ n ∈ a, Ident n

mutual

inductive PExpr : Bool → Expr → Prop
  | attr {x a} : Ident a → PExpr x (.designator none a)
  | qualified {x t a} : Ident t → Ident a → PExpr x (.designator (some t) a)
  | const {x t} : ConstType t.type → ValidTok t → PExpr x (.const t)
  | fn {x f args} : PExpr x f → (∀ a ∈ args, PExpr x a) → PExpr x (.fn f args)
  | sign {x op e} : op.type = .plus ∨ op.type = .minus ∨ op.type = .tilde → ValidTok op → PExpr x e → PExpr x (.unary op e)
  | not {x op e} : op.type = K "NOT" → ValidTok op → PExpr x e → PExpr x (.unary op e)
  | binary {x p op l r} : binaryLevel false op.type = some p → ValidTok op → PExpr x l → PExpr x r → PExpr x (.binary op l r)
  | query {q} : PSel true q → PExpr true (.query q)

inductive PSrc : Bool → Source → Prop
  | table {x t a} : Ident t → AliasOK a → PSrc x (.table t a)
  | nested {x q a} : PSel x q → Ident a → PSrc x (.nested q a)

/-- Clauses; the number is the place of the clause. -/
inductive PCl : Bool → Nat → Clause → Prop
  | from_ {x l} : l ≠ [] → (∀ s ∈ l, PSrc x s) → PCl x 0 (.from_ l)
  | where_ {x e} : PExpr false e → PCl x 1 (.where_ e)
  | groupBy {x l} : l ≠ [] → (∀ i ∈ l, PExpr x i.1) → (∀ i ∈ l, AliasOK i.2) → PCl x 2 (.groupBy l)
  | having {x e} : PExpr false e → PCl x 3 (.having e)
  | orderBy {x l} : l ≠ [] → (∀ i ∈ l, PExpr x i.1) → PCl x 4 (.orderBy l)
  | limit {x n o} : IntType n.type → ValidTok n → (∀ m ∈ o, IntType m.type ∧ ValidTok m) → PCl x 5 (.limit n o)

inductive PSel : Bool → Select → Prop
  | mk {x all items c0 c1 c2 c3 c4 c5} : (all = true ∨ items ≠ []) → (∀ i ∈ items, PExpr x i.1) → (∀ i ∈ items, AliasOK i.2) →
      (∀ c ∈ c0, PCl x 0 c) → (∀ c ∈ c1, PCl x 1 c) → (∀ c ∈ c2, PCl x 2 c) → (∀ c ∈ c3, PCl x 3 c) →
      (∀ c ∈ c4, PCl x 4 c) → (∀ c ∈ c5, PCl x 5 c) → PSel x (.mk (.select all items) c0 c1 c2 c3 c4 c5)

end

/-- Data types: sizes are positive and fit their representation; the scale of a decimal is positive. -/
def PType : Ty → Prop
  | .error => False
  | .bool | .date | .datetime | .float | .double => True
  | .char n | .varchar n => 0 < n ∧ n < 2 ^ 64
  | .int n => 0 < n ∧ n < 2 ^ 32
  | .decimal p s => 0 < p ∧ p < 2 ^ 32 ∧ 0 < s ∧ s < 2 ^ 32

def PConstraint : Constraint → Prop
  | .primaryKey | .unique | .notNull => True
  | .check e => PExpr false e
  | .references t a => Ident t ∧ Ident a

/-- Attributes of CREATE TABLE. -/
def PAttr (a : Str × Ty × List Constraint) : Prop := Ident a.1 ∧ PType a.2.1 ∧ ∀ c ∈ a.2.2, PConstraint c

/-- The expression starts with the constant NULL. -/
def headNull : Expr → Prop
  | .const t => t.type = K "NULL"
  | .fn f _ => headNull f
  | _ => False

/-- Values of INSERT. -/
def PElem : Elem → Prop
  | .default | .null => True
  | .expr e => PExpr false e ∧ ¬ headNull e

/-- Key fields of an index: an attribute, or an expression that is printed with parentheses. -/
inductive PField (x : Bool) : Expr → Prop
  | attr {a} : Ident a → PField x (.designator none a)
  | unary {op e} : PExpr x (.unary op e) → PField x (.unary op e)
  | binary {op l r} : PExpr x (.binary op l r) → PField x (.binary op l r)

/-- Statements.  ESCAPE and QUOTE of IMPORT are not printed. -/
inductive PStmt (x : Bool) : Stmt → Prop
  | createDatabase {n} : Ident n → PStmt x (.createDatabase n)
  | dropDatabase {b n} : Ident n → PStmt x (.dropDatabase b n)
  | useDatabase {n} : Ident n → PStmt x (.useDatabase n)
  | createTable {n l} : Ident n → l ≠ [] → (∀ a ∈ l, PAttr a) → PStmt x (.createTable n l)
  | dropTable {b l} : l ≠ [] → (∀ n ∈ l, Ident n) → PStmt x (.dropTable b l)
  | dropIndex {b l} : l ≠ [] → (∀ n ∈ l, Ident n) → PStmt x (.dropIndex b l)
  | createIndex {u b name t m l} : (b = true → name ≠ none) → AliasOK name → Ident t →
      (∀ k ∈ m, k.type ∈ [.identifier, K "DEFAULT"] ∧ ValidTok k) → l ≠ [] → (∀ f ∈ l, PField x f) →
      PStmt x (.createIndex u b name t m l)
  | select {q} : PSel x q → PStmt x (.select q)
  | insert {t l} : Ident t → l ≠ [] → (∀ es ∈ l, es ≠ [] ∧ ∀ e ∈ es, PElem e) → PStmt x (.insert t l)
  | update {t l w} : Ident t → l ≠ [] → (∀ s ∈ l, Ident s.1 ∧ PExpr false s.2) → (∀ c ∈ w, PCl false 1 c) → PStmt x (.update t l w)
  | delete {t w} : Ident t → (∀ c ∈ w, PCl false 1 c) → PStmt x (.delete t w)
  | importDSV {t p rows del has skip} : Ident t → p.type = .stringLiteral → ValidTok p →
      (∀ r ∈ rows, r.type ∈ [.decInt, .octInt] ∧ ValidTok r) → (∀ d ∈ del, d.type = .stringLiteral ∧ ValidTok d) →
      PStmt x (.importDSV t p rows del none none has skip)

end Mutable.Parse.Spec
