import Verif.Parser.AST
/-!
# The grammar of SQL

`…` relates a tree to the sequences of tokens it may be written as.  An expression has a level: an operator binds tighter
than the operators of lower levels.  `lax` admits what the parser accepts beyond the grammar: `~` and `NOT` as binary
operators and unary operators in any position (`a = NOT b`).
-/
namespace Mutable.Parse.Spec
open Mutable.Parse
open Mutable.Lex (TT)

/-- The binary operators, from those that bind weakest to those that bind tightest. -/
def binaryLevel (lax : Bool) : TT → Option Nat
  | .asterisk | .slash | .percent => some 7
  | .plus | .minus => some 6
  | .dotdot => some 5
  | .less | .greater | .lessEqual | .greaterEqual | .equal | .bangEqual => some 4
  | .tilde => if lax then some 8 else none
  | .kw w => if w = "LIKE".toList then some 4 else if w = "AND".toList then some 2 else if w = "OR".toList then some 1
      else if w = "NOT".toList ∧ lax = true then some 3 else none
  | _ => none

/-- Constants: numbers, strings, dates, `NULL`, `TRUE` and `FALSE`. -/
def ConstType (t : TT) : Prop :=
  t ∈ [.octInt, .decInt, .hexInt, .decFloat, .hexFloat, .stringLiteral, .date, .dateTime, K "NULL", K "TRUE", K "FALSE"]

def IntType (t : TT) : Prop := t ∈ [.octInt, .decInt, .hexInt]

/-- Optional alias: `AS name`, `name` or nothing. -/
inductive Alias : Option Str → List Tok → Prop
  | none : Alias none []
  | plain {n} : Alias (some n) [⟨n, .identifier⟩]
  | as_ {a n} : a.type = K "AS" → Alias (some n) [a, ⟨n, .identifier⟩]

/-- `ASC` may be left out. -/
inductive Direction : Bool → List Tok → Prop
  | default : Direction true []
  | asc {t} : t.type = K "ASC" → Direction true [t]
  | desc {t} : t.type = K "DESC" → Direction false [t]

/-- `LIMIT n [OFFSET m]` -/
inductive Limit : Clause → List Tok → Prop
  | limit {k n} : k.type = K "LIMIT" → IntType n.type → Limit (.limit n none) [k, n]
  | offset {k n o m} : k.type = K "LIMIT" → IntType n.type → o.type = K "OFFSET" → IntType m.type →
      Limit (.limit n (some m)) [k, n, o, m]

mutual

/-- Designators, constants, parenthesised expressions, nested queries and function applications. -/
inductive Postfix (lax : Bool) : Expr → List Tok → Prop
  | attr {a} : Postfix lax (.designator none a) [⟨a, .identifier⟩]
  | qualified {t d a} : d.type = .dot → Postfix lax (.designator (some t) a) [⟨t, .identifier⟩, d, ⟨a, .identifier⟩]
  | const {t} : ConstType t.type → Postfix lax (.const t) [t]
  | paren {l r e ts} : l.type = .lpar → r.type = .rpar → Exp lax 0 e ts → Postfix lax e (l :: (ts ++ [r]))
  | query {l r q ts} : l.type = .lpar → r.type = .rpar → Sel lax q ts → Postfix lax (.query q) (l :: (ts ++ [r]))
  | star {l a r f ts} : l.type = .lpar → a.type = .asterisk → r.type = .rpar → Postfix lax f ts →
      Postfix lax (.fn f []) (ts ++ [l, a, r])
  | call0 {l r f ts} : l.type = .lpar → r.type = .rpar → Postfix lax f ts → Postfix lax (.fn f []) (ts ++ [l, r])
  | call {l r f ts args us} : l.type = .lpar → r.type = .rpar → Postfix lax f ts → Exps lax args us →
      Postfix lax (.fn f args) (ts ++ l :: (us ++ [r]))

/-- Expressions whose operators bind at least as tight as level `q`.  Binary operators associate to the left. -/
inductive Exp (lax : Bool) : Nat → Expr → List Tok → Prop
  | postfix_ {q e ts} : Postfix lax e ts → Exp lax q e ts
  | sign {q op e ts} : op.type = .plus ∨ op.type = .minus ∨ op.type = .tilde → q ≤ 8 ∨ lax = true → Exp lax 8 e ts →
      Exp lax q (.unary op e) (op :: ts)
  | not {q op e ts} : op.type = K "NOT" → q ≤ 3 ∨ lax = true → Exp lax 3 e ts → Exp lax q (.unary op e) (op :: ts)
  | binary {q p op l r ts us} : binaryLevel lax op.type = some p → q ≤ p → Exp lax p l ts → Exp lax (p + 1) r us →
      Exp lax q (.binary op l r) (ts ++ op :: us)

/-- Expressions separated by commas. -/
inductive Exps (lax : Bool) : List Expr → List Tok → Prop
  | one {e ts} : Exp lax 0 e ts → Exps lax [e] ts
  | more {e ts c es us} : Exp lax 0 e ts → c.type = .comma → Exps lax es us → Exps lax (e :: es) (ts ++ c :: us)

/-- Expressions with aliases, separated by commas. -/
inductive Items (lax : Bool) : List (Expr × Option Str) → List Tok → Prop
  | one {e ts a as} : Exp lax 0 e ts → Alias a as → Items lax [(e, a)] (ts ++ as)
  | more {e ts a as c is us} : Exp lax 0 e ts → Alias a as → c.type = .comma → Items lax is us →
      Items lax ((e, a) :: is) (ts ++ as ++ c :: us)

/-- A table or a nested query, which must have an alias. -/
inductive Src (lax : Bool) : Source → List Tok → Prop
  | table {t a as} : Alias a as → Src lax (.table t a) (⟨t, .identifier⟩ :: as)
  | nested {l r q ts a as} : l.type = .lpar → r.type = .rpar → Sel lax q ts → Alias (some a) as →
      Src lax (.nested q a) (l :: (ts ++ r :: as))

/-- Sources separated by commas. -/
inductive Srcs (lax : Bool) : List Source → List Tok → Prop
  | one {s ts} : Src lax s ts → Srcs lax [s] ts
  | more {s ts c ss us} : Src lax s ts → c.type = .comma → Srcs lax ss us → Srcs lax (s :: ss) (ts ++ c :: us)

/-- Sort keys separated by commas. -/
inductive Orders (lax : Bool) : List (Expr × Bool) → List Tok → Prop
  | one {e ts d ds} : Exp lax 0 e ts → Direction d ds → Orders lax [(e, d)] (ts ++ ds)
  | more {e ts d ds c os us} : Exp lax 0 e ts → Direction d ds → c.type = .comma → Orders lax os us →
      Orders lax ((e, d) :: os) (ts ++ ds ++ c :: us)

/-- `SELECT * …` or `SELECT expressions`. -/
inductive SelClause (lax : Bool) : Clause → List Tok → Prop
  | star {k a} : k.type = K "SELECT" → a.type = .asterisk → SelClause lax (.select true []) [k, a]
  | starMore {k a c is us} : k.type = K "SELECT" → a.type = .asterisk → c.type = .comma → Items lax is us →
      SelClause lax (.select true is) (k :: a :: c :: us)
  | items {k is us} : k.type = K "SELECT" → Items lax is us → SelClause lax (.select false is) (k :: us)

/-- The clauses behind SELECT; `n` is the place of the clause. -/
inductive Cl (lax : Bool) : Nat → Clause → List Tok → Prop
  | from_ {k ss us} : k.type = K "FROM" → Srcs lax ss us → Cl lax 0 (.from_ ss) (k :: us)
  | where_ {k e us} : k.type = K "WHERE" → Exp lax 0 e us → Cl lax 1 (.where_ e) (k :: us)
  | groupBy {k b is us} : k.type = K "GROUP" → b.type = K "BY" → Items lax is us → Cl lax 2 (.groupBy is) (k :: b :: us)
  | having {k e us} : k.type = K "HAVING" → Exp lax 0 e us → Cl lax 3 (.having e) (k :: us)
  | orderBy {k b os us} : k.type = K "ORDER" → b.type = K "BY" → Orders lax os us → Cl lax 4 (.orderBy os) (k :: b :: us)
  | limit {c us} : Limit c us → Cl lax 5 c us

/-- An optional clause. -/
inductive OptCl (lax : Bool) : Nat → Option Clause → List Tok → Prop
  | none {n} : OptCl lax n none []
  | some {n c ts} : Cl lax n c ts → OptCl lax n (some c) ts

/-- A query: the clauses come in a fixed order. -/
inductive Sel (lax : Bool) : Select → List Tok → Prop
  | mk {s ts c0 t0 c1 t1 c2 t2 c3 t3 c4 t4 c5 t5} : SelClause lax s ts → OptCl lax 0 c0 t0 → OptCl lax 1 c1 t1 →
      OptCl lax 2 c2 t2 → OptCl lax 3 c3 t3 → OptCl lax 4 c4 t4 → OptCl lax 5 c5 t5 →
      Sel lax (.mk s c0 c1 c2 c3 c4 c5) (ts ++ (t0 ++ (t1 ++ (t2 ++ (t3 ++ (t4 ++ t5))))))

end

/-! ### Statements -/

/-- A positive decimal number. -/
def Dec (t : Tok) (n : Nat) : Prop :=
  t.type = .decInt ∧ (∀ c ∈ t.text, '0' ≤ c ∧ c ≤ '9') ∧ n = (t.text.map fun c => c.toNat - '0'.toNat).foldl (fun a d => 10 * a + d) 0

/-- `( n )` -/
inductive Size : Nat → List Tok → Prop
  | mk {l t r n} : l.type = .lpar → Dec t n → r.type = .rpar → Size n [l, t, r]

/-- A number of 32 bits; the parser also accepts larger numbers, of which it drops the upper bits. -/
def Fits (lax : Bool) (n : Nat) : Prop := n < 2 ^ 32 ∨ (lax = true ∧ n < 2 ^ 64)

/-- Data types.  The length of character sequences is stored with 64 bits, all other sizes with 32 bits. -/
inductive DataType (lax : Bool) : Ty → List Tok → Prop
  | bool {k} : k.type = K "BOOL" → DataType lax .bool [k]
  | char {k n us} : k.type = K "CHAR" → Size n us → n < 2 ^ 64 → DataType lax (.char n) (k :: us)
  | varchar {k n us} : k.type = K "VARCHAR" → Size n us → n < 2 ^ 64 → DataType lax (.varchar n) (k :: us)
  | date {k} : k.type = K "DATE" → DataType lax .date [k]
  | datetime {k} : k.type = K "DATETIME" → DataType lax .datetime [k]
  | int {k n us} : k.type = K "INT" → Size n us → Fits lax n → DataType lax (.int (n % 2 ^ 32)) (k :: us)
  | float {k} : k.type = K "FLOAT" → DataType lax .float [k]
  | double {k} : k.type = K "DOUBLE" → DataType lax .double [k]
  | decimal {k p us} : k.type = K "DECIMAL" → Size p us → Fits lax p → DataType lax (.decimal (p % 2 ^ 32) 0) (k :: us)
  | decimal2 {k l t c u r p n} : k.type = K "DECIMAL" → l.type = .lpar → Dec t p → Fits lax p → c.type = .comma →
      Dec u n → Fits lax n → r.type = .rpar → DataType lax (.decimal (p % 2 ^ 32) (n % 2 ^ 32)) [k, l, t, c, u, r]

/-- Constraints of an attribute. -/
inductive Constr (lax : Bool) : Constraint → List Tok → Prop
  | primaryKey {k k'} : k.type = K "PRIMARY" → k'.type = K "KEY" → Constr lax .primaryKey [k, k']
  | unique {k} : k.type = K "UNIQUE" → Constr lax .unique [k]
  | notNull {k k'} : k.type = K "NOT" → k'.type = K "NULL" → Constr lax .notNull [k, k']
  | check {k l r e us} : k.type = K "CHECK" → l.type = .lpar → r.type = .rpar → Exp lax 0 e us →
      Constr lax (.check e) (k :: l :: (us ++ [r]))
  | references {k l r t a} : k.type = K "REFERENCES" → l.type = .lpar → r.type = .rpar →
      Constr lax (.references t a) [k, ⟨t, .identifier⟩, l, ⟨a, .identifier⟩, r]

/-- `l` written one behind the other. -/
inductive Many {α : Type} (R : α → List Tok → Prop) : List α → List Tok → Prop
  | nil : Many R [] []
  | cons {a ts l us} : R a ts → Many R l us → Many R (a :: l) (ts ++ us)

/-- A nonempty `l`, separated by commas. -/
inductive Sep {α : Type} (R : α → List Tok → Prop) : List α → List Tok → Prop
  | one {a ts} : R a ts → Sep R [a] ts
  | more {a ts c l us} : R a ts → c.type = .comma → Sep R l us → Sep R (a :: l) (ts ++ c :: us)

/-- `name type constraints` -/
def Attr (lax : Bool) (a : Str × Ty × List Constraint) (ts : List Tok) : Prop :=
  ∃ us vs, ts = ⟨a.1, .identifier⟩ :: (us ++ vs) ∧ DataType lax a.2.1 us ∧ Many (Constr lax) a.2.2 vs

/-- A value of INSERT.  `NULL` is not an expression here. -/
inductive Value (lax : Bool) : Elem → List Tok → Prop
  | default {k} : k.type = K "DEFAULT" → Value lax .default [k]
  | null {k} : k.type = K "NULL" → Value lax .null [k]
  | expr {e us} : Exp lax 0 e us → (∀ k ∈ us.head?, k.type ≠ K "NULL") → Value lax (.expr e) us

/-- `( values )` -/
inductive Tuple (lax : Bool) : List Elem → List Tok → Prop
  | mk {l r es us} : l.type = .lpar → r.type = .rpar → Sep (Value lax) es us → Tuple lax es (l :: (us ++ [r]))

/-- `attribute = expression` -/
inductive Assign (lax : Bool) : Str × Expr → List Tok → Prop
  | mk {a q e us} : q.type = .equal → Exp lax 0 e us → Assign lax (a, e) (⟨a, .identifier⟩ :: q :: us)

/-- A key field of an index: an attribute or an expression in parentheses. -/
inductive Field (lax : Bool) : Expr → List Tok → Prop
  | attr {a} : Field lax (.designator none a) [⟨a, .identifier⟩]
  | expr {l r e us} : l.type = .lpar → r.type = .rpar → Exp lax 0 e us → Field lax e (l :: (us ++ [r]))
  | open_ {l e us} : lax = true → l.type = .lpar → Exp lax 0 e (l :: us) → Field lax e (l :: us)

/-- `[ IF EXISTS ]` -/
inductive IfExists : Bool → List Tok → Prop
  | no : IfExists false []
  | yes {i e} : i.type = K "IF" → e.type = K "EXISTS" → IfExists true [i, e]

/-- `[ [ IF NOT EXISTS ] name ]` -/
inductive IndexName : Bool → Option Str → List Tok → Prop
  | none : IndexName false none []
  | name {n} : IndexName false (some n) [⟨n, .identifier⟩]
  | ifNotExists {i t e n} : i.type = K "IF" → t.type = K "NOT" → e.type = K "EXISTS" →
      IndexName true (some n) [i, t, e, ⟨n, .identifier⟩]

/-- An optional keyword. -/
inductive OptKw (k : String) : Bool → List Tok → Prop
  | no : OptKw k false []
  | yes {t} : t.type = K k → OptKw k true [t]

/-- An optional keyword that is followed by a token of one of the given types. -/
inductive OptArg (k : String) (tys : List TT) : Option Tok → List Tok → Prop
  | none : OptArg k tys none []
  | some {t v} : t.type = K k → v.type ∈ tys → OptArg k tys (some v) [t, v]

/-- An optional keyword and `HEADER`. -/
inductive OptHeader (k : String) : Bool → List Tok → Prop
  | no : OptHeader k false []
  | yes {t h} : t.type = K k → h.type = K "HEADER" → OptHeader k true [t, h]

/-- An identifier. -/
def Name (n : Str) (ts : List Tok) : Prop := ts = [⟨n, .identifier⟩]

/-- The tokens have the types of the given keywords. -/
def Kws (ws : List String) (ts : List Tok) : Prop := ts.map (·.type) = ws.map K

/-- Statements, without the final semicolon. -/
inductive Statement (lax : Bool) : Stmt → List Tok → Prop
  | createDatabase {ks n} : Kws ["CREATE", "DATABASE"] ks → Statement lax (.createDatabase n) (ks ++ [⟨n, .identifier⟩])
  | dropDatabase {ks b is n} : Kws ["DROP", "DATABASE"] ks → IfExists b is →
      Statement lax (.dropDatabase b n) (ks ++ (is ++ [⟨n, .identifier⟩]))
  | useDatabase {ks n} : Kws ["USE"] ks → Statement lax (.useDatabase n) (ks ++ [⟨n, .identifier⟩])
  | createTable {ks n l r as us} : Kws ["CREATE", "TABLE"] ks → l.type = .lpar → Sep (Attr lax) as us → r.type = .rpar →
      Statement lax (.createTable n as) (ks ++ ⟨n, .identifier⟩ :: l :: (us ++ [r]))
  | dropTable {ks b is ns us} : Kws ["DROP", "TABLE"] ks → IfExists b is → Sep Name ns us →
      Statement lax (.dropTable b ns) (ks ++ (is ++ us))
  | dropIndex {ks b is ns us} : Kws ["DROP", "INDEX"] ks → IfExists b is → Sep Name ns us →
      Statement lax (.dropIndex b ns) (ks ++ (is ++ us))
  | createIndex {k u us i b name ns o t m ms l fs vs r} : k.type = K "CREATE" → OptKw "UNIQUE" u us → i.type = K "INDEX" →
      IndexName b name ns → o.type = K "ON" → OptArg "USING" [.identifier, K "DEFAULT"] m ms → l.type = .lpar →
      Sep (Field lax) fs vs → r.type = .rpar →
      Statement lax (.createIndex u b name t m fs) (k :: (us ++ i :: (ns ++ o :: ⟨t, .identifier⟩ :: (ms ++ l :: (vs ++ [r])))))
  | select {q us} : Sel lax q us → Statement lax (.select q) us
  | insert {ks n v ts us} : Kws ["INSERT", "INTO"] ks → v.type = K "VALUES" → Sep (Tuple lax) ts us →
      Statement lax (.insert n ts) (ks ++ ⟨n, .identifier⟩ :: v :: us)
  | update {ks n v es us w vs} : Kws ["UPDATE"] ks → v.type = K "SET" → Sep (Assign lax) es us → OptCl lax 1 w vs →
      Statement lax (.update n es w) (ks ++ ⟨n, .identifier⟩ :: v :: (us ++ vs))
  | delete {ks n w vs} : Kws ["DELETE", "FROM"] ks → OptCl lax 1 w vs → Statement lax (.delete n w) (ks ++ ⟨n, .identifier⟩ :: vs)
  | importDSV {ks n d p rows rs del ds esc es quo qs has hs skip ss} : Kws ["IMPORT", "INTO"] ks → d.type = K "DSV" →
      p.type = .stringLiteral → OptArg "ROWS" [.decInt, .octInt] rows rs → OptArg "DELIMITER" [.stringLiteral] del ds →
      OptArg "ESCAPE" [.stringLiteral] esc es → OptArg "QUOTE" [.stringLiteral] quo qs → OptHeader "HAS" has hs →
      OptHeader "SKIP" skip ss →
      Statement lax (.importDSV n p rows del esc quo has skip)
        (ks ++ ⟨n, .identifier⟩ :: d :: p :: (rs ++ (ds ++ (es ++ (qs ++ (hs ++ ss))))))

end Mutable.Parse.Spec
