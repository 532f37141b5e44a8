import Verif.NestedQ.Model
/-
What nested queries mean in SQL.
-/
namespace Mutable.NestedQ
variable {V : Type}

/-- The rows of a nested query for a row of the enclosing query: the rows of FROM for which WHERE is TRUE; an aggregate makes one row of them. -/
def nestedRows (I : Ops V) (dflt : Row V) (outer : Row V) (Q : Nested V) : List V :=
  let rows := (match Q.from_ with | none => [dflt] | some (_, rs) => rs).filter fun r => holds I r outer (fun _ => I.null) Q.wher
  match Q.sel with
  | .agg f arg => [I.agg f (rows.map fun r => eval I r outer (fun _ => I.null) arg)]
  | .scalar e => rows.map fun r => eval I r outer (fun _ => I.null) e

/-- The value of a nested query: NULL if it has no row, an error if it has several. -/
def nestedValue (I : Ops V) (dflt : Row V) (outer : Row V) (Q : Nested V) : Option V :=
  match nestedRows I dflt outer Q with
  | [] => some I.null
  | [v] => some v
  | _ => none

/-- The value of an expression of the statement on a row. -/
def sqlEval (I : Ops V) (dflt : Row V) (S : Stmt V) (r : Row V) : Expr V → Option V
  | .col _ t a => some (r t a)
  | .const v => some v
  | .un op e => (sqlEval I dflt S r e).map (I.un op)
  | .bin op x y => match sqlEval I dflt S r x, sqlEval I dflt S r y with
    | some a, some b => some (I.bin op a b)
    | _, _ => none
  | .call f e => (sqlEval I dflt S r e).map (I.call f)
  | .query q => nestedValue I dflt r (S.nested q)

/-- A predicate is TRUE. -/
def sqlPred (I : Ops V) (dflt : Row V) (S : Stmt V) (r : Row V) (p : Bool × Expr V) : Option Bool :=
  (sqlEval I dflt S r p.2).map fun v => decide (I.truth v = some (!p.1))

/-- A condition is TRUE. -/
def sqlHolds (I : Ops V) (dflt : Row V) (S : Stmt V) (r : Row V) (cnf : List (Clause V)) : Option Bool :=
  (cnf.mapM fun (c : Clause V) => (List.mapM (sqlPred I dflt S r) c).map (·.any id)).map (·.all id)

/-- The rows for which a condition is TRUE. -/
def sqlFilter (I : Ops V) (dflt : Row V) (S : Stmt V) (cnf : List (Clause V)) : List (Row V) → Option (List (Row V))
  | [] => some []
  | r :: rs => match sqlHolds I dflt S r cnf, sqlFilter I dflt S cnf rs with
    | some b, some out => some (if b then r :: out else out)
    | _, _ => none

/-- The result of the statement: WHERE, grouping, HAVING, and one row with the SELECT items in order for each remaining row. -/
def sql (I : Ops V) (dflt : Row V) (S : Stmt V) : Option (List (List V)) :=
  match sqlFilter I dflt S S.wher (match S.from_ with | some (_, rows) => rows | none => [dflt]) with
  | none => none
  | some rows =>
    match sqlFilter I dflt S S.having (match S.group with | some (_, g) => g rows | none => rows) with
    | none => none
    | some rows => rows.mapM fun r => S.items.mapM (sqlEval I dflt S r)

/-- The values of a row in the order in which they are delivered: first those of items that are no nested queries. -/
def reorder (items : List (Expr V)) (row : List V) : List V :=
  (((items.zip row).filter fun p => !isQuery p.1) ++ (items.zip row).filter fun p => isQuery p.1).map (·.2)

/-- No nested query occurs in the expression. -/
def plain (e : Expr V) : Bool := (queries e).isEmpty

/-- A nested query without free variables that is an aggregate, or has neither FROM nor WHERE. -/
def Nested.simple (Q : Nested V) : Prop :=
  (∀ c ∈ Q.wher, correlated c = false) ∧ (∀ c ∈ Q.wher, ∀ p ∈ c, plain p.2 = true) ∧
  match Q.sel with
  | .agg _ arg => Q.from_.isSome = true ∧ hasFree arg = false
  | .scalar e => Q.from_ = none ∧ Q.wher = [] ∧ isConst e = true

/-- Above the nested query, with these grouping keys, an expression can be evaluated: it consists of keys, constants and columns of enclosing
queries. -/
def available [DecidableEq V] (keys : List (Expr V)) : Expr V → Bool
  | .col d t a => keys.contains (.col d t a) || d != 0
  | .const _ => true
  | .un op e => keys.contains (.un op e) || available keys e
  | .bin op x y => keys.contains (.bin op x y) || available keys x && available keys y
  | .call f e => keys.contains (.call f e) || available keys e
  | .query _ => true

end Mutable.NestedQ
