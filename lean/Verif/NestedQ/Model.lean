/-
Model of how nested queries in SELECT, WHERE and HAVING become data sources of the query graph (src/IR/QueryGraph.cpp) and how the back
ends read their results.

Simplifications: names of tables, attributes and nested queries (`QueryExpr::alias`) are numbers.  WHERE and HAVING are given as CNF (C17).
What FROM and GROUP BY compute is given (C51, C53): a list of rows and the columns they have.  Nested queries contain no nested queries.  An
identifier that a back end does not find (`M_unreachable`, `M_insist`), a failed assertion and an exception are `none`.  Orders of rows are
those of a nested-loops join; the iteration order of hash sets is the order of insertion.
-/
namespace Mutable.NestedQ

/-- Expressions, AST.hpp:132-420: designators with binding depth, table and attribute; constants; unary and binary operators (0 is `=`);
function applications; nested queries. -/
inductive Expr (V : Type) where
  | col (depth tbl attr : Nat)
  | const (v : V)
  | un (op : Nat) (e : Expr V)
  | bin (op : Nat) (l r : Expr V)
  | call (f : Nat) (e : Expr V)
  | query (alias : Nat)
deriving DecidableEq

/-- The operations on values. -/
structure Ops (V : Type) where
  un : Nat → V → V
  bin : Nat → V → V → V
  call : Nat → V → V
  agg : Nat → List V → V
  truth : V → Option Bool
  null : V

/-- A tuple of the sources of a query: the value of an attribute of a table. -/
abbrev Row (V : Type) := Nat → Nat → V

/-- A predicate: negated or not.  A clause: a disjunction.  CNF.hpp:15-120. -/
abbrev Clause (V : Type) := List (Bool × Expr V)

variable {V : Type}

/-- The value of an expression: designators of depth 0 refer to `inner`, others to `outer`; `res` gives the values of nested queries. -/
def eval (I : Ops V) (inner outer : Row V) (res : Nat → V) : Expr V → V
  | .col 0 t a => inner t a
  | .col (_ + 1) t a => outer t a
  | .const v => v
  | .un op e => I.un op (eval I inner outer res e)
  | .bin op l r => I.bin op (eval I inner outer res l) (eval I inner outer res r)
  | .call f e => I.call f (eval I inner outer res e)
  | .query q => res q

/-- All clauses are TRUE: each has a TRUE predicate. -/
def holds (I : Ops V) (inner outer : Row V) (res : Nat → V) (cnf : List (Clause V)) : Bool :=
  cnf.all fun c => c.any fun p => decide (I.truth (eval I inner outer res p.2) = some (!p.1))

/-- `contains_free_variables`, AST.hpp:179, :218, :291-297, :334, :373-374, :408. -/
def hasFree : Expr V → Bool
  | .col d _ _ => d != 0
  | .const _ => false
  | .un _ e => hasFree e
  | .bin _ l r => hasFree l || hasFree r
  | .call _ e => hasFree e
  | .query _ => false

/-- `contains_bound_variables`, AST.hpp:181, :219, :299-305, :335, :375-376, :412.  The name of a function is a designator of depth 0. -/
def hasBound : Expr V → Bool
  | .col d _ _ => d == 0
  | .const _ => false
  | .un _ e => hasBound e
  | .bin _ l r => hasBound l || hasBound r
  | .call _ _ => true
  | .query _ => true

/-- `is_composable_of` without grouping keys, QueryGraph.cpp:382-410. -/
def composable : Expr V → Bool
  | .col d _ _ => d != 0
  | .const _ => true
  | .un _ e => composable e
  | .bin _ l r => composable l && composable r
  | .call _ e => composable e
  | .query _ => true

/-- The data sources an expression mentions, QueryGraph.cpp:418-439. -/
def sourcesOf : Expr V → List Nat
  | .col _ t _ => [t]
  | .const _ => []
  | .un _ e => sourcesOf e
  | .bin _ l r => sourcesOf l ++ sourcesOf r
  | .call _ e => sourcesOf e
  | .query q => [q]

/-- The nested queries in an expression, QueryGraph.cpp:429-434. -/
def queries : Expr V → List Nat
  | .col _ _ _ => []
  | .const _ => []
  | .un _ e => queries e
  | .bin _ l r => queries l ++ queries r
  | .call _ e => queries e
  | .query q => [q]

/-- What a nested query selects: an aggregate, or a scalar expression. -/
inductive Sel (V : Type) where
  | agg (f : Nat) (arg : Expr V)
  | scalar (e : Expr V)

/-- A nested query: the tables of FROM with the combinations of their rows, WHERE, SELECT.  (`Sema` admits no GROUP BY.) -/
structure Nested (V : Type) where
  from_ : Option (List Nat × List (Row V))
  wher : List (Clause V)
  sel : Sel V

/-- `is_constant`. -/
def isConst : Expr V → Bool
  | .col _ _ _ => false
  | .const _ => true
  | .un _ e => isConst e
  | .bin _ l r => isConst l && isConst r
  | .call _ e => isConst e
  | .query _ => false

/-- What `Sema` admits as nested query, Sema.cpp:962-1010, :1121: a single scalar value without free variables, which is a constant and there is no
FROM, or a function application and there is no GROUP BY. -/
def Nested.accepted (Q : Nested V) : Bool :=
  match Q.sel with
  | .agg _ arg => !hasFree arg
  | .scalar e => isConst e && (Q.from_.isNone || (match e with | .call _ _ => true | _ => false))

/-! ### GraphBuilder for a nested query -/

/-- The fields of `GraphBuilder`, QueryGraph.hpp:50-60. -/
structure Builder (V : Type) where
  bound : List (Clause V)
  deferred : List (Clause V)
  keys : List (Expr V)

/-- Is the binding depth of the clause non-zero? QueryGraph.cpp:424-425. -/
def correlated (c : Clause V) : Bool := c.any fun p => hasFree p.2

/-- `process_selection` for a clause without nested queries, QueryGraph.cpp:466-540. -/
def process [DecidableEq V] (grouping : Bool) (b : Builder V) (c : Clause V) : Option (Builder V) :=
  if grouping = false then
    some (if correlated c then { b with deferred := b.deferred ++ [c] } else { b with bound := b.bound ++ [c] })
  else
    let fallback : Option (Builder V) :=
      if correlated c = false then some { b with bound := b.bound ++ [c] }
      else if c.all (fun p => composable p.2) then some { b with deferred := b.deferred ++ [c] }
      else none
    match c with
    | [(_, .bin 0 l r)] =>
      if correlated c = false then fallback
      else if hasFree l && hasBound l then fallback
      else if hasFree r && hasBound r then fallback
      else if hasFree l = hasFree r then none
      else
        let e := if hasFree l then r else l
        let b := { b with deferred := b.deferred ++ [c] }
        some (if composable e || b.keys.contains e then b else { b with keys := b.keys ++ [e] })
    | _ => fallback

/-- Names of result columns: `$res`, or something a user wrote. -/
inductive ColName where
  | res
  | text (n : Nat)
deriving DecidableEq

/-- A data source made from a nested query: its alias, the names of its columns, its rows. -/
structure NSrc (V : Type) where
  alias : Nat
  names : List ColName
  rows : List (List V)

/-- One row per group of equal keys, with the aggregate and the keys (C53). -/
def groups [DecidableEq V] (key : Row V → List V) (f : List (Row V) → V) (rows : List (Row V)) : List (List V) :=
  (rows.map key).eraseDups.map fun k => f (rows.filter fun r => decide (key r = k)) :: k

/-- The rows of the query graph of a nested query: filters and joins from the bound clauses, grouping by the additional keys, which become
projections, QueryGraph.cpp:1595-1690.  Without FROM the clauses are lost (C51).  `name`: the name of the first projection,
QueryGraph.cpp:1640-1650, :1846.  The deferred clauses are returned as well. -/
def buildNested [DecidableEq V] (I : Ops V) (dflt : Row V) (name : ColName) (alias : Nat) (Q : Nested V) : Option (NSrc V × List (Clause V)) :=
  let grouping := match Q.sel with | .agg _ _ => true | .scalar _ => false
  match Q.wher.foldlM (process grouping) ⟨[], [], []⟩ with
  | none => none
  | some b =>
    let rows := match Q.from_ with
      | none => [dflt]
      | some (_, rs) => rs.filter fun r => holds I r r (fun _ => I.null) b.bound
    let val := fun (e : Expr V) (r : Row V) => eval I r r (fun _ => I.null) e
    let names := name :: (List.range b.keys.length).map .text
    match Q.sel with
    | .scalar e => some (⟨alias, names, rows.map fun r => val e r :: b.keys.map (val · r)⟩, b.deferred)
    | .agg f arg =>
      let agg := fun rs : List (Row V) => I.agg f (rs.map (val arg))
      if b.keys = [] then some (⟨alias, names, [[agg rows]]⟩, b.deferred)
      else some (⟨alias, names, groups (fun r => b.keys.map (val · r)) agg rows⟩, b.deferred)

/-! ### The statement -/

/-- A SELECT statement with nested queries.  `from_`: the columns and rows of FROM; `group`: GROUP BY and aggregates, the columns and a
function of the rows; `items`: the SELECT clause; `nested`: the nested queries. -/
structure Stmt (V : Type) where
  from_ : Option (List (Nat × Nat) × List (Row V))
  wher : List (Clause V)
  group : Option (List (Nat × Nat) × (List (Row V) → List (Row V)))
  having : List (Clause V)
  items : List (Expr V)
  nested : Nat → Nested V

/-- The columns of FROM. -/
def Stmt.cols0 (S : Stmt V) : List (Nat × Nat) := match S.from_ with | some (cols, _) => cols | none => []

/-- The rows of FROM; without FROM there is one row. -/
def Stmt.rows0 (dflt : Row V) (S : Stmt V) : List (Row V) := match S.from_ with | some (_, rows) => rows | none => [dflt]

/-- The columns after grouping. -/
def Stmt.cols1 (S : Stmt V) : List (Nat × Nat) := match S.group with | some (cols, _) => cols | none => S.cols0

/-- The rows after grouping. -/
def Stmt.grouped (S : Stmt V) (rows : List (Row V)) : List (Row V) := match S.group with | some (_, g) => g rows | none => rows

/-- All nested queries of a CNF, in order. -/
def cnfQueries (cnf : List (Clause V)) : List Nat := cnf.flatMap fun c => c.flatMap fun p => queries p.2

/-- Does the back end find all identifiers?  Designators are looked up by table and attribute, nested queries by alias and `$res`,
WasmUtil.cpp:450-503, StackMachine.cpp:62-73, :87-91, :515-520. -/
def found (cols : List (Nat × Nat)) (srcs : List (NSrc V)) : Expr V → Bool
  | .col _ t a => cols.contains (t, a)
  | .const _ => true
  | .un _ e => found cols srcs e
  | .bin _ l r => found cols srcs l && found cols srcs r
  | .call _ e => found cols srcs e
  | .query q => srcs.any fun s => decide (s.alias = q) && s.names.contains .res

/-- All combinations of one row of each data source made from a nested query. -/
def combos : List (NSrc V) → List (List (NSrc V × List V))
  | [] => [[]]
  | s :: ss => s.rows.flatMap fun r => (combos ss).map fun c => (s, r) :: c

/-- The value of `$res` of a nested query in a combination. -/
def resOf (null : V) (c : List (NSrc V × List V)) (q : Nat) : V :=
  match c.find? (fun p => decide (p.1.alias = q)) with
  | some (s, r) => (r[s.names.idxOf .res]?).getD null
  | none => null

/-- Adds the nested queries as data sources, with the given name for their projection: QueryGraph.cpp:449-452, :1846-1850. -/
def addSources [DecidableEq V] (I : Ops V) (dflt : Row V) (name : Nat → ColName) (S : Stmt V) (qs : List Nat) :
    Option (List (NSrc V × List (Clause V))) :=
  qs.mapM fun q => buildNested I dflt (name q) q (S.nested q)

/-- A whole SELECT item is a nested query, QueryGraph.cpp:1645-1650. -/
def isQuery : Expr V → Bool
  | .query _ => true
  | _ => false

/-- The conditions below the grouping: WHERE and the deferred clauses of nested queries in WHERE; lost without any data source (C51). -/
def Stmt.conditions (S : Stmt V) (wsrcs : List (NSrc V × List (Clause V))) : List (Clause V) :=
  if S.from_.isNone && wsrcs.isEmpty then [] else S.wher ++ wsrcs.flatMap (·.2)

/-- The rows of the result, QueryGraph.cpp:1587-1866.  WHERE: nested queries become sources under the name of their projection (`uname`: what
the user wrote), their deferred clauses move up, :444-463.  HAVING: the whole condition becomes a filter of the grouped query, before nested
queries are joined, :1773-1781.  SELECT: nested queries become sources with the projection renamed to `$res`, :1835-1866, and their deferred
clauses are forgotten; projections with nested queries come last, :1640-1650, :1865. -/
def run [DecidableEq V] (I : Ops V) (dflt : Row V) (uname : Nat → Nat) (S : Stmt V) : Option (List (List V)) :=
  match addSources I dflt (fun q => .text (uname q)) S (cnfQueries S.wher) with
  | none => none
  | some wsrcs =>
    let srcs := wsrcs.map (·.1)
    let wher := S.conditions wsrcs
    if (wher.all fun c => c.all fun p => found S.cols0 srcs p.2) = false then none
    else
      let rows1 := (S.rows0 dflt).flatMap fun r => ((combos srcs).filter fun c => holds I r r (resOf I.null c) wher).map fun _ => r
      if (S.having.all fun c => c.all fun p => found S.cols1 [] p.2) = false then none
      else
        let rows3 := (S.grouped rows1).filter fun r => holds I r r (fun _ => I.null) S.having
        match addSources I dflt (fun _ => .res) S ((S.items.filter isQuery).flatMap queries) with
        | none => none
        | some ssrcs =>
          let srcs := ssrcs.map (·.1)
          let proj := S.items.filter (fun e => !isQuery e) ++ S.items.filter isQuery
          if (proj.all fun e => found S.cols1 srcs e) = false then none
          else some (rows3.flatMap fun r => (combos srcs).map fun c => proj.map fun e => eval I r r (resOf I.null c) e)

end Mutable.NestedQ
