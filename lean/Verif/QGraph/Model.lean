import Verif.CNF.Model
import Verif.Graph.Model
import Verif.PlanEnum.Model

/-!
Model of the way from the FROM and WHERE clauses of a SELECT statement to the joins and filters of the logical plan:
`GraphBuilder` (src/IR/QueryGraph.cpp) and `Optimizer` (src/IR/Optimizer.cpp).

Simplifications, valid for the whole file:
* Names of data sources are numbers.  A base table, a nested query in FROM and an uncorrelated nested query in WHERE are all
  data sources; what they contain is a list of rows (for nested queries: the result of their own plan).
* Designators, constants, function applications and nested queries are leaves of expressions (`Mutable.SQL.Expr`); a leaf
  lists the names of the data sources it mentions.
* Correlated nested queries (`binding_depth != 0`) and the cost and cardinality estimates that annotate the plan are not
  modelled.
* Iteration orders of `std::unordered_map`, and the order of equally heavy clauses after `std::sort`, are arbitrary.
-/
namespace Mutable.QG
open SQL CNF SB PE

/-- A leaf of an expression: the data sources it mentions (`Designator::get_table_name`, `QueryExpr::alias`), what
`WeighExpr` adds for it, and its value as a function of the rows of these data sources. -/
structure Leaf (Row V : Type) where
  deps : List Nat
  weight : Nat
  val : List (Option Row) → V

section
variable {Row V : Type} (L : Nat → Leaf Row V)

/-- The data sources mentioned in an expression, visited in pre-order.  src/IR/QueryGraph.cpp:422-439. -/
def exprSources : Expr → List Nat
  | .leaf i => (L i).deps
  | .unary _ e => exprSources e
  | .binary _ l r => exprSources l ++ exprSources r

/-- `ClauseInfo::data_sources`, a `std::unordered_set`.  src/IR/QueryGraph.cpp:418-442. -/
def dataSources (c : Clause) : List Nat := (c.flatMap fun p => exprSources L p.expr).dedup

/-- A join of the query graph: its condition and the ids of its sources.  include/mutable/IR/QueryGraph.hpp:137-168. -/
structure Join where
  cond : CNF
  sources : List Nat

/-- A query graph: the data sources in the order of their ids, the filter of each source, the joins.
include/mutable/IR/QueryGraph.hpp:171-225, 32-41. -/
structure Graph where
  names : List Nat
  filter : Nat → CNF
  joins : List Join

/-- The graph after FROM was processed: `add_source` numbers the sources consecutively.
src/IR/QueryGraph.cpp:1606-1628, include/mutable/IR/QueryGraph.hpp:229-242. -/
def Graph.ofFrom (names : List Nat) : Graph := ⟨names, fun _ => [], []⟩

/-- `bound_clauses_.try_emplace(clause, CI)`: the map's keys are compared with `Clause::operator==`; whether equal keys
are found also depends on their hash values, hence on `sameHash`.  src/IR/QueryGraph.cpp:460-466, :512-514, src/IR/QueryGraph.hpp:47-57. -/
def tryEmplace (sameHash : Clause → Clause → Bool) (m : List Clause) (c : Clause) : List Clause :=
  if m.any (fun d => sameHash d c && Clause.beq d c) then m else m ++ [c]

/-- `for (auto &clause : cnf_where) process_selection(clause)` for clauses without free variables.
src/IR/QueryGraph.cpp:1659-1660. -/
def boundClauses (sameHash : Clause → Clause → Bool) (cnf : CNF) : List Clause :=
  cnf.foldl (tryEmplace sameHash) []

/-- `named_sources_.find(name)`, giving the id of the data source.  src/IR/QueryGraph.cpp:1614, :1623, :1673-1682. -/
def idOf (names : List Nat) (n : Nat) : Option Nat := names.idxOf? n

/-- `update_filter`.  include/mutable/IR/QueryGraph.hpp:65. -/
def Graph.updateFilter (G : Graph) (i : Nat) (c : CNF) : Graph :=
  { G with filter := fun j => if j = i then CNF.and (G.filter j) c else G.filter j }

/-- One round of the loop over the bound clauses: a constant clause becomes a filter of all sources, a clause over a
single source a filter of this source, every other clause a join; `none` is the failed `M_insist`.
src/IR/QueryGraph.cpp:1668-1688. -/
def addClause (G : Graph) (c : Clause) : Option Graph :=
  match dataSources L c with
  | [] => some ((List.range G.names.length).foldl (fun G i => G.updateFilter i [c]) G)
  | [s] =>
    match idOf G.names s with
    | some i => some (G.updateFilter i [c])
    | none => none
  | ss =>
    match ss.mapM (idOf G.names) with
    | some ids => some { G with joins := G.joins ++ [⟨[c], ids⟩] }
    | none => none

/-- FROM and WHERE of a SELECT statement; `ord` is the iteration order of the map.
src/IR/QueryGraph.cpp:1606-1690; `none`: `M_unreachable` or failed `M_insist`. -/
def buildGraph (Γ : Nat → Ty) (sameHash : Clause → Clause → Bool) (ord : List Clause → List Clause) (names : List Nat)
    (wher : Option Expr) : Option Graph :=
  match wher with
  | none => some (Graph.ofFrom names)
  | some e =>
    match toCNF Γ e with
    | none => none
    | some cnf => (ord (boundClauses sameHash cnf)).foldlM (addClause L) (Graph.ofFrom names)

/-- HAVING: the grouped query becomes the single source of a new graph, the condition its filter.
src/IR/QueryGraph.cpp:1773-1787. -/
def buildHaving (Γ : Nat → Ty) (name : Nat) (having : Expr) : Option Graph :=
  match toCNF Γ having with
  | none => none
  | some cnf => some ((Graph.ofFrom [name]).updateFilter 0 cnf)

/-- `compute_adjacency_matrix`; `none` is the exception for a non-binary join.  src/IR/QueryGraph.cpp:1915-1928. -/
def adjacency (G : Graph) : Option AdjMat :=
  G.joins.foldlM (fun M J => match J.sources with
    | [i, j] => some ((M.setAt i j true).setAt j i true)
    | _ => none) (AdjMat.mk0 G.names.length)

/-! ### The optimizer -/

/-- `WeighExpr`.  src/IR/Optimizer.cpp:21-60. -/
def weighExpr : Expr → Nat
  | .leaf i => (L i).weight
  | .unary _ e => 1 + weighExpr e
  | .binary _ l r => 1 + weighExpr l + weighExpr r

/-- `WeighExpr::operator()(const cnf::Clause&)`.  src/IR/Optimizer.cpp:34-37.  Simplification: no overflow of `unsigned`. -/
def weigh (c : Clause) : Nat := (c.map fun p => weighExpr L p.expr).sum

/-- State of the loop of `optimize_filter`. -/
structure Chunks where
  done : List CNF
  weight : Nat
  cur : CNF

/-- One round of the loop.  src/IR/Optimizer.cpp:88-101. -/
def chunkStep (s : Chunks) (c : Clause) : Chunks :=
  let w := weigh L c
  let s := if s.cur ≠ [] ∧ s.weight + w > 12 then Chunks.mk (s.done ++ [s.cur]) 0 [] else s
  Chunks.mk s.done (s.weight + w) (s.cur ++ [c])

/-- `optimize_filter`; `srt` are the clauses ordered by weight; `none` is a failed `M_insist`.
src/IR/Optimizer.cpp:63-107. -/
def optimizeFilter (srt : CNF → CNF) (filter : CNF) : Option (List CNF) :=
  if filter = [] then none
  else if filter.any (·.isEmpty) then none
  else
    let s := (srt filter).foldl (chunkStep L) (Chunks.mk [] 0 [])
    let out := if s.cur ≠ [] then s.done ++ [s.cur] else s.done
    if out = [] then none else some out

/-- Logical plans.  include/mutable/IR/Operator.hpp: `ScanOperator` (or the plan of a nested query with prefixed
attributes), `FilterOperator`, `DisjunctiveFilterOperator`, `JoinOperator`; `unit` is the projection without child of a
query without data sources. -/
inductive LPlan
  | unit
  | scan (id : Nat)
  | filter (cond : CNF) (child : LPlan)
  | dfilter (clause : Clause) (child : LPlan)
  | join (cond : CNF) (l r : LPlan)

/-- Stacking one filter operator.  src/IR/Optimizer.cpp:271-279. -/
def addFilter (p : LPlan) (f : CNF) : LPlan :=
  match f with
  | [c] => if c.length > 1 then .dfilter c p else .filter [c] p
  | f => .filter f p

/-- The plan of a data source.  src/IR/Optimizer.cpp:213-292 (`optimize_source_plans`). -/
def sourcePlan (srt : CNF → CNF) (G : Graph) (i : Nat) : Option LPlan :=
  if (G.filter i).length = 0 then some (.scan i)
  else match optimizeFilter L srt (G.filter i) with
    | some fs => some (fs.foldl addFilter (.scan i))
    | none => none

/-- `Subproblem join_sources; for (ds) join_sources(ds.id()) = true; join_sources.is_subset(s)`.
src/IR/Optimizer.cpp:347-352. -/
def joinFits (s : SB) (J : Join) : Bool := isSubset (J.sources.foldl (fun S i => set S i true) 0#64) s

/-- The join condition of subproblem `s` and the joins that remain, in one pass over the vector of joins.
src/IR/Optimizer.cpp:344-359. -/
def takeJoins (s : SB) : List Join → CNF × List Join
  | [] => ([], [])
  | J :: js =>
    let r := takeJoins s js
    if joinFits s J then (CNF.and J.cond r.1, r.2) else (r.1, J :: r.2)

/-- `construct_join_order`: the lambda `construct_plan_impl`.  `none` is the failed `M_insist` (a subproblem of more than
one relation without a plan).  Recursion depth is bounded by the number of relations: `fuel`.
src/IR/Optimizer.cpp:323-375, include/mutable/IR/PlanTable.hpp:48-53 (`get_subproblems`).
Simplification: a table entry with exactly one non-empty side, which no plan enumerator writes, counts as failure. -/
def construct {C D : Type} (T : PT C D) (src : Nat → LPlan) : Nat → SB → List Join → Option (LPlan × List Join)
  | 0, _, _ => none
  | fuel + 1, s, joins =>
    if isEmpty (T s).left && isEmpty (T s).right then
      match members s with
      | [i] => some (src i, joins)
      | _ => none
    else if isEmpty (T s).left || isEmpty (T s).right then none
    else
      match construct T src fuel (T s).left joins with
      | none => none
      | some (pl, joins) =>
        match construct T src fuel (T s).right joins with
        | none => none
        | some (pr, joins) =>
          let r := takeJoins s joins
          some (.join r.1 pl pr, r.2)

/-- `optimize_with_plantable` up to the joins, for the plan table `T` that the plan enumerator returned.
src/IR/Optimizer.cpp:184-209.  `joins` of the result are the conditions that were used nowhere. -/
def plan {C D : Type} (srt : CNF → CNF) (G : Graph) (T : PT C D) : Option (LPlan × List Join) :=
  let n := G.names.length
  if n = 0 then some (.unit, G.joins)
  else
    match (List.range n).mapM (sourcePlan L srt G) with
    | none => none
    | some ps => construct T (fun i => ps.getD i .unit) (n + 1) (all n) G.joins

end

/-! ### Meaning of the operators -/

/-- A (joined) tuple: the rows of the data sources it is made of. -/
abbrev Tup (Row : Type) := List (Nat × Row)

/-- The row of the data source named `n`: attributes are prefixed by the name of their source. -/
def look {Row : Type} (t : Tup Row) (n : Nat) : Option Row := t.lookup n

/-- Values of operators, and the truth value of a value. -/
structure Ops (V : Type) where
  un : UnOp → V → V
  bin : BinOp → V → V → V
  truth : V → K3

section
variable {Row V : Type} (L : Nat → Leaf Row V) (I : Ops V)

/-- Value of an expression on a tuple. -/
def evalExpr (t : Tup Row) : Expr → V
  | .leaf i => (L i).val ((L i).deps.map (look t))
  | .unary op e => I.un op (evalExpr t e)
  | .binary op l r => I.bin op (evalExpr t l) (evalExpr t r)

/-- Truth value of an atomic predicate. -/
def atom (t : Tup Row) (e : Expr) : K3 := I.truth (evalExpr L I t e)

/-- A literal. -/
def predVal (t : Tup Row) (p : Pred) : K3 := if p.negative then (atom L I t p.expr).not else atom L I t p.expr

/-- A clause is a disjunction. -/
def clauseVal (t : Tup Row) (c : Clause) : K3 := c.foldr (fun p a => K3.or (predVal L I t p) a) .F

/-- A CNF is a conjunction. -/
def cnfVal (t : Tup Row) (f : CNF) : K3 := f.foldr (fun c a => K3.and (clauseVal L I t c) a) .T

/-- What the operators compute: relational algebra on lists of tuples. -/
def LPlan.eval (names : List Nat) (rows : Nat → List Row) : LPlan → List (Tup Row)
  | .unit => [[]]
  | .scan i => (rows i).map fun r => [(names.getD i 0, r)]
  | .filter f p => (p.eval names rows).filter fun t => cnfVal L I t f = .T
  | .dfilter c p => (p.eval names rows).filter fun t => c.any fun q => predVal L I t q = .T
  | .join f l r =>
    ((l.eval names rows).flatMap fun a => (r.eval names rows).map fun b => a ++ b).filter fun t => cnfVal L I t f = .T

end

end Mutable.QG
