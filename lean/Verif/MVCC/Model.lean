import Verif.CNF.Props
import Verif.Sched.Model
import Verif.Schema.Model
/-!
# Model of multi-versioned tables (src/catalog/Schema.cpp:121-268, src/catalog/DatabaseCommand.cpp:68-71, 128-186,
src/catalog/SerialScheduler.cpp:126-158)

Transactions are executed by the scheduler of `Verif.Sched.Model`.  The contents of a row other than its timestamps are a
number.  `UPDATE` and `DELETE` do not exist (`M_unreachable("not yet implemented")`, DatabaseCommand.cpp:188-196).
-/
namespace Mutable.MVCC
open Mutable.SQL Mutable.CNF Mutable.Sched

/-- A row of a multi-versioned table: the hidden attributes `$ts_begin` and `$ts_end` (Schema.cpp:121-137) and the others. -/
structure Row where
  tsBegin : Int
  tsEnd : Int
  data : Nat
deriving DecidableEq

/-- The leaves of the filter expression: `$ts_begin`, the start time of the transaction, `$ts_end` and `-1`. -/
def lBegin : Expr := .leaf 0
def lStart : Expr := .leaf 1
def lEnd : Expr := .leaf 2
def lInf : Expr := .leaf 3

/-- The expression that `apply_timestamp_filter` builds for a table (Schema.cpp:174-263). -/
def tsFilter : Expr :=
  .binary .and (.binary .lessEq lBegin lStart) (.binary .or (.binary .greater lEnd lStart) (.binary .equal lEnd lInf))

/-- The types of the leaves (Schema.cpp:181-249); the other leaves are the ones of the query. -/
def tsTypes (Γ : Nat → Ty) (i : Nat) : Ty := if i < 4 then .num else Γ i

/-- The values of the leaves for a row and a start time. -/
def leafVal (t : Int) (r : Row) : Nat → Option Int
  | 0 => some r.tsBegin
  | 1 => some t
  | 2 => some r.tsEnd
  | 3 => some (-1)
  | _ => none

/-- Comparison of two leaves; `u` gives the truth value of any other literal. -/
def atomVal (t : Int) (r : Row) (u : Expr → K3) (e : Expr) : K3 :=
  match e with
  | .binary op (.leaf a) (.leaf b) =>
    match leafVal t r a, leafVal t r b with
    | some x, some y =>
      match op with
      | .lessEq => if x ≤ y then .T else .F
      | .greater => if x > y then .T else .F
      | .equal => if x = y then .T else .F
      | _ => u e
    | _, _ => u e
  | _ => u e

/-- A data source of a query graph: a base table with its filter or a nested query (QueryGraph.hpp:88-140). -/
inductive Src where
  | base (table : Nat) (filter : CNF)
  | nested (s : Src)

/-- `apply_timestamp_filter` for one source of the graph (Schema.cpp:164-266): `add_custom_filter` (QueryGraph.hpp:308-316)
and `update_filter` (QueryGraph.hpp:65).  `mv` tells which tables have the hidden attribute.  Nested queries are skipped. -/
def applyTS (Γ : Nat → Ty) (mv : Nat → Bool) : Src → Src
  | .base T F => if mv T then
      match toCNF (tsTypes Γ) tsFilter with
      | some c => .base T (CNF.and F c)
      | none => .base T F
    else .base T F
  | .nested s => .nested s

/-- The rows that the scan of a source yields: a row qualifies if the filter is true (not unknown).  `u r` gives the truth
values of the query's own literals for row `r`. -/
def scan (t : Int) (u : Row → Expr → K3) (tables : Nat → List Row) : Src → List Row
  | .base T F => (tables T).filter fun r => decide (CNF.val (atomVal t r (u r)) F = .T)
  | .nested s => scan t u tables s

/-- `InsertRecords::execute` (DatabaseCommand.cpp:128-186): the timestamps of the new rows are the start time and −1. -/
def insertRows (t : Int) (mv : Bool) (rows : List Nat) : List Row :=
  if mv then rows.map fun d => ⟨t, -1, d⟩ else rows.map fun d => ⟨0, 0, d⟩

/-! ### The database -/

/-- Commands: `INSERT INTO table VALUES …` and `SELECT` from a source. -/
inductive Action where
  | insert (table : Nat) (rows : List Nat)
  | select (src : Src) (u : Row → Expr → K3)

/-- The database: the scheduler, the tables and the results of the queries with their commands. -/
structure Db where
  s : S := {}
  tables : Nat → List Row := fun _ => []
  results : List (Cmd × List Row) := []

/-- The execution of a command of a transaction with start time `t` (DatabaseCommand.cpp:53-186). -/
def execute (Γ : Nat → Ty) (mv : Nat → Bool) (act : Cmd → Action) (c : Cmd) (t : Int) (d : Db) : Db :=
  match act c with
  | .insert T rows => { d with tables := fun T' => if T' = T then d.tables T ++ insertRows t (mv T) rows else d.tables T' }
  | .select src u => { d with results := d.results ++ [(c, scan t u d.tables (applyTS Γ mv src))] }

/-- A step: the scheduler makes a step; when it hands out a command, the command is executed with the start time of its
transaction (SerialScheduler.cpp:133-150).  `commit` and `abort` only end the transaction (SerialScheduler.cpp:120-130). -/
inductive DStep (Γ : Nat → Ty) (mv : Nat → Bool) (act : Cmd → Action) : Db → Db → Prop where
  | push {d} (c) : DStep Γ mv act d { d with s := push d.s c false }
  | pop {d} (c q) (t : Nat) : d.s.current = none → canPop d.s = true → d.s.queue = c :: q → (pop d.s).startTime c.txn = some t →
      DStep Γ mv act d (execute Γ mv act c t { d with s := pop d.s })
  | finish {d} (b) : d.s.current ≠ none → DStep Γ mv act d { d with s := finish d.s b }
  | stop {d} (t) : d.s.running = some t → DStep Γ mv act d { d with s := stop d.s t }
  | close {d} : DStep Γ mv act d { d with s := close d.s }

/-- The reachable databases. -/
inductive DReach (Γ : Nat → Ty) (mv : Nat → Bool) (act : Cmd → Action) : Db → Prop where
  | init : DReach Γ mv act {}
  | step {d d'} : DReach Γ mv act d → DStep Γ mv act d d' → DReach Γ mv act d'

/-! ### Names -/

open Mutable.Schema in
/-- The schema of the scan of a multi-versioned table: the name of the source is its alias, if there is one, else the name of
the table (Operator.hpp:258-265, Optimizer.cpp:226, QueryGraph.hpp:107, Schema.cpp:121-137). -/
def scanSchema (alias_ : Option String) (table : String) (attrs : List String) : Sch :=
  (attrs ++ ["$ts_begin", "$ts_end"]).map fun a => ⟨⟨some (alias_.getD table), a⟩, 0, 0⟩

open Mutable.Schema in
/-- The identifier of the designator `$ts_begin` that `apply_timestamp_filter` builds (Schema.cpp:173-182; the prefix is the
name of the table). -/
def tsBeginIdent (table : String) : Ident := ⟨some table, "$ts_begin"⟩

end Mutable.MVCC
