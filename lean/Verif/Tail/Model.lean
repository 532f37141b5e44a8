import Verif.Deliver.Model

/-!
# SELECT, ORDER BY and LIMIT: the upper end of a plan

Models how the names of the ORDER BY clause are resolved (`src/parse/Sema.cpp:147-201, 1023-1171`), which columns are
projected in addition because the order needs them (`src/IR/Optimizer.cpp:107-150`), the operators put on top of the
plan (`src/IR/Optimizer.cpp:419-490`), and what both back ends make of them: names are looked up in the row the
projection leaves behind.  Rows, expressions and the projections of both back ends are those of `Verif/Deliver`.

Simplifications.  The resolution of names against grouping keys and sources is a parameter (`low`).  Names of SELECT
items that are neither aliases nor designators are left out: they contain parentheses or `$`, so that no designator of
the ORDER BY clause equals them; neither does a designator with a table name, which contains a dot.  The arguments of
aggregate functions are taken as already resolved.  The sorting algorithms are a parameter: C35 and C45 are about them.
-/
namespace Mutable.Tail

open Deliver

variable {α : Type}

/-- Expressions of the ORDER BY clause after semantic analysis: a designator has the name the analysis left in it and,
if it refers to an expression of the SELECT list, the position of that item (`Designator::target`). -/
inductive RE (α : Type) where
  | des (id : Ident) (tgt : Option Nat)
  | const (text : String) (v : Option α)
  | aggNil (fn : String)
  | agg (fn : String) (arg : Ex α)
  | call (fn : String) (arg : RE α)
  | un (op : String) (e : RE α)
  | bin (op : String) (l r : RE α)

/-- The expression as later stages see it. -/
def RE.ex : RE α → Ex α
  | .des id _ => .des id.pre id.name
  | .const t v => .const t v
  | .aggNil f => .aggNil f
  | .agg f e => .agg f e
  | .call f e => .call f e.ex
  | .un op e => .un op e.ex
  | .bin op l r => .bin op l.ex r.ex

/-! ## Semantic analysis -/

/-- The key under which an item is entered into the results of the SELECT clause, `src/parse/Sema.cpp:1141-1166`. -/
def resultName (it : Item α) : Option String :=
  match it.as_, it.e with
  | some a, _ => some a
  | none, .des _ a => some a
  | none, _ => none

/-- `results.equal_range(name)`, `src/parse/Sema.cpp:159`. -/
def results (items : List (Item α)) (a : String) : List (Item α × Nat) :=
  items.zipIdx.filter fun p => resultName p.1 = some a

/-- A designator that refers to a designator without an alias takes over its table, `src/parse/Sema.cpp:167-168`. -/
def refIdent (it : Item α) (a : String) : Ident :=
  match it.as_, it.e with
  | none, .des t _ => ⟨t, a⟩
  | _, _ => ⟨none, a⟩

/-- The resolution of a designator after SELECT: first the results, `src/parse/Sema.cpp:157-173`, then grouping keys and
sources (`low`), `src/parse/Sema.cpp:175-345`; `none`: an error is reported. -/
def resolveDes (items : List (Item α)) (low : Option String → String → Option Ident) (t : Option String) (a : String) :
    Option (Ident × Option Nat) :=
  match t with
  | some t => (low (some t) a).map fun id => (id, none)
  | none =>
    match results items a with
    | [] => (low none a).map fun id => (id, none)
    | [p] => some (refIdent p.1 a, some p.2)
    | _ => none

/-- Semantic analysis of an ORDER BY expression, `src/parse/Sema.cpp:1338-1364`. -/
def resolve (items : List (Item α)) (low : Option String → String → Option Ident) : Ex α → Option (RE α)
  | .des t a => (resolveDes items low t a).map fun p => .des p.1 p.2
  | .const t v => some (.const t v)
  | .aggNil f => some (.aggNil f)
  | .agg f e => some (.agg f e)
  | .call f e => (resolve items low e).map (.call f)
  | .un op e => (resolve items low e).map (.un op)
  | .bin op l r =>
    match resolve items low l, resolve items low r with
    | some l, some r => some (.bin op l r)
    | _, _ => none

/-- Semantic analysis of the ORDER BY clause, `src/parse/Sema.cpp:1338-1364`. -/
def resolveAll (items : List (Item α)) (low : Option String → String → Option Ident) (orders : List (Ex α × Bool)) :
    Option (List (RE α × Bool)) :=
  orders.mapM fun o => (resolve items low o.1).map fun r => (r, o.2)

/-! ## The plan -/

/-- Is the expression an item without an alias?  `src/IR/Optimizer.cpp:125-128, 133-136`. -/
def hasItem [DecidableEq α] (items : List (Item α)) (e : Ex α) : Bool := items.any fun it => it.as_ = none ∧ it.e = e

/-- The additional item for an expression that is not in the SELECT list (its type does not matter here). -/
def needEx [DecidableEq α] (items : List (Item α)) (e : Ex α) : List (Item α) :=
  if hasItem items e then [] else [⟨e, none, .prim 0⟩]

/-- `get_required_designator`, a pre-order traversal, `src/IR/Optimizer.cpp:113-143`; below a function application it
does not descend.  A designator that refers to an item finds the item by its address, :117-121. -/
def need [DecidableEq α] (items : List (Item α)) : RE α → List (Item α)
  | .des _ (some _) => []
  | .des id none => needEx items (.des id.pre id.name)
  | .const _ _ => []
  | .aggNil f => needEx items (.aggNil f)
  | .agg f e => needEx items (.agg f e)
  | .call f e => needEx items (.call f e.ex)
  | .un _ e => need items e
  | .bin _ l r => need items l ++ need items r

/-- `compute_projections_required_for_order_by`, `src/IR/Optimizer.cpp:107-150`. -/
def additional [DecidableEq α] (items : List (Item α)) (os : List (RE α × Bool)) : List (Item α) :=
  os.flatMap fun o => need items o.1

/-- The items of the projection, `src/IR/Optimizer.cpp:423-426`. -/
def planItems [DecidableEq α] (items : List (Item α)) (os : List (RE α × Bool)) : List (Item α) :=
  additional items os ++ items

/-- An item of the projection above the order, `src/IR/Optimizer.cpp:468-479`: an alias has become a name. -/
def adapt (it : Item α) : Item α :=
  match it.as_ with
  | some a => ⟨.des none a, none, it.ty⟩
  | none => it

/-- The LIMIT clause: limit and offset; both are 0 if there is none (`src/IR/QueryGraph.cpp:1877-1885`). -/
def limOff (lim : Option (Nat × Nat)) : Nat × Nat := lim.getD (0, 0)

/-- Is there a projection on top, `src/IR/Optimizer.cpp:464`?  `nested`: the query is the source of another one and has
an alias (`needs_projection_`). -/
def post [DecidableEq α] (items : List (Item α)) (os : List (RE α × Bool)) (lim : Option (Nat × Nat)) (nested : Bool) :
    Bool :=
  !(additional items os).isEmpty ||
    ((!os.isEmpty || (limOff lim).1 ≠ 0 || (limOff lim).2 ≠ 0) && nested)

/-! ## LIMIT -/

/-- `offset + limit` in 64 bits (WasmOperator.cpp:5487, Interpreter.cpp:1165). -/
def limitEnd (lim off : Nat) : Nat := (off + lim) % 2 ^ 64

/-- One call of the pipeline of `Limit`, WasmOperator.cpp:5484-5506: the counter, the rows passed on, and whether the
code has jumped to the end. -/
def limitRow {ρ : Type} (lim off : Nat) (s : Nat × List ρ × Bool) (r : ρ) : Nat × List ρ × Bool :=
  if s.2.2 then s
  else if s.1 ≥ limitEnd lim off then (s.1, s.2.1, true)
  else if off = 0 then (s.1 + 1, s.2.1 ++ [r], false)
  else if s.1 ≥ off then (s.1 + 1, s.2.1 ++ [r], false)
  else (s.1 + 1, s.2.1, false)

/-- One execution of the generated code: the counter is restored from and saved to its backup, WasmOperator.cpp:5479,
5515. -/
def limitBatch {ρ : Type} (lim off : Nat) (s : Nat × List ρ) (rows : List ρ) : Nat × List ρ :=
  let r := rows.foldl (limitRow lim off) (s.1, s.2, false)
  (r.1, r.2.1)

/-- The rows that pass `Limit`, delivered in batches. -/
def wasmLimit {ρ : Type} (lim off : Nat) (batches : List (List ρ)) : List ρ :=
  (batches.foldl (limitBatch lim off) (0, [])).2

/-- One block of tuples at the `LimitOperator` of the interpreter, Interpreter.cpp:1160-1175: the counter, the rows
passed on, and whether the stack has been unwound. -/
def interpLimitBlock {ρ : Type} (lim off : Nat) (s : Nat × List ρ × Bool) (block : List ρ) : Nat × List ρ × Bool :=
  if s.2.2 then s
  else
    (s.1 + block.length,
      s.2.1 ++ ((block.zipIdx s.1).filter fun p => ¬ (p.2 < off ∨ p.2 ≥ limitEnd lim off)).map (·.1),
      s.1 + block.length ≥ limitEnd lim off)

/-- The rows that pass the `LimitOperator` of the interpreter, delivered in blocks. -/
def interpLimit {ρ : Type} (lim off : Nat) (blocks : List (List ρ)) : List ρ :=
  (blocks.foldl (interpLimitBlock lim off) (0, [], false)).2.1

/-- A `LimitOperator` if limit or offset is not zero, `src/IR/Optimizer.cpp:448`. -/
def limitRows {ρ : Type} (limit : Nat → Nat → List (List ρ) → List ρ) (lim : Option (Nat × Nat)) (rows : List ρ) :
    List ρ :=
  if (limOff lim).1 ≠ 0 ∨ (limOff lim).2 ≠ 0 then limit (limOff lim).1 (limOff lim).2 [rows] else rows

/-! ## Execution -/

/-- A sorting algorithm on rows with their keys; the first argument says which keys are ascending. -/
abbrev Sorter (α : Type) := List Bool → (ρ : Type) → List (List (Option α) × ρ) → List (List (Option α) × ρ)

/-- Sort by the keys; no operator if there is no ORDER BY clause, `src/IR/Optimizer.cpp:435`. -/
def sortRows {ρ : Type} (srt : Sorter α) (os : List (RE α × Bool)) (keys : ρ → Option (List (Option α))) (rows : List ρ) :
    Option (List ρ) :=
  if os.isEmpty then some rows
  else (rows.mapM fun r => (keys r).map fun k => (k, r)).map fun l => (srt (os.map (·.2)) ρ l).map (·.2)

/-- The keys of a row in generated code: `compare` compiles the ORDER BY expressions, WasmUtil.cpp (`compare`). -/
def wasmKeys (sem : Sem α) (os : List (RE α × Bool)) (env : Env α) : Option (List (Option α)) :=
  os.mapM fun o => evalW sem env o.1.ex

/-- What the client gets of a row: constants without an alias are known, all other columns have names (C52). -/
def wasmDeliver (items : List (Item α)) (env : Env α) : Option (List (Option α)) :=
  items.mapM fun it =>
    match it.as_, it.e with
    | none, .const _ v => some v
    | _, _ => env.get (projId it)

/-- The upper end of the plan in generated code.  The buffer `Quicksort` sorts keeps every column under its name,
WasmOperator.cpp:4748-4776. -/
def wasmTail [DecidableEq α] (sem : Sem α) (srt : Sorter α) (items : List (Item α)) (os : List (RE α × Bool))
    (lim : Option (Nat × Nat)) (nested : Bool) (rows : List (Env α)) : Option (List (List (Option α))) :=
  match rows.mapM fun env => wasmProject sem env (planItems items os) [] with
  | none => none
  | some envs =>
    match sortRows srt os (wasmKeys sem os) envs with
    | none => none
    | some sorted =>
      let l := limitRows wasmLimit lim sorted
      match (if post items os lim nested then l.mapM fun env => wasmProject sem env (items.map adapt) [] else some l) with
      | none => none
      | some fin => fin.mapM (wasmDeliver items)

/-- A row of the interpreter after the projection: the columns by position, with the names of the schema. -/
def named (items : List (Item α)) (row : List (Option α)) : Env α := (items.map projId).zip row

/-- The keys of a row in the interpreter, Interpreter.cpp:1593-1597. -/
def interpKeys (sem : Sem α) (os : List (RE α × Bool)) (env : Env α) : Option (List (Option α)) :=
  os.mapM fun o => emitI sem env o.1.ex

/-- The upper end of the plan in the interpreter, Interpreter.cpp:1141-1174, 1397-1407, 1585-1650. -/
def interpTail [DecidableEq α] (sem : Sem α) (srt : Sorter α) (items : List (Item α)) (os : List (RE α × Bool))
    (lim : Option (Nat × Nat)) (nested : Bool) (rows : List (Env α)) : Option (List (List (Option α))) :=
  match rows.mapM (interpProject sem (planItems items os)) with
  | none => none
  | some envs =>
    match sortRows srt os (fun row => interpKeys sem os (named (planItems items os) row)) envs with
    | none => none
    | some sorted =>
      let l := limitRows interpLimit lim sorted
      if post items os lim nested then
        l.mapM fun row => interpProject sem (items.map adapt) (named (planItems items os) row)
      else some l

/-- A query from its clauses, compiled. -/
def wasmQuery [DecidableEq α] (sem : Sem α) (srt : Sorter α) (low : Option String → String → Option Ident)
    (items : List (Item α)) (orders : List (Ex α × Bool)) (lim : Option (Nat × Nat)) (nested : Bool)
    (rows : List (Env α)) : Option (List (List (Option α))) :=
  match resolveAll items low orders with
  | none => none
  | some os => wasmTail sem srt items os lim nested rows

/-- A query from its clauses, interpreted. -/
def interpQuery [DecidableEq α] (sem : Sem α) (srt : Sorter α) (low : Option String → String → Option Ident)
    (items : List (Item α)) (orders : List (Ex α × Bool)) (lim : Option (Nat × Nat)) (nested : Bool)
    (rows : List (Env α)) : Option (List (List (Option α))) :=
  match resolveAll items low orders with
  | none => none
  | some os => interpTail sem srt items os lim nested rows

end Mutable.Tail
