/-!
# From the last projection of a plan to the rows a client sees

Models, for both back ends, how the values of the SELECT list reach the client:

* the names a projection gives its columns (`src/IR/Operator.cpp:224-252`),
* the projection in the interpreter (`src/backend/Interpreter.cpp:585-604, 1141-1158`,
  `src/backend/StackMachine.cpp:547-559`) and in generated code (`src/backend/WasmOperator.cpp:2408-2453`),
* writing the result set in windows (`src/backend/WasmOperator.cpp:641-799`,
  `src/backend/WasmUtil.cpp:2909-2967`),
* reading it back and printing it or handing it to a callback
  (`src/backend/V8Engine.cpp:313-540`).

Simplifications: SQL values are elements of an arbitrary type `α` (`none` is NULL); what a value looks
like when printed is left abstract: the output is a list of (type, value) items and separators.  The
data layout of the result set (C33, C49) and the translation of expressions to machine code (C34, C48)
are verified elsewhere: here a row of the result set is the list of its values, in the order of the
schema of the result set, and an expression is evaluated on the row of names and values below it.
Functions take at most one argument, as all functions of the catalog do.
-/
namespace Mutable.Deliver

/-- `Schema::Identifier` (`include/mutable/catalog/Schema.hpp:41-74`). -/
structure Ident where
  pre : Option String
  name : String
deriving DecidableEq, Repr

/-- `Schema::Identifier::GetConstant` (`src/catalog/Schema.cpp:28-31`). -/
def constId : Ident := ⟨none, "$const"⟩

/-- The type of a column: `NoneType` (the type of the constant NULL) or any other primitive type
(`include/mutable/catalog/Type.hpp`). -/
inductive Ty
  | null
  | prim (n : Nat)
deriving DecidableEq, Repr

/-- `Schema::entry_type` without constraints (`include/mutable/catalog/Schema.hpp:76-105`). -/
structure Entry where
  id : Ident
  ty : Ty
deriving DecidableEq, Repr

abbrev Schema := List Entry

/-- `Schema::has` on a schema without duplicates (`include/mutable/catalog/Schema.hpp:127-141`). -/
def hasId (S : Schema) (id : Ident) : Bool := S.any (fun e => e.id == id)

/-- The loop of `Schema::deduplicate` (`include/mutable/catalog/Schema.hpp:189-197`). -/
def dedupAux : Schema → Schema → Schema
  | acc, [] => acc
  | acc, e :: r => if hasId acc e.id then dedupAux acc r else dedupAux (acc ++ [e]) r

/-- `Schema::deduplicate` (`include/mutable/catalog/Schema.hpp:189-197`). -/
def dedup (S : Schema) : Schema := dedupAux [] S

/-- `Schema::drop_constants` (`include/mutable/catalog/Schema.hpp:199-207`). -/
def dropConst (S : Schema) : Schema := S.filter (fun e => e.id != constId)

/-- Position of an identifier in a schema without duplicates, `Schema::operator[](id)`
(`include/mutable/catalog/Schema.hpp:165-174`). -/
def idxOf (S : Schema) (id : Ident) : Nat := S.findIdx (fun e => e.id == id)

/-! ## Expressions -/

/-- Expressions as they leave the semantic analysis (`include/mutable/parse/AST.hpp`). -/
inductive Ex (α : Type) where
  | des (tbl : Option String) (attr : String)
  | const (text : String) (v : Option α)
  | aggNil (fn : String)                       -- COUNT(*)
  | agg (fn : String) (arg : Ex α)             -- MIN(x), …
  | call (fn : String) (arg : Ex α)            -- ISNULL(x), INT(x)
  | un (op : String) (e : Ex α)
  | bin (op : String) (l r : Ex α)
deriving DecidableEq, Repr

/-- The meaning of the operators and scalar functions. -/
structure Sem (α : Type) where
  un : String → Option α → Option α
  bin : String → Option α → Option α → Option α
  call : String → Option α → Option α

/-- `ASTPrinter` (`src/parse/ASTPrinter.cpp:16-53`). -/
def Ex.print {α} : Ex α → String
  | .des (some t) a => t ++ "." ++ a
  | .des none a => a
  | .const t _ => t
  | .aggNil f => f ++ "()"
  | .agg f e => f ++ "(" ++ e.print ++ ")"
  | .call f e => f ++ "(" ++ e.print ++ ")"
  | .un op e => "(" ++ op ++ (if op = "NOT" then " " else "") ++ e.print ++ ")"
  | .bin op l r => "(" ++ l.print ++ " " ++ op ++ " " ++ r.print ++ ")"

/-- `Schema::Identifier(const ast::Expr&)` (`src/catalog/Schema.cpp:14-26`). -/
def exprId {α} (e : Ex α) : Ident :=
  match e with
  | .des t a => ⟨t, a⟩
  | e => ⟨none, e.print⟩

/-- An item of the SELECT list with its optional alias and its type
(`QueryGraph::projection_type`, `include/mutable/IR/QueryGraph.hpp`). -/
structure Item (α : Type) where
  e : Ex α
  as_ : Option String
  ty : Ty
deriving DecidableEq, Repr

/-- The name the projection gives the column: the alias, else the name of the designator, else one
common name for all constants, else the printed expression (`src/IR/Operator.cpp:224-252`). -/
def projId {α} (it : Item α) : Ident :=
  match it.as_ with
  | some a => ⟨none, a⟩
  | none =>
    match it.e with
    | .des t a => ⟨t, a⟩
    | .const _ _ => constId
    | e => ⟨none, e.print⟩

/-- The schema of a `ProjectionOperator` (`src/IR/Operator.cpp:224-252`). -/
def projSchema {α} (items : List (Item α)) : Schema := items.map fun it => ⟨projId it, it.ty⟩

/-! ## Rows as environments -/

/-- A row below the projection: names and values (`Environment::exprs_`, `src/backend/WasmUtil.hpp:562-640`;
for the interpreter the schema of the pipeline and a tuple). -/
abbrev Env (α : Type) := List (Ident × Option α)

/-- `Environment::get` (`src/backend/WasmUtil.hpp:676-700`); `none`: "identifier not found". -/
def Env.get {α} (env : Env α) (id : Ident) : Option (Option α) :=
  (env.find? (fun p => p.1 == id)).map (·.2)

/-- `Environment::has` (`src/backend/WasmUtil.hpp:587`). -/
def Env.has {α} (env : Env α) (id : Ident) : Bool := env.any (fun p => p.1 == id)

/-- `Environment::compile`, i.e. `ExprCompiler` (`src/backend/WasmUtil.cpp:1-420`): designators and
aggregates are looked up by name, everything else is computed.  The values computed are the subject of
C48. -/
def evalW {α} (sem : Sem α) (env : Env α) : Ex α → Option (Option α)
  | .des t a => env.get ⟨t, a⟩
  | .const _ v => some v
  | .aggNil f => env.get ⟨none, (Ex.aggNil f : Ex α).print⟩
  | .agg f e => env.get ⟨none, (Ex.agg f e).print⟩
  | .call f e => (evalW sem env e).map (sem.call f)
  | .un op e => (evalW sem env e).map (sem.un op)
  | .bin op l r =>
    match evalW sem env l, evalW sem env r with
    | some a, some b => some (sem.bin op a b)
    | _, _ => none

/-! ## Generated code: the projection -/

/-- The loop of `Projection::execute` over the columns (`src/backend/WasmOperator.cpp:2417-2445`): a
column whose name is taken, or which is a constant, is skipped; a name the environment below already has
is migrated; else the expression is compiled. -/
def wasmProject {α} (sem : Sem α) (old : Env α) : List (Item α) → Env α → Option (Env α)
  | [], new => some new
  | it :: r, new =>
    if new.has (projId it) || projId it == constId then wasmProject sem old r new
    else if old.has (projId it) then
      match old.get (projId it) with
      | some v => wasmProject sem old r (new ++ [(projId it, v)])
      | none => none
    else
      match evalW sem old it.e with
      | some v => wasmProject sem old r (new ++ [(projId it, v)])
      | none => none

/-- The schema of the result set: constants dropped, then deduplicated
(`Callback::execute`, `Print::execute`, `src/backend/WasmOperator.cpp:1186, 1218`). -/
def writeSchema (S : Schema) : Schema := dedup (dropConst S)

/-- The schema the result set is read with: deduplicated, then constants dropped
(`src/backend/V8Engine.cpp:319-320`). -/
def readSchema (S : Schema) : Schema := dropConst (dedup S)

/-- One row of the result set: the values of the environment in the order of the schema
(`Buffer::consume`, `src/backend/WasmUtil.cpp:2916-2924`). -/
def writeRow {α} (S : Schema) (env : Env α) : Option (List (Option α)) :=
  S.mapM (fun e => env.get e.id)

/-! ## Generated code: windows of the result set -/

/-- State of the writer: rows in the buffer (its first `size_` slots) and the windows extracted so far. -/
structure WSt (ρ : Type) where
  buf : List ρ
  done : List (List ρ)

/-- One call of the pipeline of `write_result_set` for a finite buffer of `w` slots and a pack of rows:
`single_slot_free`, `Buffer::consume` and the extraction of a full window
(`src/backend/WasmOperator.cpp:750-768`, `src/backend/WasmUtil.cpp:2953-2962`).  `pred` is the value of
the predicate if predication is used (then the pack has one row), else `true`.  The rows are stored
before the predicate is looked at; the predicate decides only whether the size advances. -/
def stepFinite {ρ} (w : Nat) (s : WSt ρ) (pack : List ρ) (pred : Bool) : WSt ρ :=
  if s.buf.length = w - pack.length then
    ⟨[], s.done ++ [s.buf ++ pack]⟩
  else if pred then ⟨s.buf ++ pack, s.done⟩
  else s

/-- One call of the pipeline for an infinite buffer (`src/backend/WasmOperator.cpp:781-788`,
`src/backend/WasmUtil.cpp:2963-2966`). -/
def stepInf {ρ} (s : WSt ρ) (pack : List ρ) (pred : Bool) : WSt ρ :=
  if pred then ⟨s.buf ++ pack, s.done⟩ else s

/-- One call of the pipeline when the result has no columns but constants and the window is finite: a
counter (`src/backend/WasmOperator.cpp:667-684`). -/
def stepCount {ρ} (w : Nat) (s : WSt ρ) (pack : List ρ) (pred : Bool) : WSt ρ :=
  let buf := if pred then s.buf ++ pack else s.buf
  if buf.length = w then ⟨[], s.done ++ [buf]⟩ else ⟨buf, s.done⟩

/-- `write_result_set` (`src/backend/WasmOperator.cpp:641-799`): the windows handed to
`read_result_set`, in order; the last one holds the remaining rows.  `w = 0` means no window size.
`noCols`: the schema of the result set is empty. -/
def writeResultSet {ρ} (noCols : Bool) (w : Nat) (packs : List (List ρ × Bool)) : List (List ρ) :=
  let step : WSt ρ → List ρ × Bool → WSt ρ := fun s p =>
    if w = 0 then stepInf s p.1 p.2
    else if noCols then stepCount w s p.1 p.2
    else stepFinite w s p.1 p.2
  let s := packs.foldl step ⟨[], []⟩
  s.done ++ [s.buf]

/-! ## The host: reading the result set -/

/-- What is printed. -/
inductive Out (α : Type) where
  | sep                                   -- ','
  | item (ty : Ty) (v : Option α)         -- a value printed as a value of type `ty`
  | nl                                    -- end of row
deriving DecidableEq, Repr

/-- Instructions of the stack machine used here (`src/backend/StackMachine.cpp:921-1114`); `load` stands
for the code of `compile_load`, which fills tuple 0 with the next row of the result set. -/
inductive Op (α : Type) where
  | load
  | ldTup (t i : Nat)
  | stTup (t i : Nat) (ty : Ty)
  | pop
  | push (v : Option α)
  | putc
  | print (ty : Ty)
deriving Repr

/-- State of a run of the machine: stack, tuples, the row of the result set to be loaded, output. -/
structure MSt (α : Type) where
  stack : List (Option α)
  tups : Nat → Nat → Option α
  row : List (Option α)
  out : List (Out α)

/-- Assign entry `i` of tuple `t` (`Tuple::set`, `include/mutable/IR/Tuple.hpp:239-262`). -/
def setTup {α} (m : Nat → Nat → Option α) (t i : Nat) (v : Option α) : Nat → Nat → Option α :=
  fun t' i' => if t' = t ∧ i' = i then v else m t' i'

/-- One instruction; `none`: stack underflow (`src/backend/StackMachine.cpp:875-883, 921-1114`,
`emit_St_Tup`, `emit_Print`: `src/backend/StackMachine.cpp:696-731`). -/
def step {α} (s : MSt α) : Op α → Option (MSt α)
  | .load => some { s with tups := fun t i =>
      if t = 0 ∧ i < s.row.length then s.row.getD i none else s.tups t i }
  | .ldTup t i => some { s with stack := s.tups t i :: s.stack }
  | .stTup t i ty =>
    match ty with
    | .null => some { s with tups := setTup s.tups t i none }
    | .prim _ =>
      match s.stack with
      | v :: _ => some { s with tups := setTup s.tups t i v }
      | [] => none
  | .pop =>
    match s.stack with
    | _ :: st => some { s with stack := st }
    | [] => none
  | .push v => some { s with stack := v :: s.stack }
  | .putc => some { s with out := s.out ++ [.sep] }
  | .print ty =>
    match ty with
    | .null => some { s with stack := none :: s.stack, out := s.out ++ [.item .null none] }
    | .prim n =>
      match s.stack with
      | v :: _ => some { s with out := s.out ++ [.item (.prim n) v] }
      | [] => none

/-- A run of a program. -/
def run {α} (s : MSt α) : List (Op α) → Option (MSt α)
  | [] => some s
  | o :: r =>
    match step s o with
    | some s' => run s' r
    | none => none

/-- `Interpreter::eval` of the constant of an item (`projection->projections()[i].first`). -/
def constOf {α} (it : Item α) : Option α :=
  match it.e with
  | .const _ v => v
  | _ => none

/-- `if (old_idx != -1UL) printer.emit_Pop()` (`src/backend/V8Engine.cpp:519-520, 533-534`). -/
def popOld {α} : Option Nat → List (Op α)
  | some _ => [.pop]
  | none => []

/-- The code for one column and the new `old_idx` (`src/backend/V8Engine.cpp:509-531`). -/
def colOps {α} (D : Schema) (old : Option Nat) (it : Item α) : List (Op α) × Option Nat :=
  match it.ty with
  | .null => ([.print .null, .pop], old)
  | .prim n =>
    if projId it = constId then ([.push (constOf it), .print (.prim n), .pop], old)
    else if old = some (idxOf D (projId it)) then ([.print (.prim n)], old)
    else (popOld old ++ [.ldTup 0 (idxOf D (projId it)), .print (.prim n)], some (idxOf D (projId it)))

/-- The printing program of `read_result_set`, generated column by column; `old` is `old_idx`
(`src/backend/V8Engine.cpp:506-534`). -/
def printCols {α} (D : Schema) : Nat → Option Nat → List (Item α) → List (Op α)
  | _, old, [] => popOld old
  | i, old, it :: r =>
    (if i = 0 then [] else [.putc]) ++ (colOps D old it).1 ++ printCols D (i + 1) (colOps D old it).2 r

/-- An empty tuple: all entries NULL (`include/mutable/IR/Tuple.hpp:160-231`). -/
def noTups {α} : Nat → Nat → Option α := fun _ _ => none

/-- The text of a result of constants only (`src/backend/V8Engine.cpp:427-438`, `print_constant`:
`:344-409`). -/
def constText {α} : Nat → List (Item α) → List (Out α)
  | _, [] => []
  | i, it :: r =>
    (if i = 0 then [] else [Out.sep]) ++
      [match it.ty with | .null => .item .null none | .prim n => .item (.prim n) (constOf it)] ++
      constText (i + 1) r

/-- Print all rows of a window with the given program: the tuple is kept from row to row
(`src/backend/V8Engine.cpp:536-540`). -/
def printRows {α} (prog : List (Op α)) : List (List (Option α)) → (Nat → Nat → Option α) →
    Option (List (Out α))
  | [], _ => some []
  | row :: rs, tups =>
    match run ⟨[], tups, row, []⟩ (.load :: prog) with
    | some s => (printRows prog rs s.tups).map (fun o => s.out ++ [.nl] ++ o)
    | none => none

/-- `read_result_set` below a `PrintOperator`, for one window
(`src/backend/V8Engine.cpp:313-338, 411-413, 427-438, 495-540`). -/
def readPrint {α} (items : List (Item α)) (rows : List (List (Option α))) : Option (List (Out α)) :=
  if (readSchema (projSchema items)).length = 0 then
    some (rows.flatMap fun _ => constText 0 items ++ [.nl])
  else printRows (printCols (readSchema (projSchema items)) 0 none items) rows noTups

/-- The constants of a tuple set before the loop (`src/backend/V8Engine.cpp:417-423, 452-460, 470-478`):
entries of other type than NULL whose name is that of constants. -/
def setConsts {α} (t : Nat) : Nat → List (Item α) → (Nat → Nat → Option α) → (Nat → Nat → Option α)
  | _, [], m => m
  | i, it :: r, m =>
    setConsts t (i + 1) r
      (if it.ty ≠ .null ∧ projId it = constId then setTup m t i (constOf it) else m)

/-- The first `n` entries of a tuple, as the callback sees them. -/
def tupRow {α} (m : Nat → Nat → Option α) (t n : Nat) : List (Option α) :=
  (List.range n).map (m t)

/-- The inner loop over the columns of the result: store the loaded value in every column of that name
(`src/backend/V8Engine.cpp:484-490`). -/
def stCols {α} (ent : Entry) : Nat → List (Item α) → List (Op α)
  | _, [] => []
  | j, it :: r =>
    (if projId it = ent.id then [Op.stTup 1 j it.ty] else []) ++ stCols ent (j + 1) r

/-- The outer loop over the columns of the result set (`src/backend/V8Engine.cpp:480-493`). -/
def dupCols {α} (items : List (Item α)) : Nat → Schema → List (Op α)
  | _, [] => []
  | i, ent :: r =>
    (match ent.ty with | .null => [] | .prim _ => [Op.ldTup 0 i]) ++ stCols ent 0 items ++
      (match ent.ty with | .null => [] | .prim _ => [Op.pop]) ++ dupCols items (i + 1) r

/-- Callback without duplicate columns: the rows are loaded straight into the tuple of all columns, which
is cleared after each row (`src/backend/V8Engine.cpp:448-467`). -/
def cbPlain {α} (n : Nat) : List (List (Option α)) → (Nat → Nat → Option α) →
    Option (List (List (Option α)))
  | [], _ => some []
  | row :: rs, tups =>
    match run ⟨[], tups, row, []⟩ [.load] with
    | some s => (cbPlain n rs noTups).map (fun o => tupRow s.tups 0 n :: o)
    | none => none

/-- Callback with duplicate columns (`src/backend/V8Engine.cpp:468-499`). -/
def cbDup {α} (prog : List (Op α)) (n : Nat) : List (List (Option α)) → (Nat → Nat → Option α) →
    Option (List (List (Option α)))
  | [], _ => some []
  | row :: rs, tups =>
    match run ⟨[], tups, row, []⟩ (.load :: prog) with
    | some s => (cbDup prog n rs s.tups).map (fun o => tupRow s.tups 1 n :: o)
    | none => none

/-- `read_result_set` below a `CallbackOperator`, for one window
(`src/backend/V8Engine.cpp:313-338, 411-426, 444-499`). -/
def readCallback {α} (items : List (Item α)) (rows : List (List (Option α))) :
    Option (List (List (Option α))) :=
  let S := projSchema items
  let D := readSchema S
  if D.length = 0 then
    some (rows.map fun _ => tupRow (setConsts 0 0 items noTups) 0 items.length)
  else if S.length = (dedup S).length then
    cbPlain items.length rows (setConsts 0 0 items noTups)
  else
    cbDup (dupCols items 0 D) items.length rows (setConsts 1 0 items noTups)

/-! ## Both ends together -/

/-- The rows of the result set for a pack of input rows. -/
def packRows {α} (sem : Sem α) (items : List (Item α)) (envs : List (Env α)) :
    Option (List (List (Option α))) :=
  envs.mapM fun env => (wasmProject sem env items []).bind (writeRow (writeSchema (projSchema items)))

/-- The windows the generated code produces for the packs of rows reaching the projection. -/
def wasmWindows {α} (sem : Sem α) (items : List (Item α)) (w : Nat) (packs : List (List (Env α) × Bool)) :
    Option (List (List (List (Option α)))) :=
  (packs.mapM fun p => (packRows sem items p.1).map (fun rs => (rs, p.2))).map
    (writeResultSet ((writeSchema (projSchema items)).length = 0) w)

/-- Generated code below a `PrintOperator`: everything printed. -/
def wasmPrint {α} (sem : Sem α) (items : List (Item α)) (w : Nat) (packs : List (List (Env α) × Bool)) :
    Option (List (Out α)) :=
  (wasmWindows sem items w packs).bind fun ws => (ws.mapM (readPrint items)).map List.flatten

/-- Generated code below a `CallbackOperator`: the tuples handed to the callback. -/
def wasmCallback {α} (sem : Sem α) (items : List (Item α)) (w : Nat)
    (packs : List (List (Env α) × Bool)) : Option (List (List (Option α))) :=
  (wasmWindows sem items w packs).bind fun ws => (ws.mapM (readCallback items)).map List.flatten

/-! ## The interpreter -/

/-- `Schema::find` in the interpreter: a name found twice throws (`none`)
(`include/mutable/catalog/Schema.hpp:127-135`). -/
inductive Look (α : Type) where
  | missing
  | found (v : Option α)
  | ambiguous

/-- Look a name up in the schema and the tuple of the pipeline (`include/mutable/catalog/Schema.hpp:127-135`). -/
def lookI {α} (env : Env α) (id : Ident) : Look α :=
  match env.filter (fun p => p.1 == id) with
  | [] => .missing
  | [p] => .found p.2
  | _ => .ambiguous

/-- A name that must be found: `find_id` (`src/backend/StackMachine.cpp:60-69`). -/
def getI {α} (env : Env α) (id : Ident) : Option (Option α) :=
  match lookI env id with
  | .found v => some v
  | _ => none

/-- `StackMachineBuilder` (`src/backend/StackMachine.cpp:86-520`): as `evalW`, by structure; the values
computed are the subject of C34. -/
def evalB {α} (sem : Sem α) (env : Env α) : Ex α → Option (Option α)
  | .des t a => getI env ⟨t, a⟩
  | .const _ v => some v
  | .aggNil f => getI env ⟨none, (Ex.aggNil f : Ex α).print⟩
  | .agg f e => getI env ⟨none, (Ex.agg f e).print⟩
  | .call f e => (evalB sem env e).map (sem.call f)
  | .un op e => (evalB sem env e).map (sem.un op)
  | .bin op l r =>
    match evalB sem env l, evalB sem env r with
    | some a, some b => some (sem.bin op a b)
    | _, _ => none

/-- `StackMachine::emit(expr, tuple_id)`: an expression the pipeline already has a column for is loaded,
else it is computed (`src/backend/StackMachine.cpp:547-559`). -/
def emitI {α} (sem : Sem α) (env : Env α) (e : Ex α) : Option (Option α) :=
  match lookI env (exprId e) with
  | .found v => some v
  | .missing => evalB sem env e
  | .ambiguous => none

/-- The projection of the interpreter: positional (`src/backend/Interpreter.cpp:596-603, 1141-1158`);
a column of type NULL is stored as NULL (`src/backend/StackMachine.cpp:696-699`). -/
def interpProject {α} (sem : Sem α) (items : List (Item α)) (env : Env α) : Option (List (Option α)) :=
  items.mapM fun it => (emitI sem env it.e).map fun v =>
    match it.ty with | .null => none | .prim _ => v

/-- The printing program of the interpreter (`src/backend/Interpreter.cpp:566-577`). -/
def interpPrintCols {α} : Nat → List (Item α) → List (Op α)
  | _, [] => []
  | i, it :: r =>
    (if i = 0 then [] else [.putc]) ++ [.ldTup 0 i, .print it.ty] ++ interpPrintCols (i + 1) r

/-- The interpreter below a `PrintOperator` (`src/backend/Interpreter.cpp:939-948, 1141-1158`). -/
def interpPrint {α} (sem : Sem α) (items : List (Item α)) : List (Env α) → Option (List (Out α))
  | [] => some []
  | env :: r =>
    match interpProject sem items env with
    | none => none
    | some row =>
      match run ⟨[], noTups, row, []⟩ (.load :: interpPrintCols 0 items) with
      | some s => (interpPrint sem items r).map (fun o => s.out ++ [.nl] ++ o)
      | none => none

/-- The interpreter below a `CallbackOperator` (`src/backend/Interpreter.cpp:933-937`). -/
def interpCallback {α} (sem : Sem α) (items : List (Item α)) (envs : List (Env α)) :
    Option (List (List (Option α))) :=
  envs.mapM (interpProject sem items)

end Mutable.Deliver
