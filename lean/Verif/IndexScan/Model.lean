import Verif.Index.Model
import Mathlib.Data.List.Dedup

/-!
Model of index scans: the catalogue of indexes (include/mutable/catalog/Schema.hpp:867-1055), their creation and
invalidation (src/catalog/DatabaseCommand.cpp:128-335, src/storage/Index.cpp:58-148), and the operator `IndexScan` of the
WebAssembly backend (src/backend/WasmOperator.cpp:1010-1118, 1347-2205; callbacks: src/backend/V8Engine.cpp:541-591).

Simplifications:
* indexed columns are Boolean, INT, DECIMAL, DATE or DATETIME: no floating-point and no string keys;
* a row is the list of its raw values (a DECIMAL is a scaled integer), `none` is NULL; how rows are stored is the subject
  of C33 and C49;
* `M_insist` is checked in the debug build (`dbg`), where a violation aborts (`none`), and ignored in the release build;
* allocating the buffer for tuple ids always succeeds; where a key is materialised (inline or in memory) is not modelled.
-/
namespace Mutable.IScan

open Index

/-- Types of columns; sizes in bytes. -/
inductive KTy where
  | bool | int (bytes : Nat) | decimal (bytes scale : Nat) | date | datetime
deriving DecidableEq, Repr

/-- The number of bits of the key type: `resolve_attribute_type`, src/backend/WasmOperator.cpp:2157-2184. -/
def KTy.bits : KTy → Nat
  | .bool => 8
  | .int n => 8 * n
  | .decimal n _ => 8 * n
  | .date => 32
  | .datetime => 64

/-- Digits after the decimal point. -/
def KTy.scale : KTy → Nat
  | .decimal _ s => s
  | _ => 0

abbrev Row := List (Option Int)

/-- Literals. -/
inductive Lit where
  | int (z : Int) | flt (q : ℚ) | bool (b : Bool) | date (d : Int) | datetime (d : Int) | null
deriving DecidableEq

/-- Operands of comparisons: a `Designator`, a `Constant`, a `Constant` behind a sign, anything else (with the attributes
it requires and its value, given the values of attributes). -/
inductive Operand where
  | attr (a : Nat) | lit (l : Lit) | sign (neg : Bool) (l : Lit) | other (req : List Nat) (f : (Nat → Option ℚ) → Option ℚ)

/-- Comparison operators. -/
inductive Rel where | eq | ne | lt | le | gt | ge
deriving DecidableEq, Repr

/-- Predicates. -/
inductive Pred where
  | cmp (r : Rel) (l r : Operand) | other (req : List Nat) (f : (Nat → Option ℚ) → Option Bool)

/-- Formulae in conjunctive normal form: literals are pairs of a flag for negation and a predicate. -/
abbrev Cnf := List (List (Bool × Pred))

/-! ### Required attributes -/

def Operand.req : Operand → List Nat
  | .attr a => [a]
  | .other r _ => r
  | _ => []

def Pred.req : Pred → List Nat
  | .cmp _ l r => l.req ++ r.req
  | .other r _ => r

/-- `Schema::operator|=`, include/mutable/catalog/Schema.hpp:220-226: appends what is missing. -/
def union : List Nat → List Nat → List Nat
  | s, [] => s
  | s, a :: l => union (if a ∈ s then s else s ++ [a]) l

/-- `CNF::get_required`, include/mutable/IR/CNF.hpp:96-102, :140-150. -/
def required (cnf : Cnf) : List Nat := union [] (cnf.flatMap fun C => C.flatMap fun p => p.2.req)

/-! ### The catalogue -/

/-- `IndexMethod`. -/
inductive Method where | array | rmi
deriving DecidableEq, Repr

/-- `index_entry_type`, Schema.hpp:871-888.  `junk` is what follows the array in memory and `predict` is the model of a
`RecursiveModelIndex` (cf. `Verif.Index.Model`). -/
structure Entry where
  name : Nat
  table : Nat
  attr : Nat
  method : Method
  idx : Idx Int
  junk : Int
  predict : Int → Nat
  valid : Bool

/-- A table: types of its columns, its rows, and how many rows its store can hold. -/
structure Table where
  tys : List KTy
  rows : List Row
  cap : Nat

/-- A database: tables and indexes. -/
structure DB where
  tables : Nat → Option Table
  idxs : List Entry

def DB.init : DB := ⟨fun _ => none, []⟩

/-- The test in `has_index` and `get_index`, Schema.hpp:1000-1006, :1033-1039. -/
def Entry.matches (e : Entry) (t a : Nat) (m : Method) : Bool :=
  e.valid && e.table == t && e.attr == a && e.method == m

/-- `Database::has_index(table, attribute, method)`, Schema.hpp:989-1008. -/
def DB.hasIndex (db : DB) (m : Method) (t a : Nat) : Bool := db.idxs.any (·.matches t a m)

/-- `Database::get_index(table, attribute, method)`, Schema.hpp:1022-1041. -/
def DB.getIndex (db : DB) (m : Method) (t a : Nat) : Option Entry := db.idxs.find? (·.matches t a m)

/-- `invalidate_indexes`, Schema.hpp:1046-1053. -/
def DB.invalidate (db : DB) (t : Nat) : DB :=
  { db with idxs := db.idxs.map fun e => if e.table = t then { e with valid := false } else e }

/-- `drop_indexes`, Schema.hpp:965-974. -/
def DB.dropIndexes (db : DB) (t : Nat) : DB := { db with idxs := db.idxs.filter fun e => e.table != t }

/-- `drop_index`, Schema.hpp:954-962. -/
def DB.dropIndex (db : DB) (n : Nat) : DB := { db with idxs := db.idxs.eraseP fun e => e.name == n }

def DB.setTable (db : DB) (t : Nat) (T : Option Table) : DB :=
  { db with tables := fun i => if i = t then T else db.tables i }

/-- `key_type(v)`: reduction to `n` bits, two's complement. -/
def wrap (n : Nat) (z : Int) : Int := z.bmod (2 ^ n)

/-- The callback of `ArrayIndex::bulkload`, src/storage/Index.cpp:110-121: rows whose key is not NULL are added, all rows
are counted. -/
def bulk (bits a : Nat) : List Row → Nat → Idx Int → Idx Int
  | [], _, s => s
  | r :: rs, id, s =>
    bulk bits a rs (id + 1) (match r.getD a none with | some k => s.add (wrap bits k) id | none => s)

/-- Statements that change the database. -/
inductive Stmt where
  | createTable (t : Nat) (tys : List KTy) (cap : Nat)
  | dropTable (t : Nat)
  | insert (t : Nat) (rows : List Row)
  | importDSV (t : Nat) (rows : List Row)
  | createIndex (n t a : Nat) (m : Method)
  | dropIndex (n : Nat)

/-- Appending rows to the store; an exception when it is full. -/
def Table.append (T : Table) (rows : List Row) : Table × Bool :=
  if T.rows.length + rows.length ≤ T.cap then ({ T with rows := T.rows ++ rows }, true)
  else ({ T with rows := T.rows ++ rows.take (T.cap - T.rows.length) }, false)

/-- Execution of a statement.  Creating an index is not deterministic because sorting the entries is not. -/
inductive Step : DB → Stmt → DB → Prop where
  /-- `CreateTable::execute`, src/catalog/DatabaseCommand.cpp:262-280 (existing tables are reported by `Sema`). -/
  | createTable (db t tys cap) : db.tables t = none → Step db (.createTable t tys cap) (db.setTable t (some ⟨tys, [], cap⟩))
  /-- `DropTable::execute`, `Database::drop_table`: Schema.hpp:923-929. -/
  | dropTable (db t) : Step db (.dropTable t) ((db.dropIndexes t).setTable t none)
  /-- `InsertRecords::execute`, src/catalog/DatabaseCommand.cpp:128-187: indexes are invalidated after the last row, hence
  not if an exception is thrown before. -/
  | insert (db t T rows) : db.tables t = some T → Step db (.insert t rows)
      (if (T.append rows).2 then (db.setTable t (some (T.append rows).1)).invalidate t
       else db.setTable t (some (T.append rows).1))
  /-- `ImportDSV::execute`, src/catalog/DatabaseCommand.cpp:199-219: indexes are not invalidated. -/
  | importDSV (db t T rows) : db.tables t = some T → Step db (.importDSV t rows) (db.setTable t (some (T.append rows).1))
  /-- `CreateIndex::execute`, src/catalog/DatabaseCommand.cpp:300-331. -/
  | createIndex (db n t a m T ty idx junk predict) : db.tables t = some T → T.tys[a]? = some ty →
      db.idxs.any (fun e => e.name == n) = false →
      (bulk ty.bits a T.rows 0 Idx.init).Finalize idx →
      Step db (.createIndex n t a m) { db with idxs := db.idxs ++ [⟨n, t, a, m, idx, junk, predict, true⟩] }
  /-- `DropIndex::execute`. -/
  | dropIndex (db n) : Step db (.dropIndex n) (db.dropIndex n)

/-! ### Choosing the index scan -/

/-- `M_insist(c)`. -/
def insist (dbg c : Bool) : Option Unit := if dbg && !c then none else some ()

/-- `is_valid_bound`, src/backend/WasmOperator.cpp:1020-1029. -/
def Operand.isBound : Operand → Bool
  | .lit _ => true
  | .sign _ _ => true
  | _ => false

/-- `is<const Designator>`. -/
def Operand.isAttr : Operand → Bool
  | .attr _ => true
  | _ => false

/-- The loop of `pre_condition`, WasmOperator.cpp:1394-1444; the state is `has_lo_bound`, `has_hi_bound`. -/
def check : Cnf → Bool → Bool → Bool
  | [], _, _ => true
  | C :: cnf, lo, hi =>
    match C with
    | [(neg, p)] =>
      if neg then false
      else
        match p with
        | .other _ _ => false
        | .cmp r lhs rhs =>
          let left := lhs.isAttr
          let att := if left then lhs else rhs
          let constant := if left then rhs else lhs
          if !att.isAttr then false
          else if !constant.isBound then false
          else
            match r with
            | .eq => if !lo && !hi then check cnf true true else false
            | .gt | .ge =>
              if left && !lo then check cnf true hi
              else if !left && !hi then check cnf lo true
              else false
            | .lt | .le =>
              if left && !hi then check cnf lo true
              else if !left && !lo then check cnf true hi
              else false
            | .ne => false
    | _ => false

/-- `IndexScan::pre_condition`, WasmOperator.cpp:1351-1446, for a filter above a scan of table `t` with an alias: may the
operator be used? -/
def preCond (dbg : Bool) (db : DB) (m : Method) (t al : Nat) (cnf : Cnf) : Option Bool := do
  insist dbg (!cnf.isEmpty)
  insist dbg ((required cnf).isEmpty || t == al)
  let ids := (required cnf).filter (db.hasIndex m t)
  if ids.isEmpty then pure false
  else if ids.length > 1 then pure false
  else pure (check cnf false false)

/-! ### Bounds -/

/-- A bound: a constant and whether it is negated (`get_valid_bound`, WasmOperator.cpp:1033-1039). -/
structure Bound where
  lit : Lit
  neg : Bool

def Operand.bound : Operand → Option Bound
  | .lit l => some ⟨l, false⟩
  | .sign n l => some ⟨l, n⟩
  | _ => none

/-- `index_scan_bounds_t`, WasmOperator.cpp:1012-1017. -/
structure Bounds where
  attr : Nat
  lo : Option Bound := none
  hi : Option Bound := none
  incLo : Bool := false
  incHi : Bool := false

/-- The loop of `extract_index_scan_bounds`, WasmOperator.cpp:1053-1113. -/
def extractLoop (dbg : Bool) : Cnf → Bounds → Option Bounds
  | [], b => some b
  | C :: cnf, b => do
    insist dbg (C.length == 1)
    match C with
    | [] => none
    | (_, .other _ _) :: _ => none
    | (_, .cmp r lhs rhs) :: _ =>
      insist dbg ((lhs.isAttr && rhs.isBound) || (rhs.isAttr && lhs.isBound))
      let left := lhs.isAttr
      let c ← (if left then rhs else lhs).bound
      match r with
      | .ne => none
      | .eq =>
        insist dbg (b.lo.isNone && b.hi.isNone)
        extractLoop dbg cnf { b with lo := some c, hi := some c, incLo := true, incHi := true }
      | .gt =>
        if left then do
          insist dbg b.lo.isNone
          extractLoop dbg cnf { b with lo := some c, incLo := false }
        else do
          insist dbg b.hi.isNone
          extractLoop dbg cnf { b with hi := some c, incHi := false }
      | .ge =>
        if left then do
          insist dbg b.lo.isNone
          extractLoop dbg cnf { b with lo := some c, incLo := true }
        else do
          insist dbg b.hi.isNone
          extractLoop dbg cnf { b with hi := some c, incHi := true }
      | .lt =>
        if left then do
          insist dbg b.hi.isNone
          extractLoop dbg cnf { b with hi := some c, incHi := false }
        else do
          insist dbg b.lo.isNone
          extractLoop dbg cnf { b with lo := some c, incLo := false }
      | .le =>
        if left then do
          insist dbg b.hi.isNone
          extractLoop dbg cnf { b with hi := some c, incHi := true }
        else do
          insist dbg b.lo.isNone
          extractLoop dbg cnf { b with lo := some c, incLo := true }

/-- `extract_index_scan_bounds`, WasmOperator.cpp:1044-1116: the attribute is the first one required. -/
def extract (dbg : Bool) (cnf : Cnf) : Option Bounds := do
  insist dbg (!cnf.isEmpty)
  insist dbg ((required cnf).length == 1)
  let a ← (required cnf)[0]?
  let b ← extractLoop dbg cnf { attr := a }
  insist dbg (b.lo.isSome || b.hi.isSome)
  pure b

/-! ### Executing the scan -/

/-- Strategies (command-line options). -/
inductive Strategy where | compilation | interpretation | hybrid
deriving DecidableEq, Repr

/-- How compiled code accesses the index: by callbacks, or in memory. -/
inductive Access where | callback | exposed
deriving DecidableEq, Repr

/-- Configuration: build, strategy, access, batch size, and the bits of a floating-point constant. -/
structure Cfg where
  dbg : Bool
  strategy : Strategy
  access : Access
  batch : Nat
  dbits : ℚ → Int

/-- The key of a bound, e.g. WasmOperator.cpp:1537-1560: `int64_t(c)` reads the eight bytes of the constant; whether it is
an integer is checked with sanity fields (debug build) only; the range is checked before the sign is applied; decimals are
not scaled. -/
def keyOf (cfg : Cfg) (ty : KTy) (b : Bound) : Option Int :=
  match ty with
  | .bool =>
    match b.lit with
    | .bool x => do
      insist cfg.dbg (!b.neg)
      pure (if x then 1 else 0)
    | _ => none
  | ty => do
    let i ← match b.lit with
      | .int z => some z
      | .date d => some d
      | .datetime d => some d
      | .flt q => if cfg.dbg then none else some (cfg.dbits q)
      | _ => none
    insist cfg.dbg (decide (-2 ^ (ty.bits - 1) ≤ i ∧ i < 2 ^ (ty.bits - 1)))
    let k := wrap ty.bits i
    pure (if b.neg then wrap ty.bits (-k) else k)

/-- `index.lower_bound` resp. `index.upper_bound`. -/
def hostSeek (e : Entry) (lower : Bool) (k : Int) : Option Nat :=
  match e.method, lower with
  | .array, true => e.idx.lowerBound e.junk k
  | .array, false => e.idx.upperBound e.junk k
  | .rmi, true => e.idx.rmiLowerBound e.junk e.predict k
  | .rmi, false => e.idx.rmiUpperBound e.junk e.predict k

/-- The compiled binary search, WasmOperator.cpp:1705-1731; the first argument is fuel for the loop. -/
def wasmSearch (p : Nat → Bool) : Nat → Nat → Nat → Option Nat
  | 0, first, count => if count > 0 then none else some first
  | f + 1, first, count =>
    if count > 0 then
      let step := count / 2
      let it := first + step
      if p it then wasmSearch p f (it + 1) (count - (step + 1)) else wasmSearch p f first step
    else some first

/-- Looking up a bound: WasmOperator.cpp:1535-1585 (callback; src/backend/V8Engine.cpp:541-569 returns 32 bits),
:1655-1733 (exposed memory: arrays only), :1793-1820 and :1958-1985 (host). -/
def seek (cfg : Cfg) (e : Entry) (lower : Bool) (k : Int) : Option Nat :=
  match cfg.strategy, cfg.access with
  | .compilation, .callback => do
    let off ← hostSeek e lower k
    insist cfg.dbg (decide (off < 2 ^ 32))
    pure (off % 2 ^ 32)
  | .compilation, .exposed =>
    match e.method with
    | .rmi => none
    | .array =>
      wasmSearch (fun i => if lower then decide (keyAt e.idx.entries e.junk i < k) else decide (keyAt e.idx.entries e.junk i ≤ k))
        e.idx.entries.length 0 e.idx.entries.length
  | _, _ => hostSeek e lower k

/-- 64-bit subtraction. -/
def sub64 (a b : Nat) : Nat := (a + (2 ^ 64 - b)) % 2 ^ 64

/-- `index_sequential_scan`, src/backend/V8Engine.cpp:571-591: the tuple ids of `n` entries. -/
def fetch (es : List (Int × Nat)) (off n : Nat) : Option (List Nat) := (List.range n).mapM fun i => (es[off + i]?).map Prod.snd

/-- The loop of the callback strategy, WasmOperator.cpp:1607-1636, :2052-2083; the first argument is fuel. -/
def batches (es : List (Int × Nat)) (alloc hi : Nat) : Nat → Nat → Option (List Nat)
  | 0, lo => if lo < hi then none else some []
  | f + 1, lo =>
    if lo < hi then do
      let n := if sub64 hi lo > alloc then alloc else sub64 hi lo
      let ids ← fetch es lo n
      let rest ← batches es alloc hi f (lo + n)
      pure (ids ++ rest)
    else some []

/-- The callback strategy: size of the buffer and loop, WasmOperator.cpp:1592-1636. -/
def callbackIds (batch : Nat) (es : List (Int × Nat)) (lo hi : Nat) : Option (List Nat) :=
  let n := sub64 hi lo
  let b := if batch = 0 then n else batch
  let alloc := if b < n then b else n
  batches es alloc hi hi lo

/-- The loop over the entries in memory, WasmOperator.cpp:1753-1772, :2096-2116. -/
def exposedIds (es : List (Int × Nat)) (hi : Nat) : Nat → Nat → Option (List Nat)
  | 0, lo => if lo < hi then none else some []
  | f + 1, lo =>
    if lo < hi then do
      let e ← es[lo]?
      let rest ← exposedIds es hi f (lo + 1)
      pure (e.2 :: rest)
    else some []

/-- The tuple ids.  With `INTERPRETATION` (WasmOperator.cpp:1826-1896) the host iterates until it reaches `hi`, and never
does if `lo > hi`.  The memory of a `RecursiveModelIndex` is not accessible (include/mutable/storage/Index.hpp:236-238). -/
def tupleIds (cfg : Cfg) (e : Entry) (lo hi : Nat) : Option (List Nat) :=
  match cfg.strategy, cfg.access with
  | .interpretation, _ => if lo ≤ hi then fetch e.idx.entries lo (hi - lo) else none
  | _, .callback => callbackIds cfg.batch e.idx.entries lo hi
  | _, .exposed =>
    match e.method with
    | .array => exposedIds e.idx.entries hi hi lo
    | .rmi => none

/-- The beginning of the range, WasmOperator.cpp:1597-1598. -/
def loPos (cfg : Cfg) (ty : KTy) (e : Entry) (b : Bounds) : Option Nat :=
  match b.lo with
  | some x => (keyOf cfg ty x).bind fun k => seek cfg e b.incLo k
  | none => some 0

/-- The end of the range, WasmOperator.cpp:1599-1600. -/
def hiPos (cfg : Cfg) (ty : KTy) (e : Entry) (b : Bounds) : Option Nat :=
  match b.hi with
  | some x => (keyOf cfg ty x).bind fun k => seek cfg e (!b.incHi) k
  | none => some e.idx.entries.length

/-- `IndexScan::execute`, WasmOperator.cpp:1483-2205: the rows it produces. -/
def indexScan (cfg : Cfg) (db : DB) (m : Method) (t : Nat) (cnf : Cnf) : Option (List Row) := do
  let T ← db.tables t
  let b ← extract cfg.dbg cnf
  let ty ← T.tys[b.attr]?
  let e ← db.getIndex m t b.attr
  let lo ← loPos cfg ty e b
  let hi ← hiPos cfg ty e b
  insist cfg.dbg (decide (lo ≤ hi))
  let ids ← tupleIds cfg e lo hi
  ids.mapM fun i => T.rows[i]?

end Mutable.IScan
