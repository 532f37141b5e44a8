import Verif.StackMachine.Model
import Verif.Layout.Model
import Verif.Layout.Scan

/-!
Model of `INSERT INTO`: semantic analysis (src/parse/Sema.cpp:1815-1882), execution
(src/catalog/DatabaseCommand.cpp:128-187), tuples (include/mutable/IR/Tuple.hpp:176-300, src/IR/Tuple.cpp:77-99), the
stack machine's tuple stores (src/backend/StackMachine.cpp:696-711,:970-1005) and casts (:733-845), and writing to and
scanning a store through a data layout (src/mutable.cpp:444-459, src/backend/Interpreter.cpp:40-560).

Built on the models of the stack machine (`Verif.StackMachine.Model`) and of data layouts (`Verif.Layout.Model`).

Simplifications:
* no floating-point columns (the stack machine model has none);
* the compiled writer and loader are modelled by their effect per tuple (which bits they access, given the scan state
  of `Verif.Layout.Model`), not as opcode sequences; the read-modify-write of a whole byte for a single bit is a write
  of that bit;
* `Tuple::null_mask_` has 64 bits; it is unbounded here, and the theorems ask for at most 64 columns.
-/
namespace Mutable.Ins

open SM Layout

/-- User columns and the two hidden columns a `MultiVersioningTable` adds (src/catalog/Schema.cpp:123-138). -/
inductive Kind where | user | tsBegin | tsEnd
deriving DecidableEq, Repr

/-- An `Attribute` of a table, include/mutable/catalog/Schema.hpp:285-330. -/
structure Col where
  ty : Ty
  scale : Nat := 0
  nullable : Bool := true
  kind : Kind := .user
deriving DecidableEq, Repr

/-- `is_hidden`. -/
def Col.hidden (c : Col) : Bool := c.kind != .user

/-- A column that does not exist. -/
def noCol : Col := ⟨.none, 0, true, .user⟩

/-- The type of a column as the stack machine sees it. -/
def Col.ety (c : Col) : ETy :=
  match c.ty with
  | .int _ => .num false 0
  | .decimal _ => .num true c.scale
  | .bool => .bool
  | .char _ _ => .str
  | .date => .date
  | .datetime => .date
  | _ => .none

/-- The columns that the constructor of `MultiVersioningTable` adds, before any column of the user:
src/catalog/Schema.cpp:123-138. -/
def mvCols : List Col := [⟨.int 8, 0, false, .tsBegin⟩, ⟨.int 8, 0, false, .tsEnd⟩]

/-- One value of a tuple: `NULL`, `DEFAULT` or an expression; `dt` tells `DATETIME` from `DATE`, which `ETy` does not
distinguish.  `InsertStmt::element_type`, include/mutable/parse/AST.hpp. -/
inductive Item where
  | null | dflt | expr (e : E) (dt : Bool)
deriving Repr

/-! ### Semantic analysis -/

/-- The checks of one value, src/parse/Sema.cpp:1844-1876. -/
def valueOK (c : Col) : Item → Bool
  | .null => c.nullable
  | .dflt => true
  | .expr e dt =>
    match e.ty, c.ty with
    | .bool, .bool => true
    | .str, .char _ _ => true
    | .date, .date => !dt
    | .date, .datetime => dt
    | .num _ _, .int _ => true
    | .num _ _, .decimal _ => true
    | _, _ => false

/-- `Sema::operator()(InsertStmt&)` reports no error, src/parse/Sema.cpp:1836-1880: every tuple has a value for every
visible attribute (`tbl->num_attrs()`, `tbl->begin()` skip hidden ones), and every value is acceptable.  An empty tuple
(:1839) only occurs after a syntax error, which has been reported. -/
def accepted (cols : List Col) (tuples : List (List Item)) : Bool :=
  tuples.all fun t =>
    let vis := cols.filter (fun c => !c.hidden)
    !t.isEmpty && (t.length == vis.length && (vis.zip t).all (fun p => valueOK p.1 p.2))

/-! ### Tuples and the machine that fills them -/

/-- The loop of `ConcreteTable::convert_id`, include/mutable/catalog/Schema.hpp:736-740; the first argument is fuel. -/
def convertLoop (cols : List Col) : Nat → Nat → Nat → Nat
  | 0, _, id => id
  | f + 1, i, id =>
    if i ≤ id then convertLoop cols f (i + 1) (if (cols.getD i noCol).hidden then id + 1 else id) else id

/-- `ConcreteTable::convert_id`. -/
def convertId (cols : List Col) (id : Nat) : Nat := convertLoop cols (cols.length + id + 1) 0 id

/-- `Tuple`: values and NULL bits. -/
structure Tup where
  vals : Nat → RVal
  null : Nat → Bool

/-- Update of a function. -/
def put {α : Type} (f : Nat → α) (i : Nat) (v : α) : Nat → α := fun j => if j = i then v else f j

/-- `Tuple::Tuple(const Schema&)`, src/IR/Tuple.cpp:77-99: everything is NULL; a character sequence owns a buffer with
the empty string. -/
def Tup.init (cols : List Col) : Tup :=
  ⟨fun i => match (cols.getD i noCol).ty with | .char _ _ => .s [] | _ => .z, fun _ => true⟩

/-- `Tuple::set(idx, val, is_null)`, include/mutable/IR/Tuple.hpp:248-252. -/
def Tup.set (t : Tup) (i : Nat) (v : RVal) (n : Bool) : Tup := ⟨put t.vals i v, put t.null i n⟩

/-- Opcodes of the machine that fills a tuple: those of expressions, `St_Tup_Null`, `St_Tup_{b,i}` and `St_Tup_s`. -/
inductive IOp where
  | ex (o : Op) | stNull (i : Nat) | st (i : Nat) | stS (i : Nat)

/-- One instruction, src/backend/StackMachine.cpp:970-1005.  The index operand has eight bits. -/
def istep (M : Mach) : IOp → List Slot × Tup → Except Err (List Slot × Tup)
  | .ex o, (S, t) => do
    let S' ← step M o S
    pure (S', t)
  | .stNull i, (S, t) => .ok (S, { t with null := put t.null (i % 256) true })   -- :970-976
  | .st i, (S, t) =>                                                             -- :978-987
    match S with
    | (v, n) :: _ => .ok (S, t.set (i % 256) v n)
    | [] => .error .stack
  | .stS i, (S, t) =>                                                            -- :989-1005
    match S with
    | (len, _) :: (v, n) :: S' =>
      if n then .ok ((v, n) :: S', { t with null := put t.null (i % 256) true })
      else do
        let l ← asI len
        let s ← asS v
        pure ((v, n) :: S', t.set (i % 256) (.s (s.take l.toNat)) false)
    | _ => .error .stack

/-- Running a program. -/
def irun (M : Mach) : List IOp → List Slot × Tup → Except Err (List Slot × Tup)
  | [], s => .ok s
  | o :: os, s => do
    let s' ← istep M o s
    irun M os s'

/-- `StackMachine::emit_Cast`, src/backend/StackMachine.cpp:733-845, for integers, decimals and equal types. -/
def emitCast (c : CS) (to_ from_ : ETy) : CS :=
  match from_, to_ with
  | .num false _, .num false _ => c                                              -- int -> int
  | .num false _, .num true s => (c.load (factor s)).emit .mulI                  -- int -> decimal
  | .num true s, .num false _ => (c.load (factor s)).emit .divI                  -- decimal -> int
  | .num true s, .num true s' =>                                                 -- decimal -> decimal
    if s' = s then c
    else if s' > s then (c.load (factor (s' - s))).emit .mulI
    else (c.load (factor (s - s'))).emit .divI
  | .bool, .num _ _ => c.emit .castIB                                            -- bool -> int
  | _, _ => c

/-- The program under construction and its context. -/
structure ICS where
  ops : List IOp
  ctx : List RVal

/-- The `switch` of `InsertRecords::execute`, src/catalog/DatabaseCommand.cpp:155-172.  Note that `NULL` is stored at
index `i`, not `attr_id` (:160). -/
def emitItem (cols : List Col) (c : ICS) (i : Nat) : Item → ICS
  | .null => ⟨c.ops ++ [.stNull i], c.ctx⟩
  | .dflt => c
  | .expr e _ =>
    let attr := convertId cols i
    let col := cols.getD attr noCol
    let cs := emitCast (compile e ⟨[], c.ctx⟩) col.ety e.ty
    match col.ty with                                                            -- emit_St_Tup, :696-711
    | .char n _ =>
      let cs := cs.load (.i n)
      ⟨c.ops ++ cs.ops.map .ex ++ [.stS attr], cs.ctx⟩
    | _ => ⟨c.ops ++ cs.ops.map .ex ++ [.st attr], cs.ctx⟩

/-- The loop over the values of a tuple, :153-173. -/
def emitItems (cols : List Col) (c : ICS) (i : Nat) : List Item → ICS
  | [] => c
  | it :: its => emitItems cols (emitItem cols c i it) (i + 1) its

/-- What evaluating expressions depends on besides the program. -/
structure Env where
  junk : RVal → Bool
  re : Str → Str → Bool
  like : Str → Str → Bool

def Env.mach (E : Env) (ctx : List RVal) : Mach := ⟨E.junk, ctx, fun _ _ => (.z, true), E.re, E.like⟩

/-- Filling the tuple, :152-175.  The tuple is that of the previous iteration. -/
def fillTuple (E : Env) (cols : List Col) (items : List Item) (t : Tup) : Except Err Tup := do
  let p := emitItems cols ⟨[], []⟩ 0 items
  let r ← irun (E.mach p.ctx) p.ops ([], t)
  pure r.2

/-- Setting the timestamps, :177-183. -/
def setTs (cols : List Col) (start : Int) (t : Tup) : Tup :=
  match cols.findIdx? (fun c => c.kind == .tsBegin) with
  | some b =>
    let t := t.set b (.i start) false
    match cols.findIdx? (fun c => c.kind == .tsEnd) with
    | some e => t.set e (.i (-1)) false
    | none => t
  | none => t

/-! ### Values in memory -/

/-- The `n` low bits of a number, least significant first. -/
def bitsN : Nat → Nat → List Bool
  | 0, _ => []
  | n + 1, x => decide (x % 2 = 1) :: bitsN n (x / 2)

/-- The number with these bits. -/
def ofBits : List Bool → Nat
  | [] => 0
  | b :: bs => (if b then 1 else 0) + 2 * ofBits bs

/-- An integer in two's complement, `n` bits, little endian: `*(intN_t*)ptr = val`. -/
def encInt (n : Nat) (v : Int) : List Bool := bitsN n (v % 2 ^ n).toNat

/-- Reading it, sign-extended. -/
def decInt (n : Nat) (bs : List Bool) : Int :=
  let x : Int := ofBits bs
  if 2 * x < 2 ^ n then x else x - 2 ^ n

/-- `strncpy(dst, str, len)`: the bytes of the string, cut off or padded with NUL bytes. -/
def encStr : Nat → Str → List Bool
  | 0, _ => []
  | n + 1, [] => bitsN 8 0 ++ encStr n []
  | n + 1, b :: s => bitsN 8 b ++ encStr n s

/-- `strncpy(p_mem, ptr, len); p_mem[len] = 0`, src/backend/StackMachine.cpp:1137-1146. -/
def decStr : Nat → List Bool → Str
  | 0, _ => []
  | n + 1, bs => if ofBits (bs.take 8) = 0 then [] else ofBits (bs.take 8) :: decStr n (bs.drop 8)

/-- `emit_St`, src/backend/StackMachine.cpp:653-694, resp. `St_b`: the bits written for a value. -/
def enc (t : Ty) (v : RVal) : List Bool :=
  match t, v with
  | .bool, .b x => [x]
  | .int p, .i z => encInt (8 * p) z
  | .decimal p, .i z => encInt (Ty.decimal p).size z
  | .date, .i z => encInt 32 z
  | .datetime, .i z => encInt 64 z
  | .char n var, .s s => encStr (if var then n + 1 else n) s
  | t, _ => List.replicate t.size false

/-- `emit_Ld`, :620-651, resp. `Ld_b`. -/
def dec (t : Ty) (bs : List Bool) : RVal :=
  match t with
  | .bool => .b (bs.headD false)
  | .int p => .i (decInt (8 * p) bs)
  | .decimal p => .i (decInt (Ty.decimal p).size bs)
  | .date => .i (decInt 32 bs)
  | .datetime => .i (decInt 64 bs)
  | .char n _ => .s (decStr n bs)
  | _ => .z

/-! ### Writing and scanning the store -/

/-- A table: its columns and the data layout of its store. -/
structure Table where
  cols : List Col
  L : Layout

/-- A store: memory, number of rows, capacity. -/
structure Store where
  mem : Mem
  rows : Nat
  cap : Nat

/-- The NULL bitmap in the layout, src/backend/Interpreter.cpp:73-104. -/
def Table.nullLeaf (T : Table) : Option Leaf := T.L.leaves.find? (fun f => f.idx == T.cols.length)

/-- State of a compiled writer or loader: the scan state of every leaf, and that of the NULL bitmap if it has a stride. -/
structure Cursor where
  sc : Leaf → Scan
  ns : NScan

/-- `compile_store` / `compile_load` for row `r`. -/
def Cursor.start (T : Table) (r : Nat) : Cursor :=
  ⟨fun f => Scan.start T.L f r,
    match T.nullLeaf with | some f => NScan.start T.L f r | none => ⟨0, 0, 0⟩⟩

/-- The state after running the code once. -/
def Cursor.next (T : Table) (w : Cursor) : Cursor :=
  ⟨fun f => (w.sc f).next T.L f, match T.nullLeaf with | some f => w.ns.next T.L f | none => w.ns⟩

/-- Where the leaf is accessed (bits). -/
def Cursor.pos (w : Cursor) (f : Leaf) : Nat := (w.sc f).byte * 8 + (w.sc f).bit

/-- Where the NULL bitmap starts: with a fixed offset if it has no stride (src/backend/Interpreter.cpp:135-160), else with
an adjustable offset (:161-225). -/
def Cursor.nullPos (T : Table) (w : Cursor) : Option Nat :=
  match T.nullLeaf with
  | some f => some (if f.stride = 0 then w.pos f else w.ns.byte * 8 + w.ns.adj)
  | none => none

/-- The code for one attribute when storing, src/backend/Interpreter.cpp:130-338: the NULL bit if the attribute is
nullable and there is a NULL bitmap; the value unless it is NULL (`STORE`, `St_s`, `St_b`:
src/backend/StackMachine.cpp:1161-1203). -/
def storeAttr (T : Table) (w : Cursor) (t : Tup) (m : Mem) (f : Leaf) : Mem :=
  let col := T.cols.getD f.idx noCol
  let m :=
    if col.nullable then
      match w.nullPos T with
      | some a => m.write (a + f.idx) [t.null f.idx]
      | none => m
    else m
  if t.null f.idx then m else m.write (w.pos f) (enc col.ty (t.vals f.idx))

/-- The leaves of attributes. -/
def Table.attrs (T : Table) : List Leaf := T.L.leaves.filter (fun f => f.idx != T.cols.length)

/-- One run of the compiled writer. -/
def storeRow (T : Table) (w : Cursor) (t : Tup) (m : Mem) : Mem := T.attrs.foldl (storeAttr T w t) m

/-- The code for one attribute when loading, src/backend/Interpreter.cpp:130-338. -/
def loadAttr (T : Table) (w : Cursor) (m : Mem) (f : Leaf) : Option RVal :=
  let col := T.cols.getD f.idx noCol
  let isNull := col.nullable && (match w.nullPos T with | some a => m (a + f.idx) | none => false)
  if isNull then none else some (dec col.ty (m.read (w.pos f) f.size))

/-- One run of the compiled loader: the value of every column. -/
def loadRow (T : Table) (w : Cursor) (m : Mem) : List (Option RVal) :=
  (List.range T.cols.length).map fun i =>
    match T.attrs.find? (fun f => f.idx == i) with
    | some f => loadAttr T w m f
    | none => none

/-- The state after `k` runs. -/
def Cursor.iter (T : Table) : Nat → Cursor → Cursor
  | 0, w => w
  | k + 1, w => (Cursor.iter T k w).next T

/-- A full scan of the table: the loader is compiled for row 0 and run once per row
(src/backend/Interpreter.cpp, `Pipeline::operator()(const ScanOperator&)`). -/
def scanTable (T : Table) (st : Store) : List (List (Option RVal)) :=
  (List.range st.rows).map fun k => loadRow T (Cursor.iter T k (Cursor.start T 0)) st.mem

/-- What stops an `INSERT`: the machine (undefined behaviour), or the store's capacity (an exception,
src/storage/RowStore.hpp:42-46). -/
inductive Fault where | machine (e : Err) | capacity
deriving DecidableEq, Repr

/-- `StoreWriter::append`, src/mutable.cpp:448-459: the writer is compiled for the last row when the first tuple is
appended, and then only advances. -/
def append (T : Table) (st : Store) (w : Option Cursor) (t : Tup) : Option (Store × Cursor) :=
  if st.rows = st.cap then none
  else
    let rows := st.rows + 1
    let w := match w with | some w => w | none => Cursor.start T (rows - 1)
    some (⟨storeRow T w t st.mem, rows, st.cap⟩, w.next T)

/-- The loop over the tuples, src/catalog/DatabaseCommand.cpp:151-186. -/
def insertLoop (E : Env) (T : Table) (start : Int) (st : Store) (w : Option Cursor) (t : Tup) :
    List (List Item) → Store × Option Fault
  | [] => (st, none)
  | its :: rest =>
    match fillTuple E T.cols its t with
    | .error e => (st, some (.machine e))
    | .ok t =>
      let t := setTs T.cols start t
      match append T st w t with
      | none => (st, some .capacity)
      | some (st, w) => insertLoop E T start st (some w) t rest

/-- An `INSERT` statement: rejected by the semantic analysis, or executed (`InsertRecords::execute`). -/
def insert (E : Env) (T : Table) (start : Int) (st : Store) (tuples : List (List Item)) : Store × Option Fault :=
  if accepted T.cols tuples then insertLoop E T start st none (Tup.init T.cols) tuples else (st, none)

end Mutable.Ins
