import Verif.WasmLayout.SimdModel
/-
Model of the buffers of compiled queries: `Buffer` (src/backend/WasmUtil.hpp:1050-1180, WasmUtil.cpp:2492-2966), point stores
(`compile_store_point_access`, WasmUtil.cpp:1942-2477) and the swap proxy (WasmUtil.cpp:2973-3090).

Every pipeline breaker of the compiled back end (sorting, nested-loops join, sort-merge join, the result set, soft pipeline
breakers) writes its rows to such a buffer and reads them again.

Simplifications: one SIMD lane.  The pipeline that is resumed is observed through the rows it is given; it does not write to the
buffer's memory.  Addresses are natural numbers (the code: 32 bits), the size of the address space is not checked.  No other code
allocates memory while the buffer is growing (the code asserts this, WasmUtil.cpp:2937).  Pre-allocated memory is taken from the
same counter as memory allocated at run time; for a local finite buffer it is taken when the buffer is created.
-/
namespace Mutable.WLayout

/-! ### Point stores -/

/-- One leaf of a point store, WasmUtil.cpp:2037-2403 (stores).  `ip` is `inode_ptr`. -/
def pstoreLeaf (c : Cfg) (row : Row) (ip : Int) (iter : Option Nat) (f : Leaf) (m : Mem) : Mem :=
  let it := iter.getD 0
  let bitPos := f.off + it * f.stride
  let ptr : Int := ip + byteOff 0 iter f
  if f.idx = c.sch.length then
    if c.needsNull then
      if f.stride % 8 ≠ 0 then
        c.ents.foldl (fun m i => if c.nullable i then
          let o := (bitPos &&& 7) + i
          setbit m (ip + (bitPos >>> 3 : Nat) + (o >>> 3 : Nat)) (row.null i) (1#8 <<< (o &&& 7)) else m) m
      else storeNullStat c row f ptr c.ents m
    else m
  else if f.idx ∈ c.ents then
    if f.stride % 8 ≠ 0 then
      match row.val f.idx with
      | .bit b => setbit m (ip + (bitPos >>> 3 : Nat)) b (1#8 <<< (bitPos &&& 7))
      | _ => m
    else storeStat c row f (ptr + (f.off / 8 : Nat)) m
  else m

/-- One group of a point store, WasmUtil.cpp:1996-2036. -/
def pstoreGroup (c : Cfg) (row : Row) (base : Int) (t : Nat) (g : Group) (m : Mem) : Mem :=
  g.leaves.foldl (fun m f => pstoreLeaf c row (base + (g.ioff / 8 + addInode g.levels t : Nat)) (inodeIter g.levels t) f m) m

/-- `compile_store_point_access`, WasmUtil.cpp:1942-2477: storing a row as tuple `t`. -/
def storePoint (c : Cfg) (lay : Kids) (row : Row) (base : Int) (t : Nat) (m : Mem) : Mem :=
  lay.groups.foldl (fun m g => pstoreGroup c row base t g m) m

/-! ### Swaps -/

/-- The environment after `load(t)`, WasmUtil.hpp:1232-1236, as a row: values, and NULL bits where the layout has them
(WasmUtil.cpp:2405-2437). -/
def loadRow (c : Cfg) (lay : Kids) (m : Mem) (base : Int) (t : Nat) : Row :=
  let e := lay.groups.foldl (fun e g => pointGroup c m base t g e) Env.empty
  ⟨fun i => (e.vals i).getD (.bit false), fun i => hasNull c lay && c.nullable i && (e.nulls i).getD false⟩

/-- Saving a row in variables, strings in separate memory of the size of their type with `strncpy`, WasmUtil.cpp:3003-3027. -/
def saveRow (c : Cfg) (r : Row) : Row :=
  { r with val := fun i =>
      match c.ty i, r.val i with
      | .str n, .str s => if r.null i then .str [] else .str ((cpy n s).takeWhile (· != 0#8))
      | _, v => v }

/-- `buffer_swap_proxy_t::operator()`, WasmUtil.cpp:2978-3042 (and :3044-3090): the first row is saved, the second loaded and stored
at the first position, then the saved row at the second position.  Strings of the second row are loaded as pointers; the model takes
their contents before the store (the store does not change them if the rows are different, and copies them to themselves if not). -/
def swapRows (c : Cfg) (lay : Kids) (base : Int) (i j : Nat) (m : Mem) : Mem :=
  let r1 := saveRow c (loadRow c lay m base i)
  let m1 := storePoint c lay (loadRow c lay m base j) base i m
  storePoint c lay r1 base j m1

/-- Several swaps. -/
def swapAll (c : Cfg) (lay : Kids) (base : Int) (l : List (Nat × Nat)) (m : Mem) : Mem :=
  l.foldl (fun m p => swapRows c lay base p.1 p.2 m) m

/-! ### Buffers -/

/-- A buffer: configuration of its stores, configuration of the loads of the resumed pipeline, layout, `layout.child().num_tuples()`,
`(layout.stride_in_bits() + 7) / 8`, and, for a finite buffer, `layout.num_tuples()`. -/
structure Buf where
  c : Cfg
  ld : Cfg
  lay : Kids
  rows : Nat
  bytes : Nat
  fin : Option Nat

/-- Memory, next free address, global backups, local variables (`st.tid` is `size_`), whether all run-time assertions held, and the
calls of the resumed pipeline: a list of rows per call of `resume_pipeline`. -/
structure BSt where
  mem : Mem
  alloc : Nat
  gBase : Nat
  gSize : Nat
  gCap : Nat
  base : Nat
  cap : Nat
  first : Bool
  st : St
  ok : Bool
  out : List (List (Option (List (Option Cell))))

/-- `align_memory(8)`, WasmDSL.cpp:321-324. -/
def align8 (a : Nat) : Nat := (a + 7) / 8 * 8

/-- Local variables before `inits` is executed: zero. -/
def blank (c : Cfg) (lay : Kids) : List GSt :=
  (init c lay 0 0).gs.map (fun s => { s with
    accs := s.accs.map (fun a => match a with | .dyn f i _ => .dyn f i 0 | a => a)
    vars := ⟨s.vars.slots.map (fun x => { x with ptr := 0, mask := 0 }), s.vars.null.map (fun _ => (0, 0))⟩ })

/-- The size of a finite buffer in bytes, WasmUtil.cpp:2508-2512 and :2617-2621. -/
def Buf.finBytes (b : Buf) (n : Nat) : Nat := (n + b.rows - 1) / b.rows * b.bytes

/-- `Buffer::Buffer`, WasmUtil.cpp:2492-2516. -/
def create (b : Buf) (m : Mem) (alloc : Nat) : BSt :=
  match b.fin with
  | some n => ⟨m, align8 alloc + b.finBytes n, align8 alloc, 0, 0, 0, 0, false, ⟨0, []⟩, true, []⟩
  | none => ⟨m, alloc, 0, 0, 0, 0, 0, false, ⟨0, []⟩, true, []⟩

/-- `Buffer::setup`, WasmUtil.cpp:2581-2638, of a global buffer (a local one is used for one session, it starts with the same
values). -/
def setup (b : Buf) (s : BSt) : BSt :=
  let s := { s with st := ⟨s.gSize, blank b.c b.lay⟩, first := true, cap := s.gCap }
  match b.fin with
  | some _ => { s with base := s.gBase }
  | none =>
    if s.cap = 0 then { s with cap := b.rows, base := align8 s.alloc, alloc := align8 s.alloc + b.bytes }
    else { s with base := s.gBase }

/-- `Buffer::teardown`, WasmUtil.cpp:2640-2675, of a global buffer. -/
def teardown (s : BSt) : BSt := { s with gBase := s.base, gSize := s.st.tid, gCap := s.cap }

/-- `Buffer::resume_pipeline`, WasmUtil.cpp:2677-2752: a function that loads tuples `0` to `size - 1`.  (If there is nothing to load,
the pipeline is called `size` times, :2725-2731; here it gets rows without columns.) -/
def resume (b : Buf) (base size : Nat) (s : BSt) : BSt := { s with out := s.out ++ [scan b.ld b.lay s.mem base size] }

/-- Growing an infinite buffer, WasmUtil.cpp:2931-2940. -/
def grow (b : Buf) (s : BSt) : BSt :=
  if s.st.tid = s.cap then
    let n := s.cap / b.rows * b.bytes
    { s with alloc := s.alloc + n, ok := s.ok && (s.alloc == s.base + n), cap := s.cap * 2 }
  else s

/-- `Buffer::consume`, WasmUtil.cpp:2908-2966: storing a row; `p` is the predicate (true without predication). -/
def consume (b : Buf) (s : BSt) (r : Row × Bool) : BSt :=
  match b.fin with
  | some n =>
    let st := if s.st.tid = 0 then init b.c b.lay s.base 0 else s.st
    let w := storeGroups b.c r.2 r.1 st.gs s.mem
    if st.tid = n - b.c.lanes then
      let s := resume b s.base n { s with mem := w.2 }
      { s with st := ⟨0, w.1⟩ }
    else { s with mem := w.2, st := jumps b.c r.2 ⟨st.tid, w.1⟩ }
  | none =>
    let s := grow b s
    let st := if s.first then init b.c b.lay s.base s.st.tid else s.st
    let w := storeStep b.c r.2 r.1 st s.mem
    { s with first := false, mem := w.2, st := w.1 }

/-- One execution of the function that contains the producer of the rows, e.g. WasmOperator.hpp:594-602. -/
def session (b : Buf) (s : BSt) (rows : List (Row × Bool)) : BSt := teardown (rows.foldl (consume b) (setup b s))

/-- All executions of the producer, followed by `resume_pipeline`, WasmOperator.hpp:594-603 (global buffers). -/
def runBuffer (b : Buf) (m : Mem) (alloc : Nat) (sessions : List (List (Row × Bool))) : BSt :=
  let s := sessions.foldl (session b) (create b m alloc)
  resume b s.gBase s.gSize s

/-- A local buffer, WasmOperator.hpp:750-760: one session, the pipeline is resumed before `teardown`, which frees the memory
of an infinite buffer if it is the last allocation (WasmUtil.cpp:2648-2655, WasmDSL.cpp:295-300). -/
def runLocal (b : Buf) (m : Mem) (alloc : Nat) (rows : List (Row × Bool)) : BSt :=
  let s := rows.foldl (consume b) (setup b (create b m alloc))
  let s := resume b s.base s.st.tid s
  match b.fin with
  | some _ => s
  | none =>
    let n := s.cap / b.rows * b.bytes
    { s with alloc := if s.base + n = s.alloc then s.alloc - n else s.alloc }

end Mutable.WLayout
