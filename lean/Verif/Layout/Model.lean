/-
Model of the data layouts of mutable: the layout factories
(src/storage/DataLayoutFactory.cpp), the legacy stores (src/storage/{Row,Pax,Column}Store.{cpp,hpp}), the
address computation of the interpreter (src/backend/Interpreter.cpp) and its sequential scan.

All sizes, offsets and strides are in *bits*, as in the code.  Simplification: offsets are natural numbers
(the code uses `uint64_t`, resp. `uint32_t` in the legacy stores; no wrap-around is modelled, except for the one
subtraction that can really wrap, see `paxRows`).
-/
namespace Mutable.Layout

/-- Attribute types.  include/mutable/catalog/Type.hpp:210-450.  `int p` is an integer of `p` bytes, `float p` a
float of `p` bits, `decimal p` a decimal of `p` decimal digits, `char n v` a character sequence. -/
inductive Ty where
  | none | bool | bitmap (n : Nat) | char (n : Nat) (varying : Bool) | date | datetime
  | int (p : Nat) | float (p : Nat) | decimal (p : Nat)
deriving DecidableEq, Repr

/-- Least `k` with `x ≤ 2^k`, by search from `k` with fuel. -/
def clog2From (x : Nat) : Nat → Nat → Nat
  | 0, k => k
  | f + 1, k => if x ≤ 2 ^ k then k else clog2From x f (k + 1)

/-- Least `k` with `x ≤ 2^k`. -/
def clog2 (x : Nat) : Nat := clog2From x x 0

/-- `ceil_to_pow_2`, include/mutable/util/fn.hpp (see also `Verif.Fn.Ints`); on unbounded numbers. -/
def ceilPow2 (x : Nat) : Nat := 2 ^ clog2 x

/-- `Type::size()`, include/mutable/catalog/Type.hpp:218,244,275,314,349,378,433.  For decimals
`ceil(log2(10) * precision)` is computed exactly (the code uses a `float` constant). -/
def Ty.size : Ty → Nat
  | .none => 0
  | .bool => 1
  | .bitmap n => n
  | .char n v => if v then 8 * (n + 1) else 8 * n
  | .date => 32
  | .datetime => 64
  | .int p => 8 * p
  | .float p => p
  | .decimal p => ceilPow2 (clog2 (10 ^ p))

/-- `Type::alignment()`, include/mutable/catalog/Type.hpp:219,245,276,321,350,379,442. -/
def Ty.align : Ty → Nat
  | .none => 1
  | .bool => 1
  | .bitmap _ => 1
  | .char _ _ => 8
  | .date => 32
  | .datetime => 64
  | .int p => 8 * p
  | .float p => p
  | .decimal p => ceilPow2 (clog2 (10 ^ p))

/-- The command line options of src/storage/DataLayoutFactory.cpp:26-35. -/
structure Opts where
  reorder : Bool := true
  removeNull : Bool := false
  oneLess : Bool := false

/-- `types[i]->size()` / `types[i]->alignment()`. -/
def sz (ts : List Ty) (i : Nat) : Nat := (ts.getD i .none).size
def al (ts : List Ty) (i : Nat) : Nat := (ts.getD i .none).align

/-- `compute_attribute_order`, src/storage/DataLayoutFactory.cpp:68-85: the stable sort of the indices by
descending alignment (comparator `align l > align r`). -/
def order (o : Opts) (ts : List Ty) : List Nat :=
  if o.reorder then (List.range ts.length).mergeSort (fun l r => decide (al ts r ≤ al ts l))
  else List.range ts.length

/-- Array update. -/
def upd (f : Nat → Nat) (i v : Nat) : Nat → Nat := fun j => if j = i then v else f j

/-- The loops computing the offsets in a (virtual) row: src/storage/DataLayoutFactory.cpp:98-103 and :147-156.
Returns the final `offset_in_bits` and the array `offsets`. -/
def place (ts : List Ty) : List Nat → Nat → (Nat → Nat) → Nat × (Nat → Nat)
  | [], off, a => (off, a)
  | i :: is, off, a => place ts is (off + sz ts i) (upd a i off)

/-- Running maximum of the alignments, starting at 8 (`alignment_in_bits`), :101 and :153. -/
def maxAlign (ts : List Ty) : List Nat → Nat → Nat
  | [], m => m
  | i :: is, m => maxAlign ts is (max m (al ts i))

/-- `if (rem = x % a; rem) x += a - rem`. -/
def padTo (a x : Nat) : Nat := if x % a ≠ 0 then x + (a - x % a) else x

/-- A leaf of a `DataLayout` as created by `INode::add_leaf`: attribute index (`num attributes` = NULL bitmap),
size of the type, offset and stride inside the inode.  include/mutable/storage/DataLayout.hpp:68-135. -/
structure Leaf where
  idx : Nat
  size : Nat
  off : Nat
  stride : Nat
deriving DecidableEq, Repr

/-- A `DataLayout` made by one of the two factories: the root has one inode with `rows` tuples and stride
`blockStride` (its offset is 0, DataLayout.cpp `DataLayout::add_inode`), and that inode has the leaves.
Simplification: layouts of other depths are not created by the factories and not modelled. -/
structure Layout where
  rows : Nat
  blockStride : Nat
  leaves : List Leaf
deriving Repr

/-- `RowLayoutFactory::make`, src/storage/DataLayoutFactory.cpp:87-130. -/
def rowLayout (o : Opts) (ts : List Ty) : Layout :=
  let ord := order o ts
  let p := place ts ord 0 (fun _ => 0)
  let a := maxAlign ts ord 8
  let n := ts.length
  let full := if o.removeNull then p.1 else p.1 + n
  let attrs := (List.range n).map (fun i => (⟨i, sz ts i, p.2 i, 0⟩ : Leaf))
  ⟨1, padTo a full, if o.removeNull then attrs else attrs ++ [⟨n, n, p.1, 0⟩]⟩

/-- The option of `PAXLayoutFactory`, include/mutable/storage/DataLayoutFactory.hpp. -/
inductive PaxOpt where
  | nTuples (n : Nat)
  | nBytes (n : Nat)

/-- `null_bitmap_size_in_bits`, :159-160. -/
def nullSize (o : Opts) (ts : List Ty) : Nat :=
  if o.removeNull then 0 else max (ceilPow2 ts.length) 8

/-- `num_not_byte_aligned`, :154-155, :162-163. -/
def numNBA (o : Opts) (ts : List Ty) : Nat :=
  ((List.range ts.length).filter (fun i => decide (sz ts i % 8 ≠ 0))).length + (if nullSize o ts % 8 ≠ 0 then 1 else 0)

/-- `min_size_in_bytes`, :143,:152 (for a non-empty list of types). -/
def minBytes (ts : List Ty) : Nat :=
  (List.range ts.length).foldl (fun m i => min m ((sz ts i + 7) / 8)) (2 ^ 64 - 1)

/-- `num_simd_lanes`, :166.  The division by zero of the code (all types of size zero) is `1` here. -/
def lanes (ts : List Ty) : Nat := max 1 (16 / minBytes ts)

/-- Subtraction of `uint64_t`: wraps. -/
def sub64 (x y : Nat) : Nat := if y ≤ x then x - y else x + 2 ^ 64 - y

/-- `if (r > lanes) r = (r / lanes) * lanes`, :170-172 and :180-182. -/
def floorLanes (l r : Nat) : Nat := if r > l then r / l * l else r

/-- `num_rows_per_block`, :168-186. -/
def paxRows (o : Opts) (opt : PaxOpt) (ts : List Ty) : Nat :=
  match opt with
  | .nTuples n => floorLanes (lanes ts) n
  | .nBytes b =>
    let rowSize := (place ts (order o ts) 0 (fun _ => 0)).1 + nullSize o ts
    let r := floorLanes (lanes ts) (max 1 (sub64 (b * 8) (numNBA o ts * 7) / rowSize))
    if o.oneLess ∧ r > 1 then r - 1 else r

/-- `num_blocks_per_row`, :173 and :187. -/
def paxBlocksPerRow (o : Opts) (opt : PaxOpt) (ts : List Ty) : Nat :=
  match opt with
  | .nTuples _ => 1
  | .nBytes b =>
    ((place ts (order o ts) 0 (fun _ => 0)).1 + nullSize o ts + b * 8 - 1) / (b * 8)

/-- The loop turning offsets in a row into offsets in a block, :191-198.  Returns `running_padding` and `offsets`. -/
def spread (ts : List Ty) (rows : Nat) : List Nat → Nat → (Nat → Nat) → Nat × (Nat → Nat)
  | [], pad, a => (pad, a)
  | i :: is, pad, a =>
    let a' := upd a i (a i * rows + pad)
    let b := (sz ts i * rows) % 8
    spread ts rows is (if b ≠ 0 then pad + (8 - b) else pad) a'

/-- Offset of the NULL bitmap column, :199. -/
def paxNullOff (o : Opts) (opt : PaxOpt) (ts : List Ty) : Nat :=
  let ord := order o ts
  let p := place ts ord 0 (fun _ => 0)
  let rows := paxRows o opt ts
  p.1 * rows + (spread ts rows ord 0 p.2).1

/-- `block_size_in_bits`, :202-209. -/
def paxBlockSize (o : Opts) (opt : PaxOpt) (ts : List Ty) : Nat :=
  match opt with
  | .nTuples _ =>
    padTo (maxAlign ts (order o ts) 8) (paxNullOff o opt ts + nullSize o ts * paxRows o opt ts)
  | .nBytes b => b * 8

/-- `PAXLayoutFactory::make`, src/storage/DataLayoutFactory.cpp:132-229. -/
def paxLayout (o : Opts) (opt : PaxOpt) (ts : List Ty) : Layout :=
  let ord := order o ts
  let p := place ts ord 0 (fun _ => 0)
  let rows := paxRows o opt ts
  let q := spread ts rows ord 0 p.2
  let n := ts.length
  let attrs := (List.range n).map (fun i => (⟨i, sz ts i, q.2 i, sz ts i⟩ : Leaf))
  ⟨rows, paxBlocksPerRow o opt ts * paxBlockSize o opt ts,
    if o.removeNull then attrs else attrs ++ [⟨n, n, paxNullOff o opt ts, nullSize o ts⟩]⟩

/-- The assertion of :211-214 ("computed block layout must not exceed block size"). -/
def paxFits (o : Opts) (opt : PaxOpt) (ts : List Ty) : Prop :=
  paxNullOff o opt ts + nullSize o ts * paxRows o opt ts ≤ paxBlockSize o opt ts * paxBlocksPerRow o opt ts

instance (o opt ts) : Decidable (paxFits o opt ts) := inferInstanceAs (Decidable (_ ≤ _))

/-- Address (in bits, relative to the base address) of leaf `f` in row `r`: the computation of
src/backend/Interpreter.cpp:88-104 and :118-150 (`lin_id`, `inner_row_id`, `additional_offset_in_bits`). -/
def Layout.addr (L : Layout) (r : Nat) (f : Leaf) : Nat :=
  r / L.rows * L.blockStride + (f.off + r % L.rows * f.stride)

/-! ### The sequential scan of `compile_data_layout` -/

/-- State of the generated scan code for one leaf: the pointer (bytes), the bit inside that byte (the code stores
`1 << bit` in `mask_id`), and the counter of the inode. -/
structure Scan where
  byte : Nat
  bit : Nat
  ctr : Nat
deriving DecidableEq, Repr

/-- Initial state for starting row `r`, Interpreter.cpp:105-146,:216-226,:341-343,:505. -/
def Scan.start (L : Layout) (f : Leaf) (r : Nat) : Scan :=
  let add := f.off + r % L.rows * f.stride
  ⟨r / L.rows * L.blockStride / 8 + add / 8, add % 8, r % L.rows⟩

/-- The advance after one access: Interpreter.cpp:268-290 (bit stride: shift the mask; when it leaves the byte,
reset it and go to the next byte) and :331-338 (byte stride). -/
def Scan.advance (f : Leaf) (s : Scan) : Scan :=
  if f.stride % 8 ≠ 0 then
    if s.bit + 1 = 8 then { s with bit := 0, byte := s.byte + 1 } else { s with bit := s.bit + 1 }
  else { s with byte := s.byte + f.stride / 8 }

/-- The gap code: Interpreter.cpp:505-510 (increment the counter), :418-497 (stride jump when the counter reaches
`num_tuples`; the mask is reset iff the remaining stride is not a whole number of bytes), :519-531 (reset the
counter). -/
def Scan.gap (L : Layout) (f : Leaf) (s : Scan) : Scan :=
  let c := s.ctr + 1
  if c = L.rows then
    let rem := L.blockStride - L.rows * f.stride
    if rem % 8 ≠ 0 then ⟨s.byte + (rem / 8 + 1), 0, 0⟩ else ⟨s.byte + rem / 8, s.bit, 0⟩
  else { s with ctr := c }

/-- One iteration of the generated code. -/
def Scan.next (L : Layout) (f : Leaf) (s : Scan) : Scan := (s.advance f).gap L f

/-- `k` iterations. -/
def Scan.iter (L : Layout) (f : Leaf) : Nat → Scan → Scan
  | 0, s => s
  | k + 1, s => (Scan.iter L f k s).next L f

/-- State of the scan of a NULL bitmap with a stride: pointer (bytes), adjustable bit offset, counter.  There are two
counters in the code (`counter_id` of Interpreter.cpp:371 and that of the gap code, :505), which are always equal. -/
structure NScan where
  byte : Nat
  adj : Nat
  ctr : Nat
deriving DecidableEq, Repr

/-- Interpreter.cpp:84-87,:105-108. -/
def NScan.start (L : Layout) (f : Leaf) (r : Nat) : NScan :=
  let add := f.off + r % L.rows * f.stride
  ⟨r / L.rows * L.blockStride / 8 + add / 8, add % 8, r % L.rows⟩

/-- One iteration: Interpreter.cpp:357-401 (advance the offset; in the last iteration of a block move whole bytes to
the pointer and reset the offset) and the gap code :418-497. -/
def NScan.next (L : Layout) (f : Leaf) (s : NScan) : NScan :=
  let adj := s.adj + f.stride
  let c := s.ctr + 1
  if c = L.rows then
    let rem := L.blockStride - L.rows * f.stride
    ⟨s.byte + adj / 8 + (if rem % 8 ≠ 0 then rem / 8 + 1 else rem / 8), 0, 0⟩
  else ⟨s.byte, adj, c⟩

/-- `k` iterations. -/
def NScan.iter (L : Layout) (f : Leaf) : Nat → NScan → NScan
  | 0, s => s
  | k + 1, s => (NScan.iter L f k s).next L f

/-! ### The legacy stores -/

/-- `RowStore::compute_offsets`, src/storage/RowStore.cpp:31-64: offsets, offset of the NULL bitmap, row size. -/
def rowStore (ts : List Ty) : (Nat → Nat) × Nat × Nat :=
  let ord := order {} ts
  let p := place ts ord 0 (fun _ => 0)
  (p.2, p.1, padTo (maxAlign ts ord 8) (p.1 + ts.length))

/-- `RowStore` constructor: `capacity_ = ALLOCATION_SIZE / (row_size_ / 8)`, RowStore.cpp:20. -/
def rowCapacity (alloc : Nat) (ts : List Ty) : Nat := alloc / ((rowStore ts).2.2 / 8)

/-- `num_rows_per_block_` of `PaxStore::compute_block_offsets`, src/storage/PaxStore.cpp:63-67 (`uint32_t`
`block_size_ * 8` minus `size_t`: no wrap-around modelled beyond that of 64 bits). -/
def paxStoreRows (blockBytes : Nat) (ts : List Ty) : Nat :=
  sub64 (blockBytes * 8) (((List.range ts.length).filter (fun i => decide (sz ts i % 8 ≠ 0))).length * 7)
    / ((place ts (order {} ts) 0 (fun _ => 0)).1 + ts.length)

/-- `capacity_`, PaxStore.cpp:91. -/
def paxStoreCapacity (alloc blockBytes : Nat) (ts : List Ty) : Nat :=
  alloc / blockBytes * paxStoreRows blockBytes ts

/-- `ColumnStore` constructor, src/storage/ColumnStore.cpp:14-31. -/
def columnCapacity (alloc : Nat) (ts : List Ty) : Nat :=
  let m := (List.range ts.length).foldl (fun m i => max m (sz ts i)) 0
  alloc * 8 / max m ((ts.length + 7) / 8 * 8)

/-- `ColumnStore::memory(attr_id)`, ColumnStore.hpp:49-54, in bits; attribute `i` of row `r` lies at stride
`size(i)`, the NULL bitmap column (`i = n`) has the padded stride. -/
def columnAddr (alloc : Nat) (ts : List Ty) (i r : Nat) : Nat :=
  alloc * 8 * i + r * (if i = ts.length then (ts.length + 7) / 8 * 8 else sz ts i)

end Mutable.Layout
