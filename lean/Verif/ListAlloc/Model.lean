import Mathlib.Data.Set.Basic
import Mathlib.Order.BooleanAlgebra.Set
import Mathlib.Order.Interval.Set.Basic
import Mathlib.Data.List.Basic

/-!
# Model of `list_allocator` (include/mutable/util/list_allocator.hpp)

The memory is modelled by its aligned 8 byte words.  A header of a free chunk at address `h`
is the pair of words at `h` (the XOR link of `doubly_linked_list`, see C23) and at `h + 8`
(the chunk's size with the deallocation mark).  The size of a chunk in use lies in the word behind the client's data.

Simplifications:
* the list of free chunks, `chunks_`, is the sequence of the addresses of its nodes (that `doubly_linked_list` behaves as a
  sequence is C23); its elements' values are read from and written to memory.  The link words at `h` are not computed;
  instead the history below lets them change arbitrarily at any time;
* `mmap` succeeds (its failure throws before any state has changed);
* 64 bit arithmetic wraps around only where it is written `add64`/`mul64`.
-/
namespace Mutable.ListAlloc

/-- A `size_type` word holding a chunk size: the low 63 bits and the deallocation mark
(`DEALLOCATION_BIT_MASK`, `extract_size`, `is_marked_for_deallocation`, `preserve_deallocation`;
list_allocator.hpp:103, 293-299). -/
@[ext] structure Word where
  size : Nat
  marked : Bool
deriving DecidableEq

def add64 (a b : Nat) : Nat := (a + b) % 2 ^ 64
def mul64 (a b : Nat) : Nat := (a * b) % 2 ^ 64

/-- `ceil_to_multiple_of_pow_2` (include/mutable/util/fn.hpp:168-178), here as arithmetic; that the bit trick of the code
computes this is C31. -/
def ceilMul (n m : Nat) : Nat := (n + m - 1) / m * m

/-- `sizeof(header_type)` is 16, `sizeof(size_type)` and both alignments are 8; `pg` is the page size. -/
structure St where
  pg : Nat
  minSize : Nat
  expo : Bool
  free : List Nat
  mem : Nat → Word
  /-- The addresses mapped into the process (state of the operating system). -/
  mapped : Set Nat

/-- Writing a word. -/
def setW (mem : Nat → Word) (a : Nat) (w : Word) : Nat → Word := fun b => if b = a then w else mem b

/-- `is_unaligned` (list_allocator.hpp:254-257); the alignment is 0 or a power of two, so the bit test is a remainder. -/
def unaligned (p al : Nat) : Prop := al ≠ 0 ∧ p % al ≠ 0

instance (p al : Nat) : Decidable (unaligned p al) := by unfold unaligned; infer_instance

/-- Address of the size word of a chunk in use, `size_of_used_chunk` (list_allocator.hpp:266-276). -/
def sizeAddr (p size : Nat) : Nat := ceilMul (add64 p size) 8

/-- An iterator into the free list: the elements before it, the element, the elements behind. -/
structure Pos where
  before : List Nat
  cur : Nat
  after : List Nat

/-- The search loop of `allocate` (list_allocator.hpp:179-192). `none`: the assertion fails; `some none`: no chunk fits. -/
def findFit (mem : Nat → Word) (size al : Nat) : List Nat → Option (Option Pos)
  | [] => some none
  | h :: t =>
    if (mem (h + 8)).marked = false ∧ (mem (h + 8)).size ≤ 8 then none
    else if (mem (h + 8)).size - 8 < size ∨ unaligned h al then
      match findFit mem size al t with
      | none => none
      | some none => some none
      | some (some p) => some (some { p with before := h :: p.before })
    else some (some { before := [], cur := h, after := t })

/-- The effect of the `mmap`/`munmap` calls of `aligned_mmap` (list_allocator.hpp:459-491) on the mapped addresses, and
the returned address. `raw` is the address returned by `mmap`. -/
def alignedMmap (pg : Nat) (mapped : Set Nat) (size al : Nat) (raw : Nat) : Option (Set Nat × Nat) :=
  if al % pg ≠ 0 ∨ size % pg ≠ 0 then none
  else if al ≠ pg then
    let ap := ceilMul raw al
    some (((mapped ∪ Set.Ico raw (raw + (size + al))) \ Set.Ico raw ap) \ Set.Ico (ap + size) (ap + size + (al - (ap - raw))),
      ap)
  else
    some (mapped ∪ Set.Ico raw (raw + size), raw)

/-- `insert_chunk_sorted` (list_allocator.hpp:324-328) with `link_chunk` (:316-322): compares the address of the *value* of
the header, `h + 8`, with the chunk's address, and writes the header's value. -/
def insertSorted (mem : Nat → Word) (free : List Nat) (chunk : Nat) (w : Word) : (Nat → Word) × Pos :=
  (setW mem (chunk + 8) w,
    { before := free.takeWhile (fun h => decide (h + 8 < chunk)), cur := chunk,
      after := free.dropWhile (fun h => decide (h + 8 < chunk)) })

/-- Size of the memory requested by `add_fresh_chunk` (list_allocator.hpp:353-357). -/
def freshSize (st : St) (size : Nat) : Nat := ceilMul (max (add64 size 8) st.minSize) st.pg

/-- `add_fresh_chunk` (list_allocator.hpp:346-380). -/
def addFresh (st : St) (size al : Nat) (raw : Nat) : Option (St × Pos) :=
  let ea := max al st.pg
  if ea % st.pg ≠ 0 then none else
  let es := freshSize st size
  match alignedMmap st.pg st.mapped es ea raw with
  | none => none
  | some (mapped, chunk) =>
    if unaligned chunk ea ∨ unaligned chunk al then none else
    let r := insertSorted st.mem st.free chunk ⟨es, true⟩
    some ({ st with mem := r.1, mapped := mapped, free := r.2.before ++ r.2.cur :: r.2.after, minSize := if st.expo then 2 * st.minSize else st.minSize }, r.2)

/-- `split_unused_chunk` (list_allocator.hpp:387-422): new memory, and the iterator to the first chunk. -/
def split (mem : Nat → Word) (p : Pos) (size : Nat) : Option ((Nat → Word) × Pos) :=
  let w := mem (p.cur + 8)
  if w.size < 32 then none else
  let first := ceilMul (max (add64 size 8) 16) 8
  let second := p.cur + first
  let sz2 := w.size - first
  if sz2 % 8 ≠ 0 ∨ sz2 < 16 then none else
  some (setW (setW mem (p.cur + 8) ⟨first, w.marked⟩) (second + 8) ⟨sz2, false⟩, { p with after := second :: p.after })

/-- The part of `allocate` behind the label `found_chunk` (list_allocator.hpp:197-219): split if worthwhile, unlink, write the
size word. -/
def take (st : St) (p : Pos) (size : Nat) : Option (St × Nat) :=
  let eff := (st.mem (p.cur + 8)).size
  if eff < add64 size 8 then none else
  let r : Option ((Nat → Word) × Pos) :=
    if add64 (add64 16 size) 8 ≤ eff ∧ mul64 size 2 ≤ eff - 8 then split st.mem p size else some (st.mem, p)
  match r with
  | none => none
  | some (mem, p) =>
    if (mem (p.cur + 8)).size < add64 size 8 then none else
    some ({ st with free := p.before ++ p.after, mem := setW mem (sizeAddr p.cur size) (mem (p.cur + 8)) }, p.cur)

/-- `allocate` (list_allocator.hpp:172-220). `nullptr` is 0. -/
def allocate (st : St) (size al : Nat) (raw : Nat) : Option (St × Nat) :=
  if size = 0 then some (st, 0) else
  match findFit st.mem size al st.free with
  | none => none
  | some (some p) => take st p size
  | some none =>
    match addFresh st size al raw with
    | none => none
    | some (st', p) => take st' p size

/-- `coalesce` (list_allocator.hpp:427-446) of the chunk `cur` with the first of the chunks `after` it. -/
def coalesce (mem : Nat → Word) (cur : Nat) (after : List Nat) : (Nat → Word) × List Nat :=
  match after with
  | [] => (mem, [])
  | d :: ds =>
    if (mem (d + 8)).marked then (mem, d :: ds)
    else if cur + (mem (cur + 8)).size ≠ d then (mem, d :: ds)
    else (setW mem (cur + 8) ⟨(mem (cur + 8)).size + (mem (d + 8)).size, (mem (cur + 8)).marked⟩, ds)

/-- `reclaim_chunk` (list_allocator.hpp:333-341). -/
def reclaim (st : St) (chunk : Nat) (w : Word) : St :=
  let r := insertSorted st.mem st.free chunk w
  let c := coalesce r.1 r.2.cur r.2.after
  match r.2.before.reverse with
  | [] => { st with mem := c.1, free := r.2.cur :: c.2 }
  | p :: bs =>
    let e := coalesce c.1 p (r.2.cur :: c.2)
    { st with mem := e.1, free := bs.reverse ++ p :: e.2 }

/-- `deallocate` (list_allocator.hpp:222-226). -/
def deallocate (st : St) (p size : Nat) : St :=
  if p = 0 then st else reclaim st p (st.mem (sizeAddr p size))

/-- The constructor (list_allocator.hpp:138-155). -/
def construct (pg : Nat) (expo : Bool) (initial : Nat) (mem : Nat → Word) (F0 : Set Nat) (raw : Nat) : Option St :=
  let st : St := { pg := pg, expo := expo, free := [], mem := mem, mapped := F0, minSize := ceilMul (if initial = 0 then 16 else initial) pg }
  if initial = 0 then some st else (addFresh st 1 0 raw).map (·.1)

/-- The destructor (list_allocator.hpp:157-167). `munmap` unmaps every page that contains a part of the range. -/
def destroy (st : St) : Set Nat :=
  st.free.foldl (fun m h =>
    if (st.mem (h + 8)).marked then m \ Set.Ico h (ceilMul (h + (st.mem (h + 8)).size) st.pg) else m) st.mapped

end Mutable.ListAlloc
