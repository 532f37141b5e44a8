import Verif.Util.Bits
/-!
# Model of `memory::LinearAllocator` (include/mutable/util/memory.hpp:131-158, src/util/memory.cpp:113-199)

The Linux code path.  Simplifications: `ftruncate`, `mmap` and `munmap` succeed; a `Memory` object is identified by
its (offset, size); the virtual address it is mapped to is not modelled (it is chosen by the operating system; the
mapping is shared, so the memory's contents are the file's contents).
-/
namespace Mutable.LinAlloc

/-- The allocator and its memory file. `allocs` is `allocations_`, most recent allocation first (the code only walks it
from `rbegin()`). -/
structure LA where
  pg : Nat
  offset : Nat
  allocs : List Nat
  fileSize : Nat
  file : Nat → Nat

/-- `MSB` (src/util/memory.cpp:145). -/
def MSB : Nat := 2 ^ 63
/-- `mark_for_deallocation` (memory.cpp:149). -/
def mark (o : Nat) : Nat := o ||| MSB
/-- `is_marked_for_deallocation` (memory.cpp:152). -/
def isMarked (o : Nat) : Bool := (o &&& MSB) != 0
/-- `unmarked` (memory.cpp:155): `offset & ~MSB`. -/
def unmarked (o : Nat) : Nat := o &&& (2 ^ 63 - 1)

/-- `Ceil_To_Next_Page` (include/mutable/util/fn.hpp:703), for `n > 0`. -/
def ceilPage (pg n : Nat) : Nat := ((n - 1) ||| (pg - 1)) + 1

/-- `ftruncate`: bytes behind the new end are lost, new bytes are zero. -/
def ftruncate (st : LA) (n : Nat) : LA :=
  { st with fileSize := n, file := fun a => if a < st.fileSize ∧ a < n then st.file a else 0 }

/-- `LinearAllocator()` with the empty file of `Allocator()` (memory.cpp:30-43). -/
def LA.init (pg : Nat) : LA := { pg := pg, offset := 0, allocs := [], fileSize := 0, file := fun _ => 0 }

/-- `allocate` (memory.cpp:117-141): the memory's offset and size, `none` for the empty `Memory()`. -/
def allocate (st : LA) (size : Nat) : LA × Option (Nat × Nat) :=
  if size = 0 then (st, none) else
  let aligned := ceilPage st.pg size
  let st' := ftruncate st (st.offset + aligned)
  ({ st' with allocs := st.offset :: st.allocs, offset := st.offset + aligned }, some (st.offset, aligned))

/-- The `do`-loop of `deallocate` (memory.cpp:179-183): the new size of the file and the remaining allocations. -/
def reclaim (cur : Nat) : List Nat → Nat × List Nat
  | [] => (unmarked cur, [])
  | y :: t => if isMarked y then reclaim y t else (unmarked cur, y :: t)

/-- `std::find` from the back and marking (memory.cpp:166-174); `none` if the offset is not found. -/
def markIn (o : Nat) : List Nat → Option (List Nat)
  | [] => none
  | x :: t => if x = o then some (mark o :: t) else (markIn o t).map (x :: ·)

/-- `deallocate` (memory.cpp:160-199); `none` is the exception for an unknown or already deallocated offset. -/
def deallocate (st : LA) (o : Nat) : Option LA :=
  match st.allocs with
  | [] => none
  | x :: t =>
    if x = o then
      let r := reclaim (mark o) t
      let st' := ftruncate st r.1
      some { st' with offset := r.1, allocs := r.2 }
    else (markIn o t).map fun t' => { st with allocs := x :: t' }

end Mutable.LinAlloc
