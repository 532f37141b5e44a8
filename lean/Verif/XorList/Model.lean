import Mathlib.Data.List.Basic
import Mathlib.Data.List.Nodup
import Mathlib.Data.Nat.Bitwise
import Mathlib.Logic.Relation

/-!
# Model of `doubly_linked_list` (include/mutable/util/ADT.hpp:379-645)

The list stores, in every node, one word holding the exclusive or of the addresses of its two
neighbours.  The model is at the level of addresses: the heap is a partial function from addresses
to nodes, and an access to an address that is not allocated is an error (`none`).

Simplifications: addresses and the XOR word are natural numbers (`std::uintptr_t` is wide enough to
hold every address, and XOR of 64 bit words is a 64 bit word); the element type has no side effects in
copy/move/destruction; the heap holds only the nodes of the one list (an address owned by another
list is one that the allocator does not return, so it is simply never passed to `emplace`).
-/
namespace Mutable.XorList

universe u

/-- `struct node_type { std::uintptr_t ptrxor_; T value_; }` (ADT.hpp:393-397). -/
structure Node (T : Type u) where
  ptrxor : Nat
  value : T

/-- The memory owned by the list: `none` where nothing is allocated. -/
abbrev Heap (T : Type u) := Nat → Option (Node T)

/-- The data members `head_`, `tail_`, `size_` (ADT.hpp:403-408) and the heap. `nullptr` is `0`. -/
structure DLL (T : Type u) where
  heap : Heap T
  head : Nat
  tail : Nat
  size : Nat

/-- `struct the_iterator { node_type *node_; std::uintptr_t prev_; }` (ADT.hpp:410-426). -/
@[ext] structure It where
  node : Nat
  prev : Nat
deriving DecidableEq

variable {T : Type u}

/-- Default constructor (ADT.hpp:473): an empty list. -/
def DLL.empty : DLL T := { heap := fun _ => none, head := 0, tail := 0, size := 0 }

/-- Storing a node. -/
def Heap.set (h : Heap T) (a : Nat) (n : Option (Node T)) : Heap T :=
  fun b => if b = a then n else h b

/-- `p->ptrxor_ ^= d`; an error if `p` is not allocated. -/
def Heap.xorAt (h : Heap T) (p d : Nat) : Option (Heap T) :=
  match h p with
  | none => none
  | some n => some (h.set p (some { n with ptrxor := n.ptrxor ^^^ d }))

/-- `if (p) p->ptrxor_ ^= d`. -/
def Heap.xorIf (h : Heap T) (p d : Nat) : Option (Heap T) := if p ≠ 0 then h.xorAt p d else some h

namespace DLL

/-- `operator++()` (ADT.hpp:428-434). -/
def next (L : DLL T) (it : It) : Option It :=
  match L.heap it.node with
  | none => none
  | some n => some { node := it.prev ^^^ n.ptrxor, prev := it.node }

/-- `operator--()` (ADT.hpp:438-444). -/
def pred (L : DLL T) (it : It) : Option It :=
  match L.heap it.prev with
  | none => none
  | some n => some { node := it.prev, prev := n.ptrxor ^^^ it.node }

/-- `operator*()` (ADT.hpp:448). -/
def deref (L : DLL T) (it : It) : Option T := (L.heap it.node).map Node.value

/-- `begin()` (ADT.hpp:508). -/
def begin (L : DLL T) : It := { node := L.head, prev := 0 }
/-- `end()` (ADT.hpp:509). -/
def end' (L : DLL T) : It := { node := 0, prev := L.tail }
/-- `rbegin()` (ADT.hpp:515). -/
def rbegin (L : DLL T) : It := { node := L.tail, prev := 0 }
/-- `rend()` (ADT.hpp:516). -/
def rend (L : DLL T) : It := { node := 0, prev := L.head }

/-- `front()` (ADT.hpp:502). -/
def front (L : DLL T) : Option T := (L.heap L.head).map Node.value
/-- `back()` (ADT.hpp:504). -/
def back (L : DLL T) : Option T := (L.heap L.tail).map Node.value

/-- `emplace(pos, value)` (ADT.hpp:529-549); `a` is the address returned by `allocate_node()`. -/
def emplace (L : DLL T) (pos : It) (a : Nat) (v : T) : Option (DLL T × It) := do
  let h0 := L.heap.set a (some { ptrxor := pos.prev ^^^ pos.node, value := v })
  let h1 ← h0.xorIf pos.prev (pos.node ^^^ a)
  let head := if pos.prev ≠ 0 then L.head else a
  let h2 ← h1.xorIf pos.node (pos.prev ^^^ a)
  let tail := if pos.node ≠ 0 then L.tail else a
  some ({ heap := h2, head := head, tail := tail, size := L.size + 1 }, { node := a, prev := pos.prev })

/-- `erase(pos)` (ADT.hpp:590-607). -/
def erase (L : DLL T) (pos : It) : Option (DLL T × It) := do
  let n ← L.heap pos.node
  let next := n.ptrxor ^^^ pos.prev
  let h1 ← L.heap.xorIf pos.prev (pos.node ^^^ next)
  let head := if pos.prev ≠ 0 then L.head else next
  let h2 ← h1.xorIf next (pos.node ^^^ pos.prev)
  let tail := if next ≠ 0 then L.tail else pos.prev
  let h3 := h2.set pos.node none
  some ({ heap := h3, head := head, tail := tail, size := L.size - 1 }, { node := next, prev := pos.prev })

/-- `reverse()` (ADT.hpp:630): swap head and tail. -/
def reverse (L : DLL T) : DLL T := { L with head := L.tail, tail := L.head }

/-- `pop_front()` (ADT.hpp:618-625): the value, and the list without its first node. The three
assertions are errors. -/
def popFront (L : DLL T) : Option (DLL T × T) := do
  if L.head = 0 ∨ L.tail = 0 ∨ L.size = 0 then none else
  let v ← L.front
  let r ← L.erase L.begin
  some (r.1, v)

/-- `pop_back()` (ADT.hpp:611-616). -/
def popBack (L : DLL T) : Option (DLL T × T) := do
  let r ← L.reverse.popFront
  some (r.1.reverse, r.2)

/-- `clear()` (ADT.hpp:627) : `while (head_) pop_front(); M_insist(size_ == 0)`, run for at most `fuel`
rounds; `none` stands for an error or for exhausted fuel. -/
def clear (L : DLL T) : Nat → Option (DLL T)
  | 0 => none
  | fuel + 1 =>
    if L.head = 0 then (if L.size = 0 then some L else none)
    else match L.popFront with
      | none => none
      | some r => clear r.1 fuel

/-- `insert(pos, count, value)` (ADT.hpp:568-572), one address per new node. -/
def insertN (L : DLL T) (pos : It) (v : T) : List Nat → Option (DLL T × It)
  | [] => some (L, pos)
  | a :: as => match L.emplace pos a v with
    | none => none
    | some r => insertN r.1 r.2 v as

/-- The loop `while (first != last) it = insert(++it, *first++)` of `insert(pos, first, last)`
(ADT.hpp:583). -/
def insertLoop (L : DLL T) (it : It) : List (Nat × T) → Option (DLL T × It)
  | [] => some (L, it)
  | (a, v) :: r => match L.next it with
    | none => none
    | some it' => match L.emplace it' a v with
      | none => none
      | some x => insertLoop x.1 x.2 r

/-- `insert(pos, first, last)` (ADT.hpp:574-586); each value comes with the address of its node. The
range is not a range of the list itself. -/
def insertRange (L : DLL T) (pos : It) : List (Nat × T) → Option (DLL T × It)
  | [] => some (L, pos)
  | (a, v) :: r => match L.emplace pos a v with
    | none => none
    | some x =>
      if x.2 = x.1.end' ∨ x.2.node = 0 then none else
      match insertLoop x.1 x.2 r with
      | none => none
      | some y => some (y.1, x.2)

/-- `it` advanced `k` times with `operator++`. -/
def advance (L : DLL T) (it : It) : Nat → Option It
  | 0 => some it
  | k + 1 => match L.next it with
    | none => none
    | some it' => advance L it' k

/-- The values visited by `for (auto i = it; i != stop; ++i) visit(*i)`: the loop terminates and visits
exactly this list. -/
inductive Visits (L : DLL T) (stop : It) : It → List T → Prop
  | stop : Visits L stop stop []
  | step {it it' v vs} : it ≠ stop → L.deref it = some v → L.next it = some it' →
      Visits L stop it' vs → Visits L stop it (v :: vs)

/-- The values visited by `for (auto i = it; i != stop; ) { --i; visit(*i); }`. -/
inductive VisitsBack (L : DLL T) (stop : It) : It → List T → Prop
  | stop : VisitsBack L stop stop []
  | step {it it' v vs} : it ≠ stop → L.pred it = some it' → L.deref it' = some v →
      VisitsBack L stop it' vs → VisitsBack L stop it (v :: vs)

end DLL
end Mutable.XorList
