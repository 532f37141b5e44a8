import Verif.RWLock.LiveProps
/-! Model of the object pools (include/mutable/util/Pool.hpp): `PODPool`, `Pool`, `StringPool`, their thread-safe
variants, and the handles `Pooled`. -/
namespace Mutable.Pool

/-- One entry of `table_`: the pooled value and its `uint32_t` reference counter.  Pool.hpp:25-26.  The position of an
entry in the model's list stands for the address of the node, which `std::unordered_map` never changes. -/
structure Node (V : Type) where
  val : V
  cnt : Nat

/-- A `Pooled` object: whether its type is the optional one (`CanBeNone`), and `ref_` (`pool_` is null exactly when
`ref_` is).  Pool.hpp:166-191. -/
structure Handle where
  opt : Bool
  ref : Option Nat
  deriving DecidableEq, Repr

/-- The pool and all `Pooled` objects ever constructed; `none` is a destroyed object.  `got` is a ghost recording, for
every call of `operator()` that produced its handle, the argument and the node of the result. -/
structure Core (V : Type) where
  tab : List (Node V) := []
  slots : List (Option Handle) := []
  got : List (V × Nat) := []

/-- `++` on `uint32_t`. -/
def inc32 (c : Nat) : Nat := (c + 1) % 4294967296
/-- `--` on `uint32_t`. -/
def dec32 (c : Nat) : Nat := (c + 4294967295) % 4294967296

namespace Core
variable {V : Type}

/-- Applies `f` to the counter of node `n`. -/
def upd (c : Core V) (n : Nat) (f : Nat → Nat) : Core V :=
  { c with tab := c.tab.modify n fun e => { e with cnt := f e.cnt } }

/-- Stores handle `h` (or destruction) in slot `i`. -/
def put (c : Core V) (i : Nat) (h : Option Handle) : Core V := { c with slots := c.slots.set i h }

/-- A new handle object. -/
def push (c : Core V) (h : Handle) : Core V := { c with slots := c.slots ++ [some h] }

/-- The live handle in slot `i`. -/
def handle (c : Core V) (i : Nat) : Option Handle := (c.slots[i]?).join

/-- `Pooled(Pool*, value_type*)`.  Pool.hpp:194-201; `none` is a failed `M_notnull`. -/
def construct (c : Core V) (opt : Bool) (r : Option Nat) : Option (Core V) :=
  match r with
  | some n => some ((c.upd n inc32).push ⟨opt, some n⟩)
  | none => if opt then some (c.push ⟨opt, none⟩) else none

/-- `Pooled()`, optional handles only.  Pool.hpp:204. -/
def default_ (c : Core V) : Core V := c.push ⟨true, none⟩

/-- Copy construction, also between the optional and the non-optional type, `assert_not_none`, `as` and the implicit
casts.  Pool.hpp:205, 209-211, 220-225, 239-243, 276-290.  `none` is a failed `M_notnull`, `M_insist` or an exception
(`invalid_argument`). -/
def copy (c : Core V) (i : Nat) (opt : Bool) : Option (Core V) :=
  match c.handle i with
  | none => none
  | some h => if h.opt = opt then c.construct opt h.ref else if h.ref.isSome then c.construct opt h.ref else none

/-- Move construction.  Pool.hpp:206, 214-217, 228-235: the reference moves and the source becomes null. -/
def move (c : Core V) (i : Nat) (opt : Bool) : Option (Core V) :=
  match c.handle i with
  | none => none
  | some h =>
    if h.opt = opt ∨ h.ref.isSome then some ((c.put i (some ⟨h.opt, none⟩)).push ⟨opt, h.ref⟩) else none

/-- `swap` of two handles of the same type.  Pool.hpp:181-185. -/
def swap (c : Core V) (i j : Nat) : Option (Core V) :=
  match c.handle i, c.handle j with
  | some a, some b =>
    if a.opt = b.opt then some ((c.put i (some ⟨a.opt, b.ref⟩)).put j (some ⟨b.opt, a.ref⟩)) else none
  | _, _ => none

/-- `~Pooled()`.  Pool.hpp:251-260; `none` is the failed `M_insist` on the counter.  Nothing is ever erased. -/
def destroy (c : Core V) (i : Nat) : Option (Core V) :=
  match c.handle i with
  | none => none
  | some h =>
    match h.ref with
    | none => some (c.put i none)
    | some n =>
      match c.tab[n]? with
      | none => none
      | some e => if e.cnt > 0 then some ((c.upd n dec32).put i none) else none

/-- `operator=(Pooled other)` from an lvalue: copy, swap, destroy the temporary.  Pool.hpp:262. -/
def assign (c : Core V) (i j : Nat) : Option (Core V) :=
  match c.handle i with
  | none => none
  | some h =>
    ((c.copy j h.opt).bind fun c1 => (c1.swap i c.slots.length).bind fun c2 => c2.destroy c.slots.length)

/-- `count()`.  Pool.hpp:249. -/
def count (c : Core V) (i : Nat) : Nat :=
  match c.handle i with
  | some ⟨_, some n⟩ => (c.tab[n]?.map Node.cnt).getD 0
  | _ => 0

/-- `*pooled`.  Pool.hpp:372-378, 421-428; `none` for a null handle. -/
def value (c : Core V) (i : Nat) : Option V :=
  match c.handle i with
  | some ⟨_, some n⟩ => (c.tab[n]?).map Node.val
  | _ => none

/-- `table_.find(u)` with the pool's `KeyEqual`.  Pool.hpp:340, 348, 390, 398. -/
def find (c : Core V) (eq : V → V → Bool) (v : V) : Option Nat := c.tab.findIdx? fun e => eq e.val v

/-- `return proxy_type{this, &*it}`.  Pool.hpp:342, 346, 351, 392, 396, 401. -/
def give (c : Core V) (v : V) (n : Nat) : Core V :=
  { (c.upd n inc32).push ⟨false, some n⟩ with got := c.got ++ [(v, n)] }

/-- `table_.emplace_hint(it, Copy{}(u), 0)`.  Pool.hpp:345, 350, 395, 400. -/
def emplace (c : Core V) (v : V) : Core V := { c with tab := c.tab ++ [⟨v, 0⟩] }

/-- `operator()` of a pool that is not thread-safe.  Pool.hpp:347-352, 397-402. -/
def intern (c : Core V) (eq : V → V → Bool) (v : V) : Core V :=
  match c.find eq v with
  | some n => c.give v n
  | none => (c.emplace v).give v c.tab.length

end Core

/-- Operations on handles, by any thread that owns them. -/
inductive HOp
  | default_ | copy (i : Nat) (opt : Bool) | move (i : Nat) (opt : Bool) | swap (i j : Nat) | assign (i j : Nat)
  | destroy (i : Nat)

/-- `none` when the operation violates its contract. -/
def HOp.run {V : Type} (c : Core V) : HOp → Option (Core V)
  | .default_ => some c.default_
  | .copy i o => c.copy i o
  | .move i o => c.move i o
  | .swap i j => c.swap i j
  | .assign i j => c.assign i j
  | .destroy i => c.destroy i

/-! ### A pool that is not thread-safe -/

/-- Histories of a single-threaded pool. -/
inductive Reach1 {V : Type} (eq : V → V → Bool) : Core V → Prop
  | init : Reach1 eq {}
  | intern {c} (v : V) : Reach1 eq c → Reach1 eq (c.intern eq v)
  | op {c c'} (o : HOp) : Reach1 eq c → o.run c = some c' → Reach1 eq c'

/-! ### A thread-safe pool -/

/-- Where a thread is in `operator()` of a thread-safe pool.  Pool.hpp:335-346, 385-396. -/
inductive Pc (V : Type)
  | out                 -- not in `operator()`
  | finding (v : V)     -- called `lock_read()`, not searched yet
  | missed (v : V)      -- `find` returned `end()`, holding the read lock
  | upgrading (v : V)   -- in or after `upgrade()` of the mutex, which will return true
  | giveUp (v : V)      -- `upgrade()` of the mutex returned false; about to unlock
  | again (v : V)       -- unlocking; about to restart the loop
  | leaving             -- constructed the result, holding a lock
  | unlocking           -- inside the unlock of the destructor of `lock`

/-- The pool, its mutex and the threads. -/
structure State (T V : Type) where
  rw : RW.State T
  core : Core V
  pc : T → Pc V

variable {T V : Type} [DecidableEq T]

/-- Thread `t` is at `p`. -/
def State.at_ (s : State T V) (t : T) (p : Pc V) : State T V := { s with pc := Function.update s.pc t p }

/-- One atomic step of thread `t`.  Steps of the mutex are those of `RW.Step`; the code between them touches the table
under the lock (or handle counters, which are atomic), so it is one step. -/
inductive Step (eq : V → V → Bool) (s : State T V) (t : T) : State T V → Prop
  /-- `lock.lock_read()` of a new call.  :336-339 -/
  | call (v : V) {rw'} : s.pc t = .out → RW.Step s.rw t .lockRead rw' →
      Step eq s t { s with rw := rw', pc := Function.update s.pc t (.finding v) }
  /-- a waiting `lock_read`, `upgrade` or a `notify` runs -/
  | inside {rw'} (a : RW.Act T) : (a = .recheck ∨ a = .spurious ∨ ∃ u, a = .notify u) → RW.Step s.rw t a rw' →
      Step eq s t { s with rw := rw' }
  /-- `find` succeeded; the handle is constructed and returned.  :340-342 -/
  | found {v : V} {n : Nat} : s.pc t = .finding v → s.rw.loc t = .holdR → s.core.find eq v = some n →
      Step eq s t { (s.at_ t .leaving) with core := s.core.give v n }
  /-- `find` failed.  :340-341 -/
  | miss {v : V} : s.pc t = .finding v → s.rw.loc t = .holdR → s.core.find eq v = none →
      Step eq s t (s.at_ t (.missed v))
  /-- `lock.upgrade()` when the mutex grants the request.  :343, reader_writer_lock.hpp:290-294 -/
  | upgrade {v : V} {rw'} : s.pc t = .missed v → s.rw.m.wantsUpgrade = false → RW.Step s.rw t .upgrade rw' →
      Step eq s t { s with rw := rw', pc := Function.update s.pc t (.upgrading v) }
  /-- `lock.upgrade()` when the mutex refuses.  reader_writer_lock.hpp:295 -/
  | refused {v : V} {rw'} : s.pc t = .missed v → s.rw.m.wantsUpgrade = true → RW.Step s.rw t .upgrade rw' →
      Step eq s t { s with rw := rw', pc := Function.update s.pc t (.giveUp v) }
  /-- the unlock after a refused upgrade.  reader_writer_lock.hpp:296 -/
  | giveUp {v : V} {rw'} : s.pc t = .giveUp v → RW.Step s.rw t .unlockRead rw' →
      Step eq s t { s with rw := rw', pc := Function.update s.pc t (.again v) }
  /-- the next iteration: `lock.lock_read()`.  :339 -/
  | retry {v : V} {rw'} : s.pc t = .again v → RW.Step s.rw t .lockRead rw' →
      Step eq s t { s with rw := rw', pc := Function.update s.pc t (.finding v) }
  /-- `emplace_hint` under the write lock and construction of the result.  :344-346 -/
  | insert {v : V} : s.pc t = .upgrading v → s.rw.loc t = .holdW →
      Step eq s t { (s.at_ t .leaving) with core := (s.core.emplace v).give v s.core.tab.length }
  /-- the destructor of `lock` unlocks.  reader_writer_lock.hpp:259-262, 301-309 -/
  | unlockR {rw'} : s.pc t = .leaving → RW.Step s.rw t .unlockRead rw' →
      Step eq s t { s with rw := rw', pc := Function.update s.pc t .unlocking }
  | unlockW {rw'} : s.pc t = .leaving → RW.Step s.rw t .unlockWrite rw' →
      Step eq s t { s with rw := rw', pc := Function.update s.pc t .unlocking }
  /-- `operator()` returns -/
  | return_ : s.pc t = .unlocking → s.rw.loc t = .idle → Step eq s t (s.at_ t .out)
  /-- a handle is copied, moved, swapped, assigned or destroyed, at any time, without the lock -/
  | op (o : HOp) {c'} : o.run s.core = some c' → Step eq s t { s with core := c' }

/-- Reachable states of a thread-safe pool. -/
inductive Reach (eq : V → V → Bool) : State T V → Prop
  | init : Reach eq ⟨RW.init T, {}, fun _ => .out⟩
  | step {s s' : State T V} {t : T} : Reach eq s → Step eq s t s' → Reach eq s'

end Mutable.Pool
