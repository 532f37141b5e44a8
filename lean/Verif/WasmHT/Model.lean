import Mathlib.Data.List.Basic
import Mathlib.Data.Nat.Log

/-!
# Hash tables of the WebAssembly backend

Models `/repo/src/backend/WasmAlgo.{hpp,cpp}`: the open-addressing hash table with reference counts
and linear or quadratic probing (`OpenAddressingHashTable`), and the chained hash table
(`ChainedHashTable`), and on top of them the `SimpleHashJoin` and the `HashBasedGrouping` of
`/repo/src/backend/WasmOperator.cpp`.

Simplifications that hold for the whole file.
* An address inside a table is modelled by the index of its slot (open addressing) or bucket
  (chained): `address = begin + index * entry_size`.  The byte layout of an entry
  (`set_byte_offsets`) is the subject of `Verif.WasmHash`.
* A table is modelled by total functions from indices; only indices below the capacity are ever
  looked at.
* Key comparison `equal_key` and `murmur3_64a_hash` are parameters (`Cfg`); the concrete functions
  are the subject of `Verif.WasmHash`.
* Loops run with fuel; `none` means that the loop does not terminate.
* Predication (the dummy bucket) and allocation/deallocation are not modelled, nor is the
  difference between values stored in place and out of place: an entry is a pair of its key and
  the values written through its handle.
-/

namespace Mutable.WasmHT

/-! ## Probing strategies -/

/-- `OpenAddressingHashTableBase::ProbingStrategy`, `/repo/src/backend/WasmAlgo.hpp:773-790`.
Both functions get the capacity of the table and answer the index of a slot. -/
structure Probing where
  /-- `skip_slots(bucket, skips)` -/
  skip : (cap bucket skips : Nat) → Nat
  /-- `advance_to_next_slot(slot, current_step)` -/
  next : (cap slot step : Nat) → Nat

/-- `LinearProbing`, `/repo/src/backend/WasmAlgo.cpp:2384-2399`. -/
def linear : Probing where
  skip cap bucket skips :=
    let slot := bucket + skips
    if slot < cap then slot else slot - cap
  next cap slot _ :=
    let nxt := slot + 1
    if nxt < cap then nxt else 0

/-- `QuadraticProbing`, `/repo/src/backend/WasmAlgo.cpp:2401-2416`; the Gaussian sum is computed in
32 bits (`U32x1`). -/
def quadratic : Probing where
  skip cap bucket skips :=
    let slots_skipped := ((skips * (skips + 1)) % 2 ^ 32) >>> 1
    let slots_skipped_mod := slots_skipped &&& (cap - 1)
    let slot := bucket + slots_skipped_mod
    if slot < cap then slot else slot - cap
  next cap slot step :=
    let nxt := slot + step
    if nxt < cap then nxt else nxt - cap

/-! ## Configuration -/

/-- The parts of a hash table fixed at code generation: `equal_key` (of a stored key and a given
key, `WasmAlgo.cpp:944-1002`, `1903-1970`), `murmur3_64a_hash` (`WasmAlgo.cpp:338-432`), and the probing
strategy. -/
structure Cfg (K : Type) where
  eq : K → K → Bool
  hash : K → Nat
  strat : Probing

/-! ## Open addressing -/

/-- State of an `OpenAddressingHashTable`, `/repo/src/backend/WasmAlgo.hpp:898-916`.
`cap` is `mask_ + 1`; `refs s` is `reference_count` of slot `s`, which is non-zero iff the slot is
occupied and at the same time the number of slots to probe for the bucket starting at `s`;
`ent s` is the memory of slot `s`, `none` as long as it was not written; `num` is `num_entries_`,
`hwm` is `high_watermark_absolute_` and `pct` the fraction `high_watermark_percentage_`. -/
structure OA (K V : Type) where
  cap : Nat
  refs : Nat → Nat
  ent : Nat → Option (K × V)
  num : Nat
  hwm : Nat
  pct : Nat × Nat

/-- Update of a function at a point (a store to memory). -/
def put {α : Type} (f : Nat → α) (i : Nat) (a : α) : Nat → α := fun j => if j = i then a else f j

variable {K V : Type}

namespace OA

/-- Constructor, `setup()` and `clear()`, `/repo/src/backend/WasmAlgo.cpp:1322-1330`, `1354-1474`
and `1503-1549`: capacity at least four, one slot always stays free.  `ceil_to_pow_2` is modelled
by the least power of two above the number. -/
def init (initial_capacity : Nat) : OA K V :=
  let cap := max 4 (2 ^ Nat.clog 2 (initial_capacity + 1))
  { cap := cap, refs := fun _ => 0, ent := fun _ => none, num := 0, hwm := cap - 1, pct := (1, 1) }

/-- `update_high_watermark()`, `/repo/src/backend/WasmAlgo.hpp:945-956`: the fraction of the
capacity, rounded up, but at least one slot stays free. -/
def updateHighWatermark (t : OA K V) : OA K V :=
  let h := (t.pct.1 * t.cap + t.pct.2 - 1) / t.pct.2
  { t with hwm := if t.cap ≤ h then t.cap - 1 else h }

/-- `set_high_watermark(percentage)`, `/repo/src/backend/WasmAlgo.hpp:831-839`; the percentage is
the fraction `p.1 / p.2`, ignored unless in [0.5, 1). -/
def setHighWatermark (t : OA K V) (p : Nat × Nat) : OA K V :=
  if 2 * p.1 < p.2 ∨ p.2 ≤ p.1 then t else updateHighWatermark { t with pct := p }

/-- `hash_to_bucket(key)`, `/repo/src/backend/WasmAlgo.cpp:1332-1352`: hash modulo capacity. -/
def bucket (c : Cfg K) (cap : Nat) (k : K) : Nat := c.hash k &&& (cap - 1)

/-- The search for an unoccupied slot, `/repo/src/backend/WasmAlgo.cpp:1676-1682`. -/
def findFree (st : Probing) (cap : Nat) (refs : Nat → Nat) : (fuel slot r : Nat) → Option (Nat × Nat)
  | 0, _, _ => none
  | f + 1, slot, r =>
    if refs slot = 0 then some (slot, r)
    else
      let r' := (r + 1) % 2 ^ 32
      findFree st cap refs f (st.next cap slot r') r'

/-- `emplace_without_rehashing(key)` and the writing of the values through the returned handle,
`/repo/src/backend/WasmAlgo.cpp:1644-1698`. -/
def emplaceNoRehash (c : Cfg K) (t : OA K V) (e : K × V) : Option (OA K V) :=
  let b := bucket c t.cap e.1
  let r := t.refs b
  let slot := c.strat.skip t.cap b r
  match findFree c.strat t.cap t.refs t.cap slot r with
  | none => none
  | some (slot, r) =>
    some { t with
      refs := put (put t.refs b ((r + 1) % 2 ^ 32)) slot 1
      num := t.num + 1
      ent := put t.ent slot (some e) }

/-- The entries re-inserted by `rehash()`, in the order of the slots:
`/repo/src/backend/WasmAlgo.cpp:2263-2306`. -/
def emplaceAll (c : Cfg K) : OA K V → List (K × V) → Option (OA K V)
  | t, [] => some t
  | t, e :: es => match emplaceNoRehash c t e with
    | none => none
    | some t' => emplaceAll c t' es

/-- `for_each`, `/repo/src/backend/WasmAlgo.cpp:1829-1841`: the entries of the occupied slots in the
order of the slots. -/
def forEach (t : OA K V) : List (K × V) :=
  (List.range t.cap).filterMap fun s => if t.refs s ≠ 0 then t.ent s else none

/-- `rehash()`, `/repo/src/backend/WasmAlgo.cpp:2230-2316`: the mask `m` becomes `2 * m + 1`, the new
table is cleared, and all entries of the old one are inserted. -/
def rehash (c : Cfg K) (t : OA K V) : Option (OA K V) :=
  emplaceAll c
    { t with cap := ((t.cap - 1) * 2 + 1) + 1, refs := fun _ => 0, ent := fun _ => none, num := 0 }
    (forEach t)

/-- The check at the begin of `emplace` and `try_emplace`: grow the table if the high watermark is
reached, `/repo/src/backend/WasmAlgo.cpp:1622-1626`, `1707-1711`. -/
def grow (c : Cfg K) (t : OA K V) : Option (OA K V) :=
  if t.num = t.hwm then (rehash c t).map updateHighWatermark else some t

/-- `emplace(key)` and the writing of the values, `/repo/src/backend/WasmAlgo.cpp:1616-1642`. -/
def emplace (c : Cfg K) (t : OA K V) (e : K × V) : Option (OA K V) :=
  match grow c t with
  | none => none
  | some t => emplaceNoRehash c t e

/-- `equal_key(slot, key)`: compares the key of the slot with the given key. -/
def equalKey (c : Cfg K) (t : OA K V) (slot : Nat) (k : K) : Bool :=
  match t.ent slot with
  | none => false
  | some e => c.eq e.1 k

/-- The probing of `try_emplace`, `/repo/src/backend/WasmAlgo.cpp:1737-1743`: answers a slot, the
number of steps, and whether the key was found there. -/
def probeKey (c : Cfg K) (t : OA K V) (k : K) : (fuel slot r : Nat) → Option (Nat × Nat × Bool)
  | 0, _, _ => none
  | f + 1, slot, r =>
    if t.refs slot ≠ 0 then
      if equalKey c t slot k then some (slot, r, true)
      else
        let r' := (r + 1) % 2 ^ 32
        probeKey c t k f (c.strat.next t.cap slot r') r'
    else some (slot, r, false)

/-- `try_emplace(key)` followed by the initialisation (`inserted`) or the update (not `inserted`) of
the values through the returned handle, `/repo/src/backend/WasmAlgo.cpp:1700-1790` and
`/repo/src/backend/WasmOperator.cpp:2595-2600`, `2871-2880`.  Answers the flag `inserted`. -/
def upsert (c : Cfg K) (t : OA K V) (k : K) (init : V) (upd : V → V) : Option (OA K V × Bool) :=
  match grow c t with
  | none => none
  | some t =>
    let b := bucket c t.cap k
    match probeKey c t k t.cap b 0 with
    | none => none
    | some (slot, _, true) =>
      some ({ t with ent := put t.ent slot ((t.ent slot).map fun e => (e.1, upd e.2)) }, false)
    | some (slot, r, false) =>
      some ({ t with
        refs := put (put t.refs b ((r + 1) % 2 ^ 32)) slot 1
        num := t.num + 1
        ent := put t.ent slot (some (k, init)) }, true)

/-- The loop of `find`, `/repo/src/backend/WasmAlgo.cpp:1805-1815`; `n` is the number of slots
still to be probed, `refs - steps`. -/
def findLoop (c : Cfg K) (t : OA K V) (k : K) : (n slot steps : Nat) → Option (K × V)
  | 0, _, _ => none
  | n + 1, slot, steps =>
    if equalKey c t slot k then t.ent slot
    else findLoop c t k n (c.strat.next t.cap slot (steps + 1)) (steps + 1)

/-- `find(key)`, `/repo/src/backend/WasmAlgo.cpp:1793-1827`: `none` if the key was not found. -/
def find (c : Cfg K) (t : OA K V) (k : K) : Option (K × V) :=
  let b := bucket c t.cap k
  findLoop c t k (t.refs b) b 0

/-- The loop of `for_each_in_equal_range`, `/repo/src/backend/WasmAlgo.cpp:1857-1876`. -/
def rangeLoop (c : Cfg K) (t : OA K V) (k : K) : (n slot steps : Nat) → List (K × V)
  | 0, _, _ => []
  | n + 1, slot, steps =>
    let rest := rangeLoop c t k n (c.strat.next t.cap slot (steps + 1)) (steps + 1)
    if equalKey c t slot k then (t.ent slot).toList ++ rest else rest

/-- `for_each_in_equal_range(key)`, `/repo/src/backend/WasmAlgo.cpp:1843-1877`: the entries on which
the pipeline is called, in order. -/
def range (c : Cfg K) (t : OA K V) (k : K) : List (K × V) :=
  let b := bucket c t.cap k
  rangeLoop c t k (t.refs b) b 0

/-- A sequence of calls of `emplace`. -/
def emplaces (c : Cfg K) : OA K V → List (K × V) → Option (OA K V)
  | t, [] => some t
  | t, e :: es => match emplace c t e with
    | none => none
    | some t' => emplaces c t' es

/-- A sequence of `try_emplace` calls with initialisation and update of the values (as issued by the
grouping for the rows `rows` of its child): `init x` and `upd x` for a row with data `x`. -/
def upserts {X : Type} (c : Cfg K) (init : X → V) (upd : X → V → V) :
    OA K V → List (K × X) → Option (OA K V)
  | t, [] => some t
  | t, (k, x) :: rows => match upsert c t k (init x) (upd x) with
    | none => none
    | some (t', _) => upserts c init upd t' rows

end OA

/-! ## Chaining -/

/-- State of a `ChainedHashTable`, `/repo/src/backend/WasmAlgo.hpp:622-660`: `bk b` is the collision
list of bucket `b`. -/
structure CH (K V : Type) where
  cap : Nat
  bk : Nat → List (K × V)
  num : Nat
  hwm : Nat
  pct : Nat × Nat

namespace CH

/-- Constructor, `setup()` and `clear()`, `/repo/src/backend/WasmAlgo.cpp:475-526`, `568-612`,
`673-690`. -/
def init (initial_capacity : Nat) : CH K V :=
  let cap := 2 ^ Nat.clog 2 initial_capacity
  { cap := cap, bk := fun _ => [], num := 0, hwm := cap, pct := (1, 1) }

/-- `update_high_watermark()`, `/repo/src/backend/WasmAlgo.hpp:699-706`: the fraction of the capacity,
rounded down. -/
def updateHighWatermark (t : CH K V) : CH K V :=
  { t with hwm := t.pct.1 * t.cap / t.pct.2 }

/-- `set_high_watermark(percentage)`, `/repo/src/backend/WasmAlgo.hpp:688-696`; ignored unless at
least 1. -/
def setHighWatermark (t : CH K V) (p : Nat × Nat) : CH K V :=
  if p.1 < p.2 then t else updateHighWatermark { t with pct := p }

/-- `hash_to_bucket(key)`, `/repo/src/backend/WasmAlgo.cpp:692-715`. -/
def bucket (c : Cfg K) (cap : Nat) (k : K) : Nat := c.hash k &&& (cap - 1)

/-- `emplace_without_rehashing(key)`, `/repo/src/backend/WasmAlgo.cpp:753-793`: at the front of the
collision list. -/
def emplaceNoRehash (c : Cfg K) (t : CH K V) (e : K × V) : CH K V :=
  let b := bucket c t.cap e.1
  { t with bk := put t.bk b (e :: t.bk b), num := t.num + 1 }

/-- The entries of the old table together with the index of their old bucket, in the order visited
by `rehash()`, `/repo/src/backend/WasmAlgo.cpp:1228-1264`. -/
def visited (t : CH K V) : List (Nat × (K × V)) :=
  (List.range t.cap).flatMap fun b => (t.bk b).map fun e => (b, e)

/-- One step of `rehash()`: the key is read by `entry(it)` where `it` is the address of the *bucket*
and not of the entry (`/repo/src/backend/WasmAlgo.cpp:1235`); `mem b` is what lies in the memory
behind bucket `b`, read as a key.  The entry is linked at the front of the list of the bucket of
that key. -/
def relink (c : Cfg K) (mem : Nat → K) (cap : Nat) (bk : Nat → List (K × V)) (be : Nat × (K × V)) :
    Nat → List (K × V) :=
  let b := bucket c cap (mem be.1)
  put bk b (be.2 :: bk b)

/-- `rehash()`, `/repo/src/backend/WasmAlgo.cpp:1204-1269`. -/
def rehash (c : Cfg K) (mem : Nat → K) (t : CH K V) : CH K V :=
  let cap' := ((t.cap - 1) * 2 + 1) + 1
  { t with cap := cap', bk := (visited t).foldl (relink c mem cap') (fun _ => []) }

/-- Growing of the table, `/repo/src/backend/WasmAlgo.cpp:744-748`, `801-805`. -/
def grow (c : Cfg K) (mem : Nat → K) (t : CH K V) : CH K V :=
  if t.num = t.hwm then updateHighWatermark (rehash c mem t) else t

/-- `emplace(key)`, `/repo/src/backend/WasmAlgo.cpp:738-751`. -/
def emplace (c : Cfg K) (mem : Nat → K) (t : CH K V) (e : K × V) : CH K V :=
  emplaceNoRehash c (grow c mem t) e

/-- Updating the values of the first entry with an equal key in a collision list; appending a fresh
entry if there is none: the loop of `try_emplace`, `/repo/src/backend/WasmAlgo.cpp:824-864`. -/
def upsertList (c : Cfg K) (k : K) (init : V) (upd : V → V) : List (K × V) → List (K × V) × Bool
  | [] => ([(k, init)], true)
  | e :: es =>
    if c.eq e.1 k then ((e.1, upd e.2) :: es, false)
    else
      let r := upsertList c k init upd es
      (e :: r.1, r.2)

/-- `try_emplace(key)` and the initialisation or update of the values,
`/repo/src/backend/WasmAlgo.cpp:795-870`. -/
def upsert (c : Cfg K) (mem : Nat → K) (t : CH K V) (k : K) (init : V) (upd : V → V) : CH K V × Bool :=
  let t := grow c mem t
  let b := bucket c t.cap k
  let r := upsertList c k init upd (t.bk b)
  ({ t with bk := put t.bk b r.1, num := if r.2 then t.num + 1 else t.num }, r.2)

/-- `find(key)`, `/repo/src/backend/WasmAlgo.cpp:872-890`. -/
def find (c : Cfg K) (t : CH K V) (k : K) : Option (K × V) :=
  (t.bk (bucket c t.cap k)).find? fun e => c.eq e.1 k

/-- `for_each`, `/repo/src/backend/WasmAlgo.cpp:892-906`. -/
def forEach (t : CH K V) : List (K × V) := (List.range t.cap).flatMap t.bk

/-- `for_each_in_equal_range(key)`, `/repo/src/backend/WasmAlgo.cpp:908-929`. -/
def range (c : Cfg K) (t : CH K V) (k : K) : List (K × V) :=
  (t.bk (bucket c t.cap k)).filter fun e => c.eq e.1 k

/-- A sequence of calls of `emplace`; `mem i` is the memory read by a rehash in call `i`. -/
def emplaces (c : Cfg K) (mem : Nat → Nat → K) : CH K V → List (K × V) → CH K V
  | t, [] => t
  | t, e :: es => emplaces c mem (emplace c (mem es.length) t e) es

/-- A sequence of `try_emplace` calls with initialisation and update of the values. -/
def upserts {X : Type} (c : Cfg K) (mem : Nat → Nat → K) (init : X → V) (upd : X → V → V) :
    CH K V → List (K × X) → CH K V
  | t, [] => t
  | t, (k, x) :: rows =>
    upserts c mem init upd (upsert c (mem rows.length) t k (init x) (upd x)).1 rows

end CH

/-! ## Keys -/

/-- A key is a list of values, each of which may be NULL (`std::vector<SQL_t>`). -/
abbrev Key (α : Type) := List (Option α)

/-- `the_reference::operator==`, `/repo/src/backend/WasmAlgo.hpp:163-172`: NULL equals NULL. -/
def equalValue {α : Type} (eqv : α → α → Bool) : Option α → Option α → Bool
  | none, none => true
  | some a, some b => eqv a b
  | _, _ => false

/-- `equal_key`, `/repo/src/backend/WasmAlgo.cpp:944-1002`: the conjunction over all components. -/
def equalKeys {α : Type} (eqv : α → α → Bool) : Key α → Key α → Bool
  | [], [] => true
  | a :: as, b :: bs => equalValue eqv a b && equalKeys eqv as bs
  | _, _ => false

/-- The check on the build side of a join, `/repo/src/backend/WasmOperator.cpp:5060-5069`: no
component of the key is NULL. -/
def keyNotNull {α : Type} (k : Key α) : Bool := k.all Option.isSome

/-! ## Hash join -/

/-- The build pipeline of `SimpleHashJoin`, `/repo/src/backend/WasmOperator.cpp:5050-5090`, into an
open-addressing table: rows with a NULL in their key are dropped. -/
def joinBuild {α : Type} (c : Cfg (Key α)) (initial_capacity : Nat) (load : Nat × Nat)
    (build : List (Key α × V)) : Option (OA (Key α) V) :=
  OA.emplaces c ((OA.init initial_capacity).setHighWatermark load)
    (build.filter fun r => keyNotNull r.1)

/-- `SimpleHashJoin<UniqueBuild>`, `/repo/src/backend/WasmOperator.cpp:5000-5165`: for every probe
row, in order, the matches found in the table.  Probe keys are not checked for NULL.  With
`unique` the single match is looked up with `find`, otherwise with `for_each_in_equal_range`. -/
def join {α P : Type} (c : Cfg (Key α)) (unique : Bool) (initial_capacity : Nat) (load : Nat × Nat)
    (build : List (Key α × V)) (probe : List (Key α × P)) : Option (List (V × P)) :=
  (joinBuild c initial_capacity load build).map fun t =>
    probe.flatMap fun r =>
      if unique then (OA.find c t r.1).toList.map fun e => (e.2, r.2)
      else (OA.range c t r.1).map fun e => (e.2, r.2)

/-- `HashBasedGrouping`, `/repo/src/backend/WasmOperator.cpp:2525-3160`: one `try_emplace` per row,
then one result row per entry. -/
def group {α X : Type} (c : Cfg (Key α)) (initial_capacity : Nat) (load : Nat × Nat)
    (init : X → V) (upd : X → V → V) (rows : List (Key α × X)) : Option (List (Key α × V)) :=
  (OA.upserts c init upd ((OA.init initial_capacity).setHighWatermark load) rows).map OA.forEach

end Mutable.WasmHT
