import Verif.Common
import Mathlib.Data.Nat.Log
/-! Model of `RefCountingHashMap` (src/util/container/RefCountingHashMap.hpp). -/
namespace Mutable.HM

/-- `entry_type`: the probe length and, when the entry is occupied, its pair.  RefCountingHashMap.hpp:46-52. -/
structure Entry (K V : Type) where
  len : Nat
  val : Option (K × V)

/-- Float arithmetic of the class, kept abstract: `wm c` is `capacity * max_load_factor_` truncated, `need n` is
`std::ceil(n / max_load_factor())`. -/
structure Params where
  wm : Nat → Nat
  need : Nat → Nat

/-- The members of the map.  RefCountingHashMap.hpp:153-166.  Simplification: the table is a function, only indices
below `cap` are meaningful; sizes are unbounded (`distance` is computed in 32 bits by the code, see
`C22_distance_32bit`). -/
structure Map (K V : Type) where
  tab : Nat → Entry K V
  cap : Nat
  size : Nat
  wmHigh : Nat

variable {K V : Type} [DecidableEq K]

/-- The mathematical function of `ceil_to_pow_2`.  include/mutable/util/fn.hpp:134-156 (bit-level model: C31). -/
def ceilPow2 (n : Nat) : Nat := 2 ^ Nat.clog 2 n

/-- `initialize`: entries with probe length 0.  RefCountingHashMap.hpp:405-408. -/
def emptyTab : Nat → Entry K V := fun _ => ⟨0, none⟩

/-- Constructor; `none` is the exception.  RefCountingHashMap.hpp:169-184. -/
def Map.new (P : Params) (bucketCount : Nat) : Option (Map K V) :=
  if bucketCount = 0 then none
  else some ⟨emptyTab, ceilPow2 bucketCount, 0, P.wm (ceilPow2 bucketCount)⟩

/-- `masked`.  RefCountingHashMap.hpp:198.  (`index & (capacity - 1)` for a power of two capacity.) -/
def Map.masked (m : Map K V) (i : Nat) : Nat := i % m.cap

/-- The search loop of `insert_with_duplicates`: `L` is `bucket->probe_length`, `distance` as in the code; returns the
final probe length and slot; `fuel` bounds the iterations, `none` means that the loop runs on.
RefCountingHashMap.hpp:229-240. -/
def Map.probeFree (m : Map K V) (index : Nat) : (fuel L distance : Nat) → Option (Nat × Nat)
  | 0, _, _ => none
  | fuel + 1, L, distance =>
    let probe := m.masked (index + distance)
    if (m.tab probe).len ≠ 0 then m.probeFree index fuel (L + 1) (distance + (L + 1))
    else some (L, probe)

/-- Writes an entry. -/
def setTab (t : Nat → Entry K V) (i : Nat) (e : Entry K V) : Nat → Entry K V := fun j => if j = i then e else t j

/-- Body of `insert_with_duplicates` after the growth check.  RefCountingHashMap.hpp:217-247.  `h` is the hash
function.  Returns the slot (iterator).  The loop is given `cap` iterations. -/
def Map.insertBody (h : K → Nat) (m : Map K V) (k : K) (v : V) : Option (Map K V × Nat) :=
  let index := m.masked (h k)
  let bucket := m.tab index
  if bucket.len = 0 then
    some ({ m with tab := setTab m.tab index ⟨bucket.len + 1, some (k, v)⟩, size := m.size + 1 }, index)
  else
    match m.probeFree index m.cap bucket.len ((bucket.len * bucket.len + bucket.len) / 2) with
    | none => none
    | some (L, probe) =>
      let t1 := setTab m.tab probe ⟨(m.tab probe).len + 1, some (k, v)⟩
      let t2 := setTab t1 index ⟨L + 1, (t1 index).val⟩
      some ({ m with tab := t2, size := m.size + 1 }, probe)

/-- The loop of `rehash` over the old table.  RefCountingHashMap.hpp:352-357.  `insert_with_duplicates` would start
another growth when `size_ >= watermark_high_`; that is `none` here and shown not to happen. -/
def reinsert (h : K → Nat) : List (K × V) → Map K V → Option (Map K V)
  | [], m => some m
  | (k, v) :: rest, m =>
    if m.size ≥ m.wmHigh then none
    else match m.insertBody h k v with
      | none => none
      | some (m', _) => reinsert h rest m'

/-- The pairs of the occupied entries in table order. -/
def Map.entries (m : Map K V) : List (K × V) :=
  (List.range m.cap).filterMap fun i => if (m.tab i).len ≠ 0 then (m.tab i).val else none

/-- `rehash(new_capacity)`; `none` is a failed `M_insist`.  RefCountingHashMap.hpp:341-360. -/
def Map.rehashTo (h : K → Nat) (m : Map K V) (newCap : Nat) : Option (Map K V) :=
  if m.size ≤ m.wmHigh then reinsert h m.entries { m with tab := emptyTab, cap := newCap, size := 0 }
  else none

/-- `rehash()`.  RefCountingHashMap.hpp:363. -/
def Map.rehash (h : K → Nat) (m : Map K V) : Option (Map K V) := m.rehashTo h m.cap

/-- `resize`; `none` is a failed `M_insist`.  RefCountingHashMap.hpp:365-374. -/
def Map.resize (P : Params) (h : K → Nat) (m : Map K V) (newCap : Nat) : Option (Map K V) :=
  let n := ceilPow2 (max newCap (P.need m.size))
  if n ≠ m.cap then
    let m1 := { m with wmHigh := P.wm n }
    if m1.wmHigh ≥ m1.size then m1.rehashTo h n else none
  else some m

/-- `shrink_to_fit`.  RefCountingHashMap.hpp:376. -/
def Map.shrinkToFit (P : Params) (h : K → Nat) (m : Map K V) : Option (Map K V) := m.resize P h m.size

/-- The growth check at the start of both insertions.  RefCountingHashMap.hpp:214-215, 251-252. -/
def Map.grow (P : Params) (h : K → Nat) (m : Map K V) : Option (Map K V) :=
  if m.size ≥ m.wmHigh then m.resize P h (2 * m.cap) else some m

/-- `insert_with_duplicates`.  RefCountingHashMap.hpp:213-248. -/
def Map.insertDup (P : Params) (h : K → Nat) (m : Map K V) (k : K) (v : V) : Option (Map K V × Nat) :=
  match m.grow P h with
  | none => none
  | some m => m.insertBody h k v

/-- The search loop of `insert_without_duplicates`: returns the slot holding the key (`inl`), or the probe length and
the free slot (`inr`).  RefCountingHashMap.hpp:258-268. -/
def Map.probeKey (m : Map K V) (index : Nat) (k : K) : (fuel len dist : Nat) → Option (Nat ⊕ (Nat × Nat))
  | 0, _, _ => none
  | fuel + 1, len, dist =>
    let probe := m.masked (index + dist)
    if (m.tab probe).len ≠ 0 then
      if (m.tab probe).val.map Prod.fst = some k then some (.inl probe)
      else m.probeKey index k fuel (len + 1) (dist + (len + 1))
    else some (.inr (len, probe))

/-- `insert_without_duplicates`.  RefCountingHashMap.hpp:250-274. -/
def Map.insertUniq (P : Params) (h : K → Nat) (m : Map K V) (k : K) (v : V) : Option (Map K V × Nat × Bool) :=
  match m.grow P h with
  | none => none
  | some m =>
    let index := m.masked (h k)
    match m.probeKey index k m.cap 0 0 with
    | none => none
    | some (.inl probe) => some (m, probe, false)
    | some (.inr (len, probe)) =>
      let t1 := setTab m.tab probe ⟨(m.tab probe).len + 1, some (k, v)⟩
      let t2 := setTab t1 index ⟨len + 1, (t1 index).val⟩
      some ({ m with tab := t2, size := m.size + 1 }, probe, true)

/-- The loop of `find`; `L` is `bucket->probe_length`.  RefCountingHashMap.hpp:282-291.  Returns the slot or `end()`. -/
def Map.findLoop (m : Map K V) (index L : Nat) (k : K) : (fuel len dist : Nat) → Option Nat
  | 0, _, _ => none
  | fuel + 1, len, dist =>
    let probe := m.masked (index + dist)
    if (m.tab probe).len ≠ 0 ∧ len < L then
      if (m.tab probe).val.map Prod.fst = some k then some probe
      else m.findLoop index L k fuel (len + 1) (dist + (len + 1))
    else none

/-- `find`.  RefCountingHashMap.hpp:276-306. -/
def Map.find (h : K → Nat) (m : Map K V) (k : K) : Option Nat :=
  let index := m.masked (h k)
  m.findLoop index (m.tab index).len k ((m.tab index).len + 1) 0 0

/-- Walks a bucket iterator from `index` at `step`, collecting the pairs whose key is `k`.
RefCountingHashMap.hpp:113-126 (iterator), 320-331 (`for_all`). -/
def Map.forAllLoop (m : Map K V) (k : K) : (remaining index step : Nat) → List (K × V)
  | 0, _, _ => []
  | r + 1, index, step =>
    let rest := m.forAllLoop k r (m.masked (index + (step + 1))) (step + 1)
    match (m.tab index).val with
    | some p => if k = p.1 then p :: rest else rest
    | none => rest

/-- `for_all`: the sequence of pairs the callback sees.  RefCountingHashMap.hpp:320-331. -/
def Map.forAll (h : K → Nat) (m : Map K V) (k : K) : List (K × V) :=
  let index := m.masked (h k)
  m.forAllLoop k (m.tab index).len index 0

/-- `count`.  RefCountingHashMap.hpp:333-337. -/
def Map.count (h : K → Nat) (m : Map K V) (k : K) : Nat := (m.forAll h k).length

/-- The slots visited by `for (auto it = begin(); it != end(); ++it)`: the first slot always, then the occupied ones.
RefCountingHashMap.hpp:73-78 (`operator++`), 206-209 (`begin`, `end`). -/
def Map.iterSlots (m : Map K V) : List Nat :=
  if m.cap = 0 then [] else 0 :: ((List.range m.cap).drop 1).filter fun i => (m.tab i).len ≠ 0

end Mutable.HM
