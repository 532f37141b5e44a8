import Mathlib.Data.Rat.Defs
import Mathlib.Data.List.Perm.Basic

/-!
Model of the push-based interpreter, src/backend/Interpreter.{cpp,hpp}.

Simplifications, valid for the whole file:
* Tuples are elements of an abstract type `T`; compiled expressions (filters, projections, keys, aggregate arguments,
  combination of the attributes of joined tuples) are functions on tuples.  That the stack machine computes the SQL value
  of expressions is the subject of `Verif.StackMachine` (C34).  Truth values and key components are `Option`s, `none`
  standing for NULL.
* Aggregates are computed in exact arithmetic (rationals) instead of 64 bit integers and doubles.
* The contents of a dead slot of a block are not observable by operators, which access alive slots only.
* `RefCountingHashMap` is represented by the multimap it implements (proved in `Verif.HashMap`, C21); the order in which
  `for_all` visits entries, the iteration order of `std::unordered_map` and the treatment of ties by `std::sort` are
  arbitrary.
-/
namespace Mutable.Interp

/-- A block of 64 slots (Interpreter.hpp:19-170); `none` is a dead slot (mask bit unset). -/
abbrev Blk (T : Type) := Nat → Option T

/-- Iteration over a block visits the alive slots in ascending order (Interpreter.hpp:44-51). -/
def Blk.tuples {T : Type} (b : Blk T) : List T := (List.range 64).filterMap b

/-- `empty()`, Interpreter.hpp:112. -/
def Blk.empty {T : Type} (b : Blk T) : Bool := (List.range 64).all fun i => (b i).isNone

/-- `erase(index)`, Interpreter.hpp:137-141. -/
def Blk.erase {T : Type} (b : Blk T) (i : Nat) : Blk T := fun j => if j = i then none else b j

/-- The block with the given slots and mask word. -/
def mkBlk {T : Type} (data : Nat → T) (mask : Nat → Bool) : Blk T := fun i => if mask i then some (data i) else none

def Blk.mask {T : Type} (b : Blk T) : Nat → Bool := fun i => (b i).isSome

/-- `fill()`, Interpreter.hpp:134, `AllOnes()` :121. -/
def allOnes : Nat → Bool := fun i => (-1 : BitVec 64).getLsbD i

/-- `(1UL << n) - 1`. -/
def lowOnes (n : Nat) : Nat → Bool := fun i => (1#64 <<< n - 1#64).getLsbD i

/-- What an operator did with the pushed block: its new state, the remaining mask of the block, and whether
`LimitOperator::stack_unwind` was thrown. -/
structure PR (σ : Type) where
  st : σ
  mask : Nat → Bool
  unwound : Bool

/-- `op.parent()->accept(pipeline)`: the consumer of a pipeline's blocks. -/
abbrev Sink (σ T : Type) := σ → Blk T → PR σ

/-- Result of executing a (sub-)plan. -/
structure Ex (σ : Type) where
  st : σ
  unwound : Bool

/-! ### Pipelined operators -/

section Pipelined
variable {σ T : Type}

/-- The callback or print operator at the root, Interpreter.cpp:933-948: collects the tuples. -/
def collect : Sink (List T) T := fun s b => ⟨s ++ b.tuples, b.mask, false⟩

/-- The loop of `FilterOperator`, Interpreter.cpp:955-968: the iterator holds a copy of the mask. -/
def filterLoop (keep : T → Bool) (b : Blk T) : Blk T :=
  (List.range 64).foldl (fun c i => match b i with
    | some t => if keep t then c else c.erase i
    | none => c) b

/-- `if (data->res.is_null(0) or not data->res[0].as_b()) erase`. -/
def isTrue : Option Bool → Bool
  | some true => true
  | _ => false

/-- `Pipeline::operator()(const FilterOperator&)`, Interpreter.cpp:955-968. -/
def filterSink (p : T → Option Bool) (sink : Sink σ T) : Sink σ T := fun s b =>
  let b := filterLoop (fun t => isTrue (p t)) b
  if b.empty then ⟨s, b.mask, false⟩ else sink s b

/-- `Pipeline::operator()(const DisjunctiveFilterOperator&)`, Interpreter.cpp:970-990: keep the tuple as soon as one
predicate is satisfied. -/
def dfilterKeep : List (T → Option Bool) → T → Bool
  | [], _ => false
  | p :: ps, t => if isTrue (p t) then true else dfilterKeep ps t

def dfilterSink (ps : List (T → Option Bool)) (sink : Sink σ T) : Sink σ T := fun s b =>
  let b := filterLoop (dfilterKeep ps) b
  if b.empty then ⟨s, b.mask, false⟩ else sink s b

/-- `Pipeline::operator()(const ProjectionOperator&)`, Interpreter.cpp:1141-1158: a fresh block with the same mask. -/
def projSink (f : T → T) (sink : Sink σ T) : Sink σ T := fun s b =>
  let r := sink s (fun i => (b i).map f)
  ⟨r.st, b.mask, r.unwound⟩

/-- The loop of `LimitOperator`, Interpreter.cpp:1164-1168; `hi = offset + limit`, computed in 64 bits. -/
def limitLoop (off hi : Nat) (n : Nat) (b : Blk T) : Nat × Blk T :=
  (List.range 64).foldl (fun (st : Nat × Blk T) i => match b i with
    | some _ => (st.1 + 1, if st.1 < off ∨ st.1 ≥ hi then st.2.erase i else st.2)
    | none => st) (n, b)

/-- `Pipeline::operator()(const LimitOperator&)`, Interpreter.cpp:1160-1175. -/
def limitSink (lim off : Nat) (sink : Sink σ T) : Sink (Nat × σ) T := fun s b =>
  let hi := (off + lim) % 2 ^ 64
  let r := limitLoop off hi s.1 b
  if r.2.empty then ⟨(r.1, s.2), r.2.mask, decide (r.1 ≥ hi)⟩
  else
    let q := sink s.2 r.2
    ⟨(r.1, q.st), q.mask, q.unwound || decide (r.1 ≥ hi)⟩

/-! #### Hash join -/

/-- State of the probe loop: the output block (`pipeline.block_`: slots and mask), the cursor `i`, the state of the
consumer. -/
structure Probe (σ T : Type) where
  data : Nat → T
  mask : Nat → Bool
  i : Nat
  st : σ
  unwound : Bool

/-- One match, Interpreter.cpp:1009-1024: flush the output block if it is full, then write the joined tuple. -/
def probeMatch (sink : Sink σ T) (P : Probe σ T) (t : T) : Probe σ T :=
  if P.unwound then P
  else if P.i = 64 then
    let r := sink P.st (mkBlk P.data P.mask)
    if r.unwound then { P with st := r.st, unwound := true }
    else ⟨fun j => if j = 0 then t else P.data j, r.mask, 1, r.st, false⟩
  else ⟨fun j => if j = P.i then t else P.data j, P.mask, P.i + 1, P.st, false⟩

/-- One probe tuple, Interpreter.cpp:1005-1024: `fill()` the output block, then visit all matches. -/
def probeTuple (sink : Sink σ T) (matches_ : List T) (P : Probe σ T) : Probe σ T :=
  matches_.foldl (probeMatch sink) { P with mask := allOnes }

/-- `Pipeline::operator()(const JoinOperator&)`, probe phase, Interpreter.cpp:994-1031; `outs t` are the joined tuples of
the probe tuple `t`.  The state keeps the slots of `pipeline.block_`. -/
def probeSink (outs : T → List T) (sink : Sink σ T) : Sink ((Nat → T) × σ) T := fun s b =>
  let P := b.tuples.foldl (fun P t => if P.unwound then P else probeTuple sink (outs t) P)
    (⟨s.1, allOnes, 0, s.2, false⟩ : Probe σ T)
  if P.unwound then ⟨(P.data, P.st), b.mask, true⟩
  else if P.i ≠ 0 then
    let r := sink P.st (mkBlk P.data (if P.i = 64 then allOnes else lowOnes P.i))
    ⟨(P.data, r.st), b.mask, r.unwound⟩
  else ⟨(P.data, P.st), b.mask, false⟩

/-- Build phase, Interpreter.cpp:1032-1043, the collection of buffers of the nested-loops join, :1127-1137, and of the
sorting operator, :1397-1406: copies of all tuples are stored; `cl` is `Tuple::clone`. -/
def bufferSink (cl : T → T) : Sink (List T) T := fun s b => ⟨b.tuples.foldl (fun l t => l ++ [cl t]) s, b.mask, false⟩

/-! #### Nested-loops join -/

/-- Configuration of the loop Interpreter.cpp:1053-1126: the cursor `child_id` and the positions of the buffers
(`none` is `-1`), as a stack: positions of the children before the cursor, most recent first. -/
structure NLJ where
  cid : Nat
  pos : Nat → Option Nat

/-- `++position`, starting from `-1`. -/
def next : Option Nat → Nat
  | none => 0
  | some p => p + 1

/-- One iteration of the loop: either emit the combination of positions, or move the cursor; `none` is `break`. -/
def nljStep (lens : List Nat) (c : NLJ) : Option (Option (List Nat) × NLJ) :=
  if c.cid = lens.length then
    some (some ((List.range lens.length).map fun i => (c.pos i).getD 0), ⟨c.cid - 1, c.pos⟩)
  else
    let p := next (c.pos c.cid)
    let pos := fun i => if i = c.cid then some p else c.pos i
    if p = lens.getD c.cid 0 then
      if c.cid = 0 then none
      else some (none, ⟨c.cid - 1, fun i => if i = c.cid then none else pos i⟩)
    else some (none, ⟨c.cid + 1, pos⟩)

/-- Runs of the loop and the combinations they emit. -/
inductive NLJRun (lens : List Nat) : NLJ → List (List Nat) → Prop
  | stop {c} : nljStep lens c = none → NLJRun lens c []
  | move {c c' l} : nljStep lens c = some (none, c') → NLJRun lens c' l → NLJRun lens c l
  | emit {c c' x l} : nljStep lens c = some (some x, c') → NLJRun lens c' l → NLJRun lens c (x :: l)

/-- The combinations of buffered tuples in the order in which the loop visits them; `C35_nlj_loop` shows that the loop
emits exactly these. -/
def combos : List (List T) → List (List T)
  | [] => [[]]
  | B :: Bs => B.flatMap fun t => (combos Bs).map fun c => t :: c

/-- One combination against the current block of the right-most child, Interpreter.cpp:1077-1110: the output block gets
the mask of the input block, minus the tuples not satisfying the predicate (if there is one). -/
def nljBlock (pred : Option (List T → T → Option Bool)) (comb : List T → T → T) (c : List T) (b : Blk T) : Blk T :=
  fun i => match b i with
    | none => none
    | some t =>
      match pred with
      | none => some (comb c t)
      | some p => if isTrue (p c t) then some (comb c t) else none

/-- The right-most child of a nested-loops join, Interpreter.cpp:1050-1126. -/
def nljSink (cs : List (List T)) (pred : Option (List T → T → Option Bool)) (comb : List T → T → T)
    (sink : Sink σ T) : Sink σ T := fun s b =>
  let r := cs.foldl (fun (r : Ex σ) c =>
    if r.unwound then r
    else
      let o := nljBlock pred comb c b
      if o.empty then r
      else
        let q := sink r.st o
        ⟨q.st, q.unwound⟩) ⟨s, false⟩
  ⟨r.st, b.mask, r.unwound⟩

end Pipelined

/-! ### Aggregation -/

/-- Aggregate functions; `arg` computes the argument, `none` is NULL. -/
inductive Agg (T : Type) where
  | countStar | count (arg : T → Option ℚ) | sum (arg : T → Option ℚ) | avg (arg : T → Option ℚ)
  | min (arg : T → Option ℚ) | max (arg : T → Option ℚ)

section Aggregation
variable {T : Type}

/-- One tuple is added to a group's aggregate, Interpreter.cpp:1179-1284; `nth` counts the tuples of the group including
this one; `none` is NULL.  The same computation is performed by `AggregationOperator`, :1310-1393. -/
def Agg.step (a : Agg T) (nth : Nat) (val : Option ℚ) (t : T) : Option ℚ :=
  match a with
  | .countStar => some (val.getD 0 + 1)
  | .count arg => some (val.getD 0 + if (arg t).isNone then 0 else 1)
  | .sum arg =>
    let v := val.getD 0
    match arg t with
    | none => some v
    | some x => some (v + x)
  | .avg arg =>
    let v := val.getD 0
    match arg t with
    | none => some v
    | some x => some (v + (x - v) / nth)
  | .min arg =>
    match arg t with
    | none => val
    | some x =>
      match val with
      | none => some x
      | some v => some (if x < v then x else v)
  | .max arg =>
    match arg t with
    | none => val
    | some x =>
      match val with
      | none => some x
      | some v => some (if v < x then x else v)

/-- Initial aggregates of `AggregationOperator`, Interpreter.cpp:1530-1582. -/
def Agg.init : Agg T → Option ℚ
  | .min _ | .max _ => none
  | _ => some 0

/-- A group: key, number of tuples, aggregates. -/
structure Group (V : Type) where
  key : List (Option V)
  n : Nat
  vals : List (Option ℚ)

/-- Adding a tuple to a group. -/
def Group.add {V : Type} (aggs : List (Agg T)) (g : Group V) (t : T) : Group V :=
  ⟨g.key, g.n + 1, List.zipWith (fun a v => a.step (g.n + 1) v t) aggs g.vals⟩

/-- Find the tuple's group or create it, Interpreter.cpp:1286-1302.  `equals` (:825-839) compares NULL bits and
values. -/
def addToGroups {V : Type} [DecidableEq V] (key : T → List (Option V)) (aggs : List (Agg T)) :
    List (Group V) → T → List (Group V)
  | [], t => [Group.add aggs ⟨key t, 0, aggs.map fun _ => none⟩ t]
  | g :: gs, t => if g.key = key t then Group.add aggs g t :: gs else g :: addToGroups key aggs gs t

/-- `Pipeline::operator()(const GroupingOperator&)`, Interpreter.cpp:1177-1303. -/
def groupSink {V : Type} [DecidableEq V] (key : T → List (Option V)) (aggs : List (Agg T)) : Sink (List (Group V)) T :=
  fun s b => ⟨b.tuples.foldl (addToGroups key aggs) s, b.mask, false⟩

/-- `Pipeline::operator()(const AggregationOperator&)`, Interpreter.cpp:1305-1395; the state is the running count and the
aggregates. -/
def aggStep (aggs : List (Agg T)) (s : Nat × List (Option ℚ)) (t : T) : Nat × List (Option ℚ) :=
  (s.1 + 1, List.zipWith (fun a v => a.step (s.1 + 1) v t) aggs s.2)

def aggSink (aggs : List (Agg T)) : Sink (Nat × List (Option ℚ)) T :=
  fun s b => ⟨b.tuples.foldl (aggStep aggs) s, b.mask, false⟩

end Aggregation

/-! ### Sorting -/

/-- A sort key: an integer valued (`Cmp_i`, `Cmp_b`) or string valued (`Cmp_s`) expression, ascending or descending.
(NULL values violate the assertion Interpreter.cpp:1635.) -/
inductive Key (T : Type) where
  | int (f : T → Int) (asc : Bool)
  | str (f : T → List Nat) (asc : Bool)

/-- `strcmp`. -/
def strcmp : List Nat → List Nat → Int
  | [], [] => 0
  | [], _ :: _ => -1
  | _ :: _, [] => 1
  | a :: as, b :: bs => if a < b then -1 else if b < a then 1 else strcmp as bs

/-- The comparison emitted for a key, Interpreter.cpp:1594-1629 and StackMachine.cpp:1440-1453: `(l >= r) - (l <= r)`,
negated if descending. -/
def Key.cmp {T : Type} (k : Key T) (a b : T) : Int :=
  match k with
  | .int f asc =>
    let c := (if f a ≥ f b then 1 else 0) - (if f a ≤ f b then 1 else 0)
    if asc then c else -c
  | .str f asc =>
    let c := strcmp (f a) (f b)
    if asc then c else -c

/-- The comparator: `Stop_NZ` after each key; the last value stored decides, Interpreter.cpp:1624-1637. -/
def cmpKeys {T : Type} : List (Key T) → T → T → Int
  | [], _, _ => 0
  | [k], a, b => k.cmp a b
  | k :: ks, a, b => if k.cmp a b ≠ 0 then k.cmp a b else cmpKeys ks a b

def lessKeys {T : Type} (ks : List (Key T)) (a b : T) : Bool := decide (cmpKeys ks a b < 0)

/-! ### Producers -/

section Producers
variable {σ T : Type} [Inhabited T]

/-- The loop pushing `n` full blocks, Interpreter.cpp:908-918 (scan), :1509-1520 (grouping), :1639-1650 (sorting). -/
def pushFull (sink : Sink σ T) : Nat → List T → σ → Ex σ
  | 0, _, s => ⟨s, false⟩
  | n + 1, ts, s =>
    let r := sink s (mkBlk (fun i => ts.getD i default) allOnes)
    if r.unwound then ⟨r.st, true⟩ else pushFull sink n (ts.drop 64) r.st

/-- Push all tuples in blocks.  `always`: push the last, partially filled block even if it is empty
(grouping and sorting, :1521-1527, :1651-1655), or not (scan, :919-930). -/
def pushAll (always : Bool) (sink : Sink σ T) (ts : List T) (s : σ) : Ex σ :=
  let rem := ts.length % 64
  let full := (ts.length - rem) / 64
  let r := pushFull sink full ts s
  if r.unwound then r
  else if rem ≠ 0 ∨ always then
    let q := sink r.st (mkBlk (fun i => (ts.drop (full * 64)).getD i default) (lowOnes rem))
    ⟨q.st, q.unwound⟩
  else r

end Producers

/-! ### Plans -/

/-- An arbitrary reordering. -/
abbrev Shuffle (α : Type) := { f : List α → List α // ∀ l, (f l).Perm l }

mutual
/-- Operator trees (include/mutable/IR/Operator.hpp); `V` is the type of key components (64-bit words).  In a hash join,
`kb` and `kp` compute the keys; `raw v i` is the word beneath the NULL bit of the `i`-th component of the build key, if
that component is NULL. -/
inductive Plan (T V : Type) where
  | scan (rows : List T)
  | filter (p : T → Option Bool) (c : Plan T V)
  | dfilter (ps : List (T → Option Bool)) (c : Plan T V)
  | proj (f : T → T) (c : Plan T V)
  | proj0 (t : T)
  | limit (lim off : Nat) (c : Plan T V)
  | sort (ks : List (Key T)) (c : Plan T V)
  | group (key : T → List (Option V)) (aggs : List (Agg T)) (mk : List (Option V) → List (Option ℚ) → T)
      (ord : Shuffle (Group V)) (c : Plan T V)
  | agg (aggs : List (Agg T)) (mk : List (Option ℚ) → T) (c : Plan T V)
  | hash (kb kp : T → List (Option V)) (raw : T → Nat → V) (comb : T → T → T) (ord : Shuffle T) (build probe : Plan T V)
  | nlj (ls : Plans T V) (pred : Option (List T → T → Option Bool)) (comb : List T → T → T) (r : Plan T V)
/-- The buffered children of a nested-loops join. -/
inductive Plans (T V : Type) where
  | nil
  | cons (p : Plan T V) (ps : Plans T V)
end

section Exec
variable {T V : Type} [Inhabited T] [DecidableEq V]

/-- The key stored in the hash table is a clone of the computed key, Interpreter.cpp:1040: `Tuple::clone` (Tuple.cpp:124-136)
calls `set(i, value)`, which clears the NULL bit (Tuple.hpp:240-244). -/
def storedKey (kb : T → List (Option V)) (raw : T → Nat → V) (v : T) : List (Option V) :=
  (kb v).mapIdx fun i k => some (k.getD (raw v i))

/-- The joined tuples of probe tuple `t`: `for_all` visits the build tuples whose stored key equals the probe key
(`Tuple::operator==`, Tuple.hpp:302-310, compares NULL bits and non-NULL values) in some order; what is joined is the clone
of the build tuple. -/
def hashOuts (cl : T → T) (kb kp : T → List (Option V)) (raw : T → Nat → V) (comb : T → T → T) (ord : Shuffle T)
    (build : List T) (t : T) : List T :=
  (ord.1 (build.filter fun v => storedKey kb raw v = kp t)).map fun v => comb (cl v) t

mutual
/-- `Interpreter::operator()(const ...Operator&)`, Interpreter.cpp:1412-1656; `srt` is `std::sort`, `cl` is
`Tuple::clone`. -/
def exec (srt : (T → T → Bool) → List T → List T) (cl : T → T) : Plan T V → (σ : Type) → Sink σ T → σ → Ex σ
  | .scan rows, _, sink, s => pushAll false sink rows s                          -- :899-931
  | .filter p c, σ, sink, s => exec srt cl c σ (filterSink p sink) s
  | .dfilter ps c, σ, sink, s => exec srt cl c σ (dfilterSink ps sink) s
  | .proj f c, σ, sink, s => exec srt cl c σ (projSink f sink) s
  | .proj0 t, _, sink, s =>                                                      -- :1485-1489
    let r := sink s (mkBlk (fun _ => t) (lowOnes 1))
    ⟨r.st, r.unwound⟩
  | .limit lim off c, σ, sink, s =>                                              -- :1491-1499 (catch)
    ⟨(exec srt cl c (Nat × σ) (limitSink lim off sink) (0, s)).st.2, false⟩
  | .sort ks c, _, sink, s =>                                                    -- :1585-1656
    let buf := (exec srt cl c (List T) (bufferSink cl) []).st
    if buf.isEmpty then ⟨s, false⟩ else pushAll true sink (srt (lessKeys ks) buf) s
  | .group key aggs mk ord c, _, sink, s =>                                      -- :1501-1528
    let gs := (exec srt cl c (List (Group V)) (groupSink key aggs) []).st
    pushAll true sink ((ord.1 gs).map fun g => mk g.key g.vals) s
  | .agg aggs mk c, _, sink, s =>                                                -- :1530-1583
    let r := (exec srt cl c (Nat × List (Option ℚ)) (aggSink aggs) (0, aggs.map Agg.init)).st
    let q := sink s (mkBlk (fun _ => mk r.2) (lowOnes 1))
    ⟨q.st, q.unwound⟩
  | .hash kb kp raw comb ord b p, σ, sink, s =>                                  -- :1450-1461
    let ht := (exec srt cl b (List T) (bufferSink id) []).st                     -- key and clone: see `hashOuts`
    if ht.isEmpty then ⟨s, false⟩
    else
      let r := exec srt cl p ((Nat → T) × σ) (probeSink (hashOuts cl kb kp raw comb ord ht) sink) (fun _ => default, s)
      ⟨r.st.2, r.unwound⟩
  | .nlj ls pred comb r, σ, sink, s =>                                           -- :1462-1472
    match execBuffers srt cl ls with
    | none => ⟨s, false⟩
    | some bufs => exec srt cl r σ (nljSink (combos bufs) pred comb sink) s
/-- The buffers of the children but the last; `none` if one of them is empty (Interpreter.cpp:1470: return). -/
def execBuffers (srt : (T → T → Bool) → List T → List T) (cl : T → T) : Plans T V → Option (List (List T))
  | .nil => some []
  | .cons p ps =>
    let buf := (exec srt cl p (List T) (bufferSink cl) []).st
    if buf.isEmpty then none
    else
      match execBuffers srt cl ps with
      | none => none
      | some bs => some (buf :: bs)
end

end Exec

/-! ### Concrete tuples -/

/-- An entry of a `Tuple` (include/mutable/IR/Tuple.hpp:180-318): its NULL bit and its 8-byte word. -/
structure Cell where
  null : Bool
  word : Nat
deriving DecidableEq, Inhabited

/-- `Tuple::clone`, src/IR/Tuple.cpp:124-136: `cpy.set(i, (*this)[i])`, where `set(idx, val)` clears the NULL bit
(Tuple.hpp:240-244); `operator[]` ignores it.  (Entries of character type are copied with `strcpy`; `not_null` is called
as well.) -/
def cloneTuple (t : List Cell) : List Cell := t.map fun c => ⟨false, c.word⟩

/-- The value of a component of a grouping or join key. -/
inductive Comp where
  | null
  | word (w : Nat)
  | str (s : List Nat)
deriving DecidableEq

/-- What the entry of a key tuple holds: for a string, the address of the memory the tuple owns for that entry
(`Tuple(const Schema&)`, Tuple.cpp:77-123; `St_Tup_s`, StackMachine.cpp:989-1006, copies the string there). -/
inductive Entry where
  | null
  | word (w : Nat)
  | ptr (addr : Nat × Nat)
deriving DecidableEq

/-- A key computed into the `g`-th tuple allocated; the memory of distinct tuples is disjoint. -/
def storeKey (g : Nat) (k : List Comp) : List Entry :=
  k.mapIdx fun i c => match c with
    | .null => .null
    | .word w => .word w
    | .str _ => .ptr (g, i)

/-- `HashBasedGroupingData::equals`, Interpreter.cpp:825-839, with `Value::operator==` (Tuple.hpp:160-165, `memcmp` of the
words): the entries are compared, not the strings they point to. -/
def entriesEq (a b : List Entry) : Bool := a == b

/-- Groups found so far: the entries of the key tuple, the key's value, and the number of rows. -/
structure SGroup where
  entries : List Entry
  key : List Comp
  n : Nat

def addToSGroups (g : Nat) (k : List Comp) : List SGroup → Nat × List SGroup
  | [] => (g + 1, [⟨storeKey g k, k, 1⟩])
  | x :: xs =>
    if entriesEq x.entries (storeKey g k) then (g, { x with n := x.n + 1 } :: xs)
    else
      let r := addToSGroups g k xs
      (r.1, x :: r.2)

/-- Grouping, Interpreter.cpp:1286-1302, for keys with strings: the key is computed into the tuple `key`, which becomes
the group's key if no group is found; then a new tuple is allocated. -/
def groupStrings (keys : List (List Comp)) : List SGroup :=
  (keys.foldl (fun (s : Nat × List SGroup) k => addToSGroups s.1 k s.2) (0, [])).2

/-- Hash join, Interpreter.cpp:994-1043, for keys with strings: keys are computed into tuple 0 (`data->key`); build keys are
cloned to new tuples.  The pairs of indices joined; a clone has no NULL bits set (here word 0 beneath a NULL). -/
def hashStrings (build probe : List (List Comp)) : List (Nat × Nat) :=
  (probe.zipIdx.flatMap fun p => (build.zipIdx.filter fun b =>
    entriesEq (storeKey (b.2 + 1) (b.1.map fun c => if c = .null then .word 0 else c)) (storeKey 0 p.1)).map
      fun b => (b.2, p.2))

/-- `Optimizer::optimize_plan`, src/IR/Optimizer.cpp:448-460: a limit operator is added iff limit or offset is not
zero; `LIMIT 0` in the query sets both to zero (src/IR/QueryGraph.cpp:1876-1884). -/
def addLimit {T V : Type} (lim off : Nat) (c : Plan T V) : Plan T V :=
  if lim ≠ 0 ∨ off ≠ 0 then .limit lim off c else c

end Mutable.Interp
