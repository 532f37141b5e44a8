import Mathlib.Order.Defs.LinearOrder

/-!
# Sortedness conditions of physical plans

The condition `Sortedness` of include/mutable/IR/Condition.hpp, the pre- and post-conditions of the physical operators of
the WebAssembly back end as far as `Sortedness` is concerned (src/backend/WasmOperator.cpp), and the order in which these
operators pass on their rows.

Simplified: of a `ConditionSet` only the `Sortedness` is modelled (`Option (Orders I)`), `Predicated` and `SIMD` are
left out.  A row assigns a value to every identifier, also to those of expressions (`Schema::Identifier(expr)`), so that
a computed column is a column of the input here.  Values are linearly ordered, NULL is one of them.
-/

namespace Mutable.SortCond

/-- `Sortedness::Order`, Condition.hpp:149 -/
inductive Order where
  | asc | desc | undef
deriving DecidableEq, Repr

/-- `Sortedness::order_t`, Condition.hpp:151 (`ConditionPropertyOrderedMap`, :31-32: a vector of pairs) -/
abbrev Orders (I : Type) := List (I × Order)

abbrev Row (I V : Type) := I → V

variable {I V : Type} [DecidableEq I]

/-- `find`, Condition.hpp:62-72, with the position (`std::distance`).  Simplified: the exception for duplicates is left
out (`add` never creates them). -/
def find : Orders I → I → Nat → Option (Nat × Order)
  | [], _, _ => none
  | (j, x) :: t, id, n => if j = id then some (n, x) else find t id (n + 1)

/-- `Sortedness::implied_by`, Condition.hpp:172-189; `n` is the position of the next required attribute. -/
def impliedBy (other : Orders I) : Nat → Orders I → Bool
  | _, [] => true
  | n, (id, x) :: rest =>
    match find other id 0 with
    | none => false
    | some (m, y) =>
      if y = .undef ∨ x = .undef then impliedBy other (n + 1) rest
      else if n ≠ m then false
      else if x ≠ y then false
      else impliedBy other (n + 1) rest

/-- `ConditionSet::implied_by`, src/IR/Condition.cpp:7-17, for sets of at most a `Sortedness` -/
def condImplied : Option (Orders I) → Option (Orders I) → Bool
  | none, _ => true
  | some _, none => false
  | some r, some o => impliedBy o 0 r

/-- `if (orders.find(id) == orders.cend()) orders.add(id, order)` in a loop, e.g. WasmOperator.cpp:4735-4739 -/
def addAll : Orders I → Orders I → Orders I
  | acc, [] => acc
  | acc, (i, x) :: t => if (find acc i 0).isSome then addAll acc t else addAll (acc ++ [(i, x)]) t

/-- the mapping of `Projection::adapt_post_condition`, WasmOperator.cpp:2384-2393: pairs of the old and the new
identifier, only the first for every new identifier -/
def old2new : List (I × I) → List (I × I) → List (I × I)
  | acc, [] => acc
  | acc, p :: t => if acc.any (fun q => decide (q.2 = p.2)) then old2new acc t else old2new (acc ++ [p]) t

/-- `ConditionPropertyMap::project_and_rename`, Condition.hpp:74-84 -/
def projectAndRename (o : Orders I) : List (I × I) → Orders I
  | [] => []
  | (old, new) :: t =>
    match find o old 0 with
    | none => projectAndRename o t
    | some (_, x) => (new, x) :: projectAndRename o t

/-- `OrderedGrouping::adapt_post_condition`, WasmOperator.cpp:2990-3001; the pairs are the key and its alias (or the key
again). -/
def groupOrders (o : Orders I) : Orders I → List (I × I) → Orders I
  | acc, [] => acc
  | acc, (key, al) :: t =>
    match find o key 0 with
    | none => groupOrders o acc t -- violates an assertion, :2995
    | some (_, x) =>
      if (find acc al 0).isSome then groupOrders o acc t else groupOrders o (acc ++ [(al, x)]) t

/-- `o.second ? Sortedness::O_ASC : Sortedness::O_DESC` -/
def dir (asc : Bool) : Order := if asc then .asc else .desc

/-- the orders of an ORDER BY clause, WasmOperator.cpp:4734-4739 and :4788-4793 -/
def orderBy (by' : List (I × Bool)) : Orders I := addAll [] (by'.map fun p => (p.1, dir p.2))

/-- A physical plan.  Only what matters for the order of rows is kept of every operator. -/
inductive Plan (I V : Type) where
  /-- `Scan`; `declared` is the option `--sorted-attributes` restricted to this table -/
  | scan (schema : List I) (declared : List (I × Bool)) (rows : List (Row I V))
  /-- `IndexScan` on the attribute `id`; `rows` are the rows in the order of the index (see C50) -/
  | indexScan (id : I) (rows : List (Row I V))
  /-- `Projection` without child -/
  | single (row : Row I V)
  /-- `Filter`, `LazyDisjunctiveFilter` -/
  | filter (p : Row I V → Bool) (c : Plan I V)
  | limit (offset n : Nat) (c : Plan I V)
  | project (items : List (I × I)) (c : Plan I V)
  /-- `HashBasedGrouping`; `agg` computes the aggregates of a group -/
  | hashGroup (keys : List (I × I)) (agg : List (Row I V) → I → V) (c : Plan I V)
  | orderedGroup (keys : List (I × I)) (agg : List (Row I V) → I → V) (c : Plan I V)
  | aggregate (schema : List I) (agg : List (Row I V) → I → V) (c : Plan I V)
  | quicksort (by' : List (I × Bool)) (c : Plan I V)
  | noopSort (by' : List (I × Bool)) (c : Plan I V)
  /-- `NestedLoopsJoin` with two children; `ls` tells the identifiers of the left one -/
  | nlj (ls : I → Bool) (pred : Row I V → Row I V → Bool) (l r : Plan I V)
  /-- `SimpleHashJoin`: build, probe -/
  | hashJoin (ls : I → Bool) (keys : List (I × I)) (l r : Plan I V)
  /-- `SortMergeJoin<SortLeft, SortRight>`: parent, child; the pairs are the keys of parent and child -/
  | smj (sortLeft sortRight : Bool) (ls : I → Bool) (keys : List (I × I)) (l r : Plan I V)

/-- `orders.add(e.id, …)` for the entries of the schema that are declared sorted, WasmOperator.cpp:1269-1279 -/
def scanOrders (declared : List (I × Bool)) : List I → Orders I
  | [] => []
  | i :: t =>
    match declared.find? (fun p => decide (p.1 = i)) with
    | none => scanOrders declared t
    | some p => (i, dir p.2) :: scanOrders declared t

/-- the keys of one side of a sort-merge join, WasmOperator.cpp:5211-5223 -/
def ascKeys (ks : List I) : Orders I := ks.map fun k => (k, Order.asc)

/-- `SortMergeJoin::adapt_post_conditions`, WasmOperator.cpp:5248-5277.  `merge` appends (Condition.hpp:47-53). -/
def smjOrders (sortLeft sortRight : Bool) (keys : List (I × I)) (l r : Orders I) : Orders I :=
  let o := if sortLeft then [] else l
  let o := if sortRight then o else o ++ r
  let o := if sortLeft then addAll o (ascKeys (keys.map (·.1))) else o
  if sortRight then addAll o (ascKeys (keys.map (·.2))) else o

/-- The `Sortedness` of the post-condition: `post_condition` / `adapt_post_condition(s)` of every operator.
Scan WasmOperator.cpp:1246-1281, index scan :1453-1475, filter :2229-2240 (adds no sortedness), projection :2377-2401,
hash-based grouping :2518-2530, ordered grouping :2983-3007, aggregation :3893-3910, quicksort :4726-4746, no-op sorting and
limit: the default (PhysicalOptimizer.hpp:458-460, the condition of the child), nested-loops join :4821-4836 (the
right-most child), hash join :4969-4986 (the right child), sort-merge join :5233-5280. -/
def post : Plan I V → Option (Orders I)
  | .scan schema declared _ =>
    if scanOrders declared schema = [] then none else some (scanOrders declared schema)
  | .indexScan id _ => some [(id, .asc)]
  | .single _ => none
  | .filter _ c => post c
  | .limit _ _ c => post c
  | .project items c => (post c).map fun o => projectAndRename o (old2new [] items)
  | .hashGroup _ _ _ => none
  | .orderedGroup keys _ c => some (groupOrders ((post c).getD []) [] keys)
  | .aggregate schema _ _ => some (addAll [] (schema.map fun i => (i, .undef)))
  | .quicksort by' _ => some (orderBy by')
  | .noopSort _ c => post c
  | .nlj _ _ _ r => post r
  | .hashJoin _ _ _ r => post r
  | .smj sl sr _ keys l r => some (smjOrders sl sr keys ((post l).getD []) ((post r).getD []))

/-- The `Sortedness` of `SortMergeJoin::pre_condition` for the first or second child, WasmOperator.cpp:5205-5225: if one
of both sides is not sorted by the join, *both* children need a `Sortedness`. -/
def smjPre (sortLeft sortRight : Bool) (keys : List (I × I)) (second : Bool) : Option (Orders I) :=
  if sortLeft && sortRight then none
  else if !second && !sortLeft then some (addAll [] (ascKeys (keys.map (·.1))))
  else if second && !sortRight then some (addAll [] (ascKeys (keys.map (·.2))))
  else some []

/-- All pre-conditions are implied by the post-conditions of the children (as checked by the physical optimizer, C58):
ordered grouping WasmOperator.cpp:2963-2969, no-op sorting :4787-4793, sort-merge join. -/
def admitted : Plan I V → Bool
  | .scan _ _ _ => true
  | .indexScan _ _ => true
  | .single _ => true
  | .filter _ c => admitted c
  | .limit _ _ c => admitted c
  | .project _ c => admitted c
  | .hashGroup _ _ c => admitted c
  | .orderedGroup keys _ c =>
    admitted c && condImplied (some (addAll [] (keys.map fun p => (p.1, .undef)))) (post c)
  | .aggregate _ _ c => admitted c
  | .quicksort _ c => admitted c
  | .noopSort by' c => admitted c && condImplied (some (orderBy by')) (post c)
  | .nlj _ _ l r => admitted l && admitted r
  | .hashJoin _ _ l r => admitted l && admitted r
  | .smj sl sr _ keys l r =>
    admitted l && admitted r && condImplied (smjPre sl sr keys false) (post l) &&
      condImplied (smjPre sl sr keys true) (post r)

/-! ## Rows -/

/-- The row of a projection, WasmOperator.cpp:2408-2440: the first item of that name. -/
def projectRow (items : List (I × I)) (r : Row I V) : Row I V := fun i =>
  match items.find? (fun p => decide (p.2 = i)) with
  | none => r i
  | some p => r p.1

/-- The groups of `OrderedGrouping::execute` (see C53): the current group (its first row and the others) is emitted as
soon as a row with another key arrives, and at the end. -/
def runs [DecidableEq V] (keys : List (I × I)) : Row I V → List (Row I V) → List (Row I V) → List (Row I V × List (Row I V))
  | f, cur, [] => [(f, cur)]
  | f, cur, r :: rs =>
    if keys.map (fun k => r k.1) = keys.map (fun k => f k.1) then runs keys f (cur ++ [r]) rs
    else (f, cur) :: runs keys r [] rs

def orderedGroups [DecidableEq V] (keys : List (I × I)) : List (Row I V) → List (Row I V × List (Row I V))
  | [] => []
  | r :: rs => runs keys r [] rs

/-- The row of a group: the first key of that name, or the aggregate. -/
def groupRow (keys : List (I × I)) (agg : List (Row I V) → I → V) (g : Row I V × List (Row I V)) : Row I V := fun i =>
  match keys.find? (fun p => decide (p.2 = i)) with
  | none => agg (g.1 :: g.2) i
  | some p => g.1 p.1

/-- The row of a join. -/
def joinRow (ls : I → Bool) (l r : Row I V) : Row I V := fun i => if ls i then l i else r i

/-- What the model does not fix: the algorithm of the sort (`quicksort`, C43), the order of groups in the hash table
(C46), and which values are NULL. -/
structure Env (I V : Type) where
  sort : List (I × Bool) → List (Row I V) → List (Row I V)
  shuffle : List (Row I V) → List (Row I V)
  isNull : V → Bool

/-- The predicate of an equi-join is true. -/
def keysMatch [DecidableEq V] (E : Env I V) (keys : List (I × I)) (l r : Row I V) : Bool :=
  keys.all fun k => !E.isNull (l k.1) && decide (l k.1 = r k.2)

/-- A join in the order of the right input: for every row of the right input the partners in the left one.  That is the
order of the nested-loops join (C55_nested_loops), the hash join (C46, up to the order of the partners, which does not
matter here) and – if the key of the parent is unique – of the sort-merge join (C55_sort_merge_order). -/
def joinRows (ls : I → Bool) (p : Row I V → Row I V → Bool) (l r : List (Row I V)) : List (Row I V) :=
  r.flatMap fun y => (l.filter fun x => p x y).map fun x => joinRow ls x y

/-- The rows that a physical plan passes on, in order. -/
def run [DecidableEq V] (E : Env I V) : Plan I V → List (Row I V)
  | .scan _ _ rows => rows
  | .indexScan _ rows => rows
  | .single r => [r]
  | .filter p c => (run E c).filter p
  | .limit off n c => ((run E c).drop off).take n
  | .project items c => (run E c).map (projectRow items)
  | .hashGroup keys agg c =>
    E.shuffle ((orderedGroups keys (E.sort (keys.map fun k => (k.1, true)) (run E c))).map (groupRow keys agg))
  | .orderedGroup keys agg c => (orderedGroups keys (run E c)).map (groupRow keys agg)
  | .aggregate _ agg c => [fun i => agg (run E c) i]
  | .quicksort by' c => E.sort by' (run E c)
  | .noopSort _ c => run E c
  | .nlj ls p l r => joinRows ls p (run E l) (run E r)
  | .hashJoin ls keys l r => joinRows ls (keysMatch E keys) (run E l) (run E r)
  | .smj sl sr ls keys l r =>
    joinRows ls (keysMatch E keys)
      (if sl then E.sort ((keys.map fun k => (k.1, true))) (run E l) else run E l)
      (if sr then E.sort ((keys.map fun k => (k.2, true))) (run E r) else run E r)

end Mutable.SortCond
