import Mathlib.Order.Defs.LinearOrder
import Verif.WasmAgg.Model

/-!
# Joins and the group-join of the compiled back end

Model of the code generated by `NestedLoopsJoin`, `SortMergeJoin` and `HashBasedGroupJoin`
(`src/backend/WasmOperator.cpp`, all line numbers refer to that file unless another one is named); `SimpleHashJoin` is
modelled in `Verif.WasmHT`.

A row that a child hands on under predication carries `some b`, the value of `is_true_and_not_null()` of its predicate; a
row without predicate carries `none`.

Simplifications.  Rows are abstract, with functions that give the values of the key columns.  Values of key columns are of
one linearly ordered type.  Sorting is a parameter (C43), the hash table a map from keys to entries (C46, C47).
-/
namespace Mutable.WasmJoin
open Mutable.WasmAgg (accepted)

section
variable {A B V : Type}

/-! ### Nested-loops join -/

/-- What a buffer of materialised rows contains: rows whose predicate is not true are not stored, `consume` and
src/backend/WasmUtil.cpp:2855-2890. -/
def materialize (rows : List (Option Bool × A)) : List A := (rows.filter fun x => accepted x.1).map Prod.snd

/-- One iteration over the left buffer: under predication the join predicate is added to the environment, otherwise it is
tested, :4870-4882. -/
def nljEmit (predicated : Bool) (pred : A → B → Bool) (r : B) (l : A) : List (Option Bool × (A × B)) :=
  if predicated then [(some (pred l r), (l, r))] else if pred l r then [(none, (l, r))] else []

/-- `resume_pipeline_inline` of the left buffer for one row of the right child: no tuple is loaded if the row's predicate
is false, src/backend/WasmUtil.cpp:2855-2895. -/
def nljRow (predicated : Bool) (pred : A → B → Bool) (buf : List A) (x : Option Bool × B) :
    List (Option Bool × (A × B)) :=
  (if accepted x.1 then buf else []).flatMap (nljEmit predicated pred x.2)

/-- `NestedLoopsJoin::execute` with two children, :4839-4925. -/
def nlj (predicated : Bool) (pred : A → B → Bool) (left : List (Option Bool × A)) (right : List (Option Bool × B)) :
    List (Option Bool × (A × B)) :=
  right.flatMap (nljRow predicated pred (materialize left))

/-! ### Sort-merge join -/

/-- `a = b` is true. -/
def eqTrue [DecidableEq V] : Option V → Option V → Bool
  | some a, some b => decide (a = b)
  | _, _ => false

/-- The join predicate, a conjunction of equalities of key columns, is true. -/
def keysEq [DecidableEq V] (l r : List (Option V)) : Bool := (l.zip r).all fun p => eqTrue p.1 p.2

variable [LinearOrder V]

/-- `child <= parent` is true. -/
def leTrue : Option V → Option V → Bool
  | some c, some p => decide (c ≤ p)
  | _, _ => false

/-- One conjunct: `is_null(child) or cmp`, :5380-5383. -/
def childLe1 (p c : Option V) : Bool := c.isNone || leTrue c p

/-- `child_smaller_equal`, :5363-5387. -/
def childLe (parent child : List (Option V)) : Bool :=
  (parent.zip child).foldl (fun acc pc => acc && childLe1 pc.1 pc.2) true

/-- One pair of rows, :5432-5440. -/
def smEmit (predicated : Bool) (kl : A → List (Option V)) (kr : B → List (Option V)) (l : A) (r : B) :
    List (Option Bool × (A × B)) :=
  if predicated then [(some (keysEq (kl l) (kr r)), (l, r))]
  else if keysEq (kl l) (kr r) then [(none, (l, r))] else []

/-- The loop over both inputs, :5429-5447; the arguments are the rows from `tuple_id_parent` and `tuple_id_child` on. -/
def merge (predicated : Bool) (kl : A → List (Option V)) (kr : B → List (Option V)) :
    List A → List B → List (Option Bool × (A × B))
  | [], _ => []
  | _ :: _, [] => []
  | l :: ls, r :: rs =>
    smEmit predicated kl kr l r ++
      (if childLe (kl l) (kr r) then merge predicated kl kr (l :: ls) rs else merge predicated kl kr ls (r :: rs))
  termination_by L R => L.length + R.length

/-- `SortMergeJoin::execute`, :5297-5450: both inputs are materialised (a scan that is sorted already is read as it is),
those flagged are sorted. -/
def smj (predicated sortLeft sortRight : Bool) (sortL : List A → List A) (sortR : List B → List B)
    (kl : A → List (Option V)) (kr : B → List (Option V)) (left : List (Option Bool × A)) (right : List (Option Bool × B)) :
    List (Option Bool × (A × B)) :=
  merge predicated kl kr (if sortLeft then sortL (materialize left) else materialize left)
    (if sortRight then sortR (materialize right) else materialize right)

end

/-! ### Hash-based group-join -/

open Mutable.WasmAgg

section
variable {B P V C : Type} (evB : Arg → B → Option Val) (evP : Arg → P → Option Val) (inB inP : Arg → Bool)

/-- `HashBasedGroupJoin::pre_condition` (its check of the keys), :5545-5559. -/
def gjKeysMatch [DecidableEq C] (groupBy buildKeys : List C) : Bool :=
  groupBy.length == buildKeys.length && groupBy.all fun c => buildKeys.contains c

/-- The argument of an entry is in the schema. -/
def argIn (inS : Arg → Bool) (i : Info) : Bool :=
  match i.arg with
  | some a => inS a
  | none => false

/-- Does the entry change in the build phase? `bound`, or COUNT(*), e.g. :5682-5683, :5929-5946. -/
def boundB (i : Info) : Bool := i.arg.isNone || argIn inB i

/-- `needs_build_counter`, :5606-5622. -/
def needsBuildCounter (aggs : List Agg) : Bool :=
  (infos aggs).any fun i => (decide (i.fn = .count) || decide (i.fn = .sum)) && argIn inP i

/-- `init_aggs` of the build phase: as for hash-based grouping if the argument is bound, neutral elements otherwise,
:5691-5716, :5785-5805, :5865-5888, :5934-5936, :5949-5962. -/
def gInit (b : B) (i : Info) : AState :=
  match i.arg with
  | none => ⟨.i 1, false⟩
  | some a => if inB a then hInit evB b i else oInit i

/-- `update_aggs` for the entries that are bound, :5717-5774, :5889-5918, :5937-5978. -/
def gUpdate {R : Type} (bound : Info → Bool) (ev : Arg → R → Option Val) (r : R) (i : Info) (s : AState) : AState :=
  if bound i then hUpdate ev r i s else s

/-- `update_avg_aggs` for the entries that are bound, :5806-5850. -/
def gUpdateAvg {R : Type} (bound : Info → Bool) (ev : Arg → R → Option Val) (aggs : List Agg) (ss : List AState) (r : R)
    (i : Info) (s : AState) : AState :=
  if bound i then hUpdateAvg ev aggs ss r i s else s

/-- First all but AVG, then AVG, :6044-6047, :6094-6097. -/
def gUpdateAll {R : Type} (bound : Info → Bool) (ev : Arg → R → Option Val) (aggs : List Agg) (r : R)
    (ss : List AState) : List AState :=
  let ss1 := List.zipWith (gUpdate bound ev r) (infos aggs) ss
  List.zipWith (gUpdateAvg bound ev aggs ss1 r) (infos aggs) ss1

/-- An entry of the hash table: the key, the aggregates, `$build_counter` (if there is one), `$probe_counter`,
:5597-5631. -/
structure Entry (V : Type) where
  key : List (Option V)
  aggs : List AState
  bcnt : Option Int
  pcnt : Int

/-- A new group: `init_aggs` with the counters, :6022-6043. -/
def gNew (aggs : List Agg) (k : List (Option V)) (b : B) : Entry V :=
  ⟨k, (infos aggs).map (gInit evB inB b), if needsBuildCounter inP aggs then some 1 else none, 0⟩

/-- A row of an existing group in the build phase, :6028-6034, :6044-6047. -/
def gUpdB (aggs : List Agg) (b : B) (e : Entry V) : Entry V :=
  { e with aggs := gUpdateAll (boundB inB) evB aggs b e.aggs, bcnt := e.bcnt.map fun n => wrap 64 (n + 1) }

/-- A row that finds its group in the probe phase, :6081-6098. -/
def gUpdP (aggs : List Agg) (p : P) (e : Entry V) : Entry V :=
  { e with aggs := gUpdateAll (argIn inP) evP aggs p e.aggs, pcnt := wrap 64 (e.pcnt + 1) }

variable [DecidableEq V]

/-- `try_emplace` and what follows. -/
def gPut (aggs : List Agg) (k : List (Option V)) (b : B) : List (Entry V) → List (Entry V)
  | [] => [gNew evB inB inP aggs k b]
  | e :: es => if e.key = k then gUpdB evB inB aggs b e :: es else e :: gPut aggs k b es

/-- The pipeline of the build child: rows with a NULL in the key are skipped (:6000-6009); a row whose predicate is false
is sent to the dummy entry by `try_emplace` (src/backend/WasmAlgo.cpp:1715-1730). -/
def gBuildRow (bkey : B → List (Option V)) (aggs : List Agg) (es : List (Entry V)) (x : Option Bool × B) : List (Entry V) :=
  if (bkey x.2).all Option.isSome then (if accepted x.1 then gPut evB inB inP aggs (bkey x.2) x.2 es else es) else es

/-- `find` and what follows. -/
def gFind (aggs : List Agg) (k : List (Option V)) (p : P) : List (Entry V) → List (Entry V)
  | [] => []
  | e :: es => if e.key = k then gUpdP evP inP aggs p e :: es else e :: gFind aggs k p es

/-- The pipeline of the probe child, :6071-6099.  `find` (src/backend/WasmAlgo.cpp:1793-1830) does not look at the
predicate of the environment, and neither does the group-join. -/
def gProbeRow (pkey : P → List (Option V)) (aggs : List Agg) (es : List (Entry V)) (x : Option Bool × P) : List (Entry V) :=
  gFind evP inP aggs (pkey x.2) x.2 es

/-- The hash table after both phases, :5979-6104. -/
def gTable (bkey : B → List (Option V)) (pkey : P → List (Option V)) (aggs : List Agg)
    (build : List (Option Bool × B)) (probe : List (Option Bool × P)) : List (Entry V) :=
  probe.foldl (gProbeRow evP inP pkey aggs) (build.foldl (gBuildRow evB inB inP bkey aggs) [])

end

section
variable {B P V C : Type}

/-- `value * counter.to<T>()`. -/
def vmul (ty : Ty) (v : Val) (n : Int) : Val :=
  match v with
  | .i a => .i (wrap ty.size (a * n))
  | .d x => .d (x.mul (.fin n))

/-- A COUNT or SUM is multiplied by the number of rows of the other relation, :6157-6202. -/
def gScale (inP : Arg → Bool) (ty : Ty) (a : Arg) (e : Entry V) (c : Option Val) : Option Val :=
  c.map fun v => vmul ty v (if inP a then e.bcnt.getD 0 else e.pcnt)

/-- The value of one aggregate in the tuple handed to the next operator, :6119-6240. -/
def gEmit (inP : Arg → Bool) (aggs : List Agg) (e : Entry V) (g : Agg) : Option Val :=
  match g with
  | .countStar => (getSt (infos aggs) e.aggs (.agg g)).cell.map fun v => vmul g.ty v e.pcnt
  | .count a => gScale inP g.ty a e (getSt (infos aggs) e.aggs (.agg g)).cell
  | .sum a => gScale inP g.ty a e (getSt (infos aggs) e.aggs (.agg g)).cell
  | .avg _ => emit aggs (infos aggs) e.aggs g
  | .min _ => (getSt (infos aggs) e.aggs (.agg g)).cell
  | .max _ => (getSt (infos aggs) e.aggs (.agg g)).cell

/-- `HashBasedGroupJoin::execute`, :5586-6246: for each group with a match, the values of the columns named like the
grouping keys — these are the columns of the hash table in the order of its schema (:5597-5602), while the values were
inserted in the order of the join predicate (:6011-6014) — and the aggregates. -/
def groupJoin [DecidableEq V] (evB : Arg → B → Option Val) (evP : Arg → P → Option Val) (inB inP : Arg → Bool)
    (bval : C → B → Option V) (pval : C → P → Option V) (on : List (C × C)) (groupBy : List C) (aggs : List Agg)
    (build : List (Option Bool × B)) (probe : List (Option Bool × P)) : List (List (C × Option V) × (Agg → Option Val)) :=
  let es := gTable evB evP inB inP (fun b => on.map fun xy => bval xy.1 b) (fun p => on.map fun xy => pval xy.2 p) aggs
    build probe
  (es.filter fun e => decide (e.pcnt ≠ 0)).map fun e => (groupBy.zip e.key, gEmit inP aggs e)

end

end Mutable.WasmJoin
