/-
Model of the cardinality estimators:
src/catalog/CardinalityEstimator.cpp (CartesianProductEstimator, InjectionCardinalityEstimator, SpnEstimator),
include/mutable/catalog/CardinalityEstimator.hpp, and of the places that call them: include/mutable/IR/PlanTable.hpp (`update`) and
src/IR/Optimizer.cpp.

Simplifications: names are lists of non-zero bytes; a JSON document is the list of the entries of the database in use, an entry is `none` if it does not
have the keys "relations" and "size" (a name that is not a string, a missing database or a document that does not parse are not modelled: the first is
an exception that is not caught, the others leave the table empty).  Plan tables are total functions.
-/
namespace Mutable.CardEst

/-- Multiplication of `std::size_t`. -/
def mul64 (a b : Nat) : Nat := a * b % 2 ^ 64

/-- The members of a `SmallBitset` in the order of its iterator, include/mutable/util/ADT.hpp. -/
def elems (S : Nat) : List Nat := (List.range 64).filter fun i => S.testBit i

/-! ## CartesianProductEstimator -/

/-- `empty_model`, CardinalityEstimator.cpp:63-68. -/
def cpEmpty : Nat := 0
/-- `estimate_scan`, CardinalityEstimator.cpp:70-78. -/
def cpScan (numRows : Nat) : Nat := numRows
/-- `estimate_filter`, CardinalityEstimator.cpp:80-86. -/
def cpFilter (d : Nat) : Nat := d
/-- `remaining` in `estimate_limit`, CardinalityEstimator.cpp:93 and 280. -/
def remaining (size offset : Nat) : Nat := if offset > size then 0 else size - offset
/-- `estimate_limit`, CardinalityEstimator.cpp:88-97. -/
def cpLimit (d limit offset : Nat) : Nat := min (remaining d offset) limit
/-- `estimate_grouping`, CardinalityEstimator.cpp:99-107. -/
def cpGroup (d : Nat) : Nat := d
/-- `estimate_join`, CardinalityEstimator.cpp:109-118. -/
def cpJoin (l r : Nat) : Nat := mul64 l r
/-- `estimate_join_all`, CardinalityEstimator.cpp:120-131: `pt i` is the size of the model of source `i`. -/
def cpJoinAll (pt : Nat → Nat) (S : Nat) : Nat := (elems S).foldl (fun acc i => mul64 acc (pt i)) 1

/-! ## InjectionCardinalityEstimator -/

abbrev Name := List Nat
/-- `cardinality_table_`. -/
abbrev Table := List (Name × Nat)

/-- `InjectionCardinalityDataModel`, CardinalityEstimator.hpp:233-252. -/
structure InjModel where
  sub : Nat
  size : Nat
deriving DecidableEq, Repr

/-- `cardinality_table_.find`. -/
def lookup : Table → Name → Option Nat
  | [], _ => none
  | (k, v) :: t, n => if k = n then some v else lookup t n

/-- `strcmp (l, r) <= 0`; the same order as `operator<=` of `std::string`. -/
def leName : Name → Name → Bool
  | [], _ => true
  | _ :: _, [] => false
  | a :: as, b :: bs => if a < b then true else if b < a then false else leName as bs

/-- One step of `std::sort` as insertion. -/
def insertName (n : Name) : List Name → List Name
  | [] => [n]
  | m :: ms => if leName n m then n :: m :: ms else m :: insertName n ms

/-- `std::sort`, CardinalityEstimator.cpp:230 and 414. -/
def sortNames : List Name → List Name
  | [] => []
  | n :: ns => insertName n (sortNames ns)

/-- The loops CardinalityEstimator.cpp:232-237 and 416-421: names joined by `$`. -/
def joinDollar : List Name → Name
  | [] => []
  | [n] => n
  | n :: ns => n ++ 36 :: joinDollar ns

/-- One entry of the file, CardinalityEstimator.cpp:214-242; `none` is the failing assertion on duplicates. -/
def readEntry (tbl : Table) : Option (List Name × Nat) → Option Table
  | none => some tbl
  | some (rels, size) =>
    match lookup tbl (joinDollar (sortNames rels)) with
    | some _ => none
    | none => some ((joinDollar (sortNames rels), size) :: tbl)

/-- `read_json`, CardinalityEstimator.cpp:187-243. -/
def readEntries : Table → List (Option (List Name × Nat)) → Option Table
  | tbl, [] => some tbl
  | tbl, e :: es => (readEntry tbl e).bind fun tbl' => readEntries tbl' es

/-- `make_identifier`, CardinalityEstimator.cpp:407-425. -/
def makeId (names : Nat → Name) (S : Nat) : Name := joinDollar (sortNames ((elems S).map names))

/-- `if found then … else …` on the result of a lookup, clamped by `max`. -/
def clamp (found : Option Nat) (bound fallback : Nat) : Nat :=
  match found with
  | some n => min n bound
  | none => fallback

/-- `estimate_scan`, CardinalityEstimator.cpp:252-266. -/
def injScan (names : Nat → Name) (rows : Nat → Nat) (tbl : Table) (i : Nat) : InjModel :=
  ⟨1 <<< i, (lookup tbl (names i)).getD (cpScan (rows i))⟩
/-- `estimate_filter`, CardinalityEstimator.cpp:267-273. -/
def injFilter (d : InjModel) : InjModel := d
/-- `estimate_limit`, CardinalityEstimator.cpp:275-282. -/
def injLimit (d : InjModel) (limit offset : Nat) : InjModel := ⟨d.sub, min (remaining d.size offset) limit⟩
/-- The identifier of grouping keys, CardinalityEstimator.cpp:293-303: `g`, and for every key a `#` and its alias, or the printed expression. -/
def groupId (keys : List Name) : Name := 103 :: keys.flatMap fun k => 35 :: k
/-- `estimate_grouping`, CardinalityEstimator.cpp:284-313. -/
def injGroup (tbl : Table) (d : InjModel) (keys : List Name) : InjModel :=
  if keys = [] then ⟨d.sub, 1⟩ else ⟨d.sub, clamp (lookup tbl (groupId keys)) d.size d.size⟩
/-- `estimate_join`, CardinalityEstimator.cpp:315-344. -/
def injJoin (names : Nat → Name) (tbl : Table) (l r : InjModel) : InjModel :=
  ⟨l.sub ||| r.sub, clamp (lookup tbl (makeId names (l.sub ||| r.sub))) (mul64 l.size r.size) (cpJoin l.size r.size)⟩
/-- `size` before the loop CardinalityEstimator.cpp:364-368, that starts again at the first source. -/
def injFirst (pt : Nat → InjModel) : List Nat → Nat
  | [] => 0
  | i :: _ => (pt i).size
/-- `estimate_join_all`, CardinalityEstimator.cpp:346-371. -/
def injJoinAll (names : Nat → Name) (tbl : Table) (pt : Nat → InjModel) (S : Nat) : InjModel :=
  ⟨S, clamp (lookup tbl (makeId names S)) ((elems S).foldl (fun acc i => mul64 acc (pt i).size) 1)
        ((elems S).foldl (fun acc i => mul64 acc (pt i).size) (injFirst pt (elems S)))⟩

/-! ## The plan table -/

/-- `PlanTableBase::update` as far as data models are concerned, PlanTable.hpp:121-137; `none` is one of its assertions. -/
def update {M : Type} (join : M → M → M) (pt : Nat → Option M) (L R : Nat) : Option (Nat → Option M) :=
  if L = 0 ∨ R = 0 then none
  else match pt (L ||| R), pt L, pt R with
    | some _, _, _ => some pt
    | none, some l, some r => some fun S => if S = L ||| R then some (join l r) else pt S
    | none, _, _ => none

/-- The sequence of updates that a plan enumerator makes. -/
def updates {M : Type} (join : M → M → M) : (Nat → Option M) → List (Nat × Nat) → Option (Nat → Option M)
  | pt, [] => some pt
  | pt, (L, R) :: us => (update join pt L R).bind fun pt' => updates join pt' us

/-- The plan table after `optimize_source_plans`, Optimizer.cpp:210-290, for `n` sources. -/
def initPT {M : Type} (n : Nat) (leaf : Nat → M) (S : Nat) : Option M :=
  ((List.range n).find? fun i => S = 1 <<< i).map leaf

/-! ## SpnEstimator -/

/-- What the estimator asks of the `SpnWrapper` of a table: the attributes it knows, with the estimated number of distinct values, and the number of rows.
The primary key is not among the attributes, src/catalog/SpnWrapper.cpp:45-54. -/
structure Spn where
  attrs : Table
  numRows : Nat
deriving DecidableEq, Repr

/-- `SpnDataModel`, CardinalityEstimator.hpp:328-347.  Of the unordered map `spns_`, the code uses only lookup, insertion, size, and `begin()` if the size
is one. -/
structure SpnModel where
  spns : List (Name × Spn)
  mfs : List Nat
  numRows : Nat
deriving DecidableEq, Repr

/-- An equality of two attributes, given by the names of their tables and their own names. -/
structure JCond where
  t1 : Name
  a1 : Name
  t2 : Name
  a2 : Name
deriving DecidableEq, Repr

/-- Division of `std::size_t`; `none` is the division by zero. -/
def div64 (a b : Nat) : Option Nat := if b = 0 then none else some (a / b)

/-- `max_frequency (data, attribute)`, CardinalityEstimator.cpp:573-581. -/
def maxFreqAttr (d : SpnModel) (a : Name) : Option Nat :=
  match d.spns with
  | [] => none
  | (_, s) :: _ =>
    match lookup s.attrs a with
    | none => some 1
    | some k => div64 d.numRows k

/-- The attribute that `find_spn_id` picks, CardinalityEstimator.cpp:553-555. -/
def pickAttr (t : Name) (j : JCond) : Name := if t = j.t1 then j.a1 else j.a2

/-- `max_frequency (data, join)`, CardinalityEstimator.cpp:544-571. -/
def maxFreq (d : SpnModel) (j : JCond) : Option Nat :=
  match d.spns with
  | [] => none
  | (t, _) :: _ => maxFreqAttr d (pickAttr t j)

/-- Conversion of a `std::size_t` to `int` and back. -/
def viaInt (n : Nat) : Nat := if n % 2 ^ 32 < 2 ^ 31 then n % 2 ^ 32 else 2 ^ 64 - 2 ^ 32 + n % 2 ^ 32

/-- `std::accumulate (begin, end, 1, std::multiplies<>())`, CardinalityEstimator.cpp:697-701 and 773-774: the initial value is an `int`, hence the
accumulator is one. -/
def accumulate (l : List Nat) : Nat := l.foldl (fun acc x => viaInt (mul64 acc x)) 1

/-- `estimate_scan`, CardinalityEstimator.cpp:590-604. -/
def spnScan (t : Name) (s : Spn) : SpnModel := ⟨[(t, s)], [], s.numRows⟩

/-- The maximum frequencies after those of a single table have been added, CardinalityEstimator.cpp:692-693. -/
def addMf (d : SpnModel) (j : JCond) : Option (List Nat) :=
  if d.spns.length = 1 then (maxFreq d j).map fun m => d.mfs ++ [m] else some d.mfs

/-- `num_rows_join`, CardinalityEstimator.cpp:703-706. -/
def joinRows (nl nr mfl mfr : Nat) : Option Nat :=
  (div64 nl mfl).bind fun lc => (div64 nr mfr).map fun rc => mul64 (mul64 (min lc rc) mfl) mfr

/-- `unordered_map::insert` of one table. -/
def insertSpn (ts : List (Name × Spn)) (t : Name × Spn) : List (Name × Spn) := if t.1 ∈ ts.map (·.1) then ts else ts ++ [t]

/-- `spns_.insert` of a range, CardinalityEstimator.cpp:718. -/
def mergeSpns (a b : List (Name × Spn)) : List (Name × Spn) := b.foldl insertSpn a

/-- `estimate_join` with a condition, CardinalityEstimator.cpp:671-708, 717-722: only the first predicate of the first clause is considered. -/
def spnJoin (l r : SpnModel) (j : JCond) : Option SpnModel :=
  (addMf l j).bind fun ml => (addMf r j).bind fun mr =>
    (joinRows l.numRows r.numRows (accumulate ml) (accumulate mr)).map fun n => ⟨mergeSpns l.spns r.spns, ml ++ mr, n⟩

/-- Like `addMf` without a condition, CardinalityEstimator.cpp:711-712. -/
def addRows (d : SpnModel) : List Nat := if d.spns.length = 1 then d.mfs ++ [d.numRows] else d.mfs

/-- `estimate_join` without a condition, CardinalityEstimator.cpp:709-722. -/
def spnCross (l r : SpnModel) : SpnModel := ⟨mergeSpns l.spns r.spns, addRows l ++ addRows r, mul64 l.numRows r.numRows⟩

/-- `estimate_limit`, CardinalityEstimator.cpp:638-644. -/
def spnLimit (d : SpnModel) (limit _offset : Nat) : SpnModel := { d with numRows := min d.numRows limit }

/-- The factor of one grouping key, CardinalityEstimator.cpp:652-665; `none` is the exception that a table is not found. -/
def groupFactor (d : SpnModel) (key : Name × Name) : Option Nat :=
  match d.spns.find? fun p => p.1 = key.1 with
  | none => none
  | some (_, s) => some ((lookup s.attrs key.2).getD s.numRows)

/-- The loop of `estimate_grouping`, CardinalityEstimator.cpp:650-666. -/
def groupRows (d : SpnModel) : List (Name × Name) → Nat → Option Nat
  | [], n => some n
  | k :: ks, n => (groupFactor d k).bind fun f => groupRows d ks (mul64 n f)

/-- `estimate_grouping`, CardinalityEstimator.cpp:646-669; a key is a designator. -/
def spnGroup (d : SpnModel) (keys : List (Name × Name)) : Option SpnModel := (groupRows d keys 1).map fun n => { d with numRows := n }

/-- `table_to_attribute.emplace`, CardinalityEstimator.cpp:745-746. -/
def emplaceAttr (m : List (Name × Name)) (t a : Name) : List (Name × Name) := if t ∈ m.map (·.1) then m else m ++ [(t, a)]

/-- `table_to_attribute` after the loop CardinalityEstimator.cpp:743-747: the translator keeps the designators of all clauses, and the loop reads its
first two in every iteration. -/
def tableToAttr : List JCond → List (Name × Name)
  | [] => []
  | j :: js => (j :: js).foldl (fun m _ => emplaceAttr (emplaceAttr m j.t1 j.a1) j.t2 j.a2) []

/-- `find` in `table_to_attribute`. -/
def findAttr : List (Name × Name) → Name → Option Name
  | [], _ => none
  | (k, v) :: m, t => if k = t then some v else findAttr m t

/-- The maximum frequency of one model in `estimate_join_all`, CardinalityEstimator.cpp:753-760 and 767-771. -/
def joinAllMf (m : List (Name × Name)) (d : SpnModel) : Option Nat :=
  match d.spns with
  | [] => none
  | (t, s) :: _ =>
    match findAttr m t with
    | some a => maxFreqAttr d a
    | none => some s.numRows

/-- One iteration of the loop CardinalityEstimator.cpp:763-787; the models of base tables have no maximum frequencies yet. -/
def joinAllStep (m : List (Name × Name)) (acc d : SpnModel) : Option SpnModel :=
  (joinAllMf m d).bind fun mf =>
    (joinRows acc.numRows d.numRows (accumulate acc.mfs) mf).map fun n => ⟨d.spns.foldl insertSpn acc.spns, acc.mfs ++ [mf], n⟩

/-- The loop. -/
def joinAllLoop (m : List (Name × Name)) : SpnModel → List SpnModel → Option SpnModel
  | acc, [] => some acc
  | acc, d :: ds => (joinAllStep m acc d).bind fun acc' => joinAllLoop m acc' ds

/-- `estimate_join_all`, CardinalityEstimator.cpp:725-790; `ds` are the models of the sources in `to_join`. -/
def spnJoinAll (ds : List SpnModel) (cs : List JCond) : Option SpnModel :=
  match cs, ds with
  | [], ds => some ⟨[], [], ds.foldl (fun acc d => mul64 acc d.numRows) 1⟩
  | _ :: _, [] => none
  | c :: cs, d :: ds => (joinAllMf (tableToAttr (c :: cs)) d).bind fun mf =>
      joinAllLoop (tableToAttr (c :: cs)) { d with mfs := d.mfs ++ [mf] } ds

/-! ## Filters of the SpnEstimator -/

/-- `Spn::SpnOperator` as far as the translator sets it. -/
inductive SpnOp | eq | lt | le | gt | ge | isNull
deriving DecidableEq, Repr

/-- Comparison operators of SQL. -/
inductive Cmp | eq | ne | lt | le | gt | ge
deriving DecidableEq, Repr

/-- Operands: an attribute, a constant (`none` is NULL; integers of magnitude at most 2^24, that are exact as `float`), or another expression. -/
inductive Operand | attr (a : Name) | const (v : Option Int) | other
deriving DecidableEq, Repr

/-- A predicate of a CNF: a comparison that may be negated, src/IR/CNF.cpp. -/
structure Pred where
  op : Cmp
  lhs : Operand
  rhs : Operand
  neg : Bool
deriving DecidableEq, Repr

/-- State of the `FilterTranslator`, CardinalityEstimator.cpp:435-443. -/
structure FT where
  col : Name
  value : Int
  op : SpnOp
deriving DecidableEq, Repr

/-- Its constructor. -/
def FT.init : FT := ⟨[], 0, .eq⟩

/-- `operator()(Designator)`, `operator()(Constant)` and the empty ones, CardinalityEstimator.cpp:445-467, 494-497. -/
def ftOperand (s : FT) : Operand → FT
  | .attr a => { s with col := a }
  | .const (some v) => { s with value := v }
  | .const none => { s with op := .isNull }
  | .other => s

/-- The switch CardinalityEstimator.cpp:470-488; `none` is `M_unreachable`. -/
def ftOp : Cmp → Option SpnOp
  | .eq => some .eq
  | .lt => some .lt
  | .le => some .le
  | .gt => some .gt
  | .ge => some .ge
  | .ne => none

/-- `operator()(BinaryExpr)`, CardinalityEstimator.cpp:469-492. -/
def ftPred (s : FT) (p : Pred) : Option FT :=
  (ftOp p.op).map fun o => ftOperand (ftOperand { s with op := o } p.lhs) p.rhs

/-- `translated_filter`. -/
abbrev SFilter := List (Name × (SpnOp × Int))

/-- `translated_filter.emplace`, CardinalityEstimator.cpp:630. -/
def emplaceFilter (f : SFilter) (a : Name) (c : SpnOp × Int) : SFilter := if a ∈ f.map (·.1) then f else f ++ [(a, c)]

/-- The loop of `estimate_filter`, CardinalityEstimator.cpp:615-631; `none` is an assertion, `M_unreachable`, or the exception that the attribute does not
exist.  One translator is used for all clauses. -/
def transLoop (attrs : List Name) : FT → SFilter → List (List Pred) → Option SFilter
  | _, f, [] => some f
  | s, f, [p] :: cs =>
    (ftPred s p).bind fun s' =>
      if s'.col ∈ attrs then transLoop attrs s' (emplaceFilter f s'.col (s'.op, s'.value)) cs else none
  | _, _, _ :: _ => none

/-- The translation of a filter, CardinalityEstimator.cpp:606-631. -/
def translate (attrs : List Name) (cnf : List (List Pred)) : Option SFilter := transLoop attrs FT.init [] cnf

/-! ## Plans -/

abbrev Row := List Int

/-- Operator trees that the optimizer builds, with what the interpreter computes from them left abstract where the estimators do not look. -/
inductive Plan where
  | single
  | scan (rows : List Row)
  | filter (p : Row → Bool) (c : Plan)
  | join (p : Row → Bool) (l r : Plan)
  | group (key : Row → Row) (out : Row → List Row → Row) (c : Plan)
  | aggregate (out : List Row → Row) (c : Plan)
  | project (f : Row → Row) (c : Plan)
  | sort (s : List Row → List Row) (c : Plan)
  | limit (n off : Nat) (c : Plan)

/-- The estimated cardinality of a plan under the `CartesianProductEstimator`: Optimizer.cpp:192-196 (`single`), 224-231, 268-284, PlanTable.hpp:136,
Optimizer.cpp:383-460. -/
def cpPlan : Plan → Nat
  | .single => cpEmpty
  | .scan rows => cpScan rows.length
  | .filter _ c => cpFilter (cpPlan c)
  | .join _ l r => cpJoin (cpPlan l) (cpPlan r)
  | .group _ _ c => cpGroup (cpPlan c)
  | .aggregate _ c => cpGroup (cpPlan c)
  | .project _ c => cpPlan c
  | .sort _ c => cpPlan c
  | .limit n off c => cpLimit (cpPlan c) n off

end Mutable.CardEst
