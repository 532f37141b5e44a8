import Verif.Graph.Model
import Verif.Graph.AGaTModel
/-!
# Model of the plan table and the plan enumerators
(include/mutable/IR/PlanTable.hpp, include/mutable/IR/PlanEnumerator.hpp, src/IR/PlanEnumerator.cpp)

* Costs are an arbitrary type `C` with a decidable `<` (the code uses `double`), data models an arbitrary type `D`.
* `none` stands for a violated `M_insist`/null dereference; `some PT` for the plan table after the call.
* The cost function reads only the models of `left`, `right`, `left|right` and the costs of `left`, `right`
  (as `CostFunctionCout.hpp:27-29` does); it is an arbitrary function of these.
* Both plan-table implementations are modelled by a total function from subproblems to entries; the bounds check of
  `PlanTableSmallOrDense::at` (PlanTable.hpp:237) and the hash table of `PlanTableLargeAndSparse` are not modelled.
-/
namespace Mutable
open SB
namespace PE

/-- `PlanTableEntry` (PlanTable.hpp:37-45), without the optional `data`. -/
structure Entry (C D : Type) where
  left : SB
  right : SB
  model : Option D
  cost : C

abbrev PT (C D : Type) := SB → Entry C D

/-- What a plan enumerator gets: number of sources and adjacency matrix of the query graph, the cardinality estimator's
`estimate_join` (PlanTable.hpp:133) and the cost function's `calculate_join_cost left right |left∪right| |left| |right|
cost(left) cost(right)` (PlanTable.hpp:137). -/
structure Env (C D : Type) where
  n : Nat
  M : AdjMat
  estJoin : D → D → D
  jc : SB → SB → D → D → D → C → C → C

variable {C D : Type}

/-- `has_plan(s)` (PlanTable.hpp:243-248 and 334-343). -/
def hasPlan (T : PT C D) (S : SB) : Bool := size S == 1 || !isEmpty (T S).left

/-- assignment to one entry -/
def setEntry (T : PT C D) (S : SB) (e : Entry C D) : PT C D := fun X => if X = S then e else T X

variable [LT C] [DecidableLT C]

/-- The part of `update` after the model of the result is known (PlanTable.hpp:136-153). -/
def updateWith (E : Env C D) (T : PT C D) (L R : SB) (m ml mr : D) : PT C D :=
  let S := L ||| R
  let cost := E.jc L R m ml mr (T L).cost (T R).cost
  let rl := E.jc R L m mr ml (T R).cost (T L).cost
  let b := if rl < cost then (rl, R, L) else (cost, L, R)
  if !hasPlan T S || b.1 < (T S).cost
  then setEntry T S { left := b.2.1, right := b.2.2, model := some m, cost := b.1 }
  else setEntry T S { T S with model := some m }

/-- `PlanTableBase::update` (PlanTable.hpp:113-154). -/
def update (E : Env C D) (T : PT C D) (L R : SB) : Option (PT C D) :=
  if isEmpty L || isEmpty R then none else
  match (T L).model, (T R).model with
  | some ml, some mr =>
    match (T (L ||| R)).model with
    | some m => some (updateWith E T L R m ml mr)
    | none => some (updateWith E T L R (E.estJoin ml mr) ml mr)
  | _, _ => none

/-- The loop `for (sub = least_subset(S); sub != limit; sub = next_subset(sub, S))` (e.g. PlanEnumerator.cpp:51). -/
def untilLoop (S limit : SB) : Nat → SB → List SB
  | 0, _ => []
  | fuel+1, sub => if sub = limit then [] else sub :: untilLoop S limit fuel (nextSubset sub S)

/-- Values of the loop variable; `S + 1` iterations suffice when `limit` is a non-empty subset of `S` (`until_eq`). -/
def subsetsUntil (S limit : SB) : List SB := untilLoop S limit (S.toNat + 1) (leastSubset S)

/-- The values `1, …, 2^n - 1` of the loop `for (i = 1, end = 1UL << n; i < end; ++i)` (e.g. PlanEnumerator.cpp:44). -/
def numbers (n : Nat) : List SB := (List.range' 1 (2^n - 1)).map (BitVec.ofNat 64)

/-- Body `if (not has_plan(A)) continue; if (not has_plan(B)) continue; update(A, B)`. -/
def tryUpdate (E : Env C D) (T : PT C D) (A B : SB) : Option (PT C D) :=
  if !hasPlan T A then some T else if !hasPlan T B then some T else update E T A B

/-- `PEall` (PlanEnumerator.cpp:37-59). -/
def peAll (E : Env C D) (T : PT C D) : Option (PT C D) :=
  (numbers E.n).foldlM (fun T S =>
    if size S = 1 then some T else
      (subsetsUntil S (hi S)).foldlM (fun T S1 =>
        let S2 := diff S S1
        if hasPlan T S1 && hasPlan T S2 then update E T S1 S2 else none) T) T

/-- The two inner loops of `DPsize`/`DPsizeOpt` over given lists (PlanEnumerator.cpp:83-92). -/
def sizeLoops (E : Env C D) (l1 : List SB) (l2 : SB → List SB) (T : PT C D) : Option (PT C D) :=
  l1.foldlM (fun T S1 =>
    if !hasPlan T S1 then some T else
      (l2 S1).foldlM (fun T S2 =>
        if !hasPlan T S2 then some T
        else if !isEmpty (S1 &&& S2) then some T
        else if !E.M.isConnected2 S1 S2 then some T
        else update E T S1 S2) T) T

/-- `DPsize` (PlanEnumerator.cpp:72-97). -/
def dpSize (E : Env C D) (T : PT C D) : Option (PT C D) :=
  (List.range' 2 (E.n - 1)).foldlM (fun T s =>
    (List.range' 1 (s - 1)).foldlM (fun T s1 =>
      sizeLoops E (gosperAll s1 E.n) (fun _ => gosperAll (s - s1) E.n) T) T) T

/-- `DPsizeOpt` (PlanEnumerator.cpp:112-157). -/
def dpSizeOpt (E : Env C D) (T : PT C D) : Option (PT C D) :=
  (List.range' 2 (E.n - 1)).foldlM (fun T s =>
    (List.range' 1 (s / 2)).foldlM (fun T s1 =>
      if s1 = s - s1 then
        sizeLoops E (gosperAll s1 E.n) (fun S1 => gosperFrom (gosperNext S1) E.n) T
      else
        sizeLoops E (gosperAll s1 E.n) (fun _ => gosperAll (s - s1) E.n) T) T) T

/-- Loop over `O` and its complement in `S` (PlanEnumerator.cpp:182-190, 218-226, 258-267). -/
def subLoop (E : Env C D) (S limit : SB) (T : PT C D) : Option (PT C D) :=
  (subsetsUntil S limit).foldlM (fun T O =>
    let Comp := diff S O
    if !E.M.isConnected2 O Comp then none else tryUpdate E T O Comp) T

/-- `DPsizeSub` (PlanEnumerator.cpp:170-194). -/
def dpSizeSub (E : Env C D) (T : PT C D) : Option (PT C D) :=
  (List.range' 2 (E.n - 1)).foldlM (fun T s =>
    (gosperAll s E.n).foldlM (fun T S =>
      if !E.M.isConnected S then some T else subLoop E S S T) T) T

/-- `DPsub` (PlanEnumerator.cpp:207-228). -/
def dpSub (E : Env C D) (T : PT C D) : Option (PT C D) :=
  (numbers E.n).foldlM (fun T S =>
    if size S = 1 then some T else if !E.M.isConnected S then some T else subLoop E S S T) T

/-- `DPsubOpt` (PlanEnumerator.cpp:242-269). -/
def dpSubOpt (E : Env C D) (T : PT C D) : Option (PT C D) :=
  (numbers E.n).foldlM (fun T S =>
    if size S = 1 then some T else if !E.M.isConnected S then some T else subLoop E S (hi S) T) T

/-- `DPccp` (PlanEnumerator.cpp:277-289). -/
def dpCcp (E : Env C D) (T : PT C D) : Option (PT C D) :=
  (E.M.csgPairs (all E.n)).foldlM (fun T p => update E T p.1 p.2) T

/-- Recursion of `TDbasic::PlanGen` (PlanEnumerator.cpp:594-618) and of the callback of `TDMinCutAGaT`
(PlanEnumerator.cpp:652-667) for a partitioning function `parts` (`none`: an assertion inside the partitioning fails).
The first argument bounds the recursion depth. -/
def tdGen (E : Env C D) (parts : SB → Option (List (SB × SB))) : Nat → SB → PT C D → Option (PT C D)
  | 0, _, _ => none
  | fuel+1, S, T =>
    if hasPlan T S then some T else
      match parts S with
      | none => none
      | some l => l.foldlM (fun T p =>
          (tdGen E parts fuel p.1 T).bind fun T =>
          (tdGen E parts fuel p.2 T).bind fun T => update E T p.1 p.2) T

/-- The partitions tried by `TDbasic` (PlanEnumerator.cpp:601-606). -/
def basicParts (E : Env C D) (S : SB) : Option (List (SB × SB)) :=
  some (((subsetsUntil S S).filter fun sub =>
    decide (leastSubset sub < leastSubset (diff S sub)) && E.M.isConnected sub && E.M.isConnected (diff S sub)).map
    fun sub => (sub, diff S sub))

/-- `TDbasic` (PlanEnumerator.cpp:621-630). -/
def tdBasic (E : Env C D) (T : PT C D) : Option (PT C D) := tdGen E (basicParts E) 65 (all E.n) T

/-- `TDMinCutAGaT` (PlanEnumerator.cpp:648-676).  For the whole query the code calls `partition` without asking
`has_plan`; the model asks, which makes no difference because the table has no plan for it yet. -/
def tdMinCut (E : Env C D) (T : PT C D) : Option (PT C D) :=
  if E.n > 1 then tdGen E E.M.agatPartition 65 (all E.n) T else some T

end PE
end Mutable
