import Verif.HSearch.Model
import Verif.PlanEnum.Model
/-! Join ordering as heuristic search: the state `SubproblemsArray`, the expansions `BottomUpComplete` and
`TopDownComplete`, the heuristics `zero` and `sum`, and the reconstruction of the plan
(include/mutable/IR/HeuristicSearchPlanEnumerator.hpp, src/IR/HeuristicSearchPlanEnumerator.cpp).

`card S` is the predicted cardinality of the data model of the join of `S` (the data model of a set is assumed not to
depend on how it was computed, as in the plan enumerators).  Iterators into the array of subproblems are compared by the
subproblems they point to; these are pairwise distinct. -/
namespace Mutable.HS
open SB
variable {K : Type} [Field K] [LinearOrder K]

/-- `SubproblemsArray`: the sorted subproblems and the marked one; *g* and the parent are kept in the state manager's
entries.  HeuristicSearchPlanEnumerator.hpp:188-216. -/
structure JS where
  parts : List SB
  marked : SB
  deriving DecidableEq

/-- `SubproblemsArray::Bottom`.  HeuristicSearchPlanEnumerator.hpp:283-299. -/
def bottom (n : Nat) : JS := ⟨(List.range n).map singleton, 1#64⟩

/-- The pairs of the two nested loops: outer before inner.  HeuristicSearchPlanEnumerator.hpp:1270-1273. -/
def pairs : List SB → List (SB × SB)
  | [] => []
  | o :: rest => rest.map (fun i => (o, i)) ++ pairs rest

/-- The subproblems after the join of `o` and `i`: `o` is skipped, `i` replaced.  HeuristicSearchPlanEnumerator.hpp:1284-1291. -/
def joinParts (l : List SB) (o i : SB) : List SB :=
  l.filterMap fun X => if X = o then none else if X = i then some (o ||| i) else some X

/-- `action_cost`.  HeuristicSearchPlanEnumerator.hpp:1301-1304, 1648-1653. -/
def actionCost (n : Nat) (card : SB → K) (J : SB) : K := if J = all n then 0 else card J

/-- `BottomUpComplete::operator()`.  HeuristicSearchPlanEnumerator.hpp:1256-1325. -/
def buSucc (M : AdjMat) (n : Nat) (card : SB → K) (st : JS) : List (JS × K) :=
  (pairs st.parts).filterMap fun p =>
    if p.2 < st.marked then none
    else if isEmpty (M.neighbors p.1 &&& p.2) then none
    else some (⟨joinParts st.parts p.1 p.2, p.1 ||| p.2⟩, actionCost n card (p.1 ||| p.2))

/-- The search space of `BottomUpComplete`; goals are the states with at most one subproblem.
HeuristicSearchPlanEnumerator.hpp:1236-1241, 331-336. -/
def buSpace (M : AdjMat) (n : Nat) (card : SB → K) (heur : JS → K) : Space JS K where
  succ := buSucc M n card
  goal := fun st => st.parts.length ≤ 1
  heur := heur

/-- The merge of the state's subproblems except `S` with the partitions.  HeuristicSearchPlanEnumerator.hpp:1614-1640. -/
def mergeParts (S : SB) : List SB → List SB → List SB
  | [], r => r
  | x :: l, r =>
    if x = S then mergeParts S l r
    else
      match r with
      | [] => x :: mergeParts S l []
      | y :: r' => if x < y then x :: mergeParts S l (y :: r') else y :: mergeParts S (x :: l) r'
termination_by l r => l.length + r.length

/-- `enumerate_ccp`: the partitions are put in order.  HeuristicSearchPlanEnumerator.hpp:1605-1609. -/
def orderPair (p : SB × SB) : SB × SB := if p.2 < p.1 then (p.2, p.1) else p

/-- `TopDownComplete::operator()`: only the first subproblem that is not a single relation is partitioned.  The `marked`
subproblem of the new state is never read by this expansion and is left out.
HeuristicSearchPlanEnumerator.hpp:1593-1685. -/
def tdSucc (M : AdjMat) (n : Nat) (card : SB → K) (l : List SB) : List (List SB × K) :=
  match l.find? (fun S => !isSingleton S) with
  | none => []
  | some S => ((M.agatPartition S).getD []).map fun p =>
      let q := orderPair p
      (mergeParts (q.1 ||| q.2) l [q.1, q.2], actionCost n card (q.1 ||| q.2))

/-- The search space of `TopDownComplete`; goals are the states with as many subproblems as relations.
HeuristicSearchPlanEnumerator.hpp:1578-1583, 324-329. -/
def tdSpace (M : AdjMat) (n : Nat) (card : SB → K) (heur : List SB → K) : Space (List SB) K where
  succ := tdSucc M n card
  goal := fun l => l.length == n
  heur := heur

/-- `SubproblemsArray::Top`.  HeuristicSearchPlanEnumerator.hpp:301-317. -/
def top (n : Nat) : List SB := [all n]

/-- The heuristic `sum` for top-down search.  HeuristicSearchPlanEnumerator.hpp:1758-1776. -/
def sumTD (card : SB → K) (l : List SB) : K :=
  if l.length ≤ 1 then 0 else ((l.filter (fun S => !isSingleton S)).map card).sum

/-- The heuristic `sum` for bottom-up search.  HeuristicSearchPlanEnumerator.hpp:1736-1746. -/
def sumBU (card : SB → K) (st : JS) : K :=
  if st.parts.length ≤ 1 then 0 else (st.parts.map card).sum

/-- `delta`: the first argument counts the subproblems still to be found.  HeuristicSearchPlanEnumerator.cpp:51-73. -/
def delta : Nat → List SB → List SB → List SB
  | 0, _, _ => []
  | _ + 1, [], _ => []
  | k + 1, b :: before, [] => b :: delta k before []
  | k + 1, b :: before, a :: after => if b = a then delta (k + 1) before after else b :: delta k before (a :: after)

variable {C D : Type} [LT C] [DecidableLT C]

/-- `reconstruct_plan_bottom_up`; the `M_insist`s hold.  HeuristicSearchPlanEnumerator.cpp:75-87. -/
inductive ReconBU (E : PE.Env C D) (m : Mgr JS K) (T : PE.PT C D) : JS → PE.PT C D → Prop
  | root {s : JS} {i : Info JS K} : m.map s = some i → i.parent = none → ReconBU E m T s T
  | step {s p : JS} {i : Info JS K} {A B : SB} {T₁ T₂ : PE.PT C D} : m.map s = some i → i.parent = some p →
      ReconBU E m T p T₁ → delta 2 p.parts s.parts = [A, B] → PE.hasPlan T₁ (A ||| B) = false →
      PE.update E T₁ A B = some T₂ → ReconBU E m T s T₂

/-- `reconstruct_plan_top_down`; the `M_insist`s hold.  HeuristicSearchPlanEnumerator.cpp:89-103. -/
inductive ReconTD (E : PE.Env C D) (m : Mgr (List SB) K) : List SB → PE.PT C D → PE.PT C D → Prop
  | root {s : List SB} {i : Info (List SB) K} {T : PE.PT C D} : m.map s = some i → i.parent = none → ReconTD E m s T T
  | step {s p : List SB} {i : Info (List SB) K} {A B : SB} {T T₁ T₂ : PE.PT C D} : m.map s = some i → i.parent = some p →
      delta 2 s p = [A, B] → PE.hasPlan T (A ||| B) = false → PE.update E T A B = some T₁ →
      ReconTD E m p T₁ T₂ → ReconTD E m s T T₂

end Mutable.HS
