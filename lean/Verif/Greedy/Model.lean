import Verif.PlanEnum.Model
import Verif.Graph.PrimModel
/-!
# Model of the greedy plan enumerators `GOO`, `TDGOO`, `IKKBZ` and `LinearizedDP`
(include/mutable/IR/PlanEnumerator.hpp:57-197, src/IR/PlanEnumerator.cpp:292-582, 679-723)

Conventions as in `Verif.PlanEnum.Model`: `none` stands for a violated `M_insist`, a null dereference or exhausted fuel.

* `card d` is `CE.predict_cardinality` of the data model `d`, an element of an arbitrary linear order (the code: a `size_t`,
  converted to `double`); the initial value *infinity* of the running minimum is `none`, which is exact because a converted
  `size_t` is finite.
* The priority queues are lists together with functions `pick`, `pickR` giving the position of `top()`.  Nothing is assumed
  about these positions except that they exist, so not-a-number weights and ties are covered.
-/
namespace Mutable
open SB
namespace PE
variable {C D : Type} {K W : Type}

/-- `if (not PT[A|B].model) PT[A|B].model = CE.estimate_join(G, *PT[A].model, *PT[B].model, condition)`
(PlanEnumerator.hpp:113-115, PlanEnumerator.cpp:315-318, 345-348). -/
def ensureModel (E : Env C D) (T : PT C D) (A B : SB) : Option (PT C D) :=
  match (T (A ||| B)).model with
  | some _ => some T
  | none =>
    match (T A).model, (T B).model with
    | some ma, some mb => some (setEntry T (A ||| B) { T (A ||| B) with model := some (E.estJoin ma mb) })
    | _, _ => none

/-! ### GOO -/

/-- `GOO::node` (PlanEnumerator.hpp:63-71). -/
structure Node where
  sub : SB
  nbr : SB

/-- `can_merge_with` (PlanEnumerator.hpp:74-77); `none`: the `M_insist` fails. -/
def Node.canMerge (a b : Node) : Option Bool :=
  if (!isEmpty (a.sub &&& b.nbr)) == (!isEmpty (b.sub &&& a.nbr)) then some (!isEmpty (a.sub &&& b.nbr)) else none

/-- `merge` (PlanEnumerator.hpp:80-84), without the `M_insist` (checked by the caller). -/
def Node.merge (a b : Node) : Node := ⟨a.sub ||| b.sub, diff (a.nbr ||| b.nbr) (a.sub ||| b.sub)⟩

/-- The pairs `(outer, inner)` of positions in the order of the two nested loops (PlanEnumerator.hpp:107-108). -/
def idxPairs (len : Nat) : List (Nat × Nat) :=
  (List.range len).flatMap fun i => (List.range' (i + 1) (len - (i + 1))).map fun j => (i, j)

variable [LT K] [DecidableLT K]

/-- Loop body (PlanEnumerator.hpp:109-121): the state is the plan table, and the least cardinality so far with the positions
`left` and `right`. -/
def gooVisit (E : Env C D) (card : D → K) (nodes : List Node) (st : PT C D × Option (K × Nat × Nat)) (p : Nat × Nat) :
    Option (PT C D × Option (K × Nat × Nat)) :=
  match nodes[p.1]?, nodes[p.2]? with
  | some a, some b =>
    match a.canMerge b with
    | none => none
    | some false => some st
    | some true =>
      if !isEmpty (a.sub &&& b.sub) then none
      else if !E.M.isConnected2 a.sub b.sub then none
      else
        match ensureModel E st.1 a.sub b.sub with
        | none => none
        | some T =>
          match (T (a.sub ||| b.sub)).model with
          | none => none
          | some m =>
            match st.2 with
            | none => some (T, some (card m, p.1, p.2))
            | some best => if card m < best.1 then some (T, some (card m, p.1, p.2)) else some (T, some best)
  | _, _ => none

/-- `*left += *right; swap(*right, *--end)` (PlanEnumerator.hpp:135-136): the element at `i` becomes the merge, the one at `j`
is replaced by the last one, and the array shrinks by one. -/
def gooMerge (nodes : List Node) (i j : Nat) (a b : Node) : List Node :=
  ((nodes.set i (a.merge b)).set j (nodes.getLastD a)).dropLast

variable [LT C] [DecidableLT C]

/-- `for_each_join` (PlanEnumerator.hpp:96-138) with the callback of `compute_plan` (PlanEnumerator.hpp:139-148); also returns
the sequence of joins.  The first argument bounds the number of iterations. -/
def gooLoop (E : Env C D) (card : D → K) : Nat → List Node → PT C D → Option (List (SB × SB) × PT C D)
  | fuel, nodes, T =>
    if nodes.length = 1 then some ([], T) else
    match fuel with
    | 0 => none
    | fuel + 1 =>
      match (idxPairs nodes.length).foldlM (gooVisit E card nodes) (T, none) with
      | some (T, some (_, i, j)) =>
        match nodes[i]?, nodes[j]? with
        | some a, some b =>
          if !isEmpty (a.sub &&& b.sub) then none
          else if !E.M.isConnected (a.sub &&& b.sub) then none
          else
            match update E T a.sub b.sub with
            | none => none
            | some T => (gooLoop E card fuel (gooMerge nodes i j a b) T).map fun r => ((a.sub, b.sub) :: r.1, r.2)
        | _, _ => none
      | _ => none

/-- The initial node array (PlanEnumerator.cpp:690-694). -/
def gooNodes (E : Env C D) : List Node := (List.range E.n).map fun i => ⟨singleton i, E.M.neighbors (singleton i)⟩

/-- `GOO::operator()` (PlanEnumerator.cpp:684-698). -/
def goo (E : Env C D) (card : D → K) (T : PT C D) : Option (List (SB × SB) × PT C D) := gooLoop E card E.n (gooNodes E) T

/-! ### TDGOO -/

/-- `if (not PT[S].model) PT[S].model = CE.estimate_join_all(G, PT, S, cnf::CNF{})` (PlanEnumerator.hpp:180-183); `estAll S` is
what the estimator returns for the relations `S`. -/
def ensureAll (estAll : SB → D) (T : PT C D) (S : SB) : PT C D :=
  match (T S).model with
  | some _ => T
  | none => setEntry T S { T S with model := some (estAll S) }

/-- The lambda `enumerate_ccp` (PlanEnumerator.hpp:179-190). -/
def tdgooVisit [Add K] (card : D → K) (estAll : SB → D) (st : PT C D × Option (K × SB × SB)) (p : SB × SB) :
    Option (PT C D × Option (K × SB × SB)) :=
  let T := ensureAll estAll (ensureAll estAll st.1 p.1) p.2
  match (T p.1).model, (T p.2).model with
  | some ml, some mr =>
    match st.2 with
    | none => some (T, some (card ml + card mr, p.1, p.2))
    | some best => if card ml + card mr < best.1 then some (T, some (card ml + card mr, p.1, p.2)) else some (T, some best)
  | _, _ => none

/-- The loop `while (not worklist.empty())` (PlanEnumerator.hpp:171-200); the heads of the lists are the backs of the vectors
`worklist` and `joins`. -/
def tdgooLoop [Add K] (E : Env C D) (card : D → K) (estAll : SB → D) :
    Nat → List SB → List (SB × SB) → PT C D → Option (List (SB × SB) × PT C D)
  | _, [], joins, T => some (joins, T)
  | 0, _ :: _, _, _ => none
  | fuel + 1, top :: work, joins, T =>
    if isSingleton top then tdgooLoop E card estAll fuel work joins T else
    match E.M.agatPartition top with
    | none => none
    | some parts =>
      match parts.foldlM (tdgooVisit card estAll) (T, none) with
      | some (T, some (_, l, r)) =>
        if isEmpty l || isEmpty r then none
        else tdgooLoop E card estAll fuel (r :: l :: work) ((l, r) :: joins) T
      | _ => none

/-- `TDGOO` (PlanEnumerator.cpp:706-724, PlanEnumerator.hpp:160-205): the saved joins are issued in reverse order.  128
iterations suffice. -/
def tdgoo [Add K] (E : Env C D) (card : D → K) (estAll : SB → D) (T : PT C D) : Option (List (SB × SB) × PT C D) :=
  match tdgooLoop E card estAll 128 [all E.n] [] T with
  | none => none
  | some (joins, T) => (joins.foldlM (fun T p => update E T p.1 p.2) T).map fun T => (joins, T)

/-! ### IKKBZ -/

/-- What the linearization computes with numbers: the selectivity (PlanEnumerator.cpp:319-320) and the rank
(PlanEnumerator.cpp:349-353) of a join, given the models of both relations and of their join; the positions of the tops of
the two priority queues; and the floating-point value *infinity*. -/
structure LinEnv (C D W : Type) where
  sel : D → D → D → W
  rank : D → D → D → W
  pick : List (AdjMat.WEdge W) → Nat
  pickR : List (Nat × W) → Nat
  inf : C

/-- The value of `selectivity(u, v)` on the table `T` (PlanEnumerator.cpp:309-321); `dflt` stands for a missing model, which
does not occur. -/
def selectivity (E : Env C D) (X : LinEnv C D W) (T : PT C D) (dflt : D) (u v : Nat) : W :=
  let mu := (T (singleton u)).model.getD dflt
  let mv := (T (singleton v)).model.getD dflt
  X.sel mu mv ((T (singleton u ||| singleton v)).model.getD (E.estJoin mu mv))

/-- The edges `u < v` of the query graph. -/
def edgeList (E : Env C D) : List (Nat × Nat) :=
  (List.range E.n).flatMap fun u => ((List.range E.n).filter fun v => decide (u < v) && E.M.at' u v).map fun v => (u, v)

/-- The effect of `minimum_spanning_forest(selectivity)` on the plan table: `selectivity` is called once for each edge
(AdjacencyMatrix.cpp:93-95) and fills in the missing models (PlanEnumerator.cpp:315-318).  Simplification: in the code the
order of the edges and the roles of `u` and `v` depend on the course of the search. -/
def selModels (E : Env C D) (T : PT C D) : Option (PT C D) :=
  (edgeList E).foldlM (fun T e => ensureModel E T (singleton e.1) (singleton e.2)) T

/-- `for (n : N) Q.emplace(n, rank(parent, n))` (PlanEnumerator.cpp:381-382, 401-402 with 337-354). -/
def pushRanked (E : Env C D) (X : LinEnv C D W) (MST : AdjMat) (parent : Nat) (N : List Nat) (st : PT C D × List (Nat × W)) :
    Option (PT C D × List (Nat × W)) :=
  N.foldlM (fun st c =>
    if !MST.isConnected2 (singleton parent) (singleton c) || !get (MST.neighbors (singleton parent)) c then none else
    match ensureModel E st.1 (singleton parent) (singleton c) with
    | none => none
    | some T =>
      match (T (singleton parent)).model, (T (singleton c)).model, (T (singleton parent ||| singleton c)).model with
      | some mp, some mc, some mj => some (T, st.2 ++ [(c, X.rank mp mc mj)])
      | _, _, _ => none) st

/-- `while (not Q.empty())` (PlanEnumerator.cpp:385-404); returns table, `joined` and `linearization`. -/
def linLoop (E : Env C D) (X : LinEnv C D W) (MST : AdjMat) : Nat → List (Nat × W) → SB → List Nat → PT C D →
    Option (PT C D × SB × List Nat)
  | fuel, Q, joined, lin, T =>
    if Q.isEmpty then some (T, joined, lin) else
    match fuel with
    | 0 => none
    | fuel + 1 =>
      match Q[X.pickR Q]? with
      | none => none
      | some (id, _) =>
        let Q := Q.eraseIdx (X.pickR Q)
        let R := singleton id
        if !isEmpty (joined &&& R) then none
        else if !MST.isConnected2 joined R then none
        else
          match update E T joined R with
          | none => none
          | some T =>
            let joined := joined ||| R
            match pushRanked E X MST id (members (diff (MST.neighbors R) joined)) (T, Q) with
            | none => none
            | some (T, Q) => linLoop E X MST fuel Q joined (lin ++ [id]) T

/-- `PlanTableEntry()` (PlanTable.hpp:37-45). -/
def emptyEntry (inf : C) : Entry C D := ⟨0#64, 0#64, none, inf⟩

/-- *Clear plan table* (PlanEnumerator.cpp:408-420). -/
def clearPrefixes (inf : C) : SB → List Nat → PT C D → Option (PT C D)
  | _, [], T => some T
  | runner, R :: rest, T =>
    if get runner R then none else
    let runner := set runner R true
    if isSingleton runner || (T runner).model.isNone || isEmpty (T runner).left || isEmpty (T runner).right then none
    else clearPrefixes inf runner rest (setEntry T runner (emptyEntry inf))

/-- One iteration of the loop over the roots (PlanEnumerator.cpp:373-427); the state is the table, `best_linearization` and
`least_cost`. -/
def linRoot (E : Env C D) (X : LinEnv C D W) (MST : AdjMat) (st : PT C D × List Nat × C) (root : Nat) :
    Option (PT C D × List Nat × C) :=
  match pushRanked E X MST root (members (MST.neighbors (singleton root))) (st.1, []) with
  | none => none
  | some (T, Q) =>
    match linLoop E X MST 64 Q (singleton root) [root] T with
    | none => none
    | some (T, joined, lin) =>
      let cost := (T joined).cost
      match clearPrefixes X.inf (singleton root) lin.tail T with
      | none => none
      | some T => if cost < st.2.2 then some (T, lin, cost) else some (T, st.2)

/-- `IKKBZ::linearize` (PlanEnumerator.cpp:303-430). -/
def linearize (E : Env C D) (X : LinEnv C D W) (dflt : D) (T : PT C D) : Option (PT C D × List Nat) :=
  let MST := AdjMat.msf X.pick E.M (selectivity E X T dflt)
  match selModels E T with
  | none => none
  | some T => ((List.range E.n).foldlM (linRoot E X MST) (T, [], X.inf)).map fun st => (st.1, st.2.1)

/-- Reconstruction of the plan from the linearization (PlanEnumerator.cpp:441-448). -/
def linJoin (E : Env C D) : SB → List Nat → PT C D → Option (PT C D)
  | _, [], T => some T
  | right, x :: rest, T =>
    match update E T (singleton x) right with
    | none => none
    | some T => linJoin E (singleton x ||| right) rest T

/-- `IKKBZ::operator()` (PlanEnumerator.cpp:433-449). -/
def ikkbz (E : Env C D) (X : LinEnv C D W) (dflt : D) (T : PT C D) : Option (PT C D) :=
  match linearize E X dflt T with
  | none => none
  | some (T, lin) =>
    if lin.length ≠ E.n then none else
    match lin with
    | [] => none
    | x :: rest => linJoin E (singleton x) rest T

/-! ### LinearizedDP -/

/-- `Sequence::compute_subproblem_from_sequence` (PlanEnumerator.cpp:494-501). -/
def seqSet (lin : List Nat) (b e : Nat) : SB := ((lin.drop b).take (e - b)).foldl (fun S x => set S x true) 0#64

/-- *Consider all dissections of `seq` into two sequences* (PlanEnumerator.cpp:552-566). -/
def seqSplits (E : Env C D) (lin : List Nat) (b e : Nat) (S : SB) (T : PT C D) : Option (PT C D) :=
  if E.M.isConnected S then
    (List.range' (b + 1) (e - 1 - b)).foldlM (fun T mid =>
      let left := seqSet lin b mid
      tryUpdate E T left (diff S left)) T
  else some T

/-- The `for (;;)` loop (PlanEnumerator.cpp:551-589); `b`, `e`, `S` are the members of `seq` (PlanEnumerator.cpp:503-525). -/
def seqLoop (E : Env C D) (lin : List Nat) : Nat → Nat → Nat → SB → Bool → PT C D → Option (PT C D)
  | 0, _, _, _, _, _ => none
  | fuel + 1, b, e, S, right, T =>
    match seqSplits E lin b e S T with
    | none => none
    | some T =>
      if e - b = E.n then some T
      else if right then
        if e = lin.length then
          if b = 0 then none else seqLoop E lin fuel (b - 1) e (set S (lin.getD (b - 1) 0) true) false T
        else seqLoop E lin fuel (b + 1) (e + 1) (set (set S (lin.getD e 0) true) (lin.getD b 0) false) right T
      else
        if b = 0 then
          if e = lin.length then none else seqLoop E lin fuel b (e + 1) (set S (lin.getD e 0) true) true T
        else seqLoop E lin fuel (b - 1) (e - 1) (set (set S (lin.getD (b - 1) 0) true) (lin.getD (e - 1) 0) false) right T

/-- `LinearizedDP::operator()` (PlanEnumerator.cpp:541-590).  At most 64 windows of each of at most 64 lengths are visited. -/
def linDP (E : Env C D) (X : LinEnv C D W) (dflt : D) (T : PT C D) : Option (PT C D) :=
  if E.n ≤ 1 then some T else
  match linearize E X dflt T with
  | none => none
  | some (T, lin) => if lin.length < 2 then none else seqLoop E lin (E.n * E.n) 0 2 (seqSet lin 0 2) true T

end PE
end Mutable
