import Mathlib.Algebra.Order.Field.Rat
/-
Model of sum-product networks: src/util/Spn.cpp, src/util/Spn.hpp.

Simplifications: numbers are rational instead of `float`; a row maps an attribute to its value, or to `none` for NULL; matrices are lists of rows, and a
leaf gets the column of its attribute; which columns and which rows the learning algorithm separates (src/util/RDC.cpp, Kmeans.cpp) is given by a
`Shape`; trees have discrete leaves, continuous leaves are modelled separately.  `filter.at` of a missing attribute, an exception, gives 0.  The
operator EXPECTATION is not modelled.
-/
namespace Mutable.SumProd

abbrev Row := Nat → Option ℚ

/-- `Spn::SpnOperator`, Spn.hpp:28-36. -/
inductive Op | eq | lt | le | gt | ge | isNull
deriving DecidableEq, Repr

/-- `DiscreteLeaf::Bin`, Spn.hpp:216-229. -/
structure Bin where
  value : ℚ
  cum : ℚ
deriving DecidableEq

/-- `Spn::Filter`, Spn.hpp:47. -/
abbrev Filter := List (Nat × (Op × ℚ))

mutual
/-- `Spn::Node` and its descendants, Spn.hpp:74-255; `n` is `num_rows`. -/
inductive Node where
  | leaf (bins : List Bin) (nullP : ℚ) (n : Nat)
  | sum (cs : SumCs) (n : Nat)
  | prod (cs : ProdCs) (n : Nat)
/-- Children with weights, Spn.hpp:107-118. -/
inductive SumCs where
  | nil
  | cons (w : ℚ) (c : Node) (cs : SumCs)
/-- Children with variables, Spn.hpp:162-171. -/
inductive ProdCs where
  | nil
  | cons (vars : List Nat) (c : Node) (cs : ProdCs)
end

/-! ## Learning -/

/-- Insertion of a value into the sorted bins, that count values, Spn.cpp:771-776. -/
def insBin (v : ℚ) : List Bin → List Bin
  | [] => [⟨v, 1⟩]
  | b :: bs => if b.value < v then b :: insBin v bs else if b.value = v then ⟨b.value, b.cum + 1⟩ :: bs else ⟨v, 1⟩ :: b :: bs

/-- From counts to cumulative probabilities, Spn.cpp:779-783 and 339-344. -/
def cumul (n : ℚ) : ℚ → List Bin → List Bin
  | _, [] => []
  | prev, b :: bs => ⟨b.value, b.cum / n + prev⟩ :: cumul n (b.cum / n + prev) bs

/-- The bins of a column before and after the loop Spn.cpp:765-777. -/
def countBins (vals : List ℚ) : List Bin := vals.foldl (fun bs v => insBin v bs) []

/-- A discrete leaf, Spn.cpp:757-784. -/
def learnLeaf (col : List (Option ℚ)) : Node :=
  if col.all (fun x => x.isNone) then .leaf [] 1 col.length
  else .leaf (cumul col.length 0 (countBins (col.filterMap id))) ((col.countP fun x => x.isNone) / col.length) col.length

mutual
/-- The decisions of the learning algorithm: `learn_node`, Spn.cpp:751-847, `create_product_min_slice`, `create_product_rdc`, `create_sum`,
Spn.cpp:577-748. -/
inductive Shape where
  | leaf
  | sum (cs : SumShape)
  | prod (cs : ProdShape)
/-- The clusters of rows. -/
inductive SumShape where
  | nil
  | cons (rows : List Row) (s : Shape) (cs : SumShape)
/-- The groups of columns. -/
inductive ProdShape where
  | nil
  | cons (vars : List Nat) (s : Shape) (cs : ProdShape)
end

mutual
/-- `learn_node`, Spn.cpp:751-847. -/
def Shape.learn (vars : List Nat) (rows : List Row) : Shape → Node
  | .leaf => learnLeaf (rows.map fun r => r (vars.headD 0))
  | .sum cs => .sum (cs.learn vars rows.length) rows.length
  | .prod cs => .prod (cs.learn rows) rows.length
/-- The loop of `create_sum`, Spn.cpp:708-737. -/
def SumShape.learn (vars : List Nat) (total : Nat) : SumShape → SumCs
  | .nil => .nil
  | .cons part s cs => .cons (part.length / total) (s.learn vars part) (cs.learn vars total)
/-- The loop of `create_product_rdc`, Spn.cpp:609-629, and `create_product_min_slice`, Spn.cpp:579-598. -/
def ProdShape.learn (rows : List Row) : ProdShape → ProdCs
  | .nil => .nil
  | .cons vs s cs => .cons vs (s.learn vs rows) (cs.learn rows)
end

/-! ## Inference -/

/-- The cumulative probability of the last bin. -/
def lastCum : ℚ → List Bin → ℚ
  | d, [] => d
  | _, b :: bs => lastCum b.cum bs

/-- The value of the last bin, `std::prev (bins.end ())->value`. -/
def lastValue : ℚ → List Bin → ℚ
  | d, [] => d
  | _, b :: bs => lastValue b.value bs

/-- The cumulative probability of the predecessor of `std::lower_bound`. -/
def beforeLower (bins : List Bin) (v : ℚ) : ℚ := lastCum 0 (bins.takeWhile fun b => b.value < v)
/-- The cumulative probability of the predecessor of `std::upper_bound`. -/
def beforeUpper (bins : List Bin) (v : ℚ) : ℚ := lastCum 0 (bins.takeWhile fun b => b.value ≤ v)

/-- The bin at `std::lower_bound`, Spn.cpp:253-257. -/
def atLower (bins : List Bin) (v : ℚ) : ℚ :=
  match bins.dropWhile fun b => b.value < v with
  | [] => 0
  | b :: _ => if b.value = v then b.cum - beforeLower bins v else 0

/-- `DiscreteLeaf::evaluate`, Spn.cpp:227-297. -/
def evalLeaf (bins : List Bin) (nullP : ℚ) (op : Op) (v : ℚ) : ℚ :=
  match op, bins with
  | .isNull, _ => nullP
  | _, [] => 0
  | .eq, b :: bs => if b.value > v ∨ lastValue 0 (b :: bs) < v then 0 else atLower (b :: bs) v
  | .lt, b :: bs => if b.value ≥ v then 0 else if lastValue 0 (b :: bs) < v then lastCum 0 (b :: bs) else beforeLower (b :: bs) v
  | .le, b :: bs => if b.value > v then 0 else if lastValue 0 (b :: bs) ≤ v then lastCum 0 (b :: bs) else beforeUpper (b :: bs) v
  | .gt, b :: bs => if b.value > v then lastCum 0 (b :: bs) else if lastValue 0 (b :: bs) ≤ v then 0 else lastCum 0 (b :: bs) - beforeUpper (b :: bs) v
  | .ge, b :: bs => if b.value ≥ v then lastCum 0 (b :: bs) else if lastValue 0 (b :: bs) < v then 0 else lastCum 0 (b :: bs) - beforeLower (b :: bs) v

/-- `filter.at`. -/
def findCond (f : Filter) (a : Nat) : Option (Op × ℚ) := (f.find? fun e => e.1 = a).map (·.2)

/-- The first condition on one of the variables of a child of a product, Spn.cpp:168-174. -/
def childCond (f : Filter) (vars : List Nat) : Option Nat := (f.find? fun e => e.1 ∈ vars).map (·.1)

mutual
/-- `evaluate`, the likelihood: Spn.cpp:97-108, 163-178, 227-297. -/
def Node.eval (f : Filter) (leafId : Nat) : Node → ℚ
  | .leaf bins nullP _ =>
    match findCond f leafId with
    | some c => evalLeaf bins nullP c.1 c.2
    | none => 0
  | .sum cs _ => cs.eval f leafId
  | .prod cs _ => cs.eval f
/-- The loop Spn.cpp:101-105. -/
def SumCs.eval (f : Filter) (leafId : Nat) : SumCs → ℚ
  | .nil => 0
  | .cons w c cs => w * c.eval f leafId + cs.eval f leafId
/-- The loops Spn.cpp:167-176. -/
def ProdCs.eval (f : Filter) : ProdCs → ℚ
  | .nil => 1
  | .cons vars c cs =>
    match childCond f vars with
    | some a => c.eval f a * cs.eval f
    | none => cs.eval f
end

/-- `Spn::likelihood`, Spn.cpp:898-901; `begin ()` of an empty filter is not modelled. -/
def likelihood (root : Node) (f : Filter) : ℚ :=
  match f with
  | [] => 0
  | e :: _ => root.eval f e.1

mutual
/-- `estimate_number_distinct_values`, Spn.cpp:138-146, 199-208, 349-352. -/
def Node.distincts (a : Nat) : Node → Nat
  | .leaf bins _ _ => bins.length
  | .sum cs n => min (cs.distincts a) n
  | .prod cs _ => cs.distincts a
/-- The loop Spn.cpp:140-143. -/
def SumCs.distincts (a : Nat) : SumCs → Nat
  | .nil => 0
  | .cons _ c cs => c.distincts a + cs.distincts a
/-- The loop Spn.cpp:201-205. -/
def ProdCs.distincts (a : Nat) : ProdCs → Nat
  | .nil => 0
  | .cons vars c cs => if a ∈ vars then c.distincts a else cs.distincts a
end

/-! ## Updates of a leaf -/

/-- The loop that recovers the counts, Spn.cpp:312-321. -/
def counts (n : ℚ) : ℚ → List Bin → List Bin
  | _, [] => []
  | prev, b :: bs => ⟨b.value, (b.cum - prev) * n⟩ :: counts n b.cum bs

/-- Decrement of a bin, Spn.cpp:333-335 (`none`: the value is not found, and the leaf stays as it is; at the end of the bins the code dereferences
`end ()`). -/
def decBin (v : ℚ) : List Bin → Option (List Bin)
  | [] => none
  | b :: bs => if b.value < v then (decBin v bs).map (b :: ·) else if b.value = v then some (⟨b.value, b.cum - 1⟩ :: bs) else none

/-- `DiscreteLeaf::update (INSERT)`, Spn.cpp:299-347. -/
def insertLeaf (v : ℚ) : Node → Node
  | .leaf [] nullP n => .leaf [⟨v, 1 / (n + 1)⟩] (nullP * n / (n + 1)) (n + 1)
  | .leaf (b :: bs) nullP n => .leaf (cumul ((n : ℚ) + 1) 0 (insBin v (counts n 0 (b :: bs)))) nullP (n + 1)
  | x => x

/-- `DiscreteLeaf::update (DELETE)`, Spn.cpp:299-347. -/
def deleteLeaf (v : ℚ) : Node → Node
  | .leaf bins nullP n =>
    match decBin v (counts n 0 bins) with
    | some bs => .leaf (cumul ((n : ℚ) - 1) 0 bs) nullP (n - 1)
    | none => .leaf bins nullP n
  | x => x

/-! ## Updates of networks -/

/-- `num_rows` of a node. -/
def Node.rows : Node → Nat
  | .leaf _ _ n => n
  | .sum _ n => n
  | .prod _ n => n

/-- The new weights, Spn.cpp:131-133. -/
def SumCs.reweigh (total : Nat) : SumCs → SumCs
  | .nil => .nil
  | .cons _ c cs => .cons (c.rows / total) c (cs.reweigh total)

mutual
/-- `update`, Spn.cpp:110-136, 180-197, 299-347; `isDel`: the type is DELETE.  `more`: `num_rows` of the node has been incremented by the sum above
(`child->num_rows++`).  `near` gives the index of the child whose centroid is nearest to the row.  The row has no NULL. -/
def Node.update (isDel : Bool) (near : SumCs → Nat) (row : Nat → ℚ) (vars : List Nat) (more : Nat) : Node → Node
  | .leaf bins nullP n =>
    if isDel then deleteLeaf (row (vars.headD 0)) (.leaf bins nullP (n + more)) else insertLeaf (row (vars.headD 0)) (.leaf bins nullP (n + more))
  | .sum cs n => .sum (cs.update isDel near row vars (near cs) (n + more + 1)) (n + more + 1)
  | .prod cs n => .prod (cs.update isDel near row) (n + more)
/-- The new weights are computed after the number of rows of the nearest child has been incremented, and before that child is updated. -/
def SumCs.update (isDel : Bool) (near : SumCs → Nat) (row : Nat → ℚ) (vars : List Nat) (k total : Nat) : SumCs → SumCs
  | .nil => .nil
  | .cons _ c cs => if k = 0 then .cons ((c.rows + 1) / total) (c.update isDel near row vars 1) (cs.reweigh total)
    else .cons (c.rows / total) c (cs.update isDel near row vars (k - 1) total)
/-- The loop Spn.cpp:187-196. -/
def ProdCs.update (isDel : Bool) (near : SumCs → Nat) (row : Nat → ℚ) : ProdCs → ProdCs
  | .nil => .nil
  | .cons vs c cs => .cons vs (c.update isDel near row vs 0) (cs.update isDel near row)
end

/-! ## Continuous leaves -/

/-- `Spn::EvalType`, Spn.hpp:38-42. -/
inductive EvalType | approximate | upper | lower
deriving DecidableEq

/-- `ContinuousLeaf::Bin`, Spn.hpp:260-273. -/
structure CBin where
  upper : ℚ
  cum : ℚ
deriving DecidableEq

/-- `Spn::ContinuousLeaf`, Spn.hpp:258-300. -/
structure CLeaf where
  bins : List CBin
  lower : ℚ
  lowerP : ℚ
  nullP : ℚ
  rows : Nat
deriving DecidableEq

/-- One more value in the first bin that reaches it, Spn.cpp:820-821 and 512-513. -/
def putBin (v : ℚ) : List CBin → List CBin
  | [] => []
  | b :: bs => if b.upper < v then b :: putBin v bs else ⟨b.upper, b.cum + 1⟩ :: bs

/-- From counts to cumulative probabilities, Spn.cpp:825-831 and 532-538. -/
def cumulC (n : ℚ) : ℚ → List CBin → List CBin
  | _, [] => []
  | prev, b :: bs => ⟨b.upper, b.cum / n + prev⟩ :: cumulC n (b.cum / n + prev) bs

/-- The bins before values are counted, Spn.cpp:801-804. -/
def emptyBins (lo hi : ℚ) (nb : Nat) : List CBin := (List.range nb).map fun (i : Nat) => ⟨lo + ((i : ℚ) + 1) * ((hi - lo) / nb), 0⟩

/-- A value is counted, Spn.cpp:815-821; for the lower bound there is a separate counter. -/
def countC (lo : ℚ) (bs : List CBin) (v : ℚ) : List CBin := if v = lo then bs else putBin v bs

/-- A continuous leaf, Spn.cpp:786-840; `lo` and `hi` are minimum and maximum of the matrix, `nb` is the number of bins.  Rounding of bounds is not
modelled. -/
def learnCont (lo hi : ℚ) (nb : Nat) (col : List (Option ℚ)) : CLeaf :=
  if col.all (fun x => x.isNone) then ⟨[], 0, 0, 1, col.length⟩
  else
    ⟨cumulC col.length ((col.countP fun x => x = some lo) / col.length) ((col.filterMap id).foldl (countC lo) (emptyBins lo hi nb)), lo,
      (col.countP fun x => x = some lo) / col.length, (col.countP fun x => x.isNone) / col.length, col.length⟩

/-- The last bin, `*std::prev (bins.end ())`. -/
def lastBin : CBin → List CBin → CBin
  | b, [] => b
  | _, b :: bs => lastBin b bs

/-- The bin at `std::lower_bound` and its predecessor. -/
def around : CBin → List CBin → ℚ → Option (CBin × CBin)
  | _, [], _ => none
  | p, b :: bs, v => if b.upper < v then around b bs v else some (p, b)

/-- The switch statements Spn.cpp:426-433 and 454-461.  No case has a `break`, so each of them ends with the assignment for LOWER_BOUND. -/
def switchEval (t : EvalType) (_approximate _upper low : ℚ) : ℚ :=
  match t with
  | .approximate => low
  | .upper => low
  | .lower => low

/-- EQUAL, Spn.cpp:396-408; both operands of the last subtraction use the iterator that one of them decrements: the order is assumed to be
from left to right. -/
def CLeaf.evalEq (x : CLeaf) (v : ℚ) : ℚ :=
  match x.bins with
  | [] => 0
  | b :: bs =>
    if x.lower > v ∨ (lastBin b bs).upper < v then 0
    else if x.lower = v then x.lowerP
    else if v ≤ b.upper then b.cum - x.lowerP
    else match around b bs v with
      | some (p, c) => c.cum - p.cum
      | none => 0

/-- LESS and LESS_EQUAL, Spn.cpp:410-435. -/
def CLeaf.evalLess (x : CLeaf) (t : EvalType) (orEqual : Bool) (v : ℚ) : ℚ :=
  match x.bins with
  | [] => 0
  | b :: bs =>
    if x.lower ≥ v then (if x.lower = v ∧ orEqual = true then x.lowerP else 0)
    else if (lastBin b bs).upper ≤ v then (lastBin b bs).cum
    else if v ≤ b.upper then x.lowerP + (b.cum - x.lowerP) * ((v - x.lower) / (b.upper - x.lower))
    else match around b bs v with
      | some (p, c) => switchEval t (p.cum + (c.cum - p.cum) * ((v - p.upper) / (c.upper - p.upper))) c.cum p.cum
      | none => 0

/-- GREATER and GREATER_EQUAL, Spn.cpp:437-463. -/
def CLeaf.evalGreater (x : CLeaf) (t : EvalType) (orEqual : Bool) (v : ℚ) : ℚ :=
  match x.bins with
  | [] => 0
  | b :: bs =>
    if x.lower ≥ v then (if x.lower = v ∧ orEqual = false then (lastBin b bs).cum - x.lowerP else (lastBin b bs).cum)
    else if (lastBin b bs).upper ≤ v then 0
    else if v ≤ b.upper then (lastBin b bs).cum - b.cum + (b.cum - x.lowerP) * (1 - (v - x.lower) / (b.upper - x.lower))
    else match around b bs v with
      | some (p, c) => switchEval t ((lastBin b bs).cum - c.cum + (c.cum - p.cum) * (1 - (v - p.upper) / (c.upper - p.upper)))
          ((lastBin b bs).cum - p.cum) ((lastBin b bs).cum - c.cum)
      | none => 0

/-- `ContinuousLeaf::evaluate`, Spn.cpp:374-466. -/
def CLeaf.eval (x : CLeaf) (t : EvalType) (op : Op) (v : ℚ) : ℚ :=
  match op with
  | .isNull => x.nullP
  | .eq => x.evalEq v
  | .lt => x.evalLess t false v
  | .le => x.evalLess t true v
  | .gt => x.evalGreater t false v
  | .ge => x.evalGreater t true v

/-- The numbers of values in the bins, Spn.cpp:482-495. -/
def countsC (n : ℚ) : ℚ → List CBin → List CBin
  | _, [] => []
  | prev, b :: bs => ⟨b.upper, (b.cum - prev) * n⟩ :: countsC n b.cum bs

/-- `ContinuousLeaf::update (INSERT)`, Spn.cpp:468-541. -/
def CLeaf.insert (v : ℚ) (x : CLeaf) : CLeaf :=
  match countsC x.rows x.lowerP x.bins with
  | [] => ⟨[⟨v, 1 / (x.rows + 1)⟩], x.lower, x.lowerP, x.nullP * x.rows / (x.rows + 1), x.rows + 1⟩
  | b :: bs =>
    let n : ℚ := x.rows + 1
    if v = x.lower then ⟨cumulC n ((x.lowerP * x.rows + 1) / n) (b :: bs), x.lower, (x.lowerP * x.rows + 1) / n, x.nullP, x.rows + 1⟩
    else if v < x.lower then ⟨cumulC n (1 / n) (⟨b.upper, b.cum + x.lowerP * x.rows⟩ :: bs), v, 1 / n, x.nullP, x.rows + 1⟩
    else if v > (lastBin b bs).upper then ⟨cumulC n (x.lowerP * x.rows / n) (b :: bs ++ [⟨v, 1⟩]), x.lower, x.lowerP * x.rows / n, x.nullP, x.rows + 1⟩
    else ⟨cumulC n (x.lowerP * x.rows / n) (putBin v (b :: bs)), x.lower, x.lowerP * x.rows / n, x.nullP, x.rows + 1⟩

/-- The bin of a deleted value, Spn.cpp:524-526; `none`: it is empty. -/
def takeBin (v : ℚ) : List CBin → Option (List CBin)
  | [] => none
  | b :: bs => if b.upper < v then (takeBin v bs).map (b :: ·) else if b.cum = 0 then none else some (⟨b.upper, b.cum - 1⟩ :: bs)

/-- `ContinuousLeaf::update (DELETE)`, Spn.cpp:468-541. -/
def CLeaf.delete (v : ℚ) (x : CLeaf) : CLeaf :=
  match countsC x.rows x.lowerP x.bins with
  | [] => x
  | b :: bs =>
    let n : ℚ := x.rows - 1
    if v < x.lower ∨ v > (lastBin b bs).upper then x
    else if v = x.lower then ⟨cumulC n ((x.lowerP * x.rows + 1) / n) (b :: bs), x.lower, (x.lowerP * x.rows + 1) / n, x.nullP, x.rows - 1⟩
    else match takeBin v (b :: bs) with
      | some bs' => ⟨cumulC n (x.lowerP * x.rows / n) bs', x.lower, x.lowerP * x.rows / n, x.nullP, x.rows - 1⟩
      | none => x

end Mutable.SumProd
