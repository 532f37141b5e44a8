import Verif.PhysOpt.Model

/-!
# What a physical operator covering is

Independent of the table and of the matcher.
-/

namespace Mutable.PhysOpt

variable {L K C : Type}

/-- A place of a match where a pre-condition is checked: an operator that becomes a child of the match (`some`), or a
leaf producer that is covered by the match (`none`); `depth` is the number (in pre-order of the pattern) of the matched
operator at which the check happens. -/
structure Slot (L : Type) where
  kid : Option (IOp L)
  depth : Nat

/-- The pattern fits at a logical operator.  `ns` are the matched operators in pre-order of the pattern, `ss` the
places where pre-conditions are checked, from left to right.  The children of a binary pattern may be swapped. -/
inductive Fits (isProd : L → Bool) : Pat L → Nat → IOp L → List (IOp L) → List (Slot L) → Prop where
  | wild {d op} : isProd op.lbl = true → Fits isProd .wild d op [op] [⟨some op, d⟩]
  | cons {is d op} : is op.lbl = true →
      Fits isProd (.cons is) d op [op] (op.children.map (fun c => ⟨some c, d⟩))
  | leaf {is d op} : is op.lbl = true → Fits isProd (.leaf is) d op [op] [⟨none, d⟩]
  | one {is c d op a ns ss} : is op.lbl = true → op.children = [a] →
      Fits isProd c (d + 1) a ns ss → Fits isProd (.one is c) d op (op :: ns) ss
  | two {is c0 c1 d op a b ns0 ns1 ss0 ss1} : is op.lbl = true →
      (op.children = [a, b] ∨ op.children = [b, a]) →
      Fits isProd c0 (d + 1) a ns0 ss0 →
      Fits isProd c1 (d + 1 + ns0.length) b ns1 ss1 →
      Fits isProd (.two is c0 c1) d op (op :: (ns0 ++ ns1)) (ss0 ++ ss1)

/-- the operators that become children of the match -/
def kidsOf (ss : List (Slot L)) : List (IOp L) := ss.filterMap (·.kid)

/-- A covered child: the logical operator, and the condition, the cost and the match of its covering. -/
structure Kid (L K C : Type) where
  op : IOp L
  cond : K
  cost : C
  mtch : Match L C

/-- The pre-conditions hold: `pre i` is the pre-condition for the `i`-th child; a leaf producer is checked against the
empty condition. -/
def PreOK (implied : K → K → Bool) (emptyK : K) (pre : Nat → K) : Nat → List (Slot L) → List K → Prop
  | _, [], [] => True
  | i, ⟨some _, _⟩ :: ss, k :: ks => implied (pre i) k = true ∧ PreOK implied emptyK pre (i + 1) ss ks
  | i, ⟨none, _⟩ :: ss, ks => implied (pre i) emptyK = true ∧ PreOK implied emptyK pre i ss ks
  | _, _, _ => False

open Classical in
/-- The condition that holds for the result of a match whose children have the conditions `ks`. -/
noncomputable def resultCond (S : Sig L K C) (p : PhysOp L K C) (ns roots : List (IOp L)) (ks : List K) : K :=
  if p.post ns roots ≠ S.emptyK then p.post ns roots
  else if 2 ≤ ks.length then p.adapts ns roots ks
  else p.adapt ns roots (ks.headD S.emptyK)

/-- The cost of a match: its own cost, plus the costs of the children, added from left to right. -/
def totalCost (S : Sig L K C) (own : C) (cs : List C) : C := cs.foldl S.add own

/-- `Cov op k c m`: `m` is a covering of the logical plan `op` by registered physical operators, with all
pre-conditions met, with resulting condition `k` and cost `c`. -/
inductive Cov (S : Sig L K C) (ops : List (PhysOp L K C)) : IOp L → K → C → Match L C → Prop where
  | mk {oi p op ns ss} {kids : List (Kid L K C)} {k : K} {c : C} :
      ops[oi]? = some p →
      Fits S.isProd p.pat 0 op ns ss →
      kids.map (·.op) = kidsOf ss →
      (∀ e ∈ kids, Cov S ops e.op e.cond e.cost e.mtch) →
      PreOK S.implied S.emptyK (fun i => p.pre i (ns.map some)) 0 ss (kids.map (·.cond)) →
      k = resultCond S p ns (kids.map (·.op)) (kids.map (·.cond)) →
      c = totalCost S (p.cost ns (kids.map (·.op))) (kids.map (·.cost)) →
      Cov S ops op k c (.mk oi ns (kids.map (·.mtch)) c)

/-- The number of children before the slot `j` -/
def kidIndex (ss : List (Slot L)) (j : Nat) : Nat := (kidsOf (ss.take j)).length

/-- The contract of `pre_condition` (PhysicalOptimizer.hpp:423-428): it must not look at operators that are not yet
matched.  (The documentation says these are `nullptr`; in the second permutation of a binary pattern they are the
operators left behind by the first one.) -/
def ReadsMatched (isProd : L → Bool) (p : PhysOp L K C) : Prop :=
  ∀ op ns ss, Fits isProd p.pat 0 op ns ss → ∀ j sl, ss[j]? = some sl →
    ∀ t : List (Option (IOp L)), t.length = ns.length →
      t.take (sl.depth + 1) = (ns.take (sl.depth + 1)).map some →
      p.pre (kidIndex ss j) t = p.pre (kidIndex ss j) (ns.map some)

/-- The costs are totally ordered and `+` is monotone (true of `double` without NaN; associativity is not needed). -/
structure CostOK (S : Sig L K C) : Prop where
  irrefl : ∀ a, S.lt a a = false
  trans : ∀ a b c, S.lt a b = true → S.lt b c = true → S.lt a c = true
  negtrans : ∀ a b c, S.lt a b = false → S.lt b c = false → S.lt a c = false
  mono : ∀ a b c d, S.lt b a = false → S.lt d c = false → S.lt (S.add b d) (S.add a c) = false

mutual
/-- all operators of a plan -/
def subops : IOp L → List (IOp L)
  | .node i l cs => .node i l cs :: subopsList cs
def subopsList : List (IOp L) → List (IOp L)
  | [] => []
  | c :: cs => subops c ++ subopsList cs
end

/-- The matched operators that are covered by the match itself, i.e. those not matched by a wildcard: walk through
the pattern in pre-order; also returns the operators that remain. -/
def ownNodes : Pat L → List (IOp L) → List (IOp L) × List (IOp L)
  | .wild, ns => ([], ns.drop 1)
  | .cons _, ns => (ns.take 1, ns.drop 1)
  | .leaf _, ns => (ns.take 1, ns.drop 1)
  | .one _ c, ns => let r := ownNodes c (ns.drop 1); (ns.take 1 ++ r.1, r.2)
  | .two _ c0 c1, ns =>
    let r := ownNodes c0 (ns.drop 1)
    let s := ownNodes c1 r.2
    (ns.take 1 ++ (r.1 ++ s.1), s.2)

mutual
/-- all logical operators covered by a physical plan -/
def covered (ops : List (PhysOp L K C)) : Match L C → List (IOp L)
  | .mk oi ns ms _ =>
    (match ops[oi]? with
     | none => []
     | some p => (ownNodes p.pat ns).1) ++ coveredList ops ms
def coveredList (ops : List (PhysOp L K C)) : List (Match L C) → List (IOp L)
  | [] => []
  | m :: ms => covered ops m ++ coveredList ops ms
end

/-- Leaf producers (the operator classes of `leaf` patterns, e.g. `ScanOperator`) have no children. -/
def LeafOK (isLeaf : L → Bool) (op : IOp L) : Prop := ∀ o ∈ subops op, isLeaf o.lbl = true → o.children = []

/-- the leaf patterns of a pattern only accept leaf producers -/
def Pat.leavesIn (isLeaf : L → Bool) : Pat L → Prop
  | .wild => True
  | .cons _ => True
  | .leaf is => ∀ l, is l = true → isLeaf l = true
  | .one _ c => c.leavesIn isLeaf
  | .two _ c0 c1 => c0.leavesIn isLeaf ∧ c1.leavesIn isLeaf

end Mutable.PhysOpt
