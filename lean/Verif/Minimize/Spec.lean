import Verif.Minimize.Model

/-!
Specification: the rows of a plan, with attributes addressed by name, before minimization.  No layouts, no minimized
schemas; rows are functions from identifiers to entries.
-/
namespace Mutable.Minimize

variable {I C : Type} [DecidableEq I]

/-- The rows of the plan.  `cl` is what copying a tuple (input of a sort, left input of a join) does to its entries; the
intended meaning is `cl = id`. -/
def rowsOf (cl : C → C) (junk : C) : Plan I C → List (I → C)
  | .scan _ rows => rows
  | .filter _ p c => (rowsOf cl junk c).filter p.ev
  | .join _ p enum l r =>
    pickPairs (fun a b =>
      let both := fun i => if i ∈ schema l then cl (a i) else b i
      if namedMatches cl p a both b then some both else none)
      (enum (rowsOf cl junk l).length (rowsOf cl junk r).length) (rowsOf cl junk l) (rowsOf cl junk r)
  | .proj items c => (rowsOf cl junk c).map fun r => mkRow junk (items.map Prod.fst) (items.map fun x => x.2.ev r)
  | .proj0 items => [mkRow junk (items.map Prod.fst) (items.map fun x => x.2.ev fun _ => junk)]
  | .limit off lim c => ((rowsOf cl junk c).drop off).take lim
  | .group keys eqk aggs enum c =>
    let gs := groupBy eqk (fun r => keys.map fun x => x.2.ev r) (rowsOf cl junk c)
    (pick (enum gs.length) gs).map fun g =>
      mkRow junk (keys.map Prod.fst ++ aggs.map Prod.fst) (g.1 ++ aggs.map fun x => x.2.ev g.2)
  | .agg aggs c => [mkRow junk (aggs.map Prod.fst) (aggs.map fun x => x.2.ev (rowsOf cl junk c))]
  | .sort _ o c =>
    let rs := (rowsOf cl junk c).map fun r i => cl (r i)
    pick (o.perm rs) rs

/-- The result the user sees: the entries of every row, in the order of the plan's schema. -/
def answer (cl : C → C) (junk : C) (p : Plan I C) : List (List C) := (rowsOf cl junk p).map fun r => (schema p).map r

/-- The identifiers required by the sides of a join predicate. -/
def JPred.Over (l r : List I) : JPred I C → Prop
  | .theta p => ∀ i ∈ p.req, i ∈ l ∨ i ∈ r
  | .equi keys _ => ∀ k ∈ keys, (∀ i ∈ k.1.req, i ∈ l) ∧ ∀ i ∈ k.2.req, i ∈ r

/-- Logical plans as constructed (Operator.hpp, Operator.cpp `add_child`): filters and sorts have the schema of their child,
joins the concatenation of their children's schemas; expressions refer to attributes of the child; no identifier occurs
twice in a schema. -/
def WF : Plan I C → Prop
  | .scan S _ => S.Nodup
  | .filter S p c => WF c ∧ S = schema c ∧ ∀ i ∈ p.req, i ∈ schema c
  | .join S p _ l r => WF l ∧ WF r ∧ S = schema l ++ schema r ∧ S.Nodup ∧ p.Over (schema l) (schema r)
  | .proj items c => WF c ∧ (items.map Prod.fst).Nodup ∧ ∀ x ∈ items, ∀ i ∈ x.2.req, i ∈ schema c
  | .proj0 items => (items.map Prod.fst).Nodup ∧ ∀ x ∈ items, x.2.req = []
  | .limit _ _ c => WF c
  | .group keys _ aggs _ c => WF c ∧ (keys.map Prod.fst ++ aggs.map Prod.fst).Nodup ∧
      (∀ x ∈ keys, ∀ i ∈ x.2.req, i ∈ schema c) ∧ ∀ x ∈ aggs, ∀ i ∈ x.2.req, i ∈ schema c
  | .agg aggs c => WF c ∧ aggs ≠ [] ∧ (aggs.map Prod.fst).Nodup ∧ ∀ x ∈ aggs, ∀ i ∈ x.2.req, i ∈ schema c
  | .sort S o c => WF c ∧ S = schema c ∧ ∀ i ∈ o.req, i ∈ schema c

/-! ### What is read from tables -/

/-- The attributes read by the scans of a plan. -/
def scanned : Plan I C → List I
  | .scan S _ => S
  | .filter _ _ c => scanned c
  | .join _ _ _ l r => scanned l ++ scanned r
  | .proj _ c => scanned c
  | .proj0 _ => []
  | .limit _ _ c => scanned c
  | .group _ _ _ _ c => scanned c
  | .agg _ c => scanned c
  | .sort _ _ c => scanned c

/-- The identifier occurs in the join predicate. -/
def JPred.Mentions (p : JPred I C) (i : I) : Prop := match p with
  | .theta p => i ∈ p.req
  | .equi keys _ => ∃ k ∈ keys, i ∈ k.1.req ∨ i ∈ k.2.req

/-- The attributes of tables that are needed if, of the rows of the plan, only the attributes in `R` are of interest: those
used by predicates and orders, and by those items and aggregates, and all grouping keys, that are of interest themselves. -/
def Live (R : I → Prop) : Plan I C → I → Prop
  | .scan _ _ => R
  | .filter _ p c => Live (fun i => R i ∨ i ∈ p.req) c
  | .join _ p _ l r => fun i => Live (fun i => (R i ∨ p.Mentions i) ∧ i ∈ schema l) l i ∨
      Live (fun i => (R i ∨ p.Mentions i) ∧ i ∈ schema r) r i
  | .proj items c => Live (fun i => ∃ x ∈ items, R x.1 ∧ i ∈ x.2.req) c
  | .proj0 _ => fun _ => False
  | .limit _ _ c => Live R c
  | .group keys _ aggs _ c => Live (fun i => (∃ x ∈ keys, i ∈ x.2.req) ∨ ∃ x ∈ aggs, R x.1 ∧ i ∈ x.2.req) c
  | .agg aggs c => Live (fun i => ∃ x ∈ aggs, R x.1 ∧ i ∈ x.2.req) c
  | .sort _ o c => Live (fun i => R i ∨ i ∈ o.req) c

/-- Of every aggregation at least one aggregate is of interest, if of the rows of the plan only the attributes in `R` are of
interest. -/
def AggsLive (R : I → Prop) : Plan I C → Prop
  | .scan _ _ => True
  | .filter _ p c => AggsLive (fun i => R i ∨ i ∈ p.req) c
  | .join _ p _ l r => AggsLive (fun i => (R i ∨ p.Mentions i) ∧ i ∈ schema l) l ∧
      AggsLive (fun i => (R i ∨ p.Mentions i) ∧ i ∈ schema r) r
  | .proj items c => AggsLive (fun i => ∃ x ∈ items, R x.1 ∧ i ∈ x.2.req) c
  | .proj0 _ => True
  | .limit _ _ c => AggsLive R c
  | .group keys _ aggs _ c => AggsLive (fun i => (∃ x ∈ keys, i ∈ x.2.req) ∨ ∃ x ∈ aggs, R x.1 ∧ i ∈ x.2.req) c
  | .agg aggs c => (∃ x ∈ aggs, R x.1) ∧ AggsLive (fun i => ∃ x ∈ aggs, R x.1 ∧ i ∈ x.2.req) c
  | .sort _ o c => AggsLive (fun i => R i ∨ i ∈ o.req) c

/-! ### Plans on which the interpreter's mixture of declared schemas and layouts is harmless -/

/-- The operator provides exactly what is required, in that order, after minimization. -/
def Exact : Plan I C → Prop
  | .scan _ _ => True
  | .filter _ _ _ => True
  | .join _ _ _ _ _ => True
  | .sort _ _ _ => True
  | .limit _ _ c => Exact c
  | _ => False

/-- Tuples begin with the attributes of the declared schema, after minimization: there is no filter or sort above a
projection, grouping or aggregation. -/
def Aligned : Plan I C → Prop
  | .filter _ _ c => Exact c ∧ Aligned c
  | .sort _ _ c => Exact c ∧ Aligned c
  | .limit _ _ c => Aligned c
  | _ => True

/-- The left inputs of joins and the inputs of groupings and aggregations are `Aligned`. -/
def Harmless : Plan I C → Prop
  | .scan _ _ => True
  | .filter _ _ c => Harmless c
  | .join _ _ _ l r => Aligned l ∧ Harmless l ∧ Harmless r
  | .proj _ c => Harmless c
  | .proj0 _ => True
  | .limit _ _ c => Harmless c
  | .group _ _ _ _ c => Aligned c ∧ Harmless c
  | .agg _ c => Aligned c ∧ Harmless c
  | .sort _ _ c => Harmless c

end Mutable.Minimize
