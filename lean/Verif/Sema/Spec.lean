import Verif.Sema.Model
import Mathlib.Data.List.Forall2

/-! # The rules of SQL: scopes of names, values of expressions -/

namespace Mutable.Sema

variable {V : Type}

/-! ## Scopes -/

/-- the columns of that name among the sources of one query -/
def candidates (a : Label) (c : Ctx V) : List (Name × Col) :=
  c.sources.flatMap fun s => (s.cols.filter fun x => decide (x.label = a)).map fun x => (s.name, x)

/-- Position `d` is the innermost query among whose sources there is a column of that name. -/
def Innermost (a : Label) (ctxs : List (Ctx V)) (d : Nat) (c : Ctx V) : Prop :=
  ctxs[d]? = some c ∧ candidates a c ≠ [] ∧ ∀ i c', i < d → ctxs[i]? = some c' → candidates a c' = []

/-- Position `d` is the innermost query that has a source of that name. -/
def InnermostSource (t : Name) (ctxs : List (Ctx V)) (d : Nat) (s : Src) : Prop :=
  (∃ c, ctxs[d]? = some c ∧ s ∈ c.sources ∧ s.name = t) ∧
    ∀ i c', i < d → ctxs[i]? = some c' → ∀ s' ∈ c'.sources, s'.name ≠ t

/-- the name is neither that of a result (they can be used in ORDER BY) nor that of a grouping key (they can be used after
GROUP BY) -/
def NotLocal (c : Ctx V) (a : Label) : Prop :=
  (c.stage = .orderBy → ∀ r ∈ c.results, r.label ≠ a) ∧
    (c.stage = .having ∨ c.stage = .select ∨ c.stage = .orderBy → ∀ k ∈ c.keys, k.label ≠ a)

/-- no query up to position `d` is in its FROM clause -/
def NoFrom (cs : List (Ctx V)) (d : Nat) : Prop := ∀ i x, i ≤ d → cs[i]? = some x → x.stage ≠ .from_

/-- the sources of a query have different names -/
def DistinctNames (c : Ctx V) : Prop := (c.sources.map (·.name)).Nodup

/-- Contexts that differ only in the order in which sources and results are enumerated. -/
def SameUpToOrder (c c' : Ctx V) : Prop :=
  c.stage = c'.stage ∧ c.needsGrouping = c'.needsGrouping ∧ c.sources.Perm c'.sources ∧ c.results.Perm c'.results ∧
    c.keys = c'.keys ∧ DistinctNames c

/-- the nested queries of an expression do not depend on the order of enumeration -/
def StableExpr : Expr V → Prop
  | .des _ _ => True
  | .const _ _ => True
  | .call0 _ => True
  | .call1 _ a => StableExpr a
  | .call2 _ a b => StableExpr a ∧ StableExpr b
  | .un _ e => StableExpr e
  | .bin _ l r => StableExpr l ∧ StableExpr r
  | .query q => ∀ cs cs', List.Forall₂ SameUpToOrder cs cs' → q cs = q cs'

/-- the columns to which an expression refers (in its own query and in enclosing ones) -/
def columns : RExpr V → List (Nat × Name × Label)
  | .attr d s l _ => [(d, s, l)]
  | .ref e => columns e
  | .const _ => []
  | .agg _ e => columns e
  | .countStar => []
  | .isnull e => columns e
  | .un _ e => columns e
  | .bin _ l r => columns l ++ columns r
  | .query _ _ => []
  | .bad => []

/-- the expressions of an analyzed statement: condition of WHERE, grouping keys, condition of HAVING, results, keys of
ORDER BY -/
def exprsOf (o : BOut V) : List (RExpr V) :=
  o.where_.toList.map (·.rex) ++ o.keys.map (·.rex) ++ o.having.toList.map (·.rex) ++ o.results.map (·.rex) ++ o.order.map (·.rex)

/-- The FROM clause has an item of that name with a column of that label: a table, or a nested query with such a result
(the nested query is analyzed within a FROM clause). -/
def FromColumn (outer : List (Ctx V)) (b : Block V) (s : Name) (l : Label) : Prop :=
  (∃ cols, FItem.table s cols ∈ b.from_.getD [] ∧ ∃ x ∈ cols, x.label = l) ∨
  (∃ q c, FItem.nested s q ∈ b.from_.getD [] ∧ c.stage = .from_ ∧ ∃ r ∈ (q (c :: outer)).results, r.label = l)

/-- Enclosing query `d` has a source of that name with that column, and no query up to it is in its FROM clause. -/
def OuterColumn (outer : List (Ctx V)) (d : Nat) (s : Name) (l : Label) : Prop :=
  (∃ c, outer[d]? = some c ∧ ∃ x ∈ c.sources, x.name = s ∧ ∃ y ∈ x.cols, y.label = l) ∧
    ∀ i c, i ≤ d → outer[i]? = some c → c.stage ≠ .from_

/-! ## Values -/

/-- what the operators and functions compute -/
structure Ops (V : Type) where
  un : UnOp → V → V
  bin : BinOp → V → V → V
  isnull : V → V
  agg : Fn → List V → V
  count : Nat → V
  undef : V

/-- The value of an expression for the row `r` of the group `G`; `env` are the rows of the enclosing queries. -/
def ev (O : Ops V) (env : List (Row V)) (G : List (Row V)) : RExpr V → Row V → V
  | .attr d s l _, r =>
    match (r :: env)[d]? with
    | some row => row s l
    | none => O.undef
  | .ref e, r => ev O env G e r
  | .const v, _ => v
  | .agg f a, _ => O.agg f (G.map fun r' => ev O env G a r')
  | .countStar, _ => O.count G.length
  | .isnull a, r => O.isnull (ev O env G a r)
  | .un op e, r => O.un op (ev O env G e r)
  | .bin op a b, r => O.bin op (ev O env G a r) (ev O env G b r)
  | .query _ den, r => den (r :: env)
  | .bad, _ => O.undef

/-- The expression has one value for the whole group: it does not depend on the row. -/
def Determined (O : Ops V) (env G : List (Row V)) (e : RExpr V) : Prop :=
  ∀ r ∈ G, ∀ r' ∈ G, ev O env G e r = ev O env G e r'

/-- a group of GROUP BY: all rows have the same values of the keys -/
def IsGroup (O : Ops V) (env G : List (Row V)) (keys : List (Named V)) : Prop :=
  ∀ k ∈ keys, ∀ G', ∀ r ∈ G, ∀ r' ∈ G, ev O env G' k.rex r = ev O env G' k.rex r'

/-- no nested query of the expression refers to the row of this query -/
def Uncorrelated : RExpr V → Prop
  | .attr _ _ _ _ => True
  | .ref e => Uncorrelated e
  | .const _ => True
  | .agg _ e => Uncorrelated e
  | .countStar => True
  | .isnull e => Uncorrelated e
  | .un _ e => Uncorrelated e
  | .bin _ l r => Uncorrelated l ∧ Uncorrelated r
  | .query _ den => ∀ r r' env, den (r :: env) = den (r' :: env)
  | .bad => True

/-- the expression contains no aggregate -/
def NoAggregate : RExpr V → Prop
  | .attr _ _ _ _ => True
  | .ref e => NoAggregate e
  | .const _ => True
  | .agg _ _ => False
  | .countStar => False
  | .isnull e => NoAggregate e
  | .un _ e => NoAggregate e
  | .bin _ l r => NoAggregate l ∧ NoAggregate r
  | .query _ _ => True
  | .bad => True

/-- the expression is a nested query -/
def RExpr.IsQuery : RExpr V → Prop
  | .query _ _ => True
  | _ => False

/-- columns that are constants of a nested query have the same value in all rows -/
def ConstantColumns (env G : List (Row V)) : RExpr V → Prop
  | .attr d s l con => con = true → ∀ r ∈ G, ∀ r' ∈ G, ∀ x y : Row V, (r :: env)[d]? = some x → (r' :: env)[d]? = some y →
      x s l = y s l
  | .ref e => ConstantColumns env G e
  | .const _ => True
  | .agg _ e => ConstantColumns env G e
  | .countStar => True
  | .isnull e => ConstantColumns env G e
  | .un _ e => ConstantColumns env G e
  | .bin _ l r => ConstantColumns env G l ∧ ConstantColumns env G r
  | .query _ _ => True
  | .bad => True

/-! ## Numbers -/

/-- the number `m / 10^d` is a value of the type (exact types only) -/
def Fits (t : Ty) (m : Int) (d : Nat) : Prop :=
  match t with
  | .num _ .int p _ => ∃ n : Int, n * 10 ^ d = m ∧ -(2 ^ (8 * p - 1)) ≤ n ∧ n < 2 ^ (8 * p - 1)
  | .num _ .decimal p s => ∃ n : Int, n * 10 ^ d = m * 10 ^ s ∧ n.natAbs < 10 ^ p
  | _ => False

/-- nested queries mean the same when more queries enclose the statement -/
def Extensible (more : List (Ctx V)) : Expr V → Prop
  | .des _ _ => True
  | .const _ _ => True
  | .call0 _ => True
  | .call1 _ a => Extensible more a
  | .call2 _ a b => Extensible more a ∧ Extensible more b
  | .un _ e => Extensible more e
  | .bin _ l r => Extensible more l ∧ Extensible more r
  | .query q => ∀ cs, (q cs).err = false → q (cs ++ more) = q cs

end Mutable.Sema
