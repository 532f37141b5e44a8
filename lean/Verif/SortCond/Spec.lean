import Verif.SortCond.Model

/-! # What the conditions mean -/

namespace Mutable.SortCond

variable {I V : Type} [LinearOrder V]

/-- row `r` may come before row `s` in the order `(i₁, asc₁), (i₂, asc₂), …` -/
def LexLe : List (I × Bool) → Row I V → Row I V → Prop
  | [], _, _ => True
  | (i, asc) :: t, r, s => (if asc then r i < s i else s i < r i) ∨ (r i = s i ∧ LexLe t r s)

/-- the rows are sorted -/
def Sorted (by' : List (I × Bool)) (rows : List (Row I V)) : Prop := rows.Pairwise (LexLe by')

/-- the attributes with a direction -/
def dirs : Orders I → List (I × Bool)
  | [] => []
  | (i, .asc) :: t => (i, true) :: dirs t
  | (i, .desc) :: t => (i, false) :: dirs t
  | (_, .undef) :: t => dirs t

/-- The condition is true of the rows: the rows are sorted by the attributes with a direction, and an attribute without
one ("undefined for single tuple results") has the same value in all rows. -/
def Holds (o : Orders I) (rows : List (Row I V)) : Prop :=
  Sorted (dirs o) rows ∧ ∀ i, (i, Order.undef) ∈ o → ∀ r ∈ rows, ∀ s ∈ rows, r i = s i

/-- the condition (if there is one) is true of the rows -/
def HoldsOpt (c : Option (Orders I)) (rows : List (Row I V)) : Prop := ∀ o, c = some o → Holds o rows

/-- sorting sorts -/
structure EnvOK (E : Env I V) : Prop where
  perm : ∀ b rows, (E.sort b rows).Perm rows
  sorted : ∀ b rows, Sorted b (E.sort b rows)

/-- the key of a row -/
def keyOf (keys : List (I × I)) (r : Row I V) : List V := keys.map fun k => r k.1

/-- `gs` are the groups of `rows`: every row is in a group, a group consists of exactly the rows with its key (in the
order of the input), no two groups have the same key. -/
structure IsGrouping (keys : List (I × I)) (rows : List (Row I V)) (gs : List (Row I V × List (Row I V))) : Prop where
  nodup : (gs.map fun g => keyOf keys g.1).Nodup
  group : ∀ g ∈ gs, g.1 :: g.2 = rows.filter fun r => decide (keyOf keys r = keyOf keys g.1)
  all : ∀ r ∈ rows, ∃ g ∈ gs, keyOf keys g.1 = keyOf keys r

/-- only directions, or only "undefined" -/
def Uniform (o : Orders I) : Prop := (∀ p ∈ o, p.2 ≠ Order.undef) ∨ (∀ p ∈ o, p.2 = Order.undef)

def UniformOpt (c : Option (Orders I)) : Prop := ∀ o, c = some o → Uniform o

variable [DecidableEq I]

/-- the ids that are already there are dropped -/
def nub (seen : List I) : List (I × Bool) → List (I × Bool)
  | [] => []
  | (i, b) :: t => if i ∈ seen then nub seen t else (i, b) :: nub (i :: seen) t

/-- The attributes with a direction that a list of items keeps, in the order of the items: a prefix of the sort order
of the input. -/
def KeepsPrefix (items : List (I × I)) (o : Orders I) : Prop :=
  nub [] (dirs (items.flatMap fun p => match find o p.1 0 with
    | none => []
    | some (_, x) => [(p.1, x)])) <+: dirs o

def KeepsPrefixOpt (items : List (I × I)) (c : Option (Orders I)) : Prop := ∀ o, c = some o → KeepsPrefix items o

/-- What the tables and the well-formedness of plans guarantee: declared attributes are sorted, the index delivers its
rows in order, identifiers of the two inputs of a join are distinct, the key of the parent of a sort-merge join is
unique (C57). -/
def WellFormed (E : Env I V) : Plan I V → Prop
  | .scan _ declared rows => ∀ p ∈ declared, Sorted [p] rows
  | .indexScan id rows => Sorted [(id, true)] rows
  | .single _ => True
  | .filter _ c => WellFormed E c
  | .limit _ _ c => WellFormed E c
  | .project _ c => WellFormed E c
  | .hashGroup _ _ c => WellFormed E c
  | .orderedGroup _ _ c => WellFormed E c
  | .aggregate _ _ c => WellFormed E c
  | .quicksort _ c => WellFormed E c
  | .noopSort _ c => WellFormed E c
  | .nlj ls _ l r => WellFormed E l ∧ WellFormed E r ∧ (∀ p ∈ (post r).getD [], ls p.1 = false)
  | .hashJoin ls _ l r => WellFormed E l ∧ WellFormed E r ∧ (∀ p ∈ (post r).getD [], ls p.1 = false)
  | .smj _ _ ls keys l r => WellFormed E l ∧ WellFormed E r ∧
      (∀ p ∈ (post l).getD [], ls p.1 = true) ∧ (∀ p ∈ (post r).getD [], ls p.1 = false) ∧
      (∀ k ∈ keys, ls k.1 = true ∧ ls k.2 = false) ∧
      (∀ x ∈ run E l, ∀ y ∈ run E l, (∀ k ∈ keys, E.isNull (x k.1) = false ∧ x k.1 = y k.1) → x = y)

/-- What the code does *not* check and what is needed for the conditions to be true: projections and the keys of ordered
grouping keep a prefix of the sort order of their input, in that order; conditions that are required do not mix
attributes with and without direction. -/
def Careful : Plan I V → Prop
  | .scan _ _ _ => True
  | .indexScan _ _ => True
  | .single _ => True
  | .filter _ c => Careful c
  | .limit _ _ c => Careful c
  | .project items c => Careful c ∧ KeepsPrefixOpt (old2new [] items) (post c)
  | .hashGroup _ _ c => Careful c
  | .orderedGroup keys _ c => Careful c ∧ KeepsPrefixOpt keys (post c) ∧ KeepsPrefixOpt (old2new [] keys) (post c)
  | .aggregate _ _ c => Careful c
  | .quicksort _ c => Careful c
  | .noopSort _ c => Careful c ∧ UniformOpt (post c)
  | .nlj _ _ l r => Careful l ∧ Careful r
  | .hashJoin _ _ l r => Careful l ∧ Careful r
  | .smj sl sr _ _ l r => Careful l ∧ Careful r ∧ (sl = false → UniformOpt (post l)) ∧ (sr = false → UniformOpt (post r))

/-- all parts of a plan -/
def parts : Plan I V → List (Plan I V)
  | .scan s d rows => [.scan s d rows]
  | .indexScan i rows => [.indexScan i rows]
  | .single r => [.single r]
  | .filter p c => .filter p c :: parts c
  | .limit a b c => .limit a b c :: parts c
  | .project i c => .project i c :: parts c
  | .hashGroup k a c => .hashGroup k a c :: parts c
  | .orderedGroup k a c => .orderedGroup k a c :: parts c
  | .aggregate s a c => .aggregate s a c :: parts c
  | .quicksort b c => .quicksort b c :: parts c
  | .noopSort b c => .noopSort b c :: parts c
  | .nlj ls p l r => .nlj ls p l r :: (parts l ++ parts r)
  | .hashJoin ls k l r => .hashJoin ls k l r :: (parts l ++ parts r)
  | .smj sl sr ls k l r => .smj sl sr ls k l r :: (parts l ++ parts r)

end Mutable.SortCond
