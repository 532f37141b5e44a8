import Verif.CardEst.Model
/-
What the estimators are about, independently of how they compute it: the rows that plans produce, products of cardinalities, the rows that a filter
selects, the pairs that a join produces.
-/
namespace Mutable.CardEst

/-- The different values of a list. -/
def distinct {α : Type} [DecidableEq α] : List α → List α
  | [] => []
  | a :: l => if a ∈ distinct l then distinct l else a :: distinct l

/-- The rows that a plan produces. -/
def exec : Plan → List Row
  | .single => [[]]
  | .scan rows => rows
  | .filter p c => (exec c).filter p
  | .join p l r => ((exec l).flatMap fun a => (exec r).map fun b => a ++ b).filter p
  | .group key out c => (distinct ((exec c).map key)).map fun k => out k ((exec c).filter fun r => key r = k)
  | .aggregate out c => [out (exec c)]
  | .project f c => (exec c).map f
  | .sort s c => s (exec c)
  | .limit n off c => ((exec c).drop off).take n

/-- No product of estimates exceeds 64 bits; sorting keeps the number of rows; a plan without sources, and an aggregation of all rows whose input is
estimated to be empty, do not occur. -/
def PlanOk : Plan → Prop
  | .single => False
  | .scan _ => True
  | .filter _ c => PlanOk c
  | .join _ l r => PlanOk l ∧ PlanOk r ∧ cpPlan l * cpPlan r < 2 ^ 64
  | .group _ _ c => PlanOk c
  | .aggregate _ c => PlanOk c ∧ cpPlan c ≠ 0
  | .project _ c => PlanOk c
  | .sort s c => PlanOk c ∧ (s (exec c)).length = (exec c).length
  | .limit _ _ c => PlanOk c

/-- The product of the cardinalities of the sources in `S`. -/
def product (card : Nat → Nat) (S : Nat) : Nat := ((elems S).map card).prod

/-- A name that contains no `$`. -/
def Plain (n : Name) : Prop := 36 ∉ n

/-- The file has an entry for every non-empty set of the `n` sources: `card S` is listed under the names of the sources in `S`, in some order. -/
def Complete (n : Nat) (names : Nat → Name) (card : Nat → Nat) (file : List (Option (List Name × Nat))) : Prop :=
  ∀ S, S ≠ 0 → S < 2 ^ n → ∃ rels, rels.Perm ((elems S).map names) ∧ some (rels, card S) ∈ file

/-- No two entries of the file list the same relations. -/
def NoDup (file : List (Option (List Name × Nat))) : Prop :=
  file.Pairwise fun a b => ∀ x y, a = some x → b = some y → ¬ x.1.Perm y.1

/-- The listed cardinalities are possible: a join has at most as many rows as the product, and the product fits in 64 bits. -/
def Consistent (n : Nat) (card : Nat → Nat) : Prop :=
  ∀ L R, L ≠ 0 → R ≠ 0 → L < 2 ^ n → R < 2 ^ n → L &&& R = 0 → card (L ||| R) ≤ card L * card R ∧ card L * card R < 2 ^ 64

/-- Updates of the plan table as plan enumerators make them: disjoint, non-empty parts, both already in the table. -/
def Enumeration (n : Nat) : List Nat → List (Nat × Nat) → Prop
  | _, [] => True
  | known, (L, R) :: us => L ∈ known ∧ R ∈ known ∧ L &&& R = 0 ∧ Enumeration n ((L ||| R) :: known) us

instance Enumeration.dec (n : Nat) : ∀ known us, Decidable (Enumeration n known us)
  | _, [] => isTrue trivial
  | known, (L, R) :: us =>
    have := Enumeration.dec n ((L ||| R) :: known) us
    inferInstanceAs (Decidable (L ∈ known ∧ R ∈ known ∧ L &&& R = 0 ∧ Enumeration n ((L ||| R) :: known) us))

/-- Comparison of a value that is not NULL. -/
def cmp : Cmp → Int → Int → Bool
  | .eq, a, b => a == b
  | .ne, a, b => a != b
  | .lt, a, b => decide (a < b)
  | .le, a, b => decide (a ≤ b)
  | .gt, a, b => decide (b < a)
  | .ge, a, b => decide (b ≤ a)

/-- The value of an operand in a row; `none` is NULL. -/
def operandVal (row : Name → Option Int) : Operand → Option Int
  | .attr a => row a
  | .const v => v
  | .other => none

/-- A predicate is true in a row: neither side is NULL. -/
def predTrue (row : Name → Option Int) (p : Pred) : Bool :=
  match operandVal row p.lhs, operandVal row p.rhs with
  | some a, some b => cmp p.op a b != p.neg
  | _, _ => false

/-- The rows that a CNF selects. -/
def selects (cnf : List (List Pred)) (row : Name → Option Int) : Bool := cnf.all fun c => c.any (predTrue row)

/-- What an `SpnOperator` asks of a value. -/
def spnCmp : SpnOp → Option Int → Int → Bool
  | .isNull, x, _ => x.isNone
  | .eq, some a, b => a == b
  | .lt, some a, b => decide (a < b)
  | .le, some a, b => decide (a ≤ b)
  | .gt, some a, b => decide (b < a)
  | .ge, some a, b => decide (b ≤ a)
  | _, none, _ => false

/-- The rows whose likelihood the SPN is asked for. -/
def spnSelects (f : SFilter) (row : Name → Option Int) : Bool := f.all fun c => spnCmp c.2.1 (row c.1) c.2.2

/-- A clause that compares an attribute, on the left, to a constant, on the right, positively and not by `<>`. -/
def Simple (attrs : List Name) (c : List Pred) : Prop := ∃ op a v, op ≠ .ne ∧ a ∈ attrs ∧ c = [⟨op, .attr a, .const (some v), false⟩]

/-- The attribute of such a clause. -/
def clauseAttr : List Pred → Option Name
  | [⟨_, .attr a, _, _⟩] => some a
  | _ => none

/-- The number of pairs of equal values of two columns: the rows of their equi-join. -/
def joinSize (l r : List Int) : Nat := (l.map fun x => r.count x).sum

/-- Every value of the column occurs `f` times. -/
def Uniform (f : Nat) (l : List Int) : Prop := ∀ x ∈ l, l.count x = f

end Mutable.CardEst
