import Verif.WasmAgg.Model
import Verif.Interp.Spec

/-!
Specification of aggregate functions, in terms of the numbers the machine values stand for.  The meaning of an aggregate
on a list of rows is the relation `Interp.AggSpec` the interpreter is measured against as well (C35): NULLs are ignored,
`COUNT` counts, all other aggregates of no value are NULL.
-/
namespace Mutable.WasmAgg

/-- The number a machine value stands for; NaN and the infinities stand for none. -/
def Ty.denotes : Ty → Val → Option ℚ
  | .int _, .i z => some z
  | .dec _ s, .i z => some (z / 10 ^ s)
  | .flt, .d (.fin q) => some q
  | .dbl, .d (.fin q) => some q
  | _, _ => none

/-- The cell `c` of type `ty` shows the number `q` (`none` is NULL). -/
def Shows (ty : Ty) (c : Option Val) (q : Option ℚ) : Prop :=
  match c, q with
  | none, none => True
  | some v, some x => ty.denotes v = some x
  | _, _ => False

section
variable {R : Type} (ev : Arg → R → Option Val)

/-- The number an argument stands for on a row. -/
def argNum (a : Arg) (r : R) : Option ℚ := (ev a r).bind a.ty.denotes

/-- The aggregate as a function of numbers. -/
def Agg.interp : Agg → Interp.Agg R
  | .countStar => .countStar
  | .count a => .count (argNum ev a)
  | .sum a => .sum (argNum ev a)
  | .avg a => .avg (argNum ev a)
  | .min a => .min (argNum ev a)
  | .max a => .max (argNum ev a)

/-- `c` is the value of the aggregate `g` on the rows. -/
def IsAgg (g : Agg) (rows : List R) (c : Option Val) : Prop :=
  ∃ q, Interp.AggSpec (g.interp ev) rows q ∧ Shows g.ty c q

/-- `v` is a finite value of the type. -/
def Fits : Ty → Val → Prop
  | .int w, v => (w = 8 ∨ w = 16 ∨ w = 32 ∨ w = 64) ∧ ∃ z : Int, v = .i z ∧ -2 ^ (w - 1) ≤ z ∧ z < 2 ^ (w - 1)
  | .dec w _, v => (w = 8 ∨ w = 16 ∨ w = 32 ∨ w = 64) ∧ ∃ z : Int, v = .i z ∧ -2 ^ (w - 1) ≤ z ∧ z < 2 ^ (w - 1)
  | .flt, v => ∃ q, v = .d (.fin q) ∧ -fltMax ≤ q ∧ q ≤ fltMax
  | .dbl, v => ∃ q, v = .d (.fin q) ∧ -dblMax ≤ q ∧ q ≤ dblMax

/-- The arguments of the aggregates have values of their types on the row, NULL only if nullable. -/
def RowOk (aggs : List Agg) (r : R) : Prop :=
  ∀ g ∈ aggs, ∀ a, g.arg = some a → (a.nullable = false → ev a r ≠ none) ∧ ∀ v, ev a r = some v → Fits a.ty v

/-- The integer representation of a value. -/
def Val.raw : Val → Int
  | .i z => z | .d _ => 0

/-- The sums fit into 64 bits. -/
def SumsFit (aggs : List Agg) (rows : List R) : Prop :=
  ∀ a, .sum a ∈ aggs → -2 ^ 63 ≤ ((rows.filterMap (ev a)).map Val.raw).sum ∧
    ((rows.filterMap (ev a)).map Val.raw).sum < 2 ^ 63

/-- No AVG of a DECIMAL with digits after the point. -/
def NoScaledAvg (aggs : List Agg) : Prop :=
  ∀ a, .avg a ∈ aggs → ∀ w s, a.ty = .dec w s → s = 0

/-- The running averages are not affected by rejected rows. -/
def NoRunning (aggs : List Agg) : Prop := ∀ a, Agg.avg a ∈ aggs → a.nullable = false → a.ty.size ≤ 32

/-- No rejected row precedes all accepted ones, or it does no harm. -/
def SafeStart (aggs : List Agg) (rows : List (Option Bool × R)) : Prop :=
  NoRunning aggs ∨ ∀ x, rows.head? = some x → x.1 ≠ some false

/-- No rejected row precedes all accepted rows of its lane, or it does no harm. -/
def SafeLanes (aggs : List Agg) (packs : List (List (Option Bool × R))) : Prop :=
  NoRunning aggs ∨ ∀ pack, packs.head? = some pack → ∀ x ∈ pack, x.1 ≠ some false

/-- The rows whose predicate (if there is one) is true. -/
def rowsOf (rows : List (Option Bool × R)) : List R :=
  (rows.filter fun x => x.1 ≠ some false).map Prod.snd

end

/-- Consecutive rows with equal keys: `runs` splits a list into its maximal runs. -/
structure IsRuns {R K : Type} (key : R → K) (rs : List R) (runs : List (List R)) : Prop where
  flat : runs.flatten = rs
  nonempty : ∀ g ∈ runs, g ≠ []
  same : ∀ g ∈ runs, ∀ a ∈ g, ∀ b ∈ g, key a = key b
  differ : runs.IsChain fun g h => ∀ a ∈ g, ∀ b ∈ h, key a ≠ key b

/-- Rows with equal keys are contiguous. -/
def Contiguous {R K : Type} (key : R → K) (rs : List R) : Prop :=
  ∀ l m r : List R, ∀ a b : R, rs = l ++ [a] ++ m ++ [b] ++ r → key a = key b → ∀ c ∈ m, key c = key a

end Mutable.WasmAgg
