import Mathlib.Order.Defs.LinearOrder
import Mathlib.Data.List.Sort
import Mathlib.Algebra.Order.Field.Rat
import Mathlib.Algebra.Order.Floor.Defs
import Mathlib.Data.Rat.Floor
/-!
# Model of `ArrayIndex` and `RecursiveModelIndex` (include/mutable/storage/Index.hpp, src/storage/Index.cpp)

The key type is a linear order (floating-point keys: no NaN).  The index is an array of (key, tuple id) entries; `junk`
is what the memory behind the last entry contains (`RecursiveModelIndex` may read it).  Iterators are positions.
`none` stands for a thrown exception.  Running out of memory in `add` is not modelled.
-/
namespace Mutable.Index

variable {K : Type} [LinearOrder K]

/-- Members of `ArrayIndex` (Index.hpp:69-72). -/
structure Idx (K : Type) where
  entries : List (K × Nat)
  finalized : Bool

/-- `ArrayIndex()` (Index.cpp:52-55). -/
def Idx.init : Idx K := { entries := [], finalized := false }

/-- `add` (Index.cpp:150-164). -/
def Idx.add (s : Idx K) (key : K) (value : Nat) : Idx K :=
  { entries := s.entries ++ [(key, value)], finalized := false }

/-- `finalize` (Index.hpp:117-120; the sorting part of `RecursiveModelIndex::finalize`, Index.cpp:169-170, 232): `std::sort`
yields some permutation that is sorted by key (the order of entries with equal keys is unspecified). -/
def Idx.Finalize (s s' : Idx K) : Prop :=
  s'.entries.Perm s.entries ∧ s'.entries.Pairwise (fun a b => ¬ b.1 < a.1) ∧ s'.finalized = true

/-- The binary search of `std::lower_bound`/`std::upper_bound` (libstdc++ `__lower_bound`): the range starts at `first`
and has `len` elements; `p i` says whether to continue behind position `i`. -/
def bsearch (p : Nat → Bool) (first len : Nat) : Nat :=
  if h : len = 0 then first else
  let half := len / 2
  if p (first + half) then bsearch p (first + half + 1) (len - half - 1) else bsearch p first half
termination_by len
decreasing_by all_goals omega

/-- The key at a position (`junk` behind the end). -/
def keyAt (es : List (K × Nat)) (junk : K) (i : Nat) : K := (es[i]?).elim junk Prod.fst

/-- `ArrayIndex::lower_bound` (Index.hpp:128-131): the position of the iterator. -/
def Idx.lowerBound (s : Idx K) (junk : K) (key : K) : Option Nat :=
  if s.finalized then some (bsearch (fun i => decide (keyAt s.entries junk i < key)) 0 s.entries.length) else none

/-- `ArrayIndex::upper_bound` (Index.hpp:136-139). -/
def Idx.upperBound (s : Idx K) (junk : K) (key : K) : Option Nat :=
  if s.finalized then some (bsearch (fun i => !decide (key < keyAt s.entries junk i)) 0 s.entries.length) else none

/-! ### `RecursiveModelIndex` -/

/-- The loop that searches the right side (Index.hpp:278-282, 304-308); `bound = 2^k`; returns `prev` and `curr`. -/
def rightLoop (n : Nat) (p : Nat → Bool) (k prev curr : Nat) : Nat × Nat :=
  if h : curr < n ∧ p curr then rightLoop n p (k + 1) curr (curr + 2 ^ (k + 1)) else (prev, curr)
termination_by n - curr
decreasing_by
  have := Nat.two_pow_pos (k + 1)
  omega

/-- The loop that searches the left side (Index.hpp:287-291, 313-317); positions before the beginning are negative. -/
def leftLoop (p : Nat → Bool) (k : Nat) (prev curr : Int) : Int × Int :=
  if h : 0 < curr ∧ !p curr.toNat then leftLoop p (k + 1) curr (curr - 2 ^ (k + 1)) else (prev, curr)
termination_by curr.toNat
decreasing_by
  have : (0:Int) < 2 ^ (k + 1) := by positivity
  omega

/-- `lower_bound_exponential_search`/`upper_bound_exponential_search` (Index.hpp:272-322); `p` is `cmp(*it, value)` and
`not cmp(value, *it)`, respectively. -/
def expSearch (n : Nat) (p : Nat → Bool) (pred : Nat) : Nat :=
  if p pred then
    let r := rightLoop n p 0 pred (pred + 1)
    bsearch p r.1 (min (r.2 + 1) n - r.1)
  else
    let r := leftLoop p 0 pred ((pred : Int) - 1)
    bsearch p (max 0 r.2).toNat (r.1.toNat - (max 0 r.2).toNat)

/-- `RecursiveModelIndex::lower_bound` (Index.hpp:246-249), for a given prediction. -/
def Idx.rmiLowerBound (s : Idx K) (junk : K) (predict : K → Nat) (key : K) : Option Nat :=
  if s.finalized then some (expSearch s.entries.length (fun i => decide (keyAt s.entries junk i < key)) (predict key)) else none

/-- `RecursiveModelIndex::upper_bound` (Index.hpp:254-257). -/
def Idx.rmiUpperBound (s : Idx K) (junk : K) (predict : K → Nat) (key : K) : Option Nat :=
  if s.finalized then some (expSearch s.entries.length (fun i => !decide (key < keyAt s.entries junk i)) (predict key)) else none

/-! ### Training (in exact arithmetic instead of `double`) -/

/-- `LinearModel` (Index.hpp:172-179). -/
structure Linear where
  slope : Rat
  intercept : Rat
deriving DecidableEq

/-- `LinearModel::operator()` (Index.hpp:179). -/
def Linear.eval (m : Linear) (x : Rat) : Rat := m.slope * x + m.intercept

/-- `train_linear_spline` (Index.hpp:183-194). -/
def trainSpline (xs : List Rat) (offset : Nat) (cf : Rat) : Linear :=
  match xs with
  | [] => ⟨0, 0⟩
  | [_] => ⟨0, offset * cf⟩
  | x :: t =>
    let denominator := t.getLastD x - x
    let slope := if denominator ≠ 0 then (xs.length : Rat) / denominator * cf else 0
    ⟨slope, offset * cf - slope * x⟩

/-- The loop of `train_linear_regression` (Index.hpp:212-223). State: `i`, `mean_x`, `mean_y`, `c`, `m2`. -/
def regressionLoop (offset : Nat) : List Rat → Nat → Rat → Rat → Rat → Rat → Rat × Rat × Rat × Rat
  | [], _, mx, my, c, m2 => (mx, my, c, m2)
  | x :: t, i, mx, my, c, m2 =>
    let y : Rat := ((offset + i : Nat) : Rat)
    let dx := x - mx
    let mx := mx + dx / ((i : Rat) + 1)
    let my := my + (y - my) / ((i : Rat) + 1)
    let c := c + dx * (y - my)
    let m2 := m2 + dx * (x - mx)
    regressionLoop offset t (i + 1) mx my c m2

/-- `train_linear_regression` (Index.hpp:198-234). -/
def trainRegression (xs : List Rat) (offset : Nat) (cf : Rat) : Linear :=
  match xs with
  | [] => ⟨0, 0⟩
  | [_] => ⟨0, offset * cf⟩
  | x :: t =>
    let r := regressionLoop offset (x :: t) 0 0 0 0 0
    let n : Rat := (xs.length : Rat)
    let cov := r.2.2.1 / (n - 1)
    let var := r.2.2.2 / (n - 1)
    if var = 0 then ⟨0, r.2.1⟩ else
    let slope := cov / var * cf
    ⟨slope, r.2.1 * cf - slope * r.1⟩

/-- `std::clamp<double>(v, 0, hi)` followed by the conversion to `std::size_t`. -/
def clampNat (v : Rat) (hi : Nat) : Nat := if v < 0 then 0 else if (hi : Rat) < v then hi else v.floor.toNat

/-- The loop over the sorted keys in `RecursiveModelIndex::finalize` (Index.cpp:196-220). State: position, `segment_id`,
`segment_start`, models. -/
def segmentLoop (xs : List Rat) (m0 : Linear) (nModels : Nat) : Nat → Nat → Nat → Nat → List Linear → Nat × Nat × List Linear
  | 0, _, sid, start, ms => (sid, start, ms)
  | fuel + 1, i, sid, start, ms =>
    let p := clampNat (m0.eval (xs.getD i 0)) (nModels - 1)
    if sid < p then
      segmentLoop xs m0 nModels fuel (i + 1) p i
        (ms ++ [trainRegression ((xs.take i).drop start) start 1] ++
          List.replicate (p - (sid + 1)) (trainRegression ((xs.take i).drop (i - 1)) (i - 1) 1))
    else segmentLoop xs m0 nModels fuel (i + 1) sid start ms

/-- The models built by `RecursiveModelIndex::finalize` (Index.cpp:172-230) on a fresh index. -/
def train (xs : List Rat) (ratio : Rat) : List Linear :=
  let n := xs.length
  let nModels := max 1 ((n : Rat) * ratio).floor.toNat
  let m0 := trainSpline xs 0 ((nModels : Rat) / n)
  let r := segmentLoop xs m0 nModels n 0 0 0 [m0]
  r.2.2 ++ [trainRegression (xs.drop r.2.1) r.2.1 1] ++
    List.replicate (nModels - (r.1 + 1)) (trainRegression (xs.drop (n - 1)) (n - 1) 1)

/-- `predict` (Index.hpp:263-267). -/
def predict (models : List Linear) (n : Nat) (key : Rat) : Nat :=
  let seg := clampNat ((models.getD 0 ⟨0, 0⟩).eval key) (models.length - 2)
  clampNat ((models.getD (seg + 1) ⟨0, 0⟩).eval key) n

end Mutable.Index
