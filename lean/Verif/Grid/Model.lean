import Mathlib.Algebra.Order.Floor.Defs
import Mathlib.Data.Int.Log
import Mathlib.Algebra.Order.Round
import Mathlib.Data.Rat.Floor
/-!
# Model of `LinearSpace`, `GridSearch` and `generate_uniform_distinct_numbers`

* `src/util/GridSearch.hpp:45-136` — `LinearSpace<T>`: evenly spaced points of an interval;
* `src/util/GridSearch.hpp:138-206` — `GridSearch`: enumerate all points of a grid;
* `src/util/datagen.hpp:14-30` — `generate_uniform_distinct_numbers`.

These produce the data and the experiments from which the operator cost models are trained (`src/catalog/CostModel.cpp:96-450`) and the
columns filled by `src/storage/store_manip.cpp:62-98`.

Numbers of type `double` are rationals here and the arithmetic is IEEE 754 `binary64` rounding of the exact result to 53 significant
bits, towards zero where the code has called `fesetround(FE_TOWARDZERO)` and to the nearest (ties to even) elsewhere.
Simplifications: no infinities, NaNs, subnormals or overflow (magnitudes in this code are 0 or between 2^-97 and 2^65 for integral `T`; for
`T = double` the bounds of the interval are assumed to keep away from the extremes); no contraction of `a + n * s` to an FMA.
-/
namespace Mutable.Grid

/-! ## Rounding of `binary64` -/

/-- The distance of neighbouring doubles in the binade of `q`: 53 significant bits.  (IEEE 754-2019, 3.4; the code relies on it.) -/
def ulp (q : ℚ) : ℚ := (2 : ℚ) ^ (Int.log 2 |q| - 52)

/-- Round to an integer, ties to even.  The integer rounding of the default mode `FE_TONEAREST`. -/
def rintEven (q : ℚ) : ℤ :=
  let f := ⌊q⌋
  let d := q - f
  if d < 1 / 2 then f else if 1 / 2 < d then f + 1 else if f % 2 = 0 then f else f + 1

/-- Result of an operation in rounding mode `FE_TONEAREST` (the mode outside `src/util/GridSearch.hpp:74-77`). -/
def rn (q : ℚ) : ℚ := if q = 0 then 0 else rintEven (q / ulp q) * ulp q

/-- Result of an operation in rounding mode `FE_TOWARDZERO` (set in `src/util/GridSearch.hpp:75`, reset in `:77`). -/
def rz (q : ℚ) : ℚ := if q = 0 then 0 else if 0 < q then ⌊q / ulp q⌋ * ulp q else ⌈q / ulp q⌉ * ulp q

/-- `std::round`: to the nearest integer, halfway cases away from zero (used in `src/util/GridSearch.hpp:100`). -/
def cround (q : ℚ) : ℤ := if 0 ≤ q then ⌊q + 1 / 2⌋ else ⌈q - 1 / 2⌉

/-! ## `LinearSpace` over an integral type -/

/-- An integral type: its width and whether it is signed (`static_assert`, `src/util/GridSearch.hpp:47`). -/
structure IntTy where
  bits : ℕ
  signed : Bool
  deriving DecidableEq, Repr

/-- `std::numeric_limits<T>::lowest()` -/
def IntTy.lo (t : IntTy) : ℤ := if t.signed then -(2 ^ (t.bits - 1)) else 0
/-- `std::numeric_limits<T>::max()` -/
def IntTy.hi (t : IntTy) : ℤ := if t.signed then 2 ^ (t.bits - 1) - 1 else 2 ^ t.bits - 1

/-- Conversion of an integer to `T`: modulo `2^bits` (C++20 semantics of integral conversions; `value_type` is the return type of
`at`, `src/util/GridSearch.hpp:96`). -/
def IntTy.conv (t : IntTy) (x : ℤ) : ℤ :=
  let m := x % 2 ^ t.bits
  if t.signed && decide (2 ^ (t.bits - 1) ≤ m) then m - 2 ^ t.bits else m

/-- The object.  `src/util/GridSearch.hpp:53-58`; `step_` is computed by the constructor, see `LinSp.step`. -/
structure LinSp where
  ty : IntTy
  lo : ℤ
  hi : ℤ
  steps : ℕ
  asc : Bool
  deriving DecidableEq, Repr

/-- What a call may do. -/
inductive Res (α : Type) where
  | ok (a : α)
  | invalidArgument   -- `std::invalid_argument`
  | outOfRange        -- `std::out_of_range`
  | ub                -- undefined behaviour
  | diverges          -- the call does not return
  deriving DecidableEq, Repr

/-- The constructor: `src/util/GridSearch.hpp:61-72`. -/
def LinSp.mk? (ty : IntTy) (lo hi : ℤ) (steps : ℕ) (asc : Bool) : Res LinSp :=
  if hi < lo then .invalidArgument
  else if steps = 0 then .invalidArgument
  else .ok ⟨ty, lo, hi, steps, asc⟩

/-- `step_ = (double(hi_) - double(lo_)) / num_steps_` with every operation rounded towards zero.  `src/util/GridSearch.hpp:74-77`. -/
def LinSp.step (s : LinSp) : ℚ := rz (rz (rz s.hi - rz s.lo) / s.steps)

/-- `std::round(n * step())`, converted to the unsigned type (`src/util/GridSearch.hpp:100`); `none`: the value does not fit, undefined
behaviour. -/
def LinSp.delta (s : LinSp) (n : ℕ) : Option ℤ :=
  let d := cround (rn (n * s.step))
  if 0 ≤ d ∧ d < 2 ^ s.ty.bits then some d else none

/-- `at(n)` for an integral type: `src/util/GridSearch.hpp:96-104`. -/
def LinSp.at (s : LinSp) (n : ℕ) : Res ℤ :=
  if s.steps < n then .outOfRange
  else match s.delta n with
    | none => .ub
    | some d => .ok (if s.asc then s.ty.conv (s.lo + d) else s.ty.conv (s.hi - d))

/-- The type `unsigned`: arithmetic is modulo `2^32`. -/
abbrev UMAX : ℕ := 2 ^ 32 - 1

/-- The loop `for (unsigned i = 0; i <= num_steps(); ++i)` of `sequence()`: `src/util/GridSearch.hpp:118-119`.  `none`: not finished after
`fuel` rounds. -/
def LinSp.seqLoop (s : LinSp) : ℕ → ℕ → List (Res ℤ) → Option (List (Res ℤ))
  | 0, _, _ => none
  | fuel + 1, i, vec =>
    if i ≤ s.steps then s.seqLoop fuel ((i + 1) % 2 ^ 32) (vec ++ [s.at i])
    else some vec

/-- `sequence()`: `src/util/GridSearch.hpp:114-122`. -/
def LinSp.sequence (s : LinSp) (fuel : ℕ) : Option (List (Res ℤ)) := s.seqLoop fuel 0 []

/-! ## `LinearSpace<double>` -/

/-- `LinearSpace<double>`: bounds, number of steps, direction.  `src/util/GridSearch.hpp:53-58`. -/
structure DblSp where
  lo : ℚ
  hi : ℚ
  steps : ℕ
  asc : Bool

/-- `step_`.  `src/util/GridSearch.hpp:74-77`. -/
def DblSp.step (s : DblSp) : ℚ := rz (rz (s.hi - s.lo) / s.steps)

/-- `std::clamp(v, lo, hi)`: `src/util/GridSearch.hpp:106-109`. -/
def clamp (v lo hi : ℚ) : ℚ := if v < lo then lo else if hi < v then hi else v

/-- `at(n)` for `double`, `n <= num_steps()`: `src/util/GridSearch.hpp:105-110`. -/
def DblSp.at (s : DblSp) (n : ℕ) : ℚ :=
  if s.asc then clamp (rn (s.lo + rn (n * s.step))) s.lo s.hi
  else clamp (rn (s.hi - rn (n * s.step))) s.lo s.hi

/-! ## `GridSearch` -/

/-- `num_points()`: the fold expression `((space.num_steps() + 1) * ...)` has type `unsigned`; `src/util/GridSearch.hpp:149-153`. -/
def numPoints : List ℕ → ℕ
  | [] => 1
  | [n] => (n + 1) % 2 ^ 32
  | n :: ns => ((n + 1) % 2 ^ 32 * numPoints ns) % 2 ^ 32

/-- One round of the loop of `search` after the callback: reset the trailing counters that have reached their last step, increment the
counter in front of them; `none`: finished.  `src/util/GridSearch.hpp:196-202`. -/
def bump (num : List ℕ) : List ℕ → ℕ → Option (List ℕ)
  | c, 0 => if c.getD 0 0 = num.getD 0 0 then none else some (c.set 0 (c.getD 0 0 + 1))
  | c, idx + 1 =>
    if c.getD (idx + 1) 0 = num.getD (idx + 1) 0 then bump num (c.set (idx + 1) 0) idx
    else some (c.set (idx + 1) (c.getD (idx + 1) 0 + 1))

/-- The loop of `search`: `src/util/GridSearch.hpp:192-203`; `out` collects the counters with which the callback is called. -/
def searchLoop (num : List ℕ) : ℕ → List ℕ → List (List ℕ) → Option (List (List ℕ))
  | 0, _, _ => none
  | fuel + 1, c, out =>
    match bump num c (num.length - 1) with
    | none => some (out ++ [c])
    | some c' => searchLoop num fuel c' (out ++ [c])

/-- `search`: `src/util/GridSearch.hpp:184-205`: the counters start at zero.  At least one space (with none, `NUM_SPACES - 1` wraps
around and the loop reads beyond the array). -/
def search (num : List ℕ) (fuel : ℕ) : Option (List (List ℕ)) := searchLoop num fuel (List.replicate num.length 0) []

/-- The arguments of the callback: `make_args`, `src/util/GridSearch.hpp:174-181`. -/
def makeArgs {α : Type} (spaces : List (ℕ → α)) (c : List ℕ) : List α := List.zipWith (fun s n => s n) spaces c

/-! ## `generate_uniform_distinct_numbers` -/

/-- `src/util/datagen.hpp:16-30` for an integral type, without `std::shuffle` (any permutation of the result, see the theorems).  `count`
is a `size_t`; `count - 1` is computed in `size_t` and converted to the parameter type `unsigned`. -/
def uniformDistinct (ty : IntTy) (min max : ℤ) (count fuel : ℕ) : Res (List (Res ℤ)) :=
  if count = 1 then .ok [.ok min]
  else match LinSp.mk? ty min max ((count + (2 ^ 64 - 1)) % 2 ^ 64 % 2 ^ 32) true with
    | .ok s => match s.sequence fuel with
      | some l => .ok l
      | none => .diverges
    | .invalidArgument => .invalidArgument
    | .outOfRange => .outOfRange
    | .ub => .ub
    | .diverges => .diverges

end Mutable.Grid
