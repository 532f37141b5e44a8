import Verif.WasmSort.Model
/-!
# Model of the generic quicksort: `src/util/algorithms.hpp`

`verify_partition`, `partition_predicated_naive` and `qsort` over random-access iterators.  Iterators are positions, the sequence is a
function from positions to elements.  The comparison operators of the element type are arbitrary functions; the theorems say which laws
are used.  The assertions (`M_insist`) are part of the model: the code is that of a debug build; a release build does the same
without evaluating them.
-/
namespace Mutable.QSort
open Mutable.WSort (Mem swp)

/-- The operators `<=`, `>=`, `>`, `<` of the element type and `std::numeric_limits<T>::lowest()`, `max()`, as used in
`src/util/algorithms.hpp:22-30`, `:45-50`, `:72-74`, `:112`. -/
structure Ops (α : Type) where
  le : α → α → Bool
  ge : α → α → Bool
  gt : α → α → Bool
  lt : α → α → Bool
  lowest : α
  highest : α

/-- A value, or a failed assertion. -/
inductive Out (β : Type) where
  | ok (x : β)
  | insist
  deriving DecidableEq, Repr

variable {α : Type} (o : Ops α)

/-- `std::max(x, y)`: `(x < y) ? y : x`; used in `src/util/algorithms.hpp:26`. -/
def smax (x y : α) : α := if o.lt x y then y else x
/-- `std::min(x, y)`: `(y < x) ? y : x`; used in `src/util/algorithms.hpp:28`. -/
def smin (x y : α) : α := if o.lt y x then y else x

/-- The first loop of `verify_partition`: `src/util/algorithms.hpp:25-26`; `n` elements from `p`. -/
def maxLo (a : Mem α) : ℕ → ℕ → α → α
  | 0, _, acc => acc
  | n + 1, p, acc => maxLo a n (p + 1) (smax o acc (a p))

/-- The second loop of `verify_partition`: `src/util/algorithms.hpp:27-28`. -/
def minHi (a : Mem α) : ℕ → ℕ → α → α
  | 0, _, acc => acc
  | n + 1, p, acc => minHi a n (p + 1) (smin o acc (a p))

/-- `verify_partition`: `src/util/algorithms.hpp:18-30`. -/
def verifyPartition (a : Mem α) (b mid e : ℕ) : Out Bool :=
  if o.lt o.lowest o.highest then .ok (o.le (maxLo o a (mid - b) b o.lowest) (minHi o a (e - mid) mid o.highest))
  else .insist

/-- The loop of `partition_predicated_naive`: `src/util/algorithms.hpp:44-53`: swap the first and the last element, advance the begin if
the element now there belongs to the left, the end if the one now there belongs to the right.  `none`: not finished after `fuel` rounds. -/
def partLoop (pivot : α) : ℕ → Mem α → ℕ → ℕ → Option (Mem α × ℕ)
  | 0, _, _, _ => none
  | fuel + 1, a, b, e =>
    if b < e then
      let left := a b
      let right := a (e - 1)
      partLoop pivot fuel (swp a b (e - 1)) (b + (o.le right pivot).toNat) (e - (o.ge left pivot).toNat)
    else some (a, b)

/-- `partition_predicated_naive` with its assertion `begin == the_end or *begin >= pivot`: `src/util/algorithms.hpp:34-58`. -/
def partition (pivot : α) (fuel : ℕ) (a : Mem α) (b e : ℕ) : Option (Out (Mem α × ℕ)) :=
  match partLoop o pivot fuel a b e with
  | none => none
  | some (a', m) => if m = e ∨ o.ge (a' m) pivot = true then some (.ok (a', m)) else some .insist

/-- The median of three is swapped to the begin: `src/util/algorithms.hpp:70-95`. -/
def median (a : Mem α) (b e : ℕ) : Mem α :=
  let pm := b + (e - b) / 2
  let leftLeMid := o.le (a b) (a pm)
  let leftLeRight := o.le (a b) (a (e - 1))
  let midLeRight := o.le (a pm) (a (e - 1))
  if leftLeMid then
    if leftLeRight then
      if midLeRight then swp a b pm else swp a b (e - 1)
    else a
  else
    if midLeRight then
      if leftLeRight then a else swp a b (e - 1)
    else swp a b pm

/-- `std::is_sorted`: no element is less than its predecessor; used in `src/util/algorithms.hpp:105`.  `n`: number of neighbours. -/
def isSorted (a : Mem α) : ℕ → ℕ → Bool
  | 0, _ => true
  | n + 1, p => !o.lt (a (p + 1)) (a p) && isSorted a n (p + 1)

/-- `qsort`: `src/util/algorithms.hpp:60-114`.  The next round of the loop (`end = prev(mid)`) is a call with the same begin; it repeats
the assertion `begin <= end`, which the code makes once per call. -/
def qsort : ℕ → Mem α → ℕ → ℕ → Option (Out (Mem α))
  | 0, _, _, _ => none
  | fuel + 1, a, b, e =>
    if ¬ b ≤ e then some .insist
    else if 2 < e - b then
      let a1 := median o a b e
      match partition o (a1 b) fuel a1 (b + 1) e with
      | none => none
      | some .insist => some .insist
      | some (.ok (a2, mid)) =>
        if ¬ mid ≤ e then some .insist
        else if ¬ b + 1 ≤ mid then some .insist
        else if verifyPartition o a2 (b + 1) mid e ≠ .ok true then some .insist
        else
          let a3 := swp a2 b (mid - 1)
          match (if 2 ≤ e - mid then qsort fuel a3 mid e else some (.ok a3)) with
          | none => none
          | some .insist => some .insist
          | some (.ok a4) =>
            if ¬ isSorted o a4 (e - mid - 1) mid then some .insist
            else qsort fuel a4 b (mid - 1)
    else if e - b = 2 then
      if o.gt (a b) (a (e - 1)) then some (.ok (swp a b (e - 1))) else some (.ok a)
    else some (.ok a)

end Mutable.QSort
