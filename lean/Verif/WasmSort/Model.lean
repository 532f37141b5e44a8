import Mathlib.Order.Basic
import Mathlib.Order.Nat
/-!
# Model of the sorting of the WebAssembly backend

* `src/backend/WasmAlgo.cpp:63-244` — `quicksort`: the code emitted for `ORDER BY`.
* `src/backend/WasmUtil.cpp:3697-3932` — `compare<Predicated>`: the comparison of two tuples by the ordering expressions.
* `src/backend/WasmUtil.cpp:2979-3090` — swapping two tuples; `:2416-2440` — how a loaded tuple represents NULL.

The model is of the *emitted* code: the C++ functions are generators, and every `IF`/`WHILE` of the DSL is a branch or loop of the
model.  An expression such as `last = end - 1` is not a variable; it is evaluated anew at each use (the generated code re-reads
`end`).  Simplifications: tuple IDs are natural numbers (in the code they are 64-bit, so `(begin + end) >> 1` is exact below 2^63
tuples); the bytes of a tuple are not modelled, only the values of its columns.
-/
namespace Mutable.WSort

/-! ## Quicksort -/
section Quicksort
variable {R : Type}

/-- The buffer: tuple ID to tuple.  (`src/backend/WasmUtil.hpp:1050-1130`, a `GlobalBuffer`.) -/
abbrev Mem (R : Type) := Nat → R

/-- `swap(first, second)`.  `src/backend/WasmUtil.cpp:2995-3037` and `:3044-3090`: the first tuple is saved, the second stored at
the place of the first, and the saved tuple at the place of the second. -/
def swp (a : Mem R) (i j : Nat) : Mem R := fun k => if k = j then a i else if k = i then a j else a k

/-- What the generated code knows about the types of tuples and the two command-line options.

* `cmp` — `compare<CmpPredicated>(left, right, order)`, `src/backend/WasmUtil.cpp:3697-3932`.
* `adapt x y` — the environment used for a place which held `x` when the environment was loaded and which holds `y` after the swap,
  `src/backend/WasmAlgo.cpp:100-115`.
* `hard` — `options::partition_hard_boundary`, `two` — `options::special_case_quicksort_two_elements`, `:16-24`. -/
structure Cfg (R : Type) where
  cmp : R → R → Int
  adapt : R → R → R
  hard : Bool
  two : Bool

variable (c : Cfg R)

/-- One round of the loop of `partition`: swap the tuples at `begin` and at `last = end - 1`, compare both to the pivot, advance.
`src/backend/WasmAlgo.cpp:84-126`. -/
def partStep (p : R) (a : Mem R) (b e : Nat) : Mem R × Nat × Nat :=
  let x := a b
  let y := a (e - 1)
  let beginCmp := if c.hard then decide (c.cmp (c.adapt x y) p < 0) else decide (c.cmp (c.adapt x y) p ≤ 0)
  let lastGe := decide (0 ≤ c.cmp (c.adapt y x) p)
  (swp a b (e - 1), b + beginCmp.toNat, e - lastGe.toNat)

/-- `partition`: `DO_WHILE(begin < end)`, returns the boundary.  `src/backend/WasmAlgo.cpp:79-129`.  `none`: the loop has not
finished after `fuel` rounds. -/
def part (p : R) : Nat → Mem R → Nat → Nat → Option (Mem R × Nat)
  | 0, _, _, _ => none
  | fuel + 1, a, b, e =>
    let r := partStep c p a b e
    if r.2.1 < r.2.2 then part p fuel r.1 r.2.1 r.2.2 else some (r.1, r.2.1)

/-- Swap the median of the first, the middle and the last tuple to the begin.  `src/backend/WasmAlgo.cpp:148-190`. -/
def median (a : Mem R) (b e : Nat) : Mem R :=
  let mid := (b + e) / 2
  let last := e - 1
  let beginLeMid := decide (c.cmp (a b) (a mid) ≤ 0)
  let beginLeLast := decide (c.cmp (a b) (a last) ≤ 0)
  let midLeLast := decide (c.cmp (a mid) (a last) ≤ 0)
  if beginLeMid then
    if beginLeLast then
      if midLeLast then swp a b mid else swp a b last
    else a
  else
    if midLeLast then
      if !beginLeLast then swp a b last else a
    else swp a b mid

/-- The function `quicksort(begin, end)`.  `src/backend/WasmAlgo.cpp:133-239`.  One round of its `WHILE` loop followed by the rest of
the function is the same as a call with the new `end`, which is how the loop is written here.  `none`: out of fuel. -/
def qsort : Nat → Mem R → Nat → Nat → Option (Mem R)
  | 0, _, _, _ => none
  | fuel + 1, a, b, e =>
    if (if c.two then decide (2 < e - b) else decide (2 ≤ e - b)) then
      let a1 := median c a b e
      match part c (a1 b) fuel a1 (b + 1) e with
      | none => none
      | some (a2, mid) =>
        let a3 := swp a2 b (mid - 1)
        match (if 2 ≤ e - mid then qsort fuel a3 mid e else some a3) with
        | none => none
        | some a4 => qsort fuel a4 b (mid - 1)
    else if c.two && decide (e - b = 2) then
      if 0 < c.cmp (a b) (a (e - 1)) then some (swp a b (e - 1)) else some a
    else some a

/-- `quicksort(0, buffer.size())` for a buffer which holds the tuples of `l`.  `src/backend/WasmAlgo.cpp:238`.  `d` stands for
whatever lies behind the last tuple. -/
def sortBuffer (fuel : Nat) (d : R) (l : List R) : Option (List R) :=
  (qsort c fuel (fun i => l.getD i d) 0 l.length).map fun a => (List.range l.length).map a

end Quicksort

/-! ## Comparing tuples -/
section Compare
variable {V : Type} [LinearOrder V]

/-- The value of an expression: is it NULL, and the value part, which has some value even if the whole is NULL.
`src/backend/WasmDSL.hpp:4640-4760` (`Expr<T>`); for strings `src/backend/WasmUtil.hpp:31-84` (`NChar`), where NULL is the null
pointer, so that the value part of NULL cannot be read. -/
structure Cell (V : Type) where
  null : Bool
  val : V
deriving DecidableEq, Repr

/-- An ordering expression with its direction.  `order_type`, `include/mutable/IR/Operator.hpp` (`SortingOperator`): `eval`
computes the expression, `str`: it is of character type, `nullable`: `can_be_null()`. -/
structure Key (R V : Type) where
  eval : R → Cell V
  asc : Bool
  nullable : Bool
  str : Bool

variable {R : Type}

/-- `compare<false>`: branching.  `src/backend/WasmUtil.cpp:3795-3926`.  `strcmp` is taken to be the comparison of strings
(`:3101-3274`, modelled in `Verif.WasmStr`). -/
def cmpBranch : List (Key R V) → R → R → Int
  | [], _, _ => 0
  | k :: ks, l, r =>
    let x := k.eval l
    let y := k.eval r
    if k.nullable then
      if !x.null then
        if y.null then 1
        else if (if k.asc then x.val < y.val else y.val < x.val) then -1
        else if (if k.asc then y.val < x.val else x.val < y.val) then 1
        else cmpBranch ks l r
      else if !y.null then -1
      else cmpBranch ks l r
    else if (if k.asc then x.val < y.val else y.val < x.val) then -1
    else if (if k.asc then y.val < x.val else x.val < y.val) then 1
    else cmpBranch ks l r

/-- A truth value as 32-bit integer, `.to<int32_t>()`. -/
def b32 (b : Bool) : BitVec 32 := if b then 1#32 else 0#32

/-- `val_gt - val_lt`, or the negation for a descending order.  `src/backend/WasmUtil.cpp:3729-3731`, `:3752-3754`. -/
def cmpVal (asc : Bool) (x y : V) : BitVec 32 :=
  let lt := b32 (decide (x < y))
  let gt := b32 (decide (y < x))
  if asc then gt - lt else lt - gt

/-- The value part of the comparison of two nullable cells: for strings the value part of the NULL returned by `strcmp` is `0`
(`src/backend/WasmUtil.cpp:3256-3258`, `src/backend/WasmDSL.hpp:4686`); for other types NULLs are compared by their value parts
(`src/backend/WasmUtil.cpp:3729-3733`). -/
def cmpValNullable (k : Key R V) (x y : Cell V) : BitVec 32 :=
  if k.str && (x.null || y.null) then 0#32 else cmpVal k.asc x.val y.val

/-- One ordering expression of `compare<true>`: shift the result and add.  `src/backend/WasmUtil.cpp:3709-3790`. -/
def cmpPredStep (l r : R) (result : BitVec 32) (k : Key R V) : BitVec 32 :=
  let x := k.eval l
  let y := k.eval r
  if k.nullable then
    let cmpNull := b32 y.null - b32 x.null
    (result <<< 2) + ((cmpNull <<< 1) + cmpValNullable k x y)
  else (result <<< 1) + cmpVal k.asc x.val y.val

/-- `compare<true>`: predicated.  `src/backend/WasmUtil.cpp:3702-3794`. -/
def cmpPred (ks : List (Key R V)) (l r : R) : Int := (ks.foldl (cmpPredStep l r) 0#32).toInt

/-! ## Tuples -/

/-- A column of the buffer: is it of character type, can it be NULL. -/
structure Col where
  str : Bool
  nullable : Bool

/-- A tuple: the cells of its columns. -/
abbrev Row (V : Type) := List (Cell V)

/-- The cell of an environment after swapping the tuples, for a place which held `x` before and holds `y` now.
`src/backend/WasmAlgo.cpp:100-115`: for all types but strings the entries of the environments are swapped, too.  The entry of a
string is a pointer, which was set to null if the *former* tuple is NULL (`src/backend/WasmUtil.cpp:2429-2433`), and stays as it is;
the bytes at the address are those of the new tuple, except that storing NULL does not write (`:2395-2399`). -/
def adaptCell (col : Col) (x y : Cell V) : Cell V :=
  if col.str && col.nullable && (x.null || y.null) then x else y

/-- The environment after swapping. -/
def adaptRow : List Col → Row V → Row V → Row V
  | col :: cols, x :: xs, y :: ys => adaptCell col x y :: adaptRow cols xs ys
  | _, _, ys => ys

/-- The code emitted for `ORDER BY` with branching or predicated comparison. -/
def cfg (cols : List Col) (ks : List (Key (Row V) V)) (predicated hard two : Bool) : Cfg (Row V) where
  cmp := if predicated then cmpPred ks else cmpBranch ks
  adapt := adaptRow cols
  hard := hard
  two := two

end Compare
end Mutable.WSort
