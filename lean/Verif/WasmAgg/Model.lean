import Mathlib.Data.Rat.Defs
import Mathlib.Algebra.Order.Ring.Rat

/-!
# Aggregates of the compiled back end

Model of the code `src/backend/WasmOperator.cpp` generates for aggregate functions: the bookkeeping of
`compute_aggregate_info`, hash-based grouping, ordered grouping and aggregation without grouping (with SIMD lanes).
All line numbers refer to that file unless another one is named.

Simplifications.  Floating-point arithmetic is exact (no rounding, no overflow of finite results, one zero), but
infinities and NaN are modelled.  `FLOAT` and `DOUBLE` differ only in the largest finite value.  An identifier of the
operator's schema (the printed expression) is the expression itself.  Arguments of aggregates are compiled expressions
given by a function from rows to values; their nullability is one flag (the code insists, :3484, that the flag of the
expression and of the compiled value agree).
-/
namespace Mutable.WasmAgg

/-! ### Machine values -/

/-- `f32`/`f64` values, exact. -/
inductive Dbl where
  | nan | ninf | fin (q : ℚ) | pinf
  deriving DecidableEq

namespace Dbl

/-- IEEE addition. -/
def add : Dbl → Dbl → Dbl
  | fin a, fin b => fin (a + b)
  | nan, _ => nan
  | _, nan => nan
  | pinf, ninf => nan
  | ninf, pinf => nan
  | pinf, _ => pinf
  | _, pinf => pinf
  | ninf, _ => ninf
  | _, ninf => ninf

def neg : Dbl → Dbl
  | nan => nan | ninf => pinf | pinf => ninf | fin a => fin (-a)

def sub (a b : Dbl) : Dbl := add a (neg b)

/-- The sign of a number that is not NaN. -/
def sgn : Dbl → Int
  | nan => 0 | ninf => -1 | pinf => 1 | fin a => if a < 0 then -1 else if 0 < a then 1 else 0

/-- Infinity with the given sign; NaN for sign zero. -/
def inf (s : Int) : Dbl := if s < 0 then ninf else if 0 < s then pinf else nan

/-- IEEE multiplication. -/
def mul : Dbl → Dbl → Dbl
  | nan, _ => nan
  | _, nan => nan
  | fin a, fin b => fin (a * b)
  | a, b => inf (sgn a * sgn b)

/-- IEEE division (there is one zero, taken to be positive). -/
def div : Dbl → Dbl → Dbl
  | nan, _ => nan
  | _, nan => nan
  | fin a, fin b => if b = 0 then inf (sgn (fin a)) else fin (a / b)
  | fin _, _ => fin 0
  | a, fin b => inf (sgn a * (if b < 0 then -1 else 1))
  | _, _ => nan

/-- `<`; false if an operand is NaN. -/
def lt : Dbl → Dbl → Bool
  | fin a, fin b => decide (a < b)
  | nan, _ => false
  | _, nan => false
  | ninf, ninf => false
  | ninf, _ => true
  | pinf, _ => false
  | _, pinf => true
  | _, ninf => false

/-- `f64.min` / `f64.max` of WebAssembly: NaN if an operand is NaN. -/
def mm (isMin : Bool) (a b : Dbl) : Dbl :=
  if a = nan ∨ b = nan then nan
  else if isMin then (if lt b a then b else a) else (if lt a b then b else a)

end Dbl

/-- Numeric types (include/mutable/catalog/Type.hpp:391-450): integers with their width, decimals with width and scale,
floating-point numbers. -/
inductive Ty where
  | int (w : Nat) | dec (w s : Nat) | flt | dbl
  deriving DecidableEq

/-- `Numeric::size`, Type.hpp:437-444. -/
def Ty.size : Ty → Nat
  | .int w => w | .dec w _ => w | .flt => 32 | .dbl => 64

/-- A machine value: an integer (also the unscaled representation of a decimal) or a floating-point number. -/
inductive Val where
  | i (z : Int) | d (x : Dbl)
  deriving DecidableEq

/-- Conversion to `double` (`to<double>()`, WasmDSL.hpp): decimals are not rescaled, src/backend/WasmUtil.cpp:60-74. -/
def Val.toDbl : Val → Dbl
  | .i z => .fin z | .d x => x

/-- `convert<Expr<T>>`, src/backend/WasmUtil.hpp:432-449: integers are widened, floating-point targets convert. -/
def conv (ty : Ty) (v : Val) : Val :=
  match ty with
  | .int _ => v | .dec _ _ => v | .flt => .d v.toDbl | .dbl => .d v.toDbl

/-- Two's complement arithmetic on `w` bits. -/
def wrap (w : Nat) (z : Int) : Int := Int.bmod z (2 ^ w)

/-- `sum + new_val` in the type of the sum. -/
def vadd (ty : Ty) : Val → Val → Val
  | .i a, .i b => .i (wrap ty.size (a + b))
  | .d a, .d b => .d (a.add b)
  | a, _ => a

/-- The new minimum or maximum: a comparison and `Select` for integers, `min`/`max` for floating-point numbers, e.g.
:2618-2636, :3495-3510. -/
def vmm (isMin : Bool) : Val → Val → Val
  | .i old, .i new =>
    if isMin then (if new < old then .i new else .i old) else (if new > old then .i new else .i old)
  | .d old, .d new => .d (Dbl.mm isMin old new)
  | old, _ => old

/-- Largest finite `float` and `double`. -/
def fltMax : ℚ := (2 ^ 24 - 1) * 2 ^ 104
def dblMax : ℚ := (2 ^ 53 - 1) * 2 ^ 971

/-- `std::numeric_limits<T>::max()` for MIN, `lowest()` for MAX. -/
def neutral (isMin : Bool) : Ty → Val
  | .int w => .i (if isMin then 2 ^ (w - 1) - 1 else - 2 ^ (w - 1))
  | .dec w _ => .i (if isMin then 2 ^ (w - 1) - 1 else - 2 ^ (w - 1))
  | .flt => .d (.fin (if isMin then fltMax else -fltMax))
  | .dbl => .d (.fin (if isMin then dblMax else -dblMax))

/-- `T(0)`. -/
def zero : Ty → Val
  | .int _ => .i 0 | .dec _ _ => .i 0 | .flt => .d (.fin 0) | .dbl => .d (.fin 0)

/-! ### Aggregate expressions and `compute_aggregate_info` -/

/-- An argument expression of an aggregate: identity, type, nullability. -/
structure Arg where
  idx : Nat
  ty : Ty
  nullable : Bool
  deriving DecidableEq

/-- Aggregate expressions. -/
inductive Agg where
  | countStar | count (a : Arg) | sum (a : Arg) | avg (a : Arg) | min (a : Arg) | max (a : Arg)
  deriving DecidableEq

/-- The result type, src/parse/Sema.cpp:593-640. -/
def Agg.ty : Agg → Ty
  | .countStar => .int 64
  | .count _ => .int 64
  | .sum a => match a.ty with
    | .int _ => .int 64
    | .dec _ s => .dec 64 s
    | .flt => .dbl
    | .dbl => .dbl
  | .avg _ => .dbl
  | .min a => a.ty
  | .max a => a.ty

/-- `can_be_null`, include/mutable/parse/AST.hpp:266-288. -/
def Agg.nullable : Agg → Bool
  | .countStar => false
  | .count _ => false
  | .sum a => a.nullable
  | .avg a => a.nullable
  | .min a => a.nullable
  | .max a => a.nullable

/-- Identifiers: the printed aggregate, or one of the additional entries `$running_count_…`, `$sum_…`. -/
inductive Ident where
  | agg (g : Agg) | runCnt (g : Agg) | sumOf (g : Agg)
  deriving DecidableEq

/-- Function identifiers. -/
inductive Fn where
  | min | max | sum | avg | count
  deriving DecidableEq

/-- `aggregate_info_t`, :790-798. -/
structure Info where
  id : Ident
  fn : Fn
  arg : Option Arg
  ty : Ty
  nullable : Bool
  deriving DecidableEq

/-- `avg_aggregate_info_t`, :800-806. -/
structure AvgInfo where
  runCnt : Ident
  sum : Ident
  running : Bool

/-- Function and argument of an aggregate expression. -/
def Agg.fn : Agg → Fn
  | .countStar => .count | .count _ => .count | .sum _ => .sum | .avg _ => .avg | .min _ => .min | .max _ => .max
def Agg.arg : Agg → Option Arg
  | .countStar => none | .count a => some a | .sum a => some a | .avg a => some a | .min a => some a | .max a => some a

/-- The information about an aggregate that is computed directly. -/
def Agg.info (g : Agg) : Info := ⟨.agg g, g.fn, g.arg, g.ty, g.nullable⟩

/-- The running count of an AVG: a COUNT over the same argument, if there is one, :846-867. -/
def cntId (aggs : List Agg) (a : Arg) : Ident := if .count a ∈ aggs then .agg (.count a) else .runCnt (.avg a)

/-- The additional running count, :860-866. -/
def cntInfos (aggs : List Agg) (a : Arg) : List Info :=
  if .count a ∈ aggs then [] else [⟨.runCnt (.avg a), .count, some a, .int 64, false⟩]

/-- The sum of a lazily computed AVG: a SUM over the same argument, if there is one, :871-888. -/
def sumId (aggs : List Agg) (a : Arg) : Ident := if .sum a ∈ aggs then .agg (.sum a) else .sumOf (.avg a)

/-- The type of the additional sum, :892-899. -/
def sumTy (a : Arg) : Ty :=
  match a.ty with
  | .int _ => .int 64 | .dec _ _ => .int 64 | .flt => .dbl | .dbl => .dbl

/-- The additional sum, :887-906. -/
def sumInfos (aggs : List Agg) (a : Arg) : List Info :=
  if .sum a ∈ aggs then [] else [⟨.sumOf (.avg a), .sum, some a, sumTy a, a.nullable⟩]

/-- The entries added for one AVG, :842-918. -/
def avgInfos (aggs : List Agg) (a : Arg) : List Info :=
  cntInfos aggs a ++ (if a.ty.size ≤ 32 then sumInfos aggs a else [Agg.info (.avg a)])

/-- `avg_aggregates_info`, :920-925. -/
def avgInfo (aggs : List Agg) (a : Arg) : AvgInfo :=
  ⟨cntId aggs a, sumId aggs a, decide (¬ a.ty.size ≤ 32)⟩

/-- One iteration of the loop over the aggregates, :831-934; duplicates are skipped (:834-836). -/
def infoStep (aggs : List Agg) (st : List Info) (g : Agg) : List Info :=
  if st.any (fun i => i.id = .agg g) then st
  else match g with
    | .avg a => st ++ avgInfos aggs a
    | g => st ++ [g.info]

/-- `compute_aggregate_info`, :824-938 (first component). -/
def infos (aggs : List Agg) : List Info := aggs.foldl (infoStep aggs) []

/-- `compute_aggregate_info` (second component): the entry of an AVG. -/
def avgEntry (aggs : List Agg) : Agg → Option AvgInfo
  | .avg a => if .avg a ∈ aggs then some (avgInfo aggs a) else none
  | _ => none

/-! ### States of aggregates -/

/-- The variables of an aggregate: value and NULL flag (`false` where the code has none). -/
structure AState where
  v : Val
  null : Bool
  deriving DecidableEq

/-- The value of an entry as seen by later operators: `Select(is_null, Null, value)`. -/
def AState.cell (s : AState) : Option Val := if s.null then none else some s.v

/-- The state of the first entry with the given identifier. -/
def getSt (is : List Info) (ss : List AState) (id : Ident) : AState :=
  match (is.zip ss).find? (fun p => p.1.id = id) with
  | some p => p.2
  | none => ⟨.i 0, false⟩

/-- The current value of a running count as a double. -/
def cntDbl (is : List Info) (ss : List AState) (id : Ident) : Dbl := (getSt is ss id).v.toDbl

/-- Division of the sum by the count, :2903-2916, :3822-3828, :4670-4679. -/
def lazyAvg (sum : Option Val) (cnt : Dbl) : Option Val := sum.map fun v => .d (v.toDbl.div cnt)

/-- The tuple handed to the next operator: the value of one aggregate, :2889-2946, :3810-3858, :4664-4697. -/
def emit (aggs : List Agg) (is : List Info) (ss : List AState) (g : Agg) : Option Val :=
  match avgEntry aggs g with
  | some ai =>
    if ai.running then (getSt is ss (.agg g)).cell
    else lazyAvg (getSt is ss ai.sum).cell (cntDbl is ss ai.runCnt)
  | none => (getSt is ss (.agg g)).cell

/-- Is the function MIN? -/
def Fn.isMin : Fn → Bool
  | .min => true | _ => false

section
variable {R V : Type} (ev : Arg → R → Option Val)

/-- The compiled and converted argument of an entry on a row; `none` is NULL (or no argument). -/
def argCell (i : Info) (r : R) : Option Val :=
  match i.arg with
  | some a => (ev a r).map (conv i.ty)
  | none => none

/-- `not_null(_arg).to<int64_t>()`; 1 for `COUNT(*)`. -/
def countInc (i : Info) (r : R) : Int :=
  match i.arg with
  | some a => if (ev a r).isSome then 1 else 0
  | none => 1

/-- The running count belonging to an AVG entry. -/
def cntOfAvg (aggs : List Agg) (i : Info) (ss : List AState) : Dbl :=
  match i.arg with
  | some a => cntDbl (infos aggs) ss (cntId aggs a)
  | none => .nan

/-! ### Hash-based grouping -/

/-- `init_aggs`: the aggregates of a group after its first row, :2597-2611, :2676-2688, :2741-2753, :2801-2833. -/
def hInit (r : R) (i : Info) : AState :=
  let start (neu : Val) : AState :=
    match argCell ev i r with
    | none => ⟨neu, i.nullable⟩
    | some v => ⟨v, false⟩
  match i.fn with
  | .min => start (neutral true i.ty)
  | .max => start (neutral false i.ty)
  | .sum => start (zero i.ty)
  | .avg => start (.d (.fin 0))
  | .count => ⟨.i (countInc ev i r), false⟩

/-- Combining old and new value; a NULL is written to the dummy entry only, :2612-2660, :2754-2784.  Without NULLs the
NULL bit is not touched. -/
def hComb (f : Val → Val → Val) (i : Info) (c : Option Val) (s : AState) : AState :=
  if i.nullable then
    match c with
    | none => ⟨s.v, s.null && true⟩
    | some v => ⟨f s.v v, s.null && false⟩
  else ⟨f s.v (c.getD (.i 0)), s.null⟩

/-- `update_aggs` (everything but AVG), :2612-2660, :2754-2784, :2804-2833. -/
def hUpdate (r : R) (i : Info) (s : AState) : AState :=
  match i.fn with
  | .min => hComb (vmm true) i (argCell ev i r) s
  | .max => hComb (vmm false) i (argCell ev i r) s
  | .sum => hComb (vadd i.ty) i (argCell ev i r) s
  | .avg => s
  | .count => ⟨.i (wrap 64 ((match s.v with | .i n => n | .d _ => 0) + countInc ev i r)), false⟩

/-- Knuth's iterative mean: `old + (new - old) / count`. -/
def avgStep (cnt : Dbl) (old new : Val) : Val :=
  .d (old.toDbl.add ((new.toDbl.sub old.toDbl).div cnt))

/-- `update_avg_aggs`, :2689-2733. -/
def hUpdateAvg (aggs : List Agg) (ss : List AState) (r : R) (i : Info) (s : AState) : AState :=
  match i.fn with
  | .avg => hComb (avgStep (cntOfAvg aggs i ss)) i (argCell ev i r) s
  | _ => s

/-- A row of an existing group: first all but AVG, then AVG, :2842-2847. -/
def hUpdateAll (aggs : List Agg) (r : R) (ss : List AState) : List AState :=
  let ss1 := List.zipWith (hUpdate ev r) (infos aggs) ss
  List.zipWith (hUpdateAvg ev aggs ss1 r) (infos aggs) ss1

variable [DecidableEq V] (key : R → List (Option V))

/-- One row: find the group of the row's key or insert it, :2577-2848.  The hash table maps keys (NULL equals NULL) to
entries (C46, C47). -/
def hRow (aggs : List Agg) : List (List (Option V) × List AState) → R → List (List (Option V) × List AState)
  | [], r => [(key r, (infos aggs).map (hInit ev r))]
  | g :: gs, r => if g.1 = key r then (g.1, hUpdateAll ev aggs r g.2) :: gs else g :: hRow aggs gs r

/-- With predication a row whose predicate is not true is sent to the dummy entry (C46). -/
def accepted (p : Option Bool) : Bool := p.getD true

def hStep (aggs : List Agg) (gs : List (List (Option V) × List AState)) (x : Option Bool × R) :
    List (List (Option V) × List AState) :=
  if accepted x.1 then hRow ev key aggs gs x.2 else gs

/-- The groups after all rows. -/
def hRun (aggs : List Agg) (rows : List (Option Bool × R)) : List (List (Option V) × List AState) :=
  rows.foldl (hStep ev key aggs) []

/-! ### Ordered grouping -/

/-- Initial and reset values, :3195-3330, :3474-3478, :3577-3581, :3622-3624, :3665-3669. -/
def oInit (i : Info) : AState :=
  match i.fn with
  | .min => ⟨neutral true i.ty, i.nullable⟩
  | .max => ⟨neutral false i.ty, i.nullable⟩
  | .sum => ⟨zero i.ty, i.nullable⟩
  | .avg => ⟨.d (.fin 0), i.nullable⟩
  | .count => ⟨.i 0, false⟩

/-- `pred ? Select(*pred, x, y) : x`. -/
def sel {α : Type} (p : Option Bool) (x y : α) : α :=
  match p with
  | none => x
  | some b => if b then x else y

/-- An update of a nullable aggregate (NULLs are ignored) or of one that is not nullable, where rows with a false
predicate contribute `dflt`, :3480-3524, :3583-3601, :3671-3706. -/
def oComb (f : Val → Val → Val) (dflt : Val) (p : Option Bool) (i : Info) (c : Option Val) (s : AState) : AState :=
  if i.nullable then
    match sel p c none with
    | none => ⟨s.v, s.null && true⟩
    | some v => ⟨f s.v v, s.null && false⟩
  else ⟨f s.v (sel p (c.getD (.i 0)) dflt), s.null⟩

/-- The increment of a COUNT under a predicate, :3626-3640. -/
def oInc (p : Option Bool) (i : Info) (r : R) : Int := sel p (countInc ev i r) 0

/-- `update_aggs` (everything but AVG), :3480-3640. -/
def oUpdate (p : Option Bool) (r : R) (i : Info) (s : AState) : AState :=
  match i.fn with
  | .min => oComb (vmm true) (neutral true i.ty) p i (argCell ev i r) s
  | .max => oComb (vmm false) (neutral false i.ty) p i (argCell ev i r) s
  | .sum => oComb (vadd i.ty) (zero i.ty) p i (argCell ev i r) s
  | .avg => s
  | .count => ⟨.i (wrap 64 ((match s.v with | .i n => n | .d _ => 0) + oInc ev p i r)), false⟩

/-- `update_avg_aggs`, :3671-3706. -/
def oUpdateAvg (aggs : List Agg) (ss : List AState) (p : Option Bool) (r : R) (i : Info) (s : AState) : AState :=
  match i.fn with
  | .avg => oComb (avgStep (cntOfAvg aggs i ss)) s.v p i (argCell ev i r) s
  | _ => s

/-- All aggregates, :3787-3789. -/
def oUpdateAll (aggs : List Agg) (p : Option Bool) (r : R) (ss : List AState) : List AState :=
  let ss1 := List.zipWith (oUpdate ev p r) (infos aggs) ss
  List.zipWith (oUpdateAvg ev aggs ss1 p r) (infos aggs) ss1

/-- One component of the key differs, :3722-3745, :3748-3770. -/
def cmpDiffers (old new : Option V) : Bool :=
  match old, new with
  | none, none => false
  | none, some _ => true
  | some _, none => true
  | some a, some b => decide (b ≠ a)

/-- `group_differs`, :3708-3774. -/
def groupDiffers (old new : List (Option V)) : Bool :=
  (old.zip new).foldl (fun d p => cmpDiffers p.1 p.2 || d) false

/-- The variables of the loop: `first_iteration`, the keys, the aggregates. -/
structure OSt (V : Type) where
  first : Bool
  key : List (Option V)
  aggs : List AState

/-- Local variables, their global backups, and the tuples handed to the next operator. -/
structure OAll (V : Type) where
  loc : OSt V
  glob : OSt V
  out : List (List (Option V) × List AState)

/-- `emit_group_and_resume_pipeline` after `store_locals_to_globals`, then `reset_aggs`, :3780-3784. -/
def oFlush (aggs : List Agg) (s : OAll V) : OAll V :=
  let glob : OSt V := ⟨s.glob.first, s.loc.key, s.loc.aggs⟩
  ⟨⟨s.loc.first, s.loc.key, (infos aggs).map oInit⟩, glob, s.out ++ [(glob.key, glob.aggs)]⟩

/-- A group ends (unless this is the first row), a new one begins, :3779-3787. -/
def oNewGroup (aggs : List Agg) (k : List (Option V)) (s : OAll V) : OAll V :=
  let s1 := if s.loc.first then s else oFlush aggs s
  { s1 with loc := ⟨false, k, s1.loc.aggs⟩ }

/-- The pipeline callback, :3444-3790. -/
def oRow (aggs : List Agg) (s : OAll V) (x : Option Bool × R) : OAll V :=
  let cond := s.loc.first || groupDiffers s.loc.key (key x.2)
  let s1 := if sel x.1 cond false then oNewGroup aggs (key x.2) s else s
  { s1 with loc := { s1.loc with aggs := oUpdateAll ev aggs x.1 x.2 s1.loc.aggs } }

/-- One call of the generated code: setup loads the globals (:3186-3440), teardown stores them (:3791-3803). -/
def oBatch (aggs : List Agg) (s : OAll V) (rows : List (Option Bool × R)) : OAll V :=
  let s1 := rows.foldl (oRow ev key aggs) { s with loc := s.glob }
  { s1 with glob := s1.loc }

/-- The start: `first_iteration` holds, the keys have arbitrary values `k0`. -/
def oStart (aggs : List Agg) (k0 : List (Option V)) : OAll V :=
  ⟨⟨true, k0, (infos aggs).map oInit⟩, ⟨true, k0, (infos aggs).map oInit⟩, []⟩

/-- The groups emitted for the rows, delivered in batches, :3009-3875; the last group is emitted at the end,
:3806-3808. -/
def oRun (aggs : List Agg) (k0 : List (Option V)) (batches : List (List (Option Bool × R))) :
    List (List (Option V) × List AState) :=
  let s := batches.foldl (oBatch ev key aggs) (oStart aggs k0)
  if s.glob.first then s.out else s.out ++ [(s.glob.key, s.glob.aggs)]

/-! ### Aggregation without grouping -/

/-- Initial values; every aggregate but COUNT is NULL at first, :3985-4030, :4088-4095, :4141-4147, :4172-4178. -/
def aInit (i : Info) : AState :=
  match i.fn with
  | .min => ⟨neutral true i.ty, true⟩
  | .max => ⟨neutral false i.ty, true⟩
  | .sum => ⟨zero i.ty, true⟩
  | .avg => ⟨.d (.fin 0), true⟩
  | .count => ⟨.i 0, false⟩

/-- As `oComb`, but there is always a NULL flag; it is cleared by every row if the argument is not nullable,
:4294-4350, :4386-4405, :4500-4520. -/
def aComb (f : Val → Val → Val) (dflt : Val) (p : Option Bool) (nullable : Bool) (c : Option Val) (s : AState) : AState :=
  if nullable then
    match sel p c none with
    | none => ⟨s.v, s.null && true⟩
    | some v => ⟨f s.v v, s.null && false⟩
  else ⟨f s.v (sel p (c.getD (.i 0)) dflt), false⟩

/-- Is the compiled argument nullable? -/
def Info.argNullable (i : Info) : Bool :=
  match i.arg with
  | some a => a.nullable
  | none => false

/-- One lane of the pipeline callback (everything but AVG), :4270-4452. -/
def aUpdate (p : Option Bool) (r : R) (i : Info) (s : AState) : AState :=
  match i.fn with
  | .min => aComb (vmm true) (neutral true i.ty) p i.argNullable (argCell ev i r) s
  | .max => aComb (vmm false) (neutral false i.ty) p i.argNullable (argCell ev i r) s
  | .sum => aComb (vadd i.ty) (zero i.ty) p i.argNullable (argCell ev i r) s
  | .avg => s
  | .count => ⟨.i (wrap 64 ((match s.v with | .i n => n | .d _ => 0) + oInc ev p i r)), false⟩

/-- One lane of the computation of running averages, :4455-4523. -/
def aUpdateAvg (aggs : List Agg) (ss : List AState) (p : Option Bool) (r : R) (i : Info) (s : AState) : AState :=
  match i.fn with
  | .avg => aComb (avgStep (cntOfAvg aggs i ss)) s.v p i.argNullable (argCell ev i r) s
  | _ => s

/-- One lane, one row. -/
def aLane (aggs : List Agg) (ss : List AState) (x : Option Bool × R) : List AState :=
  let ss1 := List.zipWith (aUpdate ev x.1 x.2) (infos aggs) ss
  List.zipWith (aUpdateAvg ev aggs ss1 x.1 x.2) (infos aggs) ss1

/-- One pack of rows: one row for each lane. -/
def aPack (aggs : List Agg) (lanes : List (List AState)) (pack : List (Option Bool × R)) : List (List AState) :=
  List.zipWith (aLane ev aggs) lanes pack

/-- All packs; `L` lanes.  The locals are loaded from and stored to globals by setup and teardown, so that batches do not
matter, :3996-4000, :4541-4640. -/
def aRun (aggs : List Agg) (L : Nat) (packs : List (List (Option Bool × R))) : List (List AState) :=
  packs.foldl (aPack ev aggs) (List.replicate L ((infos aggs).map aInit))

/-- The lanes of entry `n`. -/
def lanesOf (lanes : List (List AState)) (n : Nat) : List AState := lanes.map fun ss => ss.getD n ⟨.i 0, false⟩

/-- Combining the values of the lanes for MIN and MAX, :4016-4044: starts with lane 0. -/
def foldMM (isMin : Bool) : List AState → Val
  | [] => .i 0
  | s :: ss => ss.foldl (fun acc t => vmm isMin acc t.v) s.v

/-- `(extract<Is>() + ...)`: a right fold, :4106, :4160. -/
def foldSum (ty : Ty) : List AState → Val
  | [] => zero ty
  | [s] => s.v
  | s :: ss => vadd ty s.v (foldSum ty ss)

/-- `(simd_sum.extract<Is>() + ...)`, :4228. -/
def foldDbl : List Dbl → Dbl
  | [] => .fin 0
  | [x] => x
  | x :: xs => x.add (foldDbl xs)

/-- The final AVG: `avg * count` is summed over the lanes and divided by the total count, :4217-4233. -/
def finalAvg (avgs cnts : List AState) : Val :=
  .d ((foldDbl (List.zipWith (fun a c => a.v.toDbl.mul c.v.toDbl) avgs cnts)).div (foldSum (.int 64) cnts).toDbl)

/-- The lanes of the running count of an AVG entry. -/
def cntLanes (aggs : List Agg) (i : Info) (lanes : List (List AState)) : List AState :=
  match i.arg with
  | some a => lanes.map fun ss => getSt (infos aggs) ss (cntId aggs a)
  | none => []

/-- Finalisation of entry `n`; a single lane needs none, :4002-4055, :4097-4110, :4150-4165, :4180-4240. -/
def finalSt (aggs : List Agg) (lanes : List (List AState)) (n : Nat) (i : Info) : AState :=
  let ss := lanesOf lanes n
  if lanes.length = 1 then ss.getD 0 ⟨.i 0, false⟩
  else
    match i.fn with
    | .min => ⟨foldMM true ss, ss.all (·.null)⟩
    | .max => ⟨foldMM false ss, ss.all (·.null)⟩
    | .sum => ⟨foldSum i.ty ss, ss.all (·.null)⟩
    | .avg => ⟨finalAvg ss (cntLanes aggs i lanes), ss.all (·.null)⟩
    | .count => ⟨foldSum (.int 64) ss, false⟩

/-- The final states. -/
def finalAll (aggs : List Agg) (lanes : List (List AState)) : List AState :=
  (infos aggs).mapIdx fun n i => finalSt aggs lanes n i

/-- The single result tuple, :3911-4705. -/
def aResult (aggs : List Agg) (L : Nat) (packs : List (List (Option Bool × R))) (g : Agg) : Option Val :=
  emit aggs (infos aggs) (finalAll aggs (aRun ev aggs L packs)) g

end

end Mutable.WasmAgg
