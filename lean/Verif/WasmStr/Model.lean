import Mathlib.Order.Basic
import Mathlib.Order.Nat
import Mathlib.Data.List.Basic
/-!
# Model of the string functions of the WebAssembly backend

`src/backend/WasmUtil.cpp:3101-3690` (`strncmp`, `strcmp`, `strncpy`, `like`, `like_contains`, `like_prefix`, `like_suffix`) and the
concatenation `..`, `:385-425`.  The model is of the *emitted* code; the C++ functions are generators, each `IF`, `WHILE`, `LOOP` of
the DSL is a branch or loop of the model.

Simplifications: a pointer into a string is an offset from the start of that string, and each string has its own memory, which is an
arbitrary function outside of the bytes of the string (so a result that depended on them could not be proved); lengths are natural
numbers (32-bit in the code).  A byte is a C++ `char`, which is signed on the platforms supported: an integer from -128 to 127
(`src/backend/WasmDSL.hpp:4396-4402` loads it with sign extension, `:2810-2815` compares signed).
-/
namespace Mutable.WStr

/-- A C++ `char`. -/
scoped notation "Byte" => Int

/-- A string expression that is not NULL: the memory from its first byte on, the length of its type, and `guarantees_terminating_nul`:
is it a `VARCHAR`.  `src/backend/WasmUtil.hpp:31-84`. -/
structure NChar where
  mem : Nat → Byte
  length : Nat
  varying : Bool

/-- A loop: `none` if it has not ended after `fuel` rounds. -/
def loopW {σ : Type} (cond : σ → Bool) (body : σ → σ) : Nat → σ → Option σ
  | 0, _ => none
  | n + 1, s => if cond s then loopW cond body n (body s) else some s

/-- `(x > y).to<int32_t>() - (x < y).to<int32_t>()`. -/
def sgn (x y : Int) : Int := (if y < x then 1 else 0) - (if x < y then 1 else 0)

/-! ## Comparison -/

/-- The state of the comparison loops: the offsets `left` and `right`, and the result once a `BREAK` was reached. -/
structure CmpSt where
  left : Int
  right : Int
  result : Option Int

/-- One round of the loop of `strncmp_terminating_nul`.  `src/backend/WasmUtil.cpp:3146-3161`. -/
def nulBody (l r : NChar) (endL endR : Int) (s : CmpSt) : CmpSt :=
  let res := (if s.left ≠ endL then 1 else 0) - (if s.right ≠ endR then 1 else 0)
  if res ≠ 0 ∨ s.left = endL then { s with result := some res }
  else
    let x := l.mem s.left.toNat
    let y := r.mem s.right.toNat
    if sgn x y ≠ 0 then { s with result := some (sgn x y) }
    else if x = 0 then { s with result := some (sgn x y) }
    else { s with left := s.left + 1, right := s.right + 1 }

/-- The function `strncmp_terminating_nul`.  `src/backend/WasmUtil.cpp:3129-3164`. -/
def strncmpNul (fuel : Nat) (l r : NChar) (len : Nat) : Option Int :=
  let lenL := if len < l.length then len else l.length
  let lenR := if len < r.length then len else r.length
  (loopW (fun s => s.result.isNone) (nulBody l r lenL lenR) fuel ⟨0, 0, none⟩).bind (·.result)

/-- One round of the loop of `strncmp_no_terminating_nul`.  `src/backend/WasmUtil.cpp:3214-3239`. -/
def noNulBody (l r : NChar) (reverse : Bool) (endL endR : Int) (s : CmpSt) : CmpSt :=
  let x := if s.left ≠ endL then l.mem s.left.toNat else 0
  let y := if s.right ≠ endR then r.mem s.right.toNat else 0
  if sgn x y ≠ 0 then { s with result := some (sgn x y) }
  else if x = 0 then { s with result := some (sgn x y) }
  else { s with left := s.left + (if reverse then -1 else 1), right := s.right + (if reverse then -1 else 1) }

/-- The loop `WHILE(*end != 0 and end != begin + len) end += 1`.  `src/backend/WasmUtil.cpp:3197-3204`. -/
def findEnd (fuel : Nat) (s : NChar) (len : Nat) : Option Nat :=
  loopW (fun e => decide (s.mem e ≠ 0 ∧ e ≠ len)) (· + 1) fuel 0

/-- The function `strncmp_no_terminating_nul`, as generated with the given `reverse`.  `src/backend/WasmUtil.cpp:3174-3243`. -/
def strncmpNoNul (fuel : Nat) (l r : NChar) (len : Nat) (reverse : Bool) : Option Int :=
  let lenL := if len < l.length then len else l.length
  let lenR := if len < r.length then len else r.length
  if !reverse then
    (loopW (fun s => s.result.isNone) (noNulBody l r reverse lenL lenR) fuel ⟨0, 0, none⟩).bind (·.result)
  else
    match findEnd fuel l lenL, findEnd fuel r lenR with
    | some eL, some eR =>
      (loopW (fun s => s.result.isNone) (noNulBody l r reverse (-1) (-1)) fuel ⟨(eL : Int) - 1, (eR : Int) - 1, none⟩).bind (·.result)
    | _, _ => none

/-- Which functions the module contains already: the function `strncmp_no_terminating_nul` is generated at the first call and then
used by all calls, with the `reverse` of that first call.  `src/backend/WasmUtil.cpp:3103-3113`, `:3172`, `:3244-3249`. -/
abbrev Cache := Option Bool

/-- `strncmp(left, right, len, reverse)` for strings that are not NULL.  `src/backend/WasmUtil.cpp:3115-3252`.  Returns the result and
the functions generated afterwards. -/
def strncmp (fuel : Nat) (cache : Cache) (l r : NChar) (len : Nat) (reverse : Bool) : Option Int × Cache :=
  if l.length = 1 ∧ r.length = 1 then (some (sgn (l.mem 0) (r.mem 0)), cache)
  else if l.varying && r.varying && !reverse then (strncmpNul fuel l r len, cache)
  else (strncmpNoNul fuel l r len (cache.getD reverse), some (cache.getD reverse))

/-- `strcmp(left, right)` for strings that are not NULL.  `src/backend/WasmUtil.cpp:3269-3275`. -/
def strcmp (fuel : Nat) (cache : Cache) (l r : NChar) (reverse : Bool) : Option Int × Cache :=
  strncmp fuel cache l r (min l.length r.length + 1) reverse

/-- The comparison operators.  `src/backend/WasmUtil.cpp:3277-3305`. -/
inductive CmpOp | eq | ne | lt | le | gt | ge
deriving DecidableEq, Repr

/-- The `switch` on the operator. -/
def CmpOp.test : CmpOp → Int → Bool
  | .eq, r => decide (r = 0)
  | .ne, r => decide (r ≠ 0)
  | .lt, r => decide (r < 0)
  | .le, r => decide (r ≤ 0)
  | .gt, r => decide (0 < r)
  | .ge, r => decide (0 ≤ r)

/-- A string expression: NULL or not.  The result is SQL NULL if an operand is NULL, `src/backend/WasmUtil.cpp:3254-3266`.  The outer
`Option` is the fuel, the inner one SQL NULL. -/
def strcmpSQL (fuel : Nat) (cache : Cache) (op : CmpOp) (l r : Option NChar) : Option (Option Bool) :=
  match l, r with
  | some l, some r => (strcmp fuel cache l r false).1.map fun i => some (op.test i)
  | _, _ => some none

/-! ## Copying and concatenation -/

/-- The state of the copying loop: offsets in the destination and in the source, the destination, and whether `BREAK` was reached. -/
structure CpySt where
  dst : Nat
  src : Nat
  out : Nat → Byte
  done : Bool

/-- One round of the loop of `strncpy`.  `src/backend/WasmUtil.cpp:3337-3342`. -/
def cpyBody (src : Nat → Byte) (s : CpySt) : CpySt :=
  let out := fun i => if i = s.dst then src s.src else s.out i
  if src s.src = 0 then { s with out := out, done := true }
  else { s with out := out, src := s.src + 1, dst := s.dst + 1 }

/-- `strncpy(dst, src, count)`: the destination afterwards and the returned pointer.  `src/backend/WasmUtil.cpp:3324-3346`. -/
def strncpy (fuel : Nat) (out : Nat → Byte) (dst : Nat) (src : Nat → Byte) (count : Nat) : Option ((Nat → Byte) × Nat) :=
  (loopW (fun s => !s.done && decide (s.src ≠ count)) (cpyBody src) fuel ⟨dst, 0, out, false⟩).map fun s => (s.out, s.dst)

/-- `NChar::size_in_bytes`: the length of the type, and one more for a `VARCHAR`.  `src/backend/WasmUtil.hpp:82`,
`include/mutable/catalog/Type.hpp:311-319`. -/
def NChar.size (s : NChar) : Nat := if s.varying then s.length + 1 else s.length

/-- The concatenation `lhs .. rhs` of strings that are not NULL; `fresh` is the content of the newly allocated memory.
`src/backend/WasmUtil.cpp:397-399`, `:413-423`. -/
def concat (fuel : Nat) (fresh : Nat → Byte) (l r : NChar) : Option NChar :=
  match strncpy fuel fresh 0 l.mem l.length with
  | none => none
  | some (m1, ptr) =>
    match strncpy fuel m1 ptr r.mem r.size with
    | none => none
    | some (m2, _) =>
      let m3 := if !r.varying then fun i => if i = ptr then 0 else m2 i else m2
      some ⟨m3, l.length + r.length + 1, true⟩

/-! ## LIKE -/

/-- The special characters as bytes. -/
def percent : Byte := 37
def underscore : Byte := 95
def backslash : Byte := 92

/-- `Select(ptr < end, *ptr, '\0')`. -/
def load (m : Nat → Byte) (len i : Nat) : Byte := if i < len then m i else 0

/-- The first column: `DO_WHILE(byte_pattern == '%')`.  State: the table, the offset `entry`, the offset `pattern`, and the byte of the
last round (`none` before the first).  `src/backend/WasmUtil.cpp:3425-3430`. -/
def initCol (ls : Nat) (pat : Nat → Byte) (lp : Nat) (fuel : Nat) (t : Nat → Bool) : Option (Nat → Bool) :=
  (loopW (fun (s : (Nat → Bool) × Nat × Nat × Option Byte) => s.2.2.2.all (· == percent))
    (fun s => (fun i => if i = s.2.1 then true else s.1 i, s.2.1 + (ls + 1), s.2.2.1 + 1, some (load pat lp s.2.2.1)))
    fuel (t, 0, 0, none)).map (·.1)

/-- The state of the loop over the string: table, `entry`, offset `str`, `len_str`. -/
structure RowSt where
  t : Nat → Bool
  entry : Nat
  str : Nat
  lenStr : Nat

/-- One round of the loop over the string, for the current byte of the pattern.  `src/backend/WasmUtil.cpp:3476-3498`. -/
def rowBody (str : Nat → Byte) (ls : Nat) (notEsc : Bool) (c : Byte) (s : RowSt) : RowSt :=
  let v :=
    if notEsc && c == percent then s.t (s.entry - (ls + 1)) || s.t (s.entry - 1)
    else if (notEsc && c == underscore) || c == load str ls s.str then s.t (s.entry - (ls + 2))
    else s.t s.entry
  { t := fun i => if i = s.entry then v else s.t i, entry := s.entry + 1, str := s.str + 1, lenStr := s.lenStr + 1 }

/-- The loop over the string.  `src/backend/WasmUtil.cpp:3470-3498`. -/
def row (fuel : Nat) (str : Nat → Byte) (ls : Nat) (notEsc : Bool) (c : Byte) (t : Nat → Bool) (entry : Nat) : Option RowSt :=
  loopW (fun s => load str ls s.str != 0) (rowBody str ls notEsc c) fuel ⟨t, entry, 0, 0⟩

/-- The loop over the pattern.  `none`: out of fuel, `some none`: the exception is thrown, otherwise table, `entry` and `len_str`.
`src/backend/WasmUtil.cpp:3450-3510`. -/
def likeLoop (str : Nat → Byte) (ls : Nat) (pat : Nat → Byte) (lp : Nat) (esc : Byte) :
    Nat → (Nat → Bool) → Nat → Nat → Nat → Option (Option ((Nat → Bool) × Nat × Nat))
  | 0, _, _, _, _ => none
  | fuel + 1, t, entry, p, lenStr =>
    if load pat lp p = 0 then some (some (t, entry, lenStr))
    else
      let isEsc := load pat lp p == esc
      let p' := if isEsc then p + 1 else p
      let c := load pat lp p'
      if isEsc && (c != underscore && c != percent && c != esc) then some none
      else
        match row (fuel + 1) str ls (!isEsc) c t entry with
        | none => none
        | some s => likeLoop str ls pat lp esc fuel s.t (s.entry + (ls + 1 - s.lenStr)) (p' + 1) s.lenStr

/-- The function `like`.  `src/backend/WasmUtil.cpp:3381-3526`.  `garbage` is the content of the newly allocated memory of the table. -/
def likeFn (fuel : Nat) (garbage : Nat → Bool) (str : Nat → Byte) (ls : Nat) (pat : Nat → Byte) (lp : Nat) (esc : Byte) : Option (Option Bool) :=
  let t0 := fun i => if i < (ls + 1) * (lp + 1) then false else garbage i
  match initCol ls pat lp fuel t0 with
  | none => none
  | some t1 =>
    (likeLoop str ls pat lp esc fuel t1 (ls + 2) 0 0).map (·.map fun r => r.1 (r.2.1 + r.2.2 - (ls + 2)))

/-- `like(str, pattern)` for strings that are not NULL.  `src/backend/WasmUtil.cpp:3359-3375`, `:3529-3540`. -/
def like (fuel : Nat) (garbage : Nat → Bool) (s p : NChar) (esc : Byte) : Option (Option Bool) :=
  if s.length = 0 ∧ p.length = 0 then some (some true)
  else likeFn fuel garbage s.mem s.length p.mem p.length esc

/-! ### `%pattern%`: the algorithm of Knuth, Morris and Pratt -/

/-- The table as a list which is extended; reading it at a (non-negative) index. -/
def rd (l : List Int) (i : Int) : Int := l.getD i.toNat 0

/-- `while (len_prefix >= 0 and pattern[len_prefix] != pattern[i - 1]) len_prefix = tbl[len_prefix];`
`src/backend/WasmUtil.cpp:3584-3585`. -/
def prefixStep (fuel : Nat) (pat : List Byte) (tbl : List Int) (i : Nat) (lp : Int) : Option Int :=
  loopW (fun k => decide (0 ≤ k ∧ rd pat k ≠ rd pat (i - 1 : Int))) (fun k => rd tbl k) fuel lp

/-- The rounds of the construction of the prefix table, for `i`, `i + 1`, ..., `m`.  `src/backend/WasmUtil.cpp:3583-3588`. -/
def prefixLoop (fuel : Nat) (pat : List Byte) : Nat → Nat → List Int → Int → Option (List Int)
  | 0, _, tbl, _ => some tbl
  | n + 1, i, tbl, lp =>
    match prefixStep fuel pat tbl i lp with
    | none => none
    | some k => prefixLoop fuel pat n (i + 1) (tbl ++ [k + 1]) (k + 1)

/-- The prefix table.  `src/backend/WasmUtil.cpp:3578-3588`. -/
def prefixTable (fuel : Nat) (pat : List Byte) : Option (List Int) := prefixLoop fuel pat pat.length 1 [-1] (-1)

/-- The inner loop `WHILE(*val_str != pattern[pos]) { pos = tbl[pos]; IF (pos < 0) BREAK }`.  `src/backend/WasmUtil.cpp:3594-3600`. -/
def kmpInner (fuel : Nat) (pat : List Byte) (tbl : List Int) (c : Byte) (pos : Int) : Option Int :=
  loopW (fun k => decide (¬ k < 0 ∧ c ≠ rd pat k)) (fun k => rd tbl k) fuel pos

/-- The loop over the string.  `src/backend/WasmUtil.cpp:3593-3607`. -/
def kmpLoop (str : Nat → Byte) (ls : Nat) (pat : List Byte) (tbl : List Int) : Nat → Nat → Int → Option Bool
  | 0, _, _ => none
  | fuel + 1, i, pos =>
    if i < ls ∧ str i ≠ 0 then
      match kmpInner (fuel + 1) pat tbl (str i) pos with
      | none => none
      | some k => if k + 1 = pat.length then some true else kmpLoop str ls pat tbl fuel (i + 1) (k + 1)
    else some false

/-- `like_contains(str, "%pattern%")` for a string that is not NULL.  `src/backend/WasmUtil.cpp:3542-3635`; the percent signs are
removed from the pattern, `:3572-3576`. -/
def likeContains (fuel : Nat) (s : NChar) (pat : List Byte) : Option Bool :=
  if s.length = 0 then some false
  else match prefixTable fuel pat with
    | none => none
    | some tbl => kmpLoop s.mem s.length pat tbl fuel 0 0

/-! ### `pattern%` and `%pattern` -/

/-- A string in memory with a terminating NUL byte, as `VARCHAR` of exactly its length. -/
def ofList (l : List Byte) : NChar := ⟨fun i => l.getD i 0, l.length, true⟩

/-- `c + 1` for a `char`. -/
def incByte (c : Byte) : Byte := if c = 127 then -128 else c + 1

/-- `like_prefix(str, "pattern%")` for a string that is not NULL.  `src/backend/WasmUtil.cpp:3637-3661`. -/
def likePrefix (fuel : Nat) (cache : Cache) (s : NChar) (pat : List Byte) : Option Bool :=
  let upper := pat.dropLast ++ [incByte (pat.getLastD 0)]
  let (r1, c1) := strcmp fuel cache s (ofList pat) false
  let (r2, _) := strcmp fuel c1 s (ofList upper) false
  match r1, r2 with
  | some a, some b => some (CmpOp.ge.test a && CmpOp.lt.test b)
  | _, _ => none

/-- `like_suffix(str, "%pattern")` for a string that is not NULL.  `src/backend/WasmUtil.cpp:3663-3689`. -/
def likeSuffix (fuel : Nat) (cache : Cache) (s : NChar) (pat : List Byte) : Option Bool :=
  let upper := incByte (pat.headD 0) :: pat.tail
  let len := max s.length pat.length
  let (r1, c1) := strncmp fuel cache s (ofList pat) len true
  let (r2, _) := strncmp fuel c1 s (ofList upper) len true
  match r1, r2 with
  | some a, some b => some (CmpOp.ge.test a && CmpOp.lt.test b)
  | _, _ => none

/-! ### The choice between the four -/

/-- A string literal in memory: a `VARCHAR` one longer than the literal.  `src/backend/WasmUtil.hpp:917-924`. -/
def literal (l : List Byte) : NChar := ⟨fun i => l.getD i 0, l.length + 1, true⟩

/-- `[^_%\\\\]`. -/
def ordinary (c : Byte) : Bool := c != underscore && c != percent && c != backslash

/-- `[^_%\\\\]+`. -/
def ordinaries (l : List Byte) : Bool := !l.isEmpty && l.all ordinary

/-- `str LIKE pattern` with a constant pattern, for a string that is not NULL.  `src/backend/WasmUtil.cpp:355-383`. -/
def likeConst (fuel : Nat) (cache : Cache) (garbage : Nat → Bool) (s : NChar) (pattern : List Byte) : Option (Option Bool) :=
  if pattern.head? = some percent ∧ pattern.tail.getLast? = some percent ∧ ordinaries pattern.tail.dropLast = true then
    (likeContains fuel s pattern.tail.dropLast).map some
  else if pattern.getLast? = some percent ∧ ordinaries pattern.dropLast = true then
    (likePrefix fuel cache s pattern.dropLast).map some
  else if pattern.head? = some percent ∧ ordinaries pattern.tail = true then
    (likeSuffix fuel cache s pattern.tail).map some
  else like fuel garbage s (literal pattern) backslash

end Mutable.WStr
