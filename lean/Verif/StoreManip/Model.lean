import Verif.Grid.Model
/-!
# Model of the generators of data in columns: `src/storage/store_manip.cpp`, `src/storage/store_manip.hpp`

Setting NULL bits of ranges of rows, primary keys, filling a column with repeated values, distinct numbers for correlated columns.
Memory is a function from addresses (of bytes, or of cells of the column's type) to contents.  `std::shuffle` is an arbitrary function of
the number of the call; the theorems assume only that it permutes.  A draw from `std::uniform_int_distribution` is an arbitrary function
of the number of the draw; the theorems assume only that it lies in the bounds of the distribution.
-/
namespace Mutable.StoreManip

/-! ## The NULL bitmap -/

/-- Bytes by address. -/
abbrev Bytes := ℕ → BitVec 8

/-- `*(column_ptr + a) = v` -/
def Bytes.write (m : Bytes) (a : ℕ) (v : BitVec 8) : Bytes := fun x => if x = a then v else m x

/-- `std::memset(column_ptr + a, v, n)`; `src/storage/store_manip.cpp:187`, `:212`. -/
def Bytes.memset (m : Bytes) (a : ℕ) (v : BitVec 8) (n : ℕ) : Bytes := fun x => if a ≤ x ∧ x < a + n then v else m x

/-- What a call does: it writes the memory; or an `M_insist` fails. -/
inductive Out (α : Type) where
  | ok (a : α)
  | insist
  deriving DecidableEq, Repr

/-- `set_all_null`: `src/storage/store_manip.cpp:165-188`.  Products in `size_t` are assumed not to overflow; masks are computed in
`unsigned` and truncated to the byte. -/
def setAllNull (m : Bytes) (k b e : ℕ) : Out Bytes :=
  if ¬ b < e then .insist
  else
    let beginBytes := k * b / 8
    let beginBits := k * b % 8
    let endBytes := k * e / 8
    let endBits := k * e % 8
    if beginBytes = endBytes then .insist
    else
      let m1 := if beginBits ≠ 0 then
          m.write beginBytes (m beginBytes ||| BitVec.setWidth 8 (~~~ ((1#32 <<< (8 - beginBits)) - 1#32))) else m
      let beginBytes' := if beginBits ≠ 0 then beginBytes + 1 else beginBytes
      let m2 := if endBits ≠ 0 then
          m1.write endBytes (m1 endBytes ||| BitVec.setWidth 8 ((1#32 <<< endBits) - 1#32)) else m1
      .ok (m2.memset beginBytes' (BitVec.ofNat 8 255) (endBytes - beginBytes'))

/-- `set_all_not_null`: `src/storage/store_manip.cpp:190-213`. -/
def setAllNotNull (m : Bytes) (k b e : ℕ) : Out Bytes :=
  if ¬ b < e then .insist
  else
    let beginBytes := k * b / 8
    let beginBits := k * b % 8
    let endBytes := k * e / 8
    let endBits := k * e % 8
    if beginBytes = endBytes then .insist
    else
      let m1 := if beginBits ≠ 0 then
          m.write beginBytes (m beginBytes &&& BitVec.setWidth 8 ((1#32 <<< beginBits) - 1#32)) else m
      let beginBytes' := if beginBits ≠ 0 then beginBytes + 1 else beginBytes
      let m2 := if endBits ≠ 0 then
          m1.write endBytes (m1 endBytes &&& BitVec.setWidth 8 (~~~ ((1#32 <<< (8 - endBits)) - 1#32))) else m1
      .ok (m2.memset beginBytes' (BitVec.ofNat 8 0) (endBytes - beginBytes'))

/-! ## Primary keys -/

/-- `std::iota(ptr + begin, ptr + end, begin)` for a type of `bits` bits: `src/storage/store_manip.cpp:216-238`.  The start value is
converted to the type, then incremented for every cell. -/
def iota (ty : Grid.IntTy) (m : ℕ → ℤ) (b e : ℕ) : ℕ → ℤ :=
  fun x => if b ≤ x ∧ x < e then ty.conv (ty.conv b + ((x - b : ℕ) : ℤ)) else m x

/-- `generate_primary_keys`: only 32 and 64 bits are supported, others reach `M_unreachable`.  `src/storage/store_manip.cpp:216-238`. -/
def primaryKeys (bits : ℕ) (m : ℕ → ℤ) (b e : ℕ) : Out (ℕ → ℤ) :=
  if ¬ b < e then .insist
  else if bits = 32 ∨ bits = 64 then .ok (iota ⟨bits, true⟩ m b e)
  else .insist

/-! ## Filling a column with values -/

variable {T : Type}

/-- One pass of the inner loop, `for (auto v : values) { *ptr++ = v; ++i; if (i == count) goto exit; }`: writes values at `p` until
`left` cells are written.  Returns the memory, the pointer and the number of cells still to be written.
`src/storage/store_manip.hpp:40-45`, `src/storage/store_manip.cpp:88-93`, `:124-129`, `:149-154`. -/
def fillPass : (ℕ → T) → ℕ → ℕ → List T → (ℕ → T) × ℕ × ℕ
  | m, p, left, [] => (m, p, left)
  | m, p, left, v :: vs =>
    let m' := fun x => if x = p then v else m x
    if left - 1 = 0 then (m', p + 1, 0)
    else fillPass m' (p + 1) (left - 1) vs

/-- The outer loop `for (i = 0; i != count; ) { std::shuffle(...); ... }`; `shuf k` is the effect of the `k`-th shuffle.  `none`: not
finished after `fuel` rounds.  `src/storage/store_manip.hpp:37-46`, `src/storage/store_manip.cpp:85-94`, `:121-130`, `:146-155`. -/
def fillLoop (shuf : ℕ → List T → List T) : ℕ → ℕ → (ℕ → T) → ℕ → ℕ → List T → Option ((ℕ → T) × ℕ)
  | 0, _, _, _, _, _ => none
  | fuel + 1, k, m, p, left, vals =>
    if left = 0 then some (m, p)
    else
      let vals' := shuf k vals
      let r := fillPass m p left vals'
      if r.2.2 = 0 then some (r.1, r.2.1) else fillLoop shuf fuel (k + 1) r.1 r.2.1 r.2.2 vals'

/-- `fill_uniform` without its assertion at the end: `src/storage/store_manip.hpp:27-46`. -/
def fillUniform (shuf : ℕ → List T → List T) (fuel : ℕ) (m : ℕ → T) (vals : List T) (b e : ℕ) : Option ((ℕ → T) × ℕ) :=
  fillLoop shuf fuel 0 m b (e - b) vals

/-- `fill_uniform` with its assertions (debug builds): `M_insist(begin < end)` and `M_insist(ptr - column_ptr == long(count))`,
`src/storage/store_manip.hpp:31`, `:48`.  `generate_numeric_column` has the same assertions, `src/storage/store_manip.cpp:64`, `:96`. -/
def fillUniformDebug (shuf : ℕ → List T → List T) (fuel : ℕ) (m : ℕ → T) (vals : List T) (b e : ℕ) : Option (Out (ℕ → T)) :=
  if ¬ b < e then some .insist
  else match fillUniform shuf fuel m vals b e with
    | none => none
    | some (m', p) => if p = e - b then some (.ok m') else some .insist

/-! ## Distinct numbers and correlated columns -/

/-- The loop of `generate_distinct_numbers`: draw; if the number is new, take it, otherwise take the incremented counter.
`src/storage/store_manip.cpp:48-56`.  `draw i` is the `i`-th draw of the distribution. -/
def distinctLoop (ty : Grid.IntTy) (draw : ℕ → ℤ) : ℕ → ℕ → List ℤ → ℤ → List ℤ → List ℤ
  | 0, _, _, _, out => out
  | n + 1, i, taken, counter, out =>
    if draw i ∈ taken then distinctLoop ty draw n (i + 1) taken (ty.conv (counter + 1)) (out ++ [ty.conv (counter + 1)])
    else distinctLoop ty draw n (i + 1) (draw i :: taken) counter (out ++ [draw i])

/-- `generate_distinct_numbers` for an integral type: `src/storage/store_manip.cpp:26-59`.  `counter = max - T(count)` and
`M_insist(T(max - count) > min)`, where `max - count` is computed in `size_t`. -/
def distinctNumbers (ty : Grid.IntTy) (draw : ℤ → ℤ → ℕ → ℤ) (min max : ℤ) (count : ℕ) : Out (List ℤ) :=
  if ¬ min < ty.conv (max - count) then .insist
  else
    let counter := ty.conv (max - ty.conv count)
    .ok (distinctLoop ty (draw min counter) count 0 [] counter [])

/-- `generate_correlated_numeric_columns`: `src/storage/store_manip.cpp:98-160`: the values of the left and of the right column
(`values.begin()` … and `values.rbegin()` …), with which the columns are then filled. -/
def correlatedValues (ty : Grid.IntTy) (draw : ℤ → ℤ → ℕ → ℤ) (nl nr nm : ℕ) : Out (List ℤ × List ℤ) :=
  if ¬ nm ≤ nl then .insist
  else if ¬ nm ≤ nr then .insist
  else match distinctNumbers ty draw ty.lo ty.hi (nl + nr - nm) with
    | .insist => .insist
    | .ok vals => .ok (vals.take nl, vals.reverse.take nr)

/-- The two columns after `generate_correlated_numeric_columns`; the shuffles of the right column go on where those of the left one ended,
which is immaterial for arbitrary functions `sl`, `sr`.  `src/storage/store_manip.cpp:114-160`. -/
def correlatedColumns (ty : Grid.IntTy) (draw : ℤ → ℤ → ℕ → ℤ) (sl sr : ℕ → List ℤ → List ℤ) (fuel : ℕ) (l r : ℕ → ℤ)
    (nl nr cl cr nm : ℕ) : Option (Out ((ℕ → ℤ) × (ℕ → ℤ))) :=
  match correlatedValues ty draw nl nr nm with
  | .insist => some .insist
  | .ok (vl, vr) =>
    match fillUniform sl fuel l vl 0 cl, fillUniform sr fuel r vr 0 cr with
    | some (l', _), some (r', _) => some (.ok (l', r'))
    | _, _ => none

end Mutable.StoreManip
