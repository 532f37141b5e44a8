/-!
# Model of the integer helpers (include/mutable/util/fn.hpp)

A value of an unsigned type of `w` bits is a natural number below `2^w`, a value of a signed type of `w` bits an integer
in `[-2^(w-1), 2^(w-1))`.  `none` stands for a failed `M_insist`, a thrown exception or undefined behaviour (as said at
the definition).
-/
namespace Mutable.Fn

/-- `is_pow_2` (fn.hpp:126-132). -/
def isPow2 (n : Nat) : Bool := if n ≠ 0 then (n &&& (n - 1)) == 0 else false

/-- `__builtin_clz`/`__builtin_clzl`/`__builtin_clzll` on a non-zero `W`-bit number. -/
def clz (W n : Nat) : Nat := W - 1 - Nat.log2 n

/-- The width of the operand of the intrinsic that is chosen for a type of `w` bits (fn.hpp:143-151, 196-204): types
that are not wider than `unsigned` (32 bits) are promoted. -/
def clzWidth (w : Nat) : Nat := if w ≤ 32 then 32 else 64

/-- `ceil_to_pow_2` (fn.hpp:134-160); `none`: `M_insist` fails or the shift amount is not below the width (undefined). -/
def ceilToPow2 (w n : Nat) : Option Nat :=
  if n ≤ 1 then some 1 else
  let lz := clz (clzWidth w) (n - 1)
  if lz = 0 then none
  else if w < lz then none -- `8 * sizeof(T) - lz` wraps around
  else if w ≤ w - lz then none
  else
    let ceiled := 2 ^ (w - lz) % 2 ^ w
    if n ≤ ceiled && ((n <<< 1) % 2 ^ w == 0 || decide (ceiled < (n <<< 1) % 2 ^ w)) && isPow2 ceiled then some ceiled else none

/-- `ceil_to_multiple_of_pow_2` (fn.hpp:168-178); `none`: an `M_insist` fails. -/
def ceilToMultipleOfPow2 (w n p : Nat) : Option Nat :=
  if isPow2 p then
    let ceiled := ((n + (p - 1)) % 2 ^ w) &&& ((2 ^ w - 1) ^^^ (p - 1))
    if ceiled % p = 0 then some ceiled else none
  else none

/-- `round_up_to_multiple` (fn.hpp:180-191); `none`: `invalid_argument` is thrown. -/
def roundUpToMultiple (w val factor : Nat) : Option Nat :=
  if val = 0 then some val else
  if factor = 0 then none else
  let d := val / factor
  let differ := if d * factor % 2 ^ w ≠ val then 1 else 0
  some ((d + differ) * factor % 2 ^ w)

/-- `log2_floor` (fn.hpp:193-206); `none`: the intrinsic is undefined for 0. -/
def log2Floor (w n : Nat) : Option Nat :=
  if n = 0 then none else some ((2 ^ 64 + w - clz (clzWidth w) n - 1) % 2 ^ w)

/-- `log2_ceil` (fn.hpp:208-214). -/
def log2Ceil (w n : Nat) : Option Nat :=
  if n ≤ 1 then some 0 else (log2Floor w (n - 1)).map fun r => (r + 1) % 2 ^ w

/-- `powi` (fn.hpp:421-433) on an unsigned type of at least 32 bits. -/
def powi (w base : Nat) (exp : Nat) : Nat :=
  if exp = 0 then 1
  else if exp &&& 1 ≠ 0 then base * powi w base (exp - 1) % 2 ^ w
  else powi w base (exp / 2) * powi w base (exp / 2) % 2 ^ w
termination_by exp
decreasing_by all_goals omega

/-- `setbit` (fn.hpp:435-439): `*bytes ^= (-T(value) ^ *bytes) & (T(1) << n)`. -/
def setbit (w bytes : Nat) (value : Bool) (n : Nat) : Nat :=
  bytes ^^^ (((if value then 2 ^ w - 1 else 0) ^^^ bytes) &&& (2 ^ n))

/-- `murmur3_64` (fn.hpp:458-466). -/
def murmur3 (v : Nat) : Nat :=
  let v := v ^^^ (v >>> 31)
  let v := v * 0x7fb5d329728ea185 % 2 ^ 64
  let v := v ^^^ (v >>> 27)
  let v := v * 0x81dadef4bc2dd44d % 2 ^ 64
  v ^^^ (v >>> 33)

/-- `add_wo_overflow` (fn.hpp:632-646); `w` is the width of the common type. -/
def addWo (w l r : Nat) : Nat := if 2 ^ w ≤ l + r then 2 ^ w - 1 else l + r
/-- `mul_wo_overflow` (fn.hpp:664-678). -/
def mulWo (w l r : Nat) : Nat := if 2 ^ w ≤ l * r then 2 ^ w - 1 else l * r
/-- `sum_wo_overflow` (fn.hpp:648-660). -/
def sumWo (w a b : Nat) : List Nat → Nat
  | [] => addWo w a b
  | c :: t => sumWo w (addWo w a b) c t
/-- `prod_wo_overflow` (fn.hpp:680-692). -/
def prodWo (w a b : Nat) : List Nat → Nat
  | [] => mulWo w a b
  | c :: t => prodWo w (mulWo w a b) c t

/-- `Ceil_To_Next_Page` (fn.hpp:703) with 64-bit wrap-around. -/
def ceilToNextPage (pg n : Nat) : Nat := ((((2 ^ 64 + n - 1) % 2 ^ 64) ||| (pg - 1)) + 1) % 2 ^ 64
/-- `Is_Page_Aligned` (fn.hpp:700). -/
def isPageAligned (pg n : Nat) : Bool := (n &&& (pg - 1)) == 0

/-- `sequence_number` (fn.hpp:708-731) on the bit pattern of a floating-point number of `w` bits. -/
def sequenceNumber (w u : Nat) : Nat :=
  if (u &&& 2 ^ (w - 1)) ≠ 0 then 2 ^ (w - 1) - (u ^^^ 2 ^ (w - 1)) else (u + 2 ^ (w - 1)) % 2 ^ w

/-- `U(x)`: conversion of an integer to an unsigned type. -/
def toU (w : Nat) (x : Int) : Nat := (x % (2 ^ w : Int)).toNat

/-- `is_range_wide_enough` for signed types of `w ≤ 64` bits (fn.hpp:734-755); `n` is a `size_t`. -/
def rangeWideSigned (w : Nat) (a b : Int) (n : Nat) : Bool :=
  let (a, b) := if a > b then (b, a) else (a, b)
  if n = 0 then true else
  if decide (a < 0) = decide (b < 0) then decide (toU w (b - a) ≥ n - 1)
  else
    let aAbs := (toU w (-a - 1) + 1) % 2 ^ w
    decide (aAbs ≥ n) || decide (toU w b ≥ n - aAbs - 1)

/-- `is_range_wide_enough` for unsigned types (fn.hpp:756-758). -/
def rangeWideUnsigned (a b : Nat) (n : Nat) : Bool :=
  let (a, b) := if a > b then (b, a) else (a, b)
  if n = 0 then true else decide (b - a ≥ n - 1)

/-- `is_range_wide_enough` for floating-point types on bit patterns, called with `a <= b` (fn.hpp:759-760; for
`a > b` the function swaps the arguments first, fn.hpp:738). -/
def rangeWideFloat (w : Nat) (a b : Nat) (n : Nat) : Bool :=
  if n = 0 then true else decide ((2 ^ w + sequenceNumber w b - sequenceNumber w a) % 2 ^ w ≥ n - 1)

end Mutable.Fn
