/-!
# Model of `m::SmallBitset` (include/mutable/util/ADT.hpp)

A `SmallBitset` wraps one `uint64_t bits_` (ADT.hpp:62).  We model it by `BitVec 64`, whose operators have the
wrap-around semantics of C++ `uint64_t`.  Every function below transcribes the bit manipulation of the source, choosing
the portable (`#else`) branch; the BMI1 instructions `_blsr_u64`, `_blsi_u64`, `_blsmsk_u64` are defined by Intel to
compute exactly the expressions of the portable branch.
-/

namespace Mutable

/-- `struct SmallBitset` (ADT.hpp:26, field `bits_` at ADT.hpp:62). -/
abbrev SB := BitVec 64

namespace SB

/-- The set denoted by the bit vector: `i` is an element iff bit `i` is set.
`Proxy::operator bool` (ADT.hpp:44): `(S_.bits_ >> offset_) & 0b1`. -/
def get (S : SB) (i : Nat) : Bool := ((S >>> i) &&& 1#64) != 0#64

/-- `setbit` (include/mutable/util/fn.hpp:439-442), used by `Proxy::operator=(bool)` (ADT.hpp:48):
`*bytes ^= (-T(value) ^ *bytes) & (T(1) << n)`. -/
def set (S : SB) (i : Nat) (v : Bool) : SB :=
  S ^^^ (((-(if v then 1#64 else 0#64)) ^^^ S) &&& (1#64 <<< i))

/-- `SmallBitset::SmallBitset()` (ADT.hpp:121). -/
def empty : SB := 0#64

/-- `SmallBitset::All(n)` (ADT.hpp:125-130); requires `n <= 64` (M_insist). -/
def all (n : Nat) : SB :=
  if n = 64 then ~~~ (0#64) else (1#64 <<< n) - 1#64

/-- `SmallBitset::Singleton(n)` (ADT.hpp:133-136); requires `n < 64` (M_insist). -/
def singleton (n : Nat) : SB := 1#64 <<< n

/-- Number of set bits; models `std::popcount` as used by `size()` (ADT.hpp:170). -/
def size (S : SB) : Nat := (List.range 64).countP (fun i => S.getLsbD i)

/-- `empty()` (ADT.hpp:172). -/
def isEmpty (S : SB) : Bool := S == 0#64

/-- `is_singleton()` (ADT.hpp:174). -/
def isSingleton (S : SB) : Bool := size S == 1

/-- `std::countr_zero` for non-zero arguments: least index of a set bit (64 for zero). -/
def ctz (S : SB) : Nat := ((List.range 64).find? (fun i => S.getLsbD i)).getD 64

/-- Index of the highest set bit: `CHAR_BIT * sizeof(bits_) - 1UL - countl_zero(bits_)` (ADT.hpp:112-113).
For the empty set the C++ code violates an `M_insist`; the model returns 64 (no bit). -/
def hiIdx (S : SB) : Nat := ((List.range 64).reverse.find? (fun i => S.getLsbD i)).getD 64

/-- `hi()` (ADT.hpp:177-180). -/
def hi (S : SB) : SB := singleton (hiIdx S)

/-- `operator~` (ADT.hpp:203). -/
def compl (S : SB) : SB := ~~~ S

/-- `is_subset` (ADT.hpp:206): `bits_ == (other.bits_ & bits_)`. -/
def isSubset (S T : SB) : Bool := S == (T &&& S)

/-- `mask_to_lo()` (ADT.hpp:209-216): `bits_ ^ (bits_ - 1)`. -/
def maskToLo (S : SB) : SB := S ^^^ (S - 1#64)

/-- `singleton_to_lo_mask()` (ADT.hpp:219-222): `bits_ - 1`. -/
def singletonToLoMask (S : SB) : SB := S - 1#64

/-- `unify` / `operator|` (ADT.hpp:225, 231). -/
def union (S T : SB) : SB := S ||| T
/-- `intersect` / `operator&` (ADT.hpp:227, 233). -/
def inter (S T : SB) : SB := S &&& T
/-- `subtract` / `operator-` on `SmallBitset` (ADT.hpp:229, 235): `left.bits_ & ~right.bits_`. -/
def diff (S T : SB) : SB := S &&& ~~~ T

/-- `iterator::operator++` (ADT.hpp:75-82): reset the lowest set bit. -/
def dropLo (S : SB) : SB := S &&& (S - 1#64)

/-- `iterator::as_set()` (ADT.hpp:86-92): `bits_ & -bits_`.  Also `least_subset` (ADT.hpp:280). -/
def lo (S : SB) : SB := S &&& (-S)

/-- `reverse_iterator::operator++` (ADT.hpp:106): `bits_ & ~(1UL << operator*())`. -/
def dropHi (S : SB) : SB := S &&& ~~~ (1#64 <<< hiIdx S)

/-- `least_subset` (ADT.hpp:280). -/
def leastSubset (S : SB) : SB := S &&& (-S)

/-- `next_subset` (ADT.hpp:283-286): `SmallBitset(uint64_t(subset) - uint64_t(set)) & set`. -/
def nextSubset (sub S : SB) : SB := (sub - S) &&& S

end SB
end Mutable

namespace Mutable
namespace SB

/-- The loop `for (auto it = S.begin(); it != S.end(); ++it)` (begin/end at ADT.hpp:182-185, `operator++` ADT.hpp:75-82):
collects the pairs `(*it, it.as_set())`.  `fuel` bounds the number of iterations; `iterate_fuel` (Props) shows that 64
iterations always suffice, i.e. the loop terminates. -/
def iterLoop : Nat → SB → List (Nat × SB)
  | 0, _ => []
  | fuel+1, S => if S = 0#64 then [] else (ctz S, lo S) :: iterLoop fuel (dropLo S)

/-- Forward iteration over a `SmallBitset`. -/
def iterate (S : SB) : List (Nat × SB) := iterLoop 64 S

/-- The loop `for (auto it = S.rbegin(); it != S.rend(); ++it)` (ADT.hpp:95-117, 187-190), collecting
`(*it, it.as_set())`. -/
def riterLoop : Nat → SB → List (Nat × SB)
  | 0, _ => []
  | fuel+1, S => if S = 0#64 then [] else (hiIdx S, singleton (hiIdx S)) :: riterLoop fuel (dropHi S)

/-- Reverse iteration over a `SmallBitset`. -/
def riterate (S : SB) : List (Nat × SB) := riterLoop 64 S

/-- The subset loop `for (auto sub = least_subset(S); sub; sub = next_subset(sub, S))` used throughout the plan
enumerators (e.g. src/IR/PlanEnumerator.cpp, `PEall`), with a bound `fuel` on the number of iterations. -/
def subsetLoop (S : SB) : Nat → SB → List SB
  | 0, _ => []
  | fuel+1, sub => if sub = 0#64 then [] else sub :: subsetLoop S fuel (nextSubset sub S)

/-- All values of `sub` in the subset loop over `S`. `S.toNat + 1` iterations suffice (`subsetLoop_fuel`). -/
def subsets (S : SB) : List SB := subsetLoop S (S.toNat + 1) (leastSubset S)

/-- `std::countr_zero`-free helper: number of elements of `M` below `i` (the rank used by pext/pdep). -/
def rank (M : SB) (i : Nat) : Nat := (List.range i).countP (fun j => M.getLsbD j)

/-- Build a 64-bit word from a bit predicate. -/
def ofPred (p : Nat → Bool) : SB :=
  (List.range 64).foldl (fun acc i => if p i then acc ||| singleton i else acc) 0#64

/-- Intel's `_pext_u64(src, mask)`: the bits of `src` selected by `mask`, packed into the low bits. -/
def pext (src mask : SB) : SB :=
  ofPred fun k => (List.range 64).any fun i => mask.getLsbD i && (rank mask i == k) && src.getLsbD i

/-- Intel's `_pdep_u64(src, mask)`: the low bits of `src` scattered to the positions set in `mask`. -/
def pdep (src mask : SB) : SB :=
  ofPred fun i => mask.getLsbD i && src.getLsbD (rank mask i)

/-- `GospersHack::operator++` (ADT.hpp:859-875), BMI2 branch. -/
def gosperNext (s : SB) : SB :=
  let c := s &&& (-s)
  let r := s + c
  let m := r ^^^ s
  let l := pext m m
  (l >>> 2) ||| r

/-- `__builtin_popcount(m)` (ADT.hpp:871) takes an `unsigned int`: the argument is truncated to 32 bits. -/
def popcount32 (m : SB) : Nat := (List.range 32).countP (fun i => m.getLsbD i)

/-- `GospersHack::operator++` (ADT.hpp:859-875), portable branch (no BMI2). -/
def gosperNextPortable (s : SB) : SB :=
  let c := s &&& (-s)
  let r := s + c
  let m := r ^^^ s
  let l := (1#64 <<< popcount32 m) - 1#64
  (l >>> 2) ||| r

/-- The loop `for (auto GH = ...; GH; ++GH) use(*GH);`: `operator bool` (ADT.hpp:878) compares the set with the limit. -/
def gosperLoop (limit : SB) : Nat → SB → List SB
  | 0, _ => []
  | fuel+1, s => if s < limit then s :: gosperLoop limit fuel (gosperNext s) else []

/-- `GospersHack::enumerate_from(set, n)` (ADT.hpp:849-856) followed by the full loop. -/
def gosperFrom (set : SB) (n : Nat) : List SB := gosperLoop (1#64 <<< n) (2^n) set

/-- `GospersHack::enumerate_all(k, n)` (ADT.hpp:839-846) followed by the full loop.
`2^n` iterations suffice for `k ≥ 1` (`gosper_fuel`). -/
def gosperAll (k n : Nat) : List SB := gosperFrom (all k) n

/-- `SubsetEnumerator(set, size)` (ADT.hpp:885-907) followed by the full loop. -/
def subsetsOfSize (S : SB) (k : Nat) : List SB := (gosperAll k (size S)).map fun g => pdep g S

/-- `SmallBitset::operator++` (ADT.hpp:241) -/
def succ (S : SB) : SB := S + 1#64
/-- `SmallBitset::operator--` (ADT.hpp:250) -/
def pred (S : SB) : SB := S - 1#64

end SB
end Mutable
