import Mathlib.Data.Nat.Bitwise
import Mathlib.Algebra.Order.Ring.Nat
import Mathlib.Tactic.Ring
/-! Facts about masks of low bits, used for alignment computations. -/
namespace Mutable.Bits

/-- Setting the low `k` bits. -/
theorem or_mask (m k : Nat) : m ||| (2 ^ k - 1) = 2 ^ k * (m / 2 ^ k) + (2 ^ k - 1) := by
  have hp : 0 < 2 ^ k := Nat.two_pow_pos k
  apply Nat.eq_of_testBit_eq
  intro j
  rw [Nat.testBit_or, Nat.testBit_two_pow_sub_one, Nat.testBit_two_pow_mul_add _ (by omega), Nat.testBit_div_two_pow, Nat.testBit_two_pow_sub_one]
  by_cases h : j < k
  · simp [h]
  · simp only [h, decide_false, Bool.or_false, if_false]
    congr 1; omega

/-- The low `k` bits. -/
theorem and_mask (m k : Nat) : m &&& (2 ^ k - 1) = m % 2 ^ k := Nat.and_two_pow_sub_one_eq_mod m k

/-- `m & ~(2^k - 1)` on `w`-bit words clears the low `k` bits. -/
theorem and_not_mask {m k w : Nat} (hm : m < 2 ^ w) : m &&& ((2 ^ w - 1) ^^^ (2 ^ k - 1)) = 2 ^ k * (m / 2 ^ k) := by
  apply Nat.eq_of_testBit_eq
  intro j
  have h0 : (2 ^ k * (m / 2 ^ k)).testBit j = if j < k then false else m.testBit j := by
    have := Nat.testBit_two_pow_mul_add (m / 2 ^ k) (Nat.two_pow_pos k) j
    rw [Nat.add_zero] at this
    rw [this, Nat.zero_testBit, Nat.testBit_div_two_pow]
    split
    · rfl
    · congr 1; omega
  rw [h0, Nat.testBit_and, Nat.testBit_xor, Nat.testBit_two_pow_sub_one, Nat.testBit_two_pow_sub_one]
  by_cases h : j < k
  · by_cases hw : j < w
    · simp [h, hw]
    · have : m.testBit j = false := Nat.testBit_lt_two_pow (lt_of_lt_of_le hm (Nat.pow_le_pow_right (by omega) (by omega)))
      simp [h, this]
  · by_cases hw : j < w
    · simp [h, hw]
    · have : m.testBit j = false := Nat.testBit_lt_two_pow (lt_of_lt_of_le hm (Nat.pow_le_pow_right (by omega) (by omega)))
      simp [h, this]

/-- Setting bit `k` of a number below `2^k` adds `2^k`. -/
theorem or_high {m k : Nat} (h : m < 2 ^ k) : m ||| 2 ^ k = m + 2 ^ k := by
  have := Nat.two_pow_add_eq_or_of_lt h 1
  rw [Nat.mul_one] at this
  rw [Nat.or_comm, ← this]; omega

theorem and_high_zero {m k : Nat} (h : m < 2 ^ k) : m &&& 2 ^ k = 0 := by
  apply Nat.eq_of_testBit_eq
  intro j
  rw [Nat.testBit_and, Nat.zero_testBit, Nat.testBit_two_pow]
  by_cases e : k = j
  · subst e; simp [Nat.testBit_lt_two_pow h]
  · simp [e]

theorem and_high_one {m k : Nat} (h : m < 2 ^ k) : (m + 2 ^ k) &&& 2 ^ k = 2 ^ k := by
  rw [← or_high h]
  apply Nat.eq_of_testBit_eq
  intro j
  rw [Nat.testBit_and, Nat.testBit_or, Nat.testBit_two_pow]
  by_cases e : k = j <;> simp [e]

/-- `((n - 1) | (2^k - 1)) + 1` is the least multiple of `2^k` that is at least `n`, for `n > 0`. -/
theorem ceil_or {n k : Nat} (hn : 0 < n) :
    2 ^ k ∣ ((n - 1) ||| (2 ^ k - 1)) + 1 ∧ n ≤ ((n - 1) ||| (2 ^ k - 1)) + 1 ∧
      ∀ m, 2 ^ k ∣ m → n ≤ m → ((n - 1) ||| (2 ^ k - 1)) + 1 ≤ m := by
  have hp : 0 < 2 ^ k := Nat.two_pow_pos k
  rw [or_mask]
  generalize hP : 2 ^ k = P at *
  have h1 := Nat.div_add_mod (n - 1) P
  have h2 := Nat.mod_lt (n - 1) hp
  have e : P * ((n - 1) / P) + (P - 1) + 1 = P * ((n - 1) / P + 1) := by rw [Nat.mul_succ]; omega
  refine ⟨?_, by omega, ?_⟩
  · rw [e]; exact ⟨_, rfl⟩
  · rintro m ⟨q, rfl⟩ hq
    rw [e]
    apply Nat.mul_le_mul_left
    have : (n - 1) / P < q := by rw [Nat.div_lt_iff_lt_mul hp, Nat.mul_comm]; omega
    omega

end Mutable.Bits
