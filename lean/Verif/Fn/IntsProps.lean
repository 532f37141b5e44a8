import Verif.Fn.Ints
import Verif.Util.Bits
import Mathlib.Data.Nat.Log
import Mathlib.Data.Int.Interval
import Mathlib.Order.Interval.Finset.Nat
/-!
# C31: integer helpers compute their mathematical functions
-/
namespace Mutable.Fn

/-- `m` is the least number with property `P` that is not below `n`. -/
def LeastGE (P : Nat → Prop) (n m : Nat) : Prop := P m ∧ n ≤ m ∧ ∀ k, P k → n ≤ k → m ≤ k

theorem C31_is_pow_2 (n : Nat) : isPow2 n = true ↔ ∃ k, n = 2 ^ k := by
  have := Nat.ne_zero_and_sub_one_eq_zero_iff_isPowerOfTwo (n := n)
  unfold isPow2
  rw [Nat.isPowerOfTwo] at this
  split
  · next h => rw [← this]; simp [h]
  · next h => rw [← this]; simp at h; simp [h]

theorem log2_bounds {m : Nat} (h : m ≠ 0) : 2 ^ Nat.log2 m ≤ m ∧ m < 2 ^ (Nat.log2 m + 1) :=
  ⟨Nat.log2_self_le h, Nat.lt_log2_self⟩

theorem pow2_pred_log {n : Nat} (h : 2 ≤ n) : LeastGE (fun m => ∃ k, m = 2 ^ k) n (2 ^ (Nat.log2 (n - 1) + 1)) ∧ 2 ^ (Nat.log2 (n - 1) + 1) < 2 * n := by
  obtain ⟨h1, h2⟩ := log2_bounds (m := n - 1) (by omega)
  have h3 := pow_succ 2 (Nat.log2 (n - 1))
  refine ⟨⟨⟨_, rfl⟩, by omega, ?_⟩, by omega⟩
  rintro _ ⟨k, rfl⟩ hk
  apply Nat.pow_le_pow_right (by omega)
  by_contra hlt
  have := Nat.pow_le_pow_right (n := 2) (by omega) (show k ≤ Nat.log2 (n - 1) by omega)
  omega

/-- `ceil_to_pow_2` returns the least power of two that is not less than `n`, for 32-bit and 64-bit types and every `n`
whose result is representable. -/
theorem C31_ceil_to_pow_2 {w n : Nat} (hw : w = 32 ∨ w = 64) (hn : n ≤ 2 ^ (w - 1)) :
    ∃ m, ceilToPow2 w n = some m ∧ LeastGE (fun m => ∃ k, m = 2 ^ k) n m := by
  by_cases h1 : n ≤ 1
  · refine ⟨1, by simp [ceilToPow2, h1], ⟨0, rfl⟩, h1, ?_⟩
    rintro _ ⟨k, rfl⟩ _; exact Nat.one_le_two_pow
  · obtain ⟨h2, h3⟩ := pow2_pred_log (n := n) (by omega)
    have hcw : clzWidth w = w := by rcases hw with rfl | rfl <;> rfl
    have hl : Nat.log2 (n - 1) < w - 1 := by
      rw [Nat.log2_lt (by omega)]; omega
    have hlz : clz w (n - 1) = w - 1 - Nat.log2 (n - 1) := rfl
    have hs : w - (w - 1 - Nat.log2 (n - 1)) = Nat.log2 (n - 1) + 1 := by omega
    have hlt : 2 ^ (Nat.log2 (n - 1) + 1) < 2 ^ w := Nat.pow_lt_pow_right (by omega) (by omega)
    refine ⟨2 ^ (Nat.log2 (n - 1) + 1), ?_, h2⟩
    unfold ceilToPow2
    rw [if_neg h1]
    simp only [hcw, hlz]
    rw [if_neg (by omega), if_neg (by omega), if_neg (by omega), hs, Nat.mod_eq_of_lt hlt, if_pos]
    have e1 : isPow2 (2 ^ (Nat.log2 (n - 1) + 1)) = true := (C31_is_pow_2 _).2 ⟨_, rfl⟩
    rw [e1, Bool.and_true, Bool.and_eq_true]
    refine ⟨by simpa using h2.2.1, ?_⟩
    have h4 : n <<< 1 = 2 * n := by rw [Nat.shiftLeft_eq]; omega
    have h5 : (2:Nat) ^ w = 2 * 2 ^ (w - 1) := by rw [← pow_succ']; congr 1; omega
    by_cases hlast : n = 2 ^ (w - 1)
    · rw [h4, h5, ← hlast, Nat.mod_self]; rfl
    · rw [h4, Nat.mod_eq_of_lt (by omega)]; simp [h3]

/-- For 8-bit and 16-bit types the number of leading zeros is computed for the promoted operand, so that the shift
amount wraps around: no correct result for any `n > 1`. -/
theorem C31_ceil_to_pow_2_narrow {w n : Nat} (hw : w = 8 ∨ w = 16) (h1 : 1 < n) (hn : n < 2 ^ w) : 
    ∀ m, ceilToPow2 w n = some m → ¬ (LeastGE (fun m => ∃ k, m = 2 ^ k) n m) := by
  intro m hm
  have h0 : n - 1 ≠ 0 := by omega
  have hl : Nat.log2 (n - 1) < w := by rw [Nat.log2_lt h0]; omega
  have hcw : clzWidth w = 32 := by rcases hw with rfl | rfl <;> rfl
  unfold ceilToPow2 at hm
  rw [if_neg (by omega)] at hm
  simp only [hcw, clz] at hm
  rcases hw with rfl | rfl
  · rw [if_neg (by omega), if_pos (by omega)] at hm; simp at hm
  · by_cases h : Nat.log2 (n - 1) = 15
    · rw [h] at hm
      simp at hm
      have h2 := log2_bounds h0
      rw [h] at h2
      omega
    · rw [if_neg (by omega), if_pos (by omega)] at hm; simp at hm

/-- `ceil_to_multiple_of_pow_2` returns the least multiple of `p` that is not less than `n`, if that is representable. -/
theorem C31_ceil_to_multiple_of_pow_2 {w n k : Nat} (hn : n + (2 ^ k - 1) < 2 ^ w) :
    ∃ m, ceilToMultipleOfPow2 w n (2 ^ k) = some m ∧ LeastGE (fun m => 2 ^ k ∣ m) n m := by
  have hp : isPow2 (2 ^ k) = true := (C31_is_pow_2 _).2 ⟨_, rfl⟩
  have hpos : 0 < 2 ^ k := Nat.two_pow_pos k
  have e : ((n + (2 ^ k - 1)) % 2 ^ w) &&& ((2 ^ w - 1) ^^^ (2 ^ k - 1)) = 2 ^ k * ((n + (2 ^ k - 1)) / 2 ^ k) := by
    rw [Nat.mod_eq_of_lt hn, Bits.and_not_mask hn]
  refine ⟨2 ^ k * ((n + (2 ^ k - 1)) / 2 ^ k), ?_, ⟨_, rfl⟩, ?_, ?_⟩
  · unfold ceilToMultipleOfPow2
    rw [if_pos hp]
    simp only [e]
    rw [if_pos (Nat.mul_mod_right _ _)]
  · have := Nat.div_add_mod (n + (2 ^ k - 1)) (2 ^ k)
    have := Nat.mod_lt (n + (2 ^ k - 1)) hpos
    omega
  · rintro _ ⟨q, rfl⟩ hq
    apply Nat.mul_le_mul_left
    have : (n + (2 ^ k - 1)) / 2 ^ k < q + 1 := by
      rw [Nat.div_lt_iff_lt_mul hpos]
      have : (q + 1) * 2 ^ k = 2 ^ k * q + 2 ^ k := by ring
      omega
    omega

/-- `round_up_to_multiple` returns the least multiple of `factor` that is not less than `val`, if that is representable,
and throws exactly for factor 0 (and a non-zero value). -/
theorem C31_round_up_to_multiple {w val factor m : Nat} (hv : val < 2 ^ w) (hf : 0 < factor)
    (hm : LeastGE (fun m => factor ∣ m) val m) (hr : m < 2 ^ w) : roundUpToMultiple w val factor = some m := by
  obtain ⟨⟨q, rfl⟩, h1, h2⟩ := hm
  unfold roundUpToMultiple
  have hd := Nat.div_add_mod val factor
  have hmod := Nat.mod_lt val hf
  have hc : factor * (val / factor) = val / factor * factor := Nat.mul_comm _ _
  by_cases h0 : val = 0
  · have := h2 0 (by simp) (by omega)
    rw [if_pos h0]; simp; omega
  · rw [if_neg h0, if_neg (by omega)]
    simp only
    have hle : val / factor * factor < 2 ^ w := by omega
    rw [Nat.mod_eq_of_lt hle]
    by_cases hdv : val / factor * factor = val
    · have hq := h2 val ⟨val / factor, by omega⟩ (by omega)
      have : factor * q = val := by omega
      rw [if_neg (by simp [hdv]), Nat.add_zero, hdv, Nat.mod_eq_of_lt hv, this]
    · rw [if_pos hdv]
      have h3 := h2 (factor * (val / factor + 1)) ⟨_, rfl⟩ (by rw [Nat.mul_add]; omega)
      have h4 : val / factor < q := by
        by_contra hlt
        have := Nat.mul_le_mul_left factor (show q ≤ val / factor by omega)
        omega
      have h5 := Nat.mul_le_mul_left factor (show val / factor + 1 ≤ q by omega)
      have h6 : (val / factor + 1) * factor = factor * q := by rw [Nat.mul_comm]; omega
      rw [h6, Nat.mod_eq_of_lt hr]

theorem C31_round_up_to_multiple_zero {w val : Nat} (hv : val ≠ 0) : roundUpToMultiple w val 0 = none := by
  simp [roundUpToMultiple, hv]

/-- `log2_floor` of a 32-bit or 64-bit number. -/
theorem C31_log2_floor {w n : Nat} (hw : w = 32 ∨ w = 64) (h0 : 0 < n) (hn : n < 2 ^ w) :
    ∃ m, log2Floor w n = some m ∧ 2 ^ m ≤ n ∧ n < 2 ^ (m + 1) := by
  obtain ⟨h1, h2⟩ := log2_bounds (m := n) (by omega)
  have hl : Nat.log2 n < w := by rw [Nat.log2_lt (by omega)]; exact hn
  refine ⟨Nat.log2 n, ?_, h1, h2⟩
  unfold log2Floor
  rw [if_neg (by omega)]
  rcases hw with rfl | rfl
  · have e : clz (clzWidth 32) n = 31 - Nat.log2 n := rfl
    rw [e]; congr 1; omega
  · have e : clz (clzWidth 64) n = 63 - Nat.log2 n := rfl
    rw [e]; congr 1; omega

/-- `log2_ceil` of a 32-bit or 64-bit number. -/
theorem C31_log2_ceil {w n : Nat} (hw : w = 32 ∨ w = 64) (hn : n < 2 ^ w) :
    ∃ m, log2Ceil w n = some m ∧ n ≤ 2 ^ m ∧ ∀ k, n ≤ 2 ^ k → m ≤ k := by
  by_cases h1 : n ≤ 1
  · exact ⟨0, by simp [log2Ceil, h1], by simpa using h1, by simp⟩
  · obtain ⟨m, e, h2, h3⟩ := C31_log2_floor (n := n - 1) hw (by omega) (by omega)
    have hm : m < w := by
      by_contra hlt
      have := Nat.pow_le_pow_right (n := 2) (by omega) (show w ≤ m by omega)
      omega
    refine ⟨m + 1, ?_, by omega, ?_⟩
    · unfold log2Ceil
      rw [if_neg h1, e]
      simp only [Option.map_some]
      rw [Nat.mod_eq_of_lt]
      rcases hw with rfl | rfl <;> (norm_num; omega)
    · intro k hk
      by_contra hlt
      have := Nat.pow_le_pow_right (n := 2) (by omega) (show k ≤ m by omega)
      omega

/-- `log2_floor` of an 8-bit number is wrong (the leading zeros of the promoted operand are counted). -/
theorem C31_log2_floor_narrow : log2Floor 8 3 = some 233 := by decide +kernel

/-- `powi` computes the power modulo the width. -/
theorem C31_powi (w base exp : Nat) (hw : 0 < w) : powi w base exp = base ^ exp % 2 ^ w := by
  induction exp using Nat.strong_induction_on with
  | _ exp ih =>
    unfold powi
    by_cases h0 : exp = 0
    · have : 1 < 2 ^ w := Nat.one_lt_two_pow (by omega)
      simp [h0, Nat.mod_eq_of_lt this]
    · rw [if_neg h0]
      have hand : exp &&& 1 = exp % 2 := by
        simp
      rw [hand]
      by_cases h1 : exp % 2 = 0
      · rw [if_neg (by simp [h1]), ih (exp / 2) (by omega), ← Nat.mul_mod, ← pow_add]
        congr 2; omega
      · rw [if_pos h1, ih (exp - 1) (by omega), Nat.mul_mod_mod, ← pow_succ']
        congr 2; omega

/-- `setbit` sets the bit to the value and leaves all other bits unchanged. -/
theorem C31_setbit {w bytes n : Nat} {value : Bool} (hb : bytes < 2 ^ w) (hn : n < w) :
    setbit w bytes value n < 2 ^ w ∧ ∀ j, j < w → (setbit w bytes value n).testBit j = if j = n then value else bytes.testBit j := by
  have key : ∀ j, (setbit w bytes value n).testBit j = if j = n then (if n < w then value else bytes.testBit j ^^ bytes.testBit j) else bytes.testBit j := by
    intro j
    unfold setbit
    rw [Nat.testBit_xor, Nat.testBit_and, Nat.testBit_xor, Nat.testBit_two_pow]
    by_cases hj : j = n
    · subst hj
      cases value <;> simp [hn]
    · have : n ≠ j := fun h => hj h.symm
      simp [hj, this]
  refine ⟨?_, fun j hj => by rw [key]; simp [hn]⟩
  apply Nat.lt_pow_two_of_testBit
  intro j hj
  rw [key, if_neg (by omega)]
  exact Nat.testBit_lt_two_pow (lt_of_lt_of_le hb (Nat.pow_le_pow_right (by omega) hj))

/-- `add_wo_overflow` and `mul_wo_overflow` saturate at the maximum, also over several arguments. -/
theorem C31_sum_wo_overflow (w a b : Nat) (l : List Nat) (ha : a < 2 ^ w) (hb : b < 2 ^ w) (hl : ∀ x ∈ l, x < 2 ^ w) :
    sumWo w a b l = min (a + b + l.sum) (2 ^ w - 1) := by
  induction l generalizing a b with
  | nil => simp only [sumWo, addWo, List.sum_nil]; split <;> omega
  | cons c t ih =>
    have hc := hl c (by simp)
    have h1 : addWo w a b < 2 ^ w := by unfold addWo; split <;> omega
    rw [sumWo, ih _ _ h1 hc (fun x hx => hl x (by simp [hx])), List.sum_cons]
    unfold addWo; split <;> omega

theorem C31_prod_wo_overflow (w a b : Nat) (l : List Nat) (ha : a < 2 ^ w) (hb : b < 2 ^ w) (hl : ∀ x ∈ l, x < 2 ^ w) :
    prodWo w a b l = min (a * b * l.prod) (2 ^ w - 1) := by
  have hpos : 0 < 2 ^ w := Nat.two_pow_pos w
  induction l generalizing a b with
  | nil => simp only [prodWo, mulWo, List.prod_nil]; split <;> omega
  | cons c t ih =>
    have hc := hl c (by simp)
    have h1 : mulWo w a b < 2 ^ w := by unfold mulWo; split <;> omega
    rw [prodWo, ih _ _ h1 hc (fun x hx => hl x (by simp [hx])), List.prod_cons]
    unfold mulWo
    split
    · next h =>
      rw [Nat.mul_assoc]
      rcases Nat.eq_zero_or_pos (c * t.prod) with h0 | h0
      · rw [h0]; simp
      · have h2 := Nat.le_mul_of_pos_right (2 ^ w - 1) h0
        have h3 := Nat.le_mul_of_pos_right (a * b) h0
        omega
    · rw [Nat.mul_assoc (a * b)]

/-- `Ceil_To_Next_Page` returns the least multiple of the page size that is not less than `n`, if that is representable. -/
theorem C31_ceil_to_next_page {k n : Nat} (hn : 0 < n) (hr : n + 2 ^ k ≤ 2 ^ 64) :
    LeastGE (fun m => 2 ^ k ∣ m) n (ceilToNextPage (2 ^ k) n) ∧ isPageAligned (2 ^ k) (ceilToNextPage (2 ^ k) n) = true := by
  have hpos : 0 < 2 ^ k := Nat.two_pow_pos k
  have e1 : (2 ^ 64 + n - 1) % 2 ^ 64 = n - 1 := by
    rw [show 2 ^ 64 + n - 1 = (n - 1) + 2 ^ 64 by omega, Nat.add_mod_right, Nat.mod_eq_of_lt (by omega)]
  obtain ⟨a1, a2, a3⟩ := Bits.ceil_or (n := n) (k := k) hn
  have hlt : ((n - 1) ||| (2 ^ k - 1)) + 1 < 2 ^ 64 := by
    have := Bits.or_mask (n - 1) k
    have h2 := Nat.div_add_mod (n - 1) (2 ^ k)
    have h3 := Nat.mod_lt (n - 1) hpos
    omega
  have e : ceilToNextPage (2 ^ k) n = ((n - 1) ||| (2 ^ k - 1)) + 1 := by
    unfold ceilToNextPage
    rw [e1, Nat.mod_eq_of_lt hlt]
  rw [e]
  refine ⟨⟨a1, a2, a3⟩, ?_⟩
  unfold isPageAligned
  rw [Bits.and_mask, Nat.mod_eq_zero_of_dvd a1]; rfl

/-! #### Ranges of integers -/

theorem toU_of_nonneg {w : Nat} {x : Int} (h0 : 0 ≤ x) (h1 : x < 2 ^ w) : toU w x = x.toNat := by
  unfold toU; rw [Int.emod_eq_of_lt h0 h1]

/-- `is_range_wide_enough` on signed integers: the interval between the two arguments has at least `n` elements. -/
theorem C31_range_wide_enough_signed {w : Nat} {a b : Int} {n : Nat} (hw : 0 < w)
    (ha : -2 ^ (w - 1) ≤ a ∧ a < 2 ^ (w - 1)) (hb : -2 ^ (w - 1) ≤ b ∧ b < 2 ^ (w - 1)) :
    rangeWideSigned w a b n = true ↔ n ≤ (Finset.Icc (min a b) (max a b)).card := by
  have hpow : (2:Int) ^ w = 2 * 2 ^ (w - 1) := by rw [← pow_succ']; congr 1; omega
  have hpowN : (2:Nat) ^ w = 2 * 2 ^ (w - 1) := by rw [← pow_succ']; congr 1; omega
  have hcast : ((2 ^ (w - 1) : Nat) : Int) = 2 ^ (w - 1) := by push_cast; rfl
  generalize hP : (2:Nat) ^ (w - 1) = P at *
  generalize hQ : (2:Int) ^ (w - 1) = Q at *
  have hPpos : 0 < P := by rw [← hP]; exact Nat.two_pow_pos _
  rw [Int.card_Icc]
  unfold rangeWideSigned
  have key : ∀ a b : Int, -Q ≤ a → a < Q → -Q ≤ b → b < Q → a ≤ b →
      ((if n = 0 then true else
        if decide (a < 0) = decide (b < 0) then decide (toU w (b - a) ≥ n - 1)
        else (decide ((toU w (-a - 1) + 1) % 2 ^ w ≥ n) || decide (toU w b ≥ n - (toU w (-a - 1) + 1) % 2 ^ w - 1))) = true ↔
       n ≤ (b + 1 - a).toNat) := by
    intro a b a1 a2 b1 b2 hab
    by_cases hn : n = 0
    · simp [hn]
    rw [if_neg hn]
    by_cases hs : (a < 0) = (b < 0)
    · rw [if_pos (by simp [hs])]
      have hd : toU w (b - a) = (b - a).toNat := by
        apply toU_of_nonneg
        · omega
        · rw [hpow]
          by_cases h : b < 0
          · omega
          · have : ¬ a < 0 := by rw [hs]; exact h
            omega
      rw [hd, decide_eq_true_eq]; omega
    · have hsa : a < 0 ∧ 0 ≤ b := by
        by_cases h1 : a < 0 <;> by_cases h2 : b < 0 <;> simp [h1, h2] at hs <;> omega
      rw [if_neg (by simp [hsa])]
      have h1 : toU w (-a - 1) = (-a - 1).toNat := toU_of_nonneg (by omega) (by rw [hpow]; omega)
      have h2 : toU w b = b.toNat := toU_of_nonneg (by omega) (by rw [hpow]; omega)
      rw [h1, h2, Nat.mod_eq_of_lt (by rw [hpowN]; omega)]
      simp only [Bool.or_eq_true, decide_eq_true_eq]
      omega
  by_cases hab : a > b
  · simp only [if_pos hab]
    rw [key b a hb.1 hb.2 ha.1 ha.2 (by omega), min_eq_right (by omega), max_eq_left (by omega)]
  · simp only [if_neg hab]
    rw [key a b ha.1 ha.2 hb.1 hb.2 (by omega), min_eq_left (by omega), max_eq_right (by omega)]

/-- `is_range_wide_enough` on unsigned integers. -/
theorem C31_range_wide_enough_unsigned {a b n : Nat} :
    rangeWideUnsigned a b n = true ↔ n ≤ (Finset.Icc (min a b) (max a b)).card := by
  rw [Nat.card_Icc]
  unfold rangeWideUnsigned
  by_cases hn : n = 0
  · simp [hn]
  by_cases hab : a > b
  · simp only [if_pos hab, if_neg hn, decide_eq_true_eq]
    rw [min_eq_right (by omega), max_eq_left (by omega)]; omega
  · simp only [if_neg hab, if_neg hn, decide_eq_true_eq]
    rw [min_eq_left (by omega), max_eq_right (by omega)]; omega

/-! #### Floating-point numbers -/

/-- The magnitude of an IEEE-754 number with `mb` mantissa bits (bit pattern without sign), as a multiple of the least
positive subnormal number. Infinity is larger than all finite numbers. -/
def magnitude (mb u : Nat) : Int :=
  if u / 2 ^ mb = 0 then (u % 2 ^ mb : Nat) else ((2 ^ mb + u % 2 ^ mb) * 2 ^ (u / 2 ^ mb - 1) : Nat)

/-- The value of a bit pattern with `mb` mantissa bits and `eb` exponent bits, as a multiple of the least positive
subnormal number. -/
def ieeeValue (mb eb u : Nat) : Int :=
  if u < 2 ^ (mb + eb) then magnitude mb u else -magnitude mb (u - 2 ^ (mb + eb))

/-- The bit pattern is a number (finite or infinite). -/
def NotNaN (mb eb u : Nat) : Prop :=
  u < 2 ^ (mb + eb + 1) ∧ u % 2 ^ (mb + eb) ≤ (2 ^ eb - 1) * 2 ^ mb

theorem magnitude_succ (mb u : Nat) : magnitude mb u < magnitude mb (u + 1) := by
  have hp : 0 < 2 ^ mb := Nat.two_pow_pos mb
  have hd := Nat.div_add_mod u (2 ^ mb)
  have hm := Nat.mod_lt u hp
  generalize hq : u / 2 ^ mb = e at *
  generalize hr : u % 2 ^ mb = m at *
  by_cases hl : m + 1 < 2 ^ mb
  · have e1 : (u + 1) / 2 ^ mb = e := by
      rw [← hd, Nat.add_assoc, Nat.mul_add_div hp, Nat.div_eq_of_lt hl, Nat.add_zero]
    have e2 : (u + 1) % 2 ^ mb = m + 1 := by
      rw [← hd, Nat.add_assoc, Nat.mul_add_mod, Nat.mod_eq_of_lt hl]
    unfold magnitude
    rw [hq, hr, e1, e2]
    split
    · omega
    · have : 0 < 2 ^ (e - 1) := Nat.two_pow_pos _
      have h3 : (2 ^ mb + (m + 1)) * 2 ^ (e - 1) = (2 ^ mb + m) * 2 ^ (e - 1) + 2 ^ (e - 1) := by ring
      omega
  · have hm1 : m + 1 = 2 ^ mb := by omega
    have hu : u + 1 = 2 ^ mb * (e + 1) := by rw [← hd, Nat.add_assoc, hm1]; ring
    have e1 : (u + 1) / 2 ^ mb = e + 1 := by rw [hu, Nat.mul_div_cancel_left _ hp]
    have e2 : (u + 1) % 2 ^ mb = 0 := by rw [hu, Nat.mul_mod_right]
    unfold magnitude
    rw [hq, hr, e1, e2, if_neg (show ¬ (e + 1 = 0) by omega)]
    split
    · next h => subst h; simp only [Nat.add_zero, Nat.zero_add, Nat.sub_self, pow_zero, Nat.mul_one]; omega
    · next h =>
      have h4 : (2:Nat) ^ (e + 1 - 1) = 2 ^ (e - 1) * 2 := by rw [← pow_succ]; congr 1; omega
      have h5 : 0 < 2 ^ (e - 1) := Nat.two_pow_pos _
      rw [h4]
      have : (2 ^ mb + m) * 2 ^ (e - 1) < (2 ^ mb + 0) * (2 ^ (e - 1) * 2) := by
        have : (2 ^ mb + 0) * (2 ^ (e - 1) * 2) = (2 ^ mb + 2 ^ mb) * 2 ^ (e - 1) := by ring
        rw [this]; exact Nat.mul_lt_mul_of_pos_right (by omega) h5
      omega

theorem magnitude_strictMono (mb : Nat) : StrictMono (magnitude mb) := strictMono_nat_of_lt_succ (magnitude_succ mb)

theorem magnitude_zero (mb : Nat) : magnitude mb 0 = 0 := by simp [magnitude]

/-- The value with a given sequence number. -/
def seqValue (mb eb s : Nat) : Int := if 2 ^ (mb + eb) ≤ s then magnitude mb (s - 2 ^ (mb + eb)) else -magnitude mb (2 ^ (mb + eb) - s)

theorem seqValue_strictMono (mb eb : Nat) : StrictMono (seqValue mb eb) := by
  intro s t hst
  have hM := magnitude_strictMono mb
  have h0 := magnitude_zero mb
  unfold seqValue
  split
  · rw [if_pos (by omega)]; exact hM (by omega)
  · split
    · have h1 := hM (show 0 < 2 ^ (mb + eb) - s by omega)
      have h2 := hM.monotone (show 0 ≤ t - 2 ^ (mb + eb) by omega)
      omega
    · have := hM (show 2 ^ (mb + eb) - t < 2 ^ (mb + eb) - s by omega)
      omega

theorem seq_spec {mb eb u : Nat} (h : u < 2 ^ (mb + eb + 1)) :
    ieeeValue mb eb u = seqValue mb eb (sequenceNumber (mb + eb + 1) u) ∧
    sequenceNumber (mb + eb + 1) u = (if u < 2 ^ (mb + eb) then u + 2 ^ (mb + eb) else 2 ^ (mb + eb) - (u - 2 ^ (mb + eb))) := by
  have h1 : mb + eb + 1 - 1 = mb + eb := by omega
  have h2 : (2:Nat) ^ (mb + eb + 1) = 2 ^ (mb + eb) + 2 ^ (mb + eb) := by rw [pow_succ]; omega
  have e : sequenceNumber (mb + eb + 1) u = (if u < 2 ^ (mb + eb) then u + 2 ^ (mb + eb) else 2 ^ (mb + eb) - (u - 2 ^ (mb + eb))) := by
    unfold sequenceNumber
    rw [h1]
    by_cases hs : u < 2 ^ (mb + eb)
    · rw [Bits.and_high_zero hs, if_neg (by simp), if_pos hs, Nat.mod_eq_of_lt (by omega)]
    · obtain ⟨v, rfl⟩ : ∃ v, u = v + 2 ^ (mb + eb) := ⟨u - 2 ^ (mb + eb), by omega⟩
      have hv : v < 2 ^ (mb + eb) := by omega
      have hx : (v + 2 ^ (mb + eb)) ^^^ 2 ^ (mb + eb) = v := by
        rw [← Bits.or_high hv]
        apply Nat.eq_of_testBit_eq
        intro j
        rw [Nat.testBit_xor, Nat.testBit_or, Nat.testBit_two_pow]
        by_cases hj : mb + eb = j
        · subst hj; simp [Nat.testBit_lt_two_pow hv]
        · simp [hj]
      rw [Bits.and_high_one hv, if_pos (by simp), if_neg hs, hx, Nat.add_sub_cancel]
  refine ⟨?_, e⟩
  rw [e]
  unfold ieeeValue seqValue
  by_cases hs : u < 2 ^ (mb + eb)
  · rw [if_pos hs, if_pos hs, if_pos (by omega), Nat.add_sub_cancel]
  · rw [if_neg hs, if_neg hs]
    split
    · have : u - 2 ^ (mb + eb) = 0 := by omega
      rw [this]; simp [magnitude_zero]
    · congr 2; omega

/-- The sequence numbers of two floating-point numbers are ordered like the numbers; equal numbers (such as -0 and +0)
have equal sequence numbers. -/
theorem C31_sequence_number {mb eb u v : Nat} (hu : NotNaN mb eb u) (hv : NotNaN mb eb v) :
    (sequenceNumber (mb + eb + 1) u < sequenceNumber (mb + eb + 1) v ↔ ieeeValue mb eb u < ieeeValue mb eb v) ∧
    (sequenceNumber (mb + eb + 1) u = sequenceNumber (mb + eb + 1) v ↔ ieeeValue mb eb u = ieeeValue mb eb v) := by
  rw [(seq_spec hu.1).1, (seq_spec hv.1).1]
  exact ⟨(seqValue_strictMono mb eb).lt_iff_lt.symm, (seqValue_strictMono mb eb).injective.eq_iff.symm⟩

/-- `is_range_wide_enough` on floating-point numbers: there are at least `n` numbers between the two (counting values,
so -0 and +0 once). `mb = 52, eb = 11` is `double`, `mb = 23, eb = 8` is `float`. -/
theorem C31_range_wide_enough_float {mb eb a b n : Nat} (ha : NotNaN mb eb a) (hb : NotNaN mb eb b)
    (hab : ieeeValue mb eb a ≤ ieeeValue mb eb b) (V : Finset Int)
    (hV : ∀ x, x ∈ V ↔ (∃ u, NotNaN mb eb u ∧ ieeeValue mb eb u = x) ∧ ieeeValue mb eb a ≤ x ∧ x ≤ ieeeValue mb eb b) :
    rangeWideFloat (mb + eb + 1) a b n = true ↔ n ≤ V.card := by
  have hM := seqValue_strictMono mb eb
  have h2 : (2:Nat) ^ (mb + eb + 1) = 2 ^ (mb + eb) + 2 ^ (mb + eb) := by rw [pow_succ]; omega
  have hP : 0 < 2 ^ (mb + eb) := Nat.two_pow_pos _
  have hinf : (2 ^ eb - 1) * 2 ^ mb < 2 ^ (mb + eb) := by
    have h3 : (2:Nat) ^ (mb + eb) = 2 ^ eb * 2 ^ mb := by rw [pow_add, Nat.mul_comm]
    have h4 : 0 < 2 ^ eb := Nat.two_pow_pos _
    rw [h3]; exact Nat.mul_lt_mul_of_pos_right (by omega) (Nat.two_pow_pos _)
  obtain ⟨ea, sa⟩ := seq_spec ha.1
  obtain ⟨eb', sb⟩ := seq_spec hb.1
  rw [ea, eb'] at hab
  rw [hM.le_iff_le] at hab
  -- sequence numbers of numbers
  have hseq : ∀ u, NotNaN mb eb u → 2 ^ (mb + eb) - (2 ^ eb - 1) * 2 ^ mb ≤ sequenceNumber (mb + eb + 1) u ∧
      sequenceNumber (mb + eb + 1) u ≤ 2 ^ (mb + eb) + (2 ^ eb - 1) * 2 ^ mb := by
    intro u hu
    rw [(seq_spec hu.1).2]
    have hm := hu.2
    split
    · next h => rw [Nat.mod_eq_of_lt h] at hm; omega
    · next h =>
      have : u % 2 ^ (mb + eb) = u - 2 ^ (mb + eb) := by
        rw [Nat.mod_eq_sub_mod (by omega), Nat.mod_eq_of_lt (by have := hu.1; omega)]
      rw [this] at hm; omega
  have hsurj : ∀ s, 2 ^ (mb + eb) - (2 ^ eb - 1) * 2 ^ mb ≤ s → s ≤ 2 ^ (mb + eb) + (2 ^ eb - 1) * 2 ^ mb →
      ∃ u, NotNaN mb eb u ∧ sequenceNumber (mb + eb + 1) u = s := by
    intro s h5 h6
    by_cases hs : 2 ^ (mb + eb) ≤ s
    · have hlt : s - 2 ^ (mb + eb) < 2 ^ (mb + eb) := by omega
      have hu : s - 2 ^ (mb + eb) < 2 ^ (mb + eb + 1) := by omega
      refine ⟨s - 2 ^ (mb + eb), ⟨hu, ?_⟩, ?_⟩
      · rw [Nat.mod_eq_of_lt hlt]; omega
      · rw [(seq_spec hu).2, if_pos hlt]; omega
    · have hu : 2 ^ (mb + eb) + (2 ^ (mb + eb) - s) < 2 ^ (mb + eb + 1) := by omega
      refine ⟨2 ^ (mb + eb) + (2 ^ (mb + eb) - s), ⟨hu, ?_⟩, ?_⟩
      · rw [Nat.add_mod_left, Nat.mod_eq_of_lt (by omega)]; omega
      · rw [(seq_spec hu).2, if_neg (by omega)]; omega
  have hVimg : V = (Finset.Icc (sequenceNumber (mb + eb + 1) a) (sequenceNumber (mb + eb + 1) b)).image (seqValue mb eb) := by
    ext x
    rw [hV, Finset.mem_image]
    constructor
    · rintro ⟨⟨u, hu, rfl⟩, h7, h8⟩
      rw [ea, (seq_spec hu.1).1, hM.le_iff_le] at h7
      rw [eb', (seq_spec hu.1).1, hM.le_iff_le] at h8
      exact ⟨_, Finset.mem_Icc.2 ⟨h7, h8⟩, (seq_spec hu.1).1.symm⟩
    · rintro ⟨s, hs, rfl⟩
      obtain ⟨h7, h8⟩ := Finset.mem_Icc.1 hs
      obtain ⟨u, hu, rfl⟩ := hsurj s (le_trans (hseq a ha).1 h7) (le_trans h8 (hseq b hb).2)
      refine ⟨⟨u, hu, (seq_spec hu.1).1⟩, ?_, ?_⟩
      · rw [ea, hM.le_iff_le]; exact h7
      · rw [eb', hM.le_iff_le]; exact h8
  rw [hVimg, Finset.card_image_of_injective _ hM.injective, Nat.card_Icc]
  unfold rangeWideFloat
  by_cases hn : n = 0
  · simp [hn]
  rw [if_neg hn, decide_eq_true_eq]
  have h9 := (hseq b hb).2
  rw [show 2 ^ (mb + eb + 1) + sequenceNumber (mb + eb + 1) b - sequenceNumber (mb + eb + 1) a =
    (sequenceNumber (mb + eb + 1) b - sequenceNumber (mb + eb + 1) a) + 2 ^ (mb + eb + 1) by omega, Nat.add_mod_right,
    Nat.mod_eq_of_lt (by omega)]
  omega

/-! #### Hashing -/

theorem xorshift_inj {s x y : Nat} (hs : 0 < s) (hx : x < 2 ^ 64) (hy : y < 2 ^ 64)
    (h : x ^^^ (x >>> s) = y ^^^ (y >>> s)) : x = y := by
  have hbit : ∀ j, (x.testBit j ^^ x.testBit (s + j)) = (y.testBit j ^^ y.testBit (s + j)) := by
    intro j
    have := congrArg (fun v => Nat.testBit v j) h
    simpa [Nat.testBit_xor, Nat.testBit_shiftRight] using this
  have key : ∀ d j, 64 ≤ j + d → x.testBit j = y.testBit j := by
    intro d
    induction d with
    | zero =>
      intro j hj
      have h1 : (2:Nat) ^ 64 ≤ 2 ^ j := Nat.pow_le_pow_right (by omega) (by omega)
      rw [Nat.testBit_lt_two_pow (lt_of_lt_of_le hx h1), Nat.testBit_lt_two_pow (lt_of_lt_of_le hy h1)]
    | succ d ih =>
      intro j hj
      have h1 := ih (s + j) (by omega)
      have h2 := hbit j
      rw [h1] at h2
      simpa using h2
  exact Nat.eq_of_testBit_eq fun j => key 64 j (by omega)

theorem mulmod_inj {c d x y : Nat} (hcd : c * d % 2 ^ 64 = 1) (hx : x < 2 ^ 64) (hy : y < 2 ^ 64)
    (h : x * c % 2 ^ 64 = y * c % 2 ^ 64) : x = y := by
  have key : ∀ z, z < 2 ^ 64 → (z * c % 2 ^ 64) * d % 2 ^ 64 = z := by
    intro z hz
    rw [Nat.mod_mul_mod, Nat.mul_assoc, Nat.mul_mod, hcd, Nat.mul_one, Nat.mod_mod, Nat.mod_eq_of_lt hz]
  rw [← key x hx, h, key y hy]

theorem xorshift_lt {s x : Nat} (hx : x < 2 ^ 64) : x ^^^ (x >>> s) < 2 ^ 64 :=
  Nat.xor_lt_two_pow hx (lt_of_le_of_lt (Nat.shiftRight_le x s) hx)

/-- `murmur3_64` maps different 64-bit values to different 64-bit values. -/
theorem C31_murmur3_injective {x y : Nat} (hx : x < 2 ^ 64) (hy : y < 2 ^ 64) (h : murmur3 x = murmur3 y) : x = y := by
  unfold murmur3 at h
  simp only at h
  have hlt : ∀ z c, z * c % 2 ^ 64 < 2 ^ 64 := fun z c => Nat.mod_lt _ (by norm_num)
  have h1 := xorshift_inj (by norm_num) (hlt _ _) (hlt _ _) h
  have h2 := mulmod_inj (d := 5579396055379575941) (by decide +kernel) (xorshift_lt (hlt _ _)) (xorshift_lt (hlt _ _)) h1
  have h3 := xorshift_inj (by norm_num) (hlt _ _) (hlt _ _) h2
  have h4 := mulmod_inj (d := 5503385934626434893) (by decide +kernel) (xorshift_lt hx) (xorshift_lt hy) h3
  exact xorshift_inj (by norm_num) hx hy h4

/-! ### Witnesses -/
example : ceilToPow2 64 1000 = some 1024 := by decide +kernel
example : ceilToPow2 64 (2 ^ 63) = some (2 ^ 63) := by decide +kernel
example : ceilToMultipleOfPow2 64 13 8 = some 16 := by decide +kernel
example : roundUpToMultiple 32 13 5 = some 15 := by decide +kernel
example : log2Floor 64 1023 = some 9 ∧ log2Ceil 64 1025 = some 11 := by decide +kernel
example : rangeWideSigned 8 (-128) 127 256 = true ∧ rangeWideSigned 8 (-128) 127 257 = false := by decide +kernel
/-- The bit patterns of -0.0 and 1.0 (`double`). -/
example : NotNaN 52 11 (2 ^ 63) ∧ NotNaN 52 11 0x3ff0000000000000 ∧ ieeeValue 52 11 (2 ^ 63) < ieeeValue 52 11 0x3ff0000000000000 := by
  unfold NotNaN; decide +kernel

end Mutable.Fn
