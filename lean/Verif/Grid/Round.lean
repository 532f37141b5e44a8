import Verif.Grid.Model
import Mathlib.Tactic.Linarith
import Mathlib.Tactic.Ring
import Mathlib.Tactic.FieldSimp
import Mathlib.Tactic.NormNum
import Mathlib.Tactic.Positivity
/-! # Rounding to 53 significant bits: lemmas -/
namespace Mutable.Grid

theorem ulp_pos (q : ℚ) : 0 < ulp q := zpow_pos (by norm_num) _

theorem ulp_neg (q : ℚ) : ulp (-q) = ulp q := by simp [ulp]

theorem rintEven_le (x : ℚ) : (rintEven x : ℚ) ≤ x + 1 / 2 := by
  have h1 := Int.floor_le x
  have h2 := Int.lt_floor_add_one x
  unfold rintEven
  simp only
  split_ifs <;> push_cast <;> linarith

theorem le_rintEven (x : ℚ) : x - 1 / 2 ≤ (rintEven x : ℚ) := by
  have h1 := Int.floor_le x
  have h2 := Int.lt_floor_add_one x
  unfold rintEven
  simp only
  split_ifs <;> push_cast <;> linarith

theorem rintEven_int (k : ℤ) : rintEven (k : ℚ) = k := by
  unfold rintEven
  simp

theorem rintEven_mono {x y : ℚ} (h : x ≤ y) : rintEven x ≤ rintEven y := by
  have hf : ⌊x⌋ ≤ ⌊y⌋ := Int.floor_le_floor h
  have hx1 := Int.floor_le x
  have hx2 := Int.lt_floor_add_one x
  have hy1 := Int.floor_le y
  have hy2 := Int.lt_floor_add_one y
  rcases hf.lt_or_eq with hlt | heq
  · have a : rintEven x ≤ ⌊x⌋ + 1 := by unfold rintEven; simp only; split_ifs <;> omega
    have b : ⌊y⌋ ≤ rintEven y := by unfold rintEven; simp only; split_ifs <;> omega
    omega
  · unfold rintEven
    simp only
    rw [← heq]
    rw [← heq] at hy1 hy2
    split_ifs <;> first | omega | (exfalso; linarith)

theorem le_rintEven_even {k : ℤ} (hk : Even k) (x : ℚ) : k ≤ rintEven x ↔ (k : ℚ) - 1 / 2 ≤ x := by
  constructor
  · intro h
    have : (k : ℚ) ≤ rintEven x := by exact_mod_cast h
    linarith [rintEven_le x]
  · intro h
    have h1 := Int.floor_le x
    have h2 := Int.lt_floor_add_one x
    have hf : k - 1 ≤ ⌊x⌋ := Int.le_floor.mpr (by push_cast; linarith)
    rcases (show k ≤ ⌊x⌋ ∨ ⌊x⌋ = k - 1 by omega) with hc | hc
    · have b : ⌊x⌋ ≤ rintEven x := by unfold rintEven; simp only; split_ifs <;> omega
      omega
    · unfold rintEven
      simp only
      rw [hc]
      have hodd : ¬ (k - 1) % 2 = 0 := by obtain ⟨j, hj⟩ := hk; omega
      push_cast
      split_ifs with a b c
      · exfalso; linarith
      · omega
      · omega

theorem rintEven_neg (x : ℚ) : rintEven (-x) = - rintEven x := by
  by_cases hint : x = ⌊x⌋
  · rw [hint, ← Int.cast_neg, rintEven_int, rintEven_int]
  · have hfl : ⌊-x⌋ = -⌊x⌋ - 1 := by
      have h1 := Int.floor_le x
      have h2 := Int.lt_floor_add_one x
      have h3 : (⌊x⌋ : ℚ) < x := lt_of_le_of_ne h1 (fun h => hint h.symm)
      rw [Int.floor_eq_iff]; push_cast; constructor <;> linarith
    unfold rintEven
    simp only
    rw [hfl]
    push_cast
    split_ifs <;> first | omega | (exfalso; linarith)

theorem rn_neg (q : ℚ) : rn (-q) = - rn q := by
  unfold rn
  by_cases h : q = 0
  · simp [h]
  · have h' : -q ≠ 0 := by simpa using h
    rw [if_neg h, if_neg h', ulp_neg, neg_div, rintEven_neg]
    push_cast; ring

theorem pow_le_of_pos {q : ℚ} (hq : 0 < q) : (2 : ℚ) ^ Int.log 2 q ≤ q := by
  exact_mod_cast Int.zpow_log_le_self (R := ℚ) (by norm_num : 1 < 2) hq

theorem lt_pow_of_pos (q : ℚ) : q < (2 : ℚ) ^ (Int.log 2 q + 1) := by
  exact_mod_cast Int.lt_zpow_succ_log_self (R := ℚ) (by norm_num : 1 < 2) q

theorem log_mono {q r : ℚ} (hq : 0 < q) (h : q ≤ r) : Int.log 2 q ≤ Int.log 2 r := Int.log_mono_right hq h

theorem ulp_mono {q r : ℚ} (hq : 0 < q) (h : q ≤ r) : ulp q ≤ ulp r := by
  unfold ulp
  rw [abs_of_pos hq, abs_of_pos (lt_of_lt_of_le hq h)]
  exact zpow_le_zpow_right₀ (by norm_num) (by have := log_mono hq h; omega)

theorem ulp_le {q : ℚ} (hq : 0 < q) : ulp q ≤ q / 2 ^ 52 := by
  unfold ulp
  rw [abs_of_pos hq, zpow_sub₀ (by norm_num)]
  have := pow_le_of_pos hq
  have h2 : ((2 : ℚ) ^ (52 : ℤ)) = 2 ^ 52 := by norm_cast
  rw [h2]
  exact div_le_div_of_nonneg_right this (by positivity)

/-- A power of two with a large enough exponent is a multiple of a smaller power of two. -/
theorem zpow_div_int {a b : ℤ} (h : b ≤ a) : ∃ k : ℕ, (2 : ℚ) ^ a / 2 ^ b = (2 : ℚ) ^ k := by
  refine ⟨(a - b).toNat, ?_⟩
  rw [← zpow_sub₀ (by norm_num), ← zpow_natCast, Int.toNat_of_nonneg (by omega)]

theorem rn_abs_err {q : ℚ} : |rn q - q| ≤ ulp q / 2 := by
  unfold rn
  by_cases h : q = 0
  · rw [if_pos h, h]; simp; exact (half_pos (ulp_pos 0)).le
  · rw [if_neg h]
    have hu := ulp_pos q
    have h1 := rintEven_le (q / ulp q)
    have h2 := le_rintEven (q / ulp q)
    have e : q = q / ulp q * ulp q := by field_simp
    rw [abs_le]
    constructor
    · have := mul_le_mul_of_nonneg_right h2 hu.le
      rw [sub_mul, ← e] at this; linarith
    · have := mul_le_mul_of_nonneg_right h1 hu.le
      rw [add_mul, ← e] at this; linarith

theorem rn_nonneg {q : ℚ} (h : 0 ≤ q) : 0 ≤ rn q := by
  unfold rn
  split_ifs
  · exact le_refl _
  · have : rintEven ((0 : ℤ) : ℚ) ≤ rintEven (q / ulp q) := rintEven_mono (by simpa using div_nonneg h (ulp_pos q).le)
    rw [rintEven_int] at this
    exact mul_nonneg (by exact_mod_cast this) (ulp_pos q).le

theorem rn_le_of_mul {q k : ℚ} (hq : q ≠ 0) {j : ℤ} (hk : k = j * ulp q) (h : q ≤ k) : rn q ≤ k := by
  unfold rn
  rw [if_neg hq, hk]
  refine mul_le_mul_of_nonneg_right ?_ (ulp_pos q).le
  have := rintEven_mono (x := q / ulp q) (y := (j : ℚ)) (by rw [div_le_iff₀ (ulp_pos q), ← hk]; exact h)
  rw [rintEven_int] at this
  exact_mod_cast this

theorem le_rn_of_mul {q k : ℚ} (hq : q ≠ 0) {j : ℤ} (hk : k = j * ulp q) (h : k ≤ q) : k ≤ rn q := by
  unfold rn
  rw [if_neg hq, hk]
  refine mul_le_mul_of_nonneg_right ?_ (ulp_pos q).le
  have := rintEven_mono (y := q / ulp q) (x := (j : ℚ)) (by rw [le_div_iff₀ (ulp_pos q), ← hk]; exact h)
  rw [rintEven_int] at this
  exact_mod_cast this

theorem rn_mono_pos {q r : ℚ} (hq : 0 < q) (h : q ≤ r) : rn q ≤ rn r := by
  have hr : 0 < r := lt_of_lt_of_le hq h
  have hl := log_mono hq h
  rcases hl.lt_or_eq with hlt | heq
  · -- a power of two lies between them
    have a1 : q ≤ (2 : ℚ) ^ Int.log 2 r :=
      le_trans (lt_pow_of_pos q).le (zpow_le_zpow_right₀ (by norm_num) (by omega))
    have a2 : (2 : ℚ) ^ Int.log 2 r ≤ r := pow_le_of_pos hr
    obtain ⟨k, hk⟩ := zpow_div_int (a := Int.log 2 r) (b := Int.log 2 q - 52) (by omega)
    obtain ⟨k', hk'⟩ := zpow_div_int (a := Int.log 2 r) (b := Int.log 2 r - 52) (by omega)
    have u1 : (2 : ℚ) ^ Int.log 2 r = ((2 ^ k : ℤ) : ℚ) * ulp q := by
      have := ulp_pos q
      unfold ulp at *
      rw [abs_of_pos hq] at *
      push_cast; rw [← hk]; field_simp
    have u2 : (2 : ℚ) ^ Int.log 2 r = ((2 ^ k' : ℤ) : ℚ) * ulp r := by
      have := ulp_pos r
      unfold ulp at *
      rw [abs_of_pos hr] at *
      push_cast; rw [← hk']; field_simp
    exact le_trans (rn_le_of_mul hq.ne' u1 a1) (le_rn_of_mul hr.ne' u2 a2)
  · have hu : ulp q = ulp r := by unfold ulp; rw [abs_of_pos hq, abs_of_pos hr, heq]
    unfold rn
    rw [if_neg hq.ne', if_neg hr.ne', hu]
    refine mul_le_mul_of_nonneg_right ?_ (ulp_pos r).le
    exact_mod_cast rintEven_mono (div_le_div_of_nonneg_right h (ulp_pos r).le)

/-- Rounding to the nearest double is monotone. -/
theorem rn_mono {q r : ℚ} (h : q ≤ r) : rn q ≤ rn r := by
  rcases lt_trichotomy 0 q with hq | hq | hq
  · exact rn_mono_pos hq h
  · subst hq
    rw [show rn 0 = 0 by simp [rn]]
    exact rn_nonneg h
  · rcases lt_or_ge r 0 with hr | hr
    · have := rn_mono_pos (q := -r) (r := -q) (by linarith) (by linarith)
      rw [rn_neg, rn_neg] at this; linarith
    · have a := rn_nonneg (q := -q) (by linarith)
      rw [rn_neg] at a
      exact le_trans (by linarith) (rn_nonneg hr)

/-! ## Towards zero -/

theorem rz_zero : rz 0 = 0 := by simp [rz]

theorem rz_le {q : ℚ} (h : 0 ≤ q) : rz q ≤ q := by
  unfold rz
  split_ifs with h1 h2
  · exact h
  · have := Int.floor_le (q / ulp q)
    rwa [le_div_iff₀ (ulp_pos q)] at this
  · exact absurd (lt_of_le_of_ne h (Ne.symm h1)) h2

theorem rz_nonneg {q : ℚ} (h : 0 ≤ q) : 0 ≤ rz q := by
  unfold rz
  split_ifs with h1 h2
  · exact le_refl _
  · have : 0 ≤ ⌊q / ulp q⌋ := Int.floor_nonneg.mpr (div_nonneg h (ulp_pos q).le)
    exact mul_nonneg (by exact_mod_cast this) (ulp_pos q).le
  · exact absurd (lt_of_le_of_ne h (Ne.symm h1)) h2

theorem lt_rz {q : ℚ} (h : 0 < q) : q - ulp q < rz q := by
  unfold rz
  rw [if_neg h.ne', if_pos h]
  have := Int.lt_floor_add_one (q / ulp q)
  rw [div_lt_iff₀ (ulp_pos q)] at this
  linarith

/-- An integer below `2^53` is a double. -/
theorem int_mul_ulp {z : ℤ} (hz : z ≠ 0) (h : |z| < 2 ^ 53) : ∃ j : ℤ, (z : ℚ) / ulp z = j := by
  have hpos : 0 < |(z : ℚ)| := by simpa using hz
  have hlog : Int.log 2 |(z : ℚ)| ≤ 52 := by
    by_contra hc
    have h1 := pow_le_of_pos hpos
    have h2 : (2 : ℚ) ^ (53 : ℤ) ≤ (2 : ℚ) ^ Int.log 2 |(z : ℚ)| := zpow_le_zpow_right₀ (by norm_num) (by omega)
    have h3 : |(z : ℚ)| < 2 ^ 53 := by exact_mod_cast h
    have h4 : ((2 : ℚ) ^ (53 : ℤ)) = 2 ^ 53 := by norm_cast
    linarith
  obtain ⟨k, hk⟩ := zpow_div_int (a := 0) (b := Int.log 2 |(z : ℚ)| - 52) (by omega)
  refine ⟨z * 2 ^ k, ?_⟩
  unfold ulp
  push_cast
  rw [← hk]
  simp [div_eq_mul_inv]

theorem rz_int {z : ℤ} (h : |z| < 2 ^ 53) : rz z = z := by
  by_cases hz : z = 0
  · subst hz; simp [rz]
  · obtain ⟨j, hj⟩ := int_mul_ulp hz h
    have hu := ulp_pos (z : ℚ)
    have e : (z : ℚ) = j * ulp z := by rw [← hj]; field_simp
    unfold rz
    rw [if_neg (by exact_mod_cast hz), hj]
    simp only [Int.floor_intCast, Int.ceil_intCast, ite_self]
    exact e.symm

theorem one_le_rz {q : ℚ} (h : 1 ≤ q) (hb : q < 2 ^ 52) : 1 ≤ rz q := by
  have hq : 0 < q := by linarith
  have hl0 : 0 ≤ Int.log 2 q := by
    have := log_mono (by norm_num : (0 : ℚ) < 1) h
    simpa using this
  have hl : Int.log 2 q ≤ 52 := by
    by_contra hc
    have h1 := pow_le_of_pos hq
    have h2 : (2 : ℚ) ^ (52 : ℤ) ≤ (2 : ℚ) ^ Int.log 2 q := zpow_le_zpow_right₀ (by norm_num) (by omega)
    have h4 : ((2 : ℚ) ^ (52 : ℤ)) = 2 ^ 52 := by norm_cast
    linarith
  obtain ⟨k, hk⟩ := zpow_div_int (a := 0) (b := Int.log 2 q - 52) (by omega)
  have hu := ulp_pos q
  have e : (1 : ℚ) / ulp q = ((2 ^ k : ℤ) : ℚ) := by
    unfold ulp; rw [abs_of_pos hq]; push_cast; rw [← hk]; simp
  unfold rz
  rw [if_neg hq.ne', if_pos hq]
  have : (2 ^ k : ℤ) ≤ ⌊q / ulp q⌋ := by
    rw [Int.le_floor, ← e]
    exact div_le_div_of_nonneg_right h hu.le
  have h3 : ((2 ^ k : ℤ) : ℚ) ≤ (⌊q / ulp q⌋ : ℚ) := by exact_mod_cast this
  rw [← e, div_le_iff₀ hu] at h3
  exact h3

/-! ## The rounded multiple of the step -/

/-- When the rounded number, rounded to an integer, reaches `m + 1`. -/
theorem cround_rn_ge {x : ℚ} (hx0 : 0 ≤ x) (hx : x ≤ 2 ^ 50) (m : ℕ) :
    (m : ℤ) + 1 ≤ cround (rn x) ↔ (m : ℚ) + 1 / 2 - ulp x / 2 ≤ x := by
  have hy := rn_nonneg hx0
  rw [show cround (rn x) = ⌊rn x + 1 / 2⌋ by unfold cround; rw [if_pos hy], Int.le_floor]
  push_cast
  rcases hx0.eq_or_lt with h0 | hpos
  · subst h0
    have : ulp 0 = (2 : ℚ) ^ (-52 : ℤ) := by simp [ulp]
    rw [this, show rn 0 = 0 by simp [rn]]
    have hm : (0 : ℚ) ≤ m := by positivity
    have h2 : (2 : ℚ) ^ (-52 : ℤ) < 1 / 2 := by norm_num
    constructor <;> intro h <;> linarith
  · have hl : Int.log 2 x ≤ 50 := by
      by_contra hc
      have h1 := pow_le_of_pos hpos
      have h2 : (2 : ℚ) ^ (51 : ℤ) ≤ (2 : ℚ) ^ Int.log 2 x := zpow_le_zpow_right₀ (by norm_num) (by omega)
      have h4 : ((2 : ℚ) ^ (51 : ℤ)) = 2 ^ 51 := by norm_cast
      have : (2 : ℚ) ^ 50 < 2 ^ 51 := by norm_num
      linarith
    obtain ⟨k, hk⟩ := zpow_div_int (a := -2) (b := Int.log 2 x - 52) (by omega)
    have hu := ulp_pos x
    have e : ((m : ℚ) + 1 / 2) / ulp x = (((2 * m + 1) * 2 * 2 ^ k : ℤ) : ℚ) := by
      unfold ulp; rw [abs_of_pos hpos]; push_cast; rw [← hk]
      rw [show ((2 : ℚ) ^ (-2 : ℤ)) = 1 / 4 by norm_num]
      field_simp; ring
    have hev : Even ((2 * m + 1) * 2 * 2 ^ k : ℤ) := ⟨(2 * m + 1) * 2 ^ k, by ring⟩
    have key := le_rintEven_even hev (x / ulp x)
    rw [← e] at key
    have l : ((m : ℚ) + 1 ≤ rn x + 1 / 2) ↔ (((2 * m + 1) * 2 * 2 ^ k : ℤ) ≤ rintEven (x / ulp x)) := by
      have : rn x = rintEven (x / ulp x) * ulp x := by unfold rn; rw [if_neg hpos.ne']
      rw [this]
      have c : ((((2 * m + 1) * 2 * 2 ^ k : ℤ) : ℚ) ≤ (rintEven (x / ulp x) : ℚ)) ↔
          (((2 * m + 1) * 2 * 2 ^ k : ℤ) ≤ rintEven (x / ulp x)) := Int.cast_le
      rw [← c, ← e, div_le_iff₀ hu]
      constructor <;> intro h <;> linarith
    rw [l, key]
    rw [le_div_iff₀ hu, sub_mul, div_mul_cancel₀ _ hu.ne']
    constructor <;> intro h <;> linarith

end Mutable.Grid
