import Verif.Grid.Round
/-! # `LinearSpace` over integers: the distance from the start of the interval -/
namespace Mutable.Grid

/-- The distance from the start of the interval after `n` of `N` steps, when the interval has length `D`. -/
def dist (D N n : ℕ) : ℤ := cround (rn (n * rz ((D : ℚ) / N)))

section
variable {D N : ℕ}

theorem st_nonneg : 0 ≤ rz ((D : ℚ) / N) := rz_nonneg (by positivity)

theorem mul_st_le (hN : 0 < N) {n : ℕ} (hn : n ≤ N) : (n : ℚ) * rz ((D : ℚ) / N) ≤ D := by
  have h1 : rz ((D : ℚ) / N) ≤ (D : ℚ) / N := rz_le (by positivity)
  have hN' : (0 : ℚ) < N := by exact_mod_cast hN
  have h2 : (n : ℚ) ≤ N := by exact_mod_cast hn
  calc (n : ℚ) * rz ((D : ℚ) / N) ≤ N * ((D : ℚ) / N) := mul_le_mul h2 h1 st_nonneg hN'.le
    _ = D := by field_simp

theorem mul_st_nonneg (n : ℕ) : 0 ≤ (n : ℚ) * rz ((D : ℚ) / N) := mul_nonneg (by positivity) st_nonneg

/-- The step is too small by at most a part of `2^52`. -/
theorem st_ge (hN : 0 < N) : ((D : ℚ) / N) * (1 - 1 / 2 ^ 52) ≤ rz ((D : ℚ) / N) := by
  have hN' : (0 : ℚ) < N := by exact_mod_cast hN
  rcases Nat.eq_zero_or_pos D with h | h
  · subst h; simp [rz]
  · have hD : (0 : ℚ) < D := by exact_mod_cast h
    have hq : 0 < (D : ℚ) / N := by positivity
    have := lt_rz hq
    have := ulp_le hq
    linarith

theorem ulp_small {x : ℚ} (h0 : 0 ≤ x) (h : x ≤ 2 ^ 50) : ulp x ≤ 1 / 4 := by
  rcases h0.eq_or_lt with h1 | h1
  · subst h1; simp only [ulp, abs_zero, Int.log_zero_right]; norm_num
  · have := ulp_le h1
    linarith

theorem dist_nonneg (n : ℕ) : 0 ≤ dist D N n := by
  unfold dist cround
  have := rn_nonneg (mul_st_nonneg (D := D) (N := N) n)
  rw [if_pos this]
  exact Int.floor_nonneg.mpr (by linarith)

theorem dist_zero : dist D N 0 = 0 := by
  unfold dist
  have h : rn 0 = 0 := by simp [rn]
  simp only [Nat.cast_zero, zero_mul, h]
  norm_num [cround]

theorem dist_mono {n m : ℕ} (h : n ≤ m) : dist D N n ≤ dist D N m := by
  unfold dist cround
  have hn := rn_nonneg (mul_st_nonneg (D := D) (N := N) n)
  have hm := rn_nonneg (mul_st_nonneg (D := D) (N := N) m)
  rw [if_pos hn, if_pos hm]
  refine Int.floor_le_floor ?_
  have : (n : ℚ) * rz ((D : ℚ) / N) ≤ m * rz ((D : ℚ) / N) :=
    mul_le_mul_of_nonneg_right (by exact_mod_cast h) st_nonneg
  linarith [rn_mono this]

variable (hN : 0 < N) (hD : D ≤ 2 ^ 50)
include hN hD

theorem x_le {n : ℕ} (hn : n ≤ N) : (n : ℚ) * rz ((D : ℚ) / N) ≤ 2 ^ 50 :=
  le_trans (mul_st_le hN hn) (by exact_mod_cast hD)

theorem dist_le {n : ℕ} (hn : n ≤ N) : dist D N n ≤ D := by
  by_contra hc
  have h1 := (cround_rn_ge (mul_st_nonneg (D := D) (N := N) n) (x_le hN hD hn) D).1 (by unfold dist at hc; omega)
  have h2 := ulp_small (mul_st_nonneg (D := D) (N := N) n) (x_le hN hD hn)
  linarith [mul_st_le (D := D) hN hn]

theorem dist_last : dist D N N = D := by
  refine le_antisymm (dist_le hN hD (le_refl _)) ?_
  rcases D with _ | m
  · simpa using dist_nonneg (D := 0) (N := N) N
  · have hN' : (0 : ℚ) < N := by exact_mod_cast hN
    have h := (cround_rn_ge (mul_st_nonneg (D := m + 1) (N := N) N) (x_le hN hD (le_refl _)) m).2 ?_
    · unfold dist; push_cast at h ⊢; exact h
    · have h1 := st_ge (D := m + 1) hN
      have h2 := mul_le_mul_of_nonneg_left h1 hN'.le
      have h3 : (N : ℚ) * (((m + 1 : ℕ) : ℚ) / N * (1 - 1 / 2 ^ 52)) = ((m + 1 : ℕ) : ℚ) * (1 - 1 / 2 ^ 52) := by field_simp
      rw [h3] at h2
      have h4 : ((m + 1 : ℕ) : ℚ) ≤ 2 ^ 50 := by exact_mod_cast hD
      have h5 := (ulp_pos ((N : ℚ) * rz (((m + 1 : ℕ) : ℚ) / N))).le
      have h6 : ((m + 1 : ℕ) : ℚ) = m + 1 := by push_cast; ring
      rw [h6] at h2 h4 h5 ⊢
      linarith

/-- When the interval has at least as many integers as steps, every step advances. -/
theorem dist_strict (hw : N ≤ D) {n : ℕ} (hn : n + 1 ≤ N) : dist D N n < dist D N (n + 1) := by
  have hN' : (0 : ℚ) < N := by exact_mod_cast hN
  have hst : 1 ≤ rz ((D : ℚ) / N) := by
    refine one_le_rz ?_ ?_
    · rw [le_div_iff₀ hN']; simpa using (by exact_mod_cast hw : (N : ℚ) ≤ D)
    · rw [div_lt_iff₀ hN']
      have h1 : (D : ℚ) ≤ 2 ^ 50 := by exact_mod_cast hD
      have h2 : (1 : ℚ) ≤ N := by exact_mod_cast hN
      have : (2 : ℚ) ^ 50 < 2 ^ 52 := by norm_num
      nlinarith
  have hstep : (n : ℚ) * rz ((D : ℚ) / N) + 1 ≤ ((n + 1 : ℕ) : ℚ) * rz ((D : ℚ) / N) := by push_cast; linarith
  have hx0 := mul_st_nonneg (D := D) (N := N) n
  have hx1 := mul_st_nonneg (D := D) (N := N) (n + 1)
  obtain ⟨k, hk⟩ := Int.eq_ofNat_of_zero_le (dist_nonneg (D := D) (N := N) n)
  rw [hk, Int.lt_iff_add_one_le]
  unfold dist
  refine (cround_rn_ge hx1 (x_le hN hD hn) k).2 ?_
  have hu1 := (ulp_pos (((n + 1 : ℕ) : ℚ) * rz ((D : ℚ) / N))).le
  rcases k with _ | m
  · push_cast at *; linarith
  · have h := (cround_rn_ge hx0 (x_le hN hD (by omega)) m).1 (by unfold dist at hk; rw [hk]; push_cast; omega)
    rcases hx0.eq_or_lt with h0 | h0
    · exfalso
      rw [← h0] at h
      have : ulp 0 ≤ 1 / 4 := ulp_small (le_refl _) (by norm_num)
      have : (0 : ℚ) ≤ m := by positivity
      linarith
    · have := ulp_mono h0 (by linarith : (n : ℚ) * rz ((D : ℚ) / N) ≤ ((n + 1 : ℕ) : ℚ) * rz ((D : ℚ) / N))
      push_cast at *
      linarith

/-- The points are evenly spaced: less than one from the exact point. -/
theorem dist_err {n : ℕ} (hn : n ≤ N) : |(dist D N n : ℚ) - n * ((D : ℚ) / N)| < 1 := by
  have hN' : (0 : ℚ) < N := by exact_mod_cast hN
  have hx0 := mul_st_nonneg (D := D) (N := N) n
  have hy := rn_nonneg hx0
  have e1 := rn_abs_err (q := (n : ℚ) * rz ((D : ℚ) / N))
  have e2 := ulp_small hx0 (x_le hN hD hn)
  have e3 : (n : ℚ) * rz ((D : ℚ) / N) ≤ n * ((D : ℚ) / N) :=
    mul_le_mul_of_nonneg_left (rz_le (by positivity)) (by positivity)
  have e4 := mul_le_mul_of_nonneg_left (st_ge (D := D) hN) (by positivity : (0 : ℚ) ≤ n)
  have e5 : (n : ℚ) * ((D : ℚ) / N) ≤ 2 ^ 50 := by
    have h1 : (n : ℚ) ≤ N := by exact_mod_cast hn
    have h2 : (0 : ℚ) ≤ (D : ℚ) / N := by positivity
    have h3 : (N : ℚ) * ((D : ℚ) / N) = D := by field_simp
    have h4 : (D : ℚ) ≤ 2 ^ 50 := by exact_mod_cast hD
    nlinarith
  have f1 := Int.floor_le (rn ((n : ℚ) * rz ((D : ℚ) / N)) + 1 / 2)
  have f2 := Int.lt_floor_add_one (rn ((n : ℚ) * rz ((D : ℚ) / N)) + 1 / 2)
  have hd : dist D N n = ⌊rn ((n : ℚ) * rz ((D : ℚ) / N)) + 1 / 2⌋ := by unfold dist cround; rw [if_pos hy]
  rw [hd]
  rw [abs_le] at e1
  rw [abs_lt]
  constructor <;> linarith [e1.1, e1.2]

end

end Mutable.Grid
