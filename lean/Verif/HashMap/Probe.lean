import Verif.HashMap.Model
import Mathlib.Data.Nat.ModEq
import Mathlib.Data.Nat.Prime.Basic
import Mathlib.Data.Finset.Image
/-! Triangular probing modulo a power of two visits every slot. -/
namespace Mutable.HM

/-- triangular numbers -/
def tri (j : Nat) : Nat := j * (j + 1) / 2

theorem two_tri (j : Nat) : 2 * tri j = j * (j + 1) := by
  unfold tri
  exact Nat.mul_div_cancel' (Nat.even_mul_succ_self j).two_dvd

@[simp] theorem tri_zero : tri 0 = 0 := rfl

theorem tri_succ (j : Nat) : tri (j + 1) = tri j + (j + 1) := by
  have h1 := two_tri j
  have h2 := two_tri (j + 1)
  have : (j + 1) * (j + 1 + 1) = j * (j + 1) + 2 * (j + 1) := by ring
  omega

theorem tri_eq (L : Nat) : (L * L + L) / 2 = tri L := by
  unfold tri; congr 1

/-- the `j`-th slot of the probe sequence of bucket `b` -/
def pos (cap b j : Nat) : Nat := (b + tri j) % cap

theorem pow_dvd_of_mul {n a b : Nat} (h : 2 ^ n ∣ a * b) (ha : a % 2 = 1) : 2 ^ n ∣ b := by
  have : Nat.Coprime (2 ^ n) a := by
    apply Nat.Coprime.pow_left
    rw [Nat.coprime_two_left, Nat.odd_iff]; exact ha
  exact this.dvd_of_dvd_mul_left h

theorem tri_inj {n i j : Nat} (hij : i < j) (hj : j < 2 ^ n) (b : Nat) : pos (2 ^ n) b i ≠ pos (2 ^ n) b j := by
  intro h
  unfold pos at h
  have h1 : tri i ≡ tri j [MOD 2 ^ n] := Nat.ModEq.add_left_cancel' b h
  have hlt : tri i ≤ tri j := by
    have a := two_tri i; have c := two_tri j
    have : i * (i + 1) ≤ j * (j + 1) := Nat.mul_le_mul (by omega) (by omega)
    omega
  have hd : 2 ^ n ∣ tri j - tri i := (Nat.modEq_iff_dvd' hlt).1 h1
  have hd2 : 2 ^ (n + 1) ∣ (j - i) * (i + j + 1) := by
    have : 2 * (tri j - tri i) = (j - i) * (i + j + 1) := by
      rw [Nat.mul_sub, two_tri, two_tri]
      obtain ⟨d, rfl⟩ := Nat.exists_eq_add_of_lt hij
      have e1 : i + d + 1 - i = d + 1 := by omega
      rw [e1]
      apply Nat.sub_eq_of_eq_add; ring
    rw [← this, pow_succ, mul_comm]
    exact Nat.mul_dvd_mul_left 2 hd
  rcases Nat.mod_two_eq_zero_or_one (j - i) with h0 | h1
  · have : (i + j + 1) % 2 = 1 := by omega
    rw [mul_comm] at hd2
    have := Nat.le_of_dvd (by omega) (pow_dvd_of_mul hd2 this)
    have : 2 ^ n < 2 ^ (n + 1) := Nat.pow_lt_pow_right (by omega) (by omega)
    omega
  · have := Nat.le_of_dvd (by omega) (pow_dvd_of_mul hd2 h1)
    have : 2 ^ (n + 1) = 2 * 2 ^ n := by rw [pow_succ, mul_comm]
    omega

theorem pos_inj {n i j : Nat} (hi : i < 2 ^ n) (hj : j < 2 ^ n) {b : Nat} (h : pos (2 ^ n) b i = pos (2 ^ n) b j) :
    i = j := by
  rcases lt_trichotomy i j with h1 | h1 | h1
  · exact absurd h (tri_inj h1 hj b)
  · exact h1
  · exact absurd h.symm (tri_inj h1 hi b)

theorem pos_lt {n : Nat} (b j : Nat) : pos (2 ^ n) b j < 2 ^ n := Nat.mod_lt _ (by positivity)

theorem pos_surj (n b s : Nat) (hs : s < 2 ^ n) : ∃ j, j < 2 ^ n ∧ pos (2 ^ n) b j = s := by
  have hc : ((Finset.range (2 ^ n)).image (pos (2 ^ n) b)).card = 2 ^ n := by
    rw [Finset.card_image_of_injOn, Finset.card_range]
    intro i hi j hj h
    exact pos_inj (by simpa using hi) (by simpa using hj) h
  have hsub : (Finset.range (2 ^ n)).image (pos (2 ^ n) b) ⊆ Finset.range (2 ^ n) := by
    intro x hx
    obtain ⟨j, _, rfl⟩ := Finset.mem_image.1 hx
    exact Finset.mem_range.2 (pos_lt b j)
  have he := Finset.eq_of_subset_of_card_le hsub (by rw [hc, Finset.card_range])
  have : s ∈ (Finset.range (2 ^ n)).image (pos (2 ^ n) b) := by rw [he]; exact Finset.mem_range.2 hs
  obtain ⟨j, hj, h⟩ := Finset.mem_image.1 this
  exact ⟨j, Finset.mem_range.1 hj, h⟩

/-- the 32-bit computation of the distance agrees with the triangular number modulo every capacity up to 2^31 -/
theorem dist32 (L k : Nat) (hk : k ≤ 31) : ((L * L + L) % 2 ^ 32) / 2 % 2 ^ k = tri L % 2 ^ k := by
  have e : L * L + L = 2 * tri L := by rw [two_tri]; ring
  rw [e]
  have : 2 * tri L % 2 ^ 32 = 2 * (tri L % 2 ^ 31) := by
    rw [show (2 : Nat) ^ 32 = 2 * 2 ^ 31 by norm_num, Nat.mul_mod_mul_left]
  rw [this, Nat.mul_div_cancel_left _ (by omega)]
  exact Nat.mod_mod_of_dvd _ (pow_dvd_pow 2 hk)

end Mutable.HM
