import Verif.WasmHT.Model
import Mathlib.Data.Nat.Bitwise
import Mathlib.Data.Nat.ModEq
import Mathlib.Data.Int.ModEq
import Mathlib.Algebra.Ring.Parity
import Mathlib.RingTheory.Coprime.Lemmas
import Mathlib.Algebra.Ring.Int.Parity
import Mathlib.Tactic.Ring
import Mathlib.Tactic.Linarith

/-! # The probing strategies visit every slot of a table exactly once -/

namespace Mutable.WasmHT

/-- What the proofs need of a probing strategy: `P b i` is the `i`-th slot of bucket `b`. -/
structure Lawful (st : Probing) where
  P : (cap b i : Nat) → Nat
  zero : ∀ n b, b < 2 ^ n → P (2 ^ n) b 0 = b
  lt : ∀ n b i, b < 2 ^ n → P (2 ^ n) b i < 2 ^ n
  inj : ∀ n b i j, b < 2 ^ n → i < 2 ^ n → j < 2 ^ n → P (2 ^ n) b i = P (2 ^ n) b j → i = j
  skip : ∀ n b i, n ≤ 31 → b < 2 ^ n → i < 2 ^ n → st.skip (2 ^ n) b i = P (2 ^ n) b i
  next : ∀ n b i, b < 2 ^ n → i + 1 < 2 ^ n → st.next (2 ^ n) (P (2 ^ n) b i) (i + 1) = P (2 ^ n) b (i + 1)

theorem add_mod_lt {a b m : Nat} (ha : a < m) (hb : b < m) :
    (a + b) % m = if a + b < m then a + b else a + b - m := by
  split
  · next h => exact Nat.mod_eq_of_lt h
  · next h => rw [Nat.mod_eq_sub_mod (by omega), Nat.mod_eq_of_lt (by omega)]

def lawful_linear : Lawful linear where
  P cap b i := (b + i) % cap
  zero n b h := by simpa using Nat.mod_eq_of_lt h
  lt n b i _ := Nat.mod_lt _ (Nat.two_pow_pos n)
  inj n b i j _ hi hj h := by
    have := Nat.ModEq.add_left_cancel' b (show b + i ≡ b + j [MOD 2 ^ n] from h)
    rw [Nat.ModEq, Nat.mod_eq_of_lt hi, Nat.mod_eq_of_lt hj] at this
    exact this
  skip n b i _ hb hi := by simp only [linear]; rw [add_mod_lt hb hi]
  next n b i hb hi := by
    simp only [linear]
    have hm := Nat.mod_lt (b + i) (Nat.two_pow_pos n)
    rw [← Nat.add_assoc, Nat.add_mod (b + i) 1, Nat.mod_eq_of_lt (show 1 < 2 ^ n by omega)]
    rw [add_mod_lt hm (show 1 < 2 ^ n by omega)]
    split <;> omega

/-- Triangular numbers. -/
def tri (i : Nat) : Nat := i * (i + 1) / 2

theorem two_tri (i : Nat) : 2 * tri i = i * (i + 1) :=
  Nat.mul_div_cancel' (Nat.even_mul_succ_self i).two_dvd

theorem tri_succ (i : Nat) : tri (i + 1) = tri i + (i + 1) := by
  have h1 := two_tri i
  have h2 := two_tri (i + 1)
  have : (i + 1) * (i + 1 + 1) = i * (i + 1) + 2 * (i + 1) := by ring
  omega

theorem pow_dvd_of_odd_mul {n : Nat} {a b : Int} (ha : Odd a) (h : (2 : Int) ^ n ∣ a * b) :
    (2 : Int) ^ n ∣ b := by
  have hc : IsCoprime ((2 : Int) ^ n) a := by
    apply IsCoprime.pow_left
    obtain ⟨k, hk⟩ := ha
    exact ⟨-k, 1, by rw [hk]; ring⟩
  exact hc.dvd_of_dvd_mul_left h

theorem tri_inj {n i j : Nat} (hi : i < 2 ^ n) (hj : j < 2 ^ n) (h : tri i % 2 ^ n = tri j % 2 ^ n) :
    i = j := by
  by_contra hne
  wlog hlt : i < j generalizing i j
  · exact this hj hi h.symm (fun e => hne e.symm) (by omega)
  have h1 : ((2 : Int) ^ n) ∣ (tri j : Int) - tri i := by
    have := (Nat.modEq_iff_dvd (n := 2 ^ n)).1 (show tri i ≡ tri j [MOD 2 ^ n] from h)
    simpa using this
  have h2 : ((2 : Int) ^ (n + 1)) ∣ ((j : Int) - i) * (i + j + 1) := by
    obtain ⟨k, hk⟩ := h1
    refine ⟨k, ?_⟩
    have e1 : (2 : Int) * tri i = i * (i + 1) := by exact_mod_cast two_tri i
    have e2 : (2 : Int) * tri j = j * (j + 1) := by exact_mod_cast two_tri j
    have : ((j : Int) - i) * (i + j + 1) = 2 * (tri j - tri i) := by
      have : (2 : Int) * (tri j - tri i) = 2 * tri j - 2 * tri i := by ring
      rw [this, e1, e2]; ring
    rw [this, hk, pow_succ]; ring
  have hbig : (2 : Nat) ^ (n + 1) = 2 * 2 ^ n := by ring
  rcases Int.even_or_odd ((j : Int) - i) with he | ho
  · have ho : Odd ((i : Int) + j + 1) := by
      obtain ⟨k, hk⟩ := he
      exact ⟨i + k, by omega⟩
    have h3 := pow_dvd_of_odd_mul ho (by rwa [mul_comm] at h2)
    have h4 : (2 : Nat) ^ (n + 1) ∣ j - i := by
      have : (((2 : Nat) ^ (n + 1) : Nat) : Int) ∣ ((j - i : Nat) : Int) := by
        rw [Nat.cast_sub (by omega)]; exact_mod_cast h3
      exact Int.natCast_dvd_natCast.1 this
    have := Nat.le_of_dvd (by omega) h4
    omega
  · have h3 := pow_dvd_of_odd_mul ho h2
    have h4 : (2 : Nat) ^ (n + 1) ∣ i + j + 1 := by
      have : (((2 : Nat) ^ (n + 1) : Nat) : Int) ∣ ((i + j + 1 : Nat) : Int) := by exact_mod_cast h3
      exact Int.natCast_dvd_natCast.1 this
    have := Nat.le_of_dvd (by omega) h4
    omega

theorem skip_tri {n i : Nat} (hn : n ≤ 31) :
    (((i * (i + 1)) % 2 ^ 32) >>> 1) &&& (2 ^ n - 1) = tri i % 2 ^ n := by
  rw [Nat.and_two_pow_sub_one_eq_mod, Nat.shiftRight_eq_div_pow, ← two_tri]
  rw [show (2 : Nat) ^ 32 = 2 * 2 ^ 31 from rfl, Nat.mul_mod_mul_left, pow_one,
    Nat.mul_div_cancel_left _ (by decide)]
  exact Nat.mod_mod_of_dvd _ (pow_dvd_pow 2 hn)

def lawful_quadratic : Lawful quadratic where
  P cap b i := (b + tri i) % cap
  zero n b h := by simpa [tri] using Nat.mod_eq_of_lt h
  lt n b i _ := Nat.mod_lt _ (Nat.two_pow_pos n)
  inj n b i j _ hi hj h := by
    have := Nat.ModEq.add_left_cancel' b (show b + tri i ≡ b + tri j [MOD 2 ^ n] from h)
    exact tri_inj hi hj this
  skip n b i hn hb hi := by
    simp only [quadratic]
    rw [skip_tri hn, Nat.add_mod, Nat.mod_eq_of_lt hb,
      add_mod_lt hb (Nat.mod_lt _ (Nat.two_pow_pos n))]
  next n b i hb hi := by
    simp only [quadratic]
    have hm := Nat.mod_lt (b + tri i) (Nat.two_pow_pos n)
    rw [tri_succ, ← Nat.add_assoc b, Nat.add_mod (b + tri i) (i + 1), Nat.mod_eq_of_lt hi,
      add_mod_lt hm hi]

end Mutable.WasmHT
