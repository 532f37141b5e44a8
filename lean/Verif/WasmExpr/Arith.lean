import Verif.WasmExpr.Spec
import Mathlib.Tactic.Linarith
import Mathlib.Tactic.NormNum

/-! Integer instructions on represented values, and conversions to the common type. -/
namespace Mutable.WX
variable {P : FP}

theorem bmod_fits {n : Nat} (hn : 0 < n) {z : Int} (h : Fits n z) : z.bmod (2 ^ n) = z := by
  obtain ⟨h1, h2⟩ := h
  have e : ((2 ^ n : Nat) : Int) = 2 * 2 ^ (n - 1) := by
    have : n = (n - 1) + 1 := by omega
    conv_lhs => rw [this]
    push_cast
    rw [Int.pow_succ]; omega
  apply Int.bmod_eq_of_le_mul_two
  · rw [e]; omega
  · rw [e]; omega

theorem toInt_fits {n : Nat} (x : BitVec n) : Fits n x.toInt := ⟨BitVec.le_toInt x, BitVec.toInt_lt⟩

theorem toInt_ofInt_fits {n : Nat} (hn : 0 < n) {z : Int} (h : Fits n z) : (BitVec.ofInt n z).toInt = z := by
  rw [BitVec.toInt_ofInt]; exact bmod_fits hn h

theorem Fits.mono {m n : Nat} (hm : m ≤ n) {z : Int} (h : Fits m z) : Fits n z := by
  have : (2 : Int) ^ (m - 1) ≤ 2 ^ (n - 1) := by
    have h1 : 2 ^ (m - 1) ≤ 2 ^ (n - 1) := Nat.pow_le_pow_right (by decide) (by omega)
    exact_mod_cast h1
  obtain ⟨h1, h2⟩ := h
  exact ⟨by omega, by omega⟩

theorem toInt_zero_iff {n : Nat} (x : BitVec n) : x = 0 ↔ x.toInt = 0 := by
  constructor
  · rintro rfl; simp
  · intro h; apply BitVec.eq_of_toInt_eq; simpa using h

theorem toInt_intMin {n : Nat} (hn : 0 < n) : (BitVec.intMin n).toInt = -2 ^ (n - 1) := by
  rw [BitVec.toInt_intMin_of_pos hn]

theorem toInt_neg_one {n : Nat} (hn : 1 < n) : (-1 : BitVec n).toInt = -1 := by
  have : (-1 : BitVec n) = BitVec.ofInt n (-1) := by
    apply BitVec.eq_of_toInt_eq
    rw [BitVec.toInt_neg, BitVec.toInt_ofInt]
    congr 1
    have h : ((1 : BitVec n)).toInt = 1 := by
      have : (1 : BitVec n) = BitVec.ofNat n 1 := rfl
      rw [this, BitVec.toInt_eq_toNat_bmod, BitVec.toNat_ofNat,
        Nat.mod_eq_of_lt (Nat.one_lt_two_pow (by omega))]
      apply bmod_fits (by omega)
      constructor
      · have : (0 : Int) < 2 ^ (n - 1) := by positivity
        push_cast; omega
      · push_cast
        have : (2 : Int) ^ 1 ≤ 2 ^ (n - 1) := by
          have : 2 ^ 1 ≤ 2 ^ (n - 1) := Nat.pow_le_pow_right (by decide) (by omega)
          exact_mod_cast this
        omega
    rw [h]
  rw [this]
  apply toInt_ofInt_fits (by omega)
  have : (2 : Int) ^ 1 ≤ 2 ^ (n - 1) := by
    have : 2 ^ 1 ≤ 2 ^ (n - 1) := Nat.pow_le_pow_right (by decide) (by omega)
    exact_mod_cast this
  constructor <;> omega

/-- Integer arithmetic that does not overflow the machine word. -/
theorem evalI_ok {n : Nat} (hn : 1 < n) {op : Arith} {x y : BitVec n} {z : Int}
    (h : intArith op x.toInt y.toInt = some z) (hz : Fits n z) :
    ∃ w, evalI (arithOp.iop op) x y = some w ∧ w.toInt = z := by
  cases op with
  | add =>
    simp only [intArith, Option.some.injEq] at h; subst h
    exact ⟨_, rfl, by rw [BitVec.toInt_add]; exact bmod_fits (by omega) hz⟩
  | sub =>
    simp only [intArith, Option.some.injEq] at h; subst h
    exact ⟨_, rfl, by rw [BitVec.toInt_sub]; exact bmod_fits (by omega) hz⟩
  | mul =>
    simp only [intArith, Option.some.injEq] at h; subst h
    exact ⟨_, rfl, by rw [BitVec.toInt_mul]; exact bmod_fits (by omega) hz⟩
  | div =>
    simp only [intArith] at h
    split at h
    · cases h
    · rename_i h0
      cases h
      have h0' : ¬ y = 0 := by rw [toInt_zero_iff]; exact h0
      have h1 : ¬ (x = BitVec.intMin n ∧ y = -1) := by
        rintro ⟨rfl, rfl⟩
        rw [toInt_intMin (by omega), toInt_neg_one hn] at hz
        have : (-2 ^ (n - 1) : Int).tdiv (-1) = 2 ^ (n - 1) := by simp
        rw [this] at hz
        exact absurd hz.2 (lt_irrefl _)
      refine ⟨x.sdiv y, ?_, ?_⟩
      · simp only [evalI, arithOp.iop, if_neg h0', if_neg h1]
      · rw [BitVec.toInt_sdiv]; exact bmod_fits (by omega) hz
  | mod =>
    simp only [intArith] at h
    split at h
    · cases h
    · rename_i h0
      cases h
      have h0' : ¬ y = 0 := by rw [toInt_zero_iff]; exact h0
      exact ⟨x.srem y, by simp only [evalI, arithOp.iop, if_neg h0'], BitVec.toInt_srem x y⟩

/-- When integer arithmetic traps. -/
theorem evalI_trap {n : Nat} (hn : 1 < n) {op : Arith} {x y : BitVec n} (h : evalI (arithOp.iop op) x y = none) :
    (op = .div ∧ (y.toInt = 0 ∨ y.toInt = -1)) ∨ (op = .mod ∧ y.toInt = 0) := by
  cases op with
  | add => simp [evalI, arithOp.iop] at h
  | sub => simp [evalI, arithOp.iop] at h
  | mul => simp [evalI, arithOp.iop] at h
  | div =>
    left
    refine ⟨rfl, ?_⟩
    simp only [evalI, arithOp.iop] at h
    split at h
    · rename_i h0; left; exact (toInt_zero_iff y).1 h0
    · split at h
      · rename_i h1; right; rw [h1.2]; exact toInt_neg_one hn
      · cases h
  | mod =>
    right
    refine ⟨rfl, ?_⟩
    simp only [evalI, arithOp.iop] at h
    split at h
    · rename_i h0; exact (toInt_zero_iff y).1 h0
    · cases h

theorem cmpBV_ok {n : Nat} (c : Cmp) (x y : BitVec n) : cmpBV c x y = intCmp c x.toInt y.toInt := by
  cases c with
  | lt => rfl
  | gt => rfl
  | le => rfl
  | ge => rfl
  | eq =>
    simp only [cmpBV, intCmp]
    rw [Bool.eq_iff_iff]; simp [BitVec.toInt_inj]
  | ne =>
    simp only [cmpBV, intCmp]
    rw [Bool.eq_iff_iff]; simp [BitVec.toInt_inj]

theorem xor_neg_one {n : Nat} (hn : 1 < n) (x : BitVec n) : ((-1 : BitVec n) ^^^ x).toInt = -x.toInt - 1 := by
  have h1 : (-1 : BitVec n) = BitVec.allOnes n := by
    apply BitVec.eq_of_toInt_eq
    rw [toInt_neg_one hn, BitVec.toInt_allOnes, if_pos (by omega)]
  have h2 : (-1 : BitVec n) ^^^ x = ~~~x := by
    rw [h1, BitVec.allOnes_xor]
  rw [h2, BitVec.toInt_not]
  have hf : Fits n (-x.toInt - 1) := by
    obtain ⟨a, b⟩ := toInt_fits x
    exact ⟨by omega, by omega⟩
  have hnat : (x.toNat : Int).bmod (2 ^ n) = x.toInt := by
    rw [BitVec.toInt_eq_toNat_bmod]
  have : (2 ^ n - 1 - (x.toNat : Int)).bmod (2 ^ n) = (-x.toInt - 1).bmod (2 ^ n) := by
    rw [← hnat]
    have e1 : (2 ^ n - 1 - (x.toNat : Int)) = (-1 - x.toNat) + ((2 ^ n : Nat) : Int) := by push_cast; ring
    rw [e1, Int.add_bmod_right]
    have e2 : (-(x.toNat : Int).bmod (2 ^ n) - 1) = -1 - (x.toNat : Int).bmod (2 ^ n) := by ring
    rw [e2, Int.sub_bmod_bmod]
  rw [this]
  exact bmod_fits (by omega) hf

theorem zero_sub_ok {n : Nat} (hn : 1 < n) (x : BitVec n) (h : Fits n (-x.toInt)) :
    ((0 : BitVec n) - x).toInt = -x.toInt := by
  rw [BitVec.toInt_sub]
  have : (0 : BitVec n).toInt = 0 := by simp
  rw [this, Int.zero_sub]
  exact bmod_fits (by omega) h

end Mutable.WX
