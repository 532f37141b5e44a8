import Verif.StoreManip.Model
import Mathlib.Tactic.Ring
/-! # Lemmas: the NULL bitmap -/
namespace Mutable.StoreManip

/-- Bit `i` of the memory, least significant bit of a byte first. -/
def bit (m : Bytes) (i : ℕ) : Bool := (m (i / 8)).getLsbD (i % 8)

theorem endMask : ∀ c, c < 8 → 0 < c → ∀ t, t < 8 → ((BitVec.setWidth 8 ((1#32 <<< c) - 1#32)).getLsbD t) = decide (t < c) := by
  decide

theorem beginMask4 : ∀ t, t < 8 → ((BitVec.setWidth 8 (~~~ ((1#32 <<< (8 - 4)) - 1#32))).getLsbD t) = decide (4 ≤ t) := by
  decide

theorem setAllNull_eq {m : Bytes} {k b e : ℕ} (h : b < e) (hne : k * b / 8 ≠ k * e / 8) (hb : k * b % 8 = 0 ∨ k * b % 8 = 4) :
    ∃ m', setAllNull m k b e = .ok m' ∧ ∀ i, bit m' i = if k * b ≤ i ∧ i < k * e then true else bit m i := by
  have hBE : k * b ≤ k * e := Nat.mul_le_mul_left k h.le
  unfold setAllNull
  rw [if_neg (by omega)]
  simp only
  rw [if_neg hne]
  refine ⟨_, rfl, fun i => ?_⟩
  generalize k * b = B at *
  generalize k * e = E at *
  have hi := Nat.mod_lt i (show 0 < 8 by omega)
  have hdiv := Nat.div_add_mod i 8
  unfold bit Bytes.memset
  have e255 : ∀ t, t < 8 → (BitVec.ofNat 8 255).getLsbD t = true := by decide
  have em := endMask (E % 8)
  rcases hb with hb | hb
  · simp only [hb, ne_eq, not_true_eq_false, if_false]
    by_cases h1 : B / 8 ≤ i / 8 ∧ i / 8 < B / 8 + (E / 8 - B / 8)
    · rw [if_pos h1, e255 _ hi, if_pos (by omega)]
    · rw [if_neg h1]
      by_cases h2 : E % 8 = 0
      · simp only [h2, not_true_eq_false, if_false]
        rw [if_neg (by omega)]
      · simp only [h2, not_false_eq_true, if_true, Bytes.write]
        by_cases h3 : i / 8 = E / 8
        · rw [if_pos h3, BitVec.getLsbD_or, em (by omega) (by omega) _ hi, h3]
          by_cases h4 : i % 8 < E % 8
          · rw [if_pos (by omega)]; simp [h4]
          · rw [if_neg (by omega)]; simp [h4]
        · rw [if_neg h3, if_neg (by omega)]
  · simp only [hb, ne_eq, show ¬ (4 = 0) by omega, not_false_eq_true, if_true]
    by_cases h1 : B / 8 + 1 ≤ i / 8 ∧ i / 8 < B / 8 + 1 + (E / 8 - (B / 8 + 1))
    · rw [if_pos h1, e255 _ hi, if_pos (by omega)]
    · rw [if_neg h1]
      have key : (m.write (B / 8) (m (B / 8) ||| BitVec.setWidth 8 (~~~ ((1#32 <<< (8 - 4)) - 1#32))) (i / 8)).getLsbD (i % 8) =
          if i / 8 = B / 8 ∧ 4 ≤ i % 8 then true else (m (i / 8)).getLsbD (i % 8) := by
        unfold Bytes.write
        by_cases h5 : i / 8 = B / 8
        · rw [if_pos h5, BitVec.getLsbD_or, beginMask4 _ hi, h5]
          by_cases h6 : 4 ≤ i % 8 <;> simp [h6]
        · rw [if_neg h5, if_neg (by omega)]
      by_cases h2 : E % 8 = 0
      · simp only [h2, not_true_eq_false, if_false]
        rw [key]
        by_cases h7 : i / 8 = B / 8 ∧ 4 ≤ i % 8
        · rw [if_pos h7, if_pos (by omega)]
        · rw [if_neg h7, if_neg (by omega)]
      · simp only [h2, not_false_eq_true, if_true]
        conv_lhs => unfold Bytes.write
        by_cases h3 : i / 8 = E / 8
        · simp only [h3, if_true]
          rw [BitVec.getLsbD_or, em (by omega) (by omega) _ hi, if_neg (by omega)]
          by_cases h4 : i % 8 < E % 8
          · rw [if_pos (by omega)]; simp [h4]
          · rw [if_neg (by omega)]; simp [h4]
        · rw [if_neg h3]
          have key' := key
          unfold Bytes.write at key'
          rw [key']
          by_cases h7 : i / 8 = B / 8 ∧ 4 ≤ i % 8
          · rw [if_pos h7, if_pos (by omega)]
          · rw [if_neg h7, if_neg (by omega)]

theorem endMask4 : ∀ t, t < 8 → ((BitVec.setWidth 8 (~~~ ((1#32 <<< (8 - 4)) - 1#32))).getLsbD t) = decide (4 ≤ t) := by
  decide

theorem setAllNotNull_eq {m : Bytes} {k b e : ℕ} (h : b < e) (hne : k * b / 8 ≠ k * e / 8) (hb : k * e % 8 = 0 ∨ k * e % 8 = 4) :
    ∃ m', setAllNotNull m k b e = .ok m' ∧ ∀ i, bit m' i = if k * b ≤ i ∧ i < k * e then false else bit m i := by
  have hBE : k * b ≤ k * e := Nat.mul_le_mul_left k h.le
  unfold setAllNotNull
  rw [if_neg (by omega)]
  simp only
  rw [if_neg hne]
  refine ⟨_, rfl, fun i => ?_⟩
  generalize k * b = B at *
  generalize k * e = E at *
  have hi := Nat.mod_lt i (show 0 < 8 by omega)
  have hdiv := Nat.div_add_mod i 8
  unfold bit Bytes.memset
  have e0 : ∀ t, (BitVec.ofNat 8 0).getLsbD t = false := by simp
  have bm := endMask (B % 8)
  -- the memory after the first write
  have key : ((if B % 8 ≠ 0 then m.write (B / 8) (m (B / 8) &&& BitVec.setWidth 8 ((1#32 <<< (B % 8)) - 1#32)) else m)
      (i / 8)).getLsbD (i % 8) = if i / 8 = B / 8 ∧ B % 8 ≠ 0 ∧ B % 8 ≤ i % 8 then false else (m (i / 8)).getLsbD (i % 8) := by
    by_cases h1 : B % 8 = 0
    · simp [h1]
    · rw [if_pos h1]
      unfold Bytes.write
      by_cases h5 : i / 8 = B / 8
      · rw [if_pos h5, BitVec.getLsbD_and, bm (by omega) (by omega) _ hi, h5]
        by_cases h6 : B % 8 ≤ i % 8
        · rw [if_pos ⟨rfl, h1, h6⟩]; simp; omega
        · rw [if_neg (by omega)]; simp; omega
      · rw [if_neg h5, if_neg (by omega)]
  generalize hm1 : (if B % 8 ≠ 0 then m.write (B / 8) (m (B / 8) &&& BitVec.setWidth 8 ((1#32 <<< (B % 8)) - 1#32)) else m) = m1 at *
  have key2 : ((if E % 8 ≠ 0 then m1.write (E / 8) (m1 (E / 8) &&& BitVec.setWidth 8 (~~~ ((1#32 <<< (8 - E % 8)) - 1#32))) else m1)
      (i / 8)).getLsbD (i % 8) = if i / 8 = E / 8 ∧ i % 8 < E % 8 then false else (m1 (i / 8)).getLsbD (i % 8) := by
    rcases hb with hb | hb
    · simp [hb]
    · rw [if_pos (by omega), hb]
      unfold Bytes.write
      by_cases h5 : i / 8 = E / 8
      · rw [if_pos h5, BitVec.getLsbD_and, endMask4 _ hi, h5]
        by_cases h6 : 4 ≤ i % 8
        · rw [if_neg (by omega)]; simp [h6]
        · rw [if_pos (by omega)]; simp [h6]
      · rw [if_neg h5, if_neg (by omega)]
  generalize (if E % 8 ≠ 0 then m1.write (E / 8) (m1 (E / 8) &&& BitVec.setWidth 8 (~~~ ((1#32 <<< (8 - E % 8)) - 1#32))) else m1) = m2 at *
  generalize hb' : (if B % 8 ≠ 0 then B / 8 + 1 else B / 8) = B' at *
  have hB' : (B % 8 ≠ 0 ∧ B' = B / 8 + 1) ∨ (B % 8 = 0 ∧ B' = B / 8) := by
    by_cases h1 : B % 8 = 0
    · simp only [h1, ne_eq, not_true_eq_false, if_false] at hb'; omega
    · simp only [h1, ne_eq, not_false_eq_true, if_true] at hb'; omega
  by_cases h1 : B' ≤ i / 8 ∧ i / 8 < B' + (E / 8 - B')
  · rw [if_pos h1, e0, if_pos (by omega)]
  · rw [if_neg h1, key2]
    by_cases h2 : i / 8 = E / 8 ∧ i % 8 < E % 8
    · rw [if_pos h2, if_pos (by omega)]
    · rw [if_neg h2, key]
      by_cases h3 : i / 8 = B / 8 ∧ B % 8 ≠ 0 ∧ B % 8 ≤ i % 8
      · rw [if_pos h3, if_pos (by omega)]
      · rw [if_neg h3, if_neg (by omega)]

/-- The byte at the beginning of the range, when it is partly covered. -/
theorem setAllNull_first {m : Bytes} {k b e : ℕ} (h : b < e) (hne : k * b / 8 ≠ k * e / 8) (hb : k * b % 8 ≠ 0) :
    ∃ m', setAllNull m k b e = .ok m' ∧
      m' (k * b / 8) = m (k * b / 8) ||| BitVec.setWidth 8 (~~~ ((1#32 <<< (8 - k * b % 8)) - 1#32)) := by
  unfold setAllNull
  rw [if_neg (by omega)]
  simp only
  rw [if_neg hne]
  refine ⟨_, rfl, ?_⟩
  unfold Bytes.memset
  rw [if_neg (by rw [if_pos hb]; omega)]
  split_ifs
  · simp only [Bytes.write]; rw [if_neg hne]; simp
  · simp only [Bytes.write]; simp

/-- The byte at the end of the range, when it is partly covered. -/
theorem setAllNotNull_last {m : Bytes} {k b e : ℕ} (h : b < e) (hne : k * b / 8 ≠ k * e / 8) (he : k * e % 8 ≠ 0) :
    ∃ m', setAllNotNull m k b e = .ok m' ∧
      m' (k * e / 8) = m (k * e / 8) &&& BitVec.setWidth 8 (~~~ ((1#32 <<< (8 - k * e % 8)) - 1#32)) := by
  have hBE : k * b / 8 ≤ k * e / 8 := Nat.div_le_div_right (Nat.mul_le_mul_left k h.le)
  unfold setAllNotNull
  rw [if_neg (by omega)]
  simp only
  rw [if_neg hne]
  refine ⟨_, rfl, ?_⟩
  unfold Bytes.memset
  rw [if_neg (by split_ifs <;> omega), if_pos he]
  simp only [Bytes.write]
  simp only [if_true]
  split_ifs with h1
  · rw [show m.write (k * b / 8) (m (k * b / 8) &&& BitVec.setWidth 8 ((1#32 <<< (k * b % 8)) - 1#32)) (k * e / 8) = m (k * e / 8)
      from if_neg (Ne.symm hne)]
  · rfl

theorem badBegin : ∀ c, c < 8 → c ≠ 0 → c ≠ 4 → ∃ t, t < 8 ∧
    (0#8 ||| BitVec.setWidth 8 (~~~ ((1#32 <<< (8 - c)) - 1#32))).getLsbD t ≠ decide (c ≤ t) := by
  decide

theorem badEnd : ∀ c, c < 8 → c ≠ 0 → c ≠ 4 → ∃ t, t < 8 ∧
    (255#8 &&& BitVec.setWidth 8 (~~~ ((1#32 <<< (8 - c)) - 1#32))).getLsbD t ≠ decide (c ≤ t) := by
  decide

end Mutable.StoreManip
