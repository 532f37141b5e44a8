import Verif.Calendar.Model
import Mathlib.Tactic.Ring

namespace Mutable.Calendar

/-- All characters are digits. -/
def Digits (s : Str) : Prop := ∀ c ∈ s, c.isDigit = true

theorem digits_toDigits (n : Nat) : Digits (Nat.toDigits 10 n) :=
  fun _ hc => Nat.isDigit_of_mem_toDigits (by decide) (by decide) hc

theorem digits_pad (k n : Nat) : Digits (List.replicate k '0' ++ Nat.toDigits 10 n) := by
  intro c hc
  rcases List.mem_append.1 hc with h | h
  · rw [(List.mem_replicate.1 h).2]; rfl
  · exact digits_toDigits n c h

theorem ofDigitChars_pad (k n : Nat) : Nat.ofDigitChars 10 (List.replicate k '0' ++ Nat.toDigits 10 n) 0 = n := by
  induction k with
  | zero => simp [Nat.ofDigitChars_ten_toDigits]
  | succ k ih => rw [List.replicate_succ, List.cons_append, Nat.ofDigitChars_cons]; simpa using ih

/-- No digit follows. -/
def Stops (s : Str) : Prop := ∀ c ∈ s.head?, c.isDigit = false

theorem takeWhile_stop {w r : Str} (hw : Digits w) (hr : Stops r) :
    (w ++ r).takeWhile Char.isDigit = w ∧ (w ++ r).dropWhile Char.isDigit = r := by
  induction w with
  | nil =>
    cases r with
    | nil => exact ⟨rfl, rfl⟩
    | cons c r => have := hr c rfl; simp [this]
  | cons c w ih =>
    have h := hw c (by simp)
    have := ih (fun x hx => hw x (by simp [hx]))
    simp [h, this]

theorem readDigits_pad {k n : Nat} {r : Str} (hr : Stops r) :
    readDigits (List.replicate k '0' ++ Nat.toDigits 10 n ++ r) = some (n, r) := by
  have ⟨h1, h2⟩ := takeWhile_stop (digits_pad k n) hr
  unfold readDigits
  rw [h1, h2]
  split
  · rename_i h; exact absurd (List.append_eq_nil_iff.1 h).2 Nat.toDigits_ne_nil
  · rw [ofDigitChars_pad]

theorem pad_head (k n : Nat) (r : Str) : ∃ c t, List.replicate k '0' ++ Nat.toDigits 10 n ++ r = c :: t ∧ c.isDigit = true := by
  cases h : List.replicate k '0' ++ Nat.toDigits 10 n with
  | nil => exact absurd (List.append_eq_nil_iff.1 h).2 Nat.toDigits_ne_nil
  | cons c t => exact ⟨c, t ++ r, by simp, digits_pad k n c (by rw [h]; simp)⟩

theorem readInt_setw {w : Nat} {v : Int} {r : Str} (hr : Stops r) : readInt (setwInternal w v ++ r) = some (v, r) := by
  unfold setwInternal
  split
  · rename_i h
    have : ('-' :: (List.replicate (w - 1 - (Nat.toDigits 10 v.natAbs).length) '0' ++ Nat.toDigits 10 v.natAbs) ++ r)
        = '-' :: (List.replicate (w - 1 - (Nat.toDigits 10 v.natAbs).length) '0' ++ Nat.toDigits 10 v.natAbs ++ r) := rfl
    rw [this]
    unfold readInt
    simp only [List.dropWhile_cons, show ('-' == ' ') = false from rfl, Bool.false_eq_true, if_false]
    rw [readDigits_pad hr]
    simp; omega
  · rename_i h
    obtain ⟨c, t, e, hc⟩ := pad_head (w - (Nat.toDigits 10 v.natAbs).length) v.natAbs r
    have h1 : c ≠ ' ' := by rintro rfl; simp at hc
    have h2 : c ≠ '-' := by rintro rfl; simp at hc
    have h3 : c ≠ '+' := by rintro rfl; simp at hc
    have h4 := readDigits_pad (k := w - (Nat.toDigits 10 v.natAbs).length) (n := v.natAbs) hr
    rw [e] at h4 ⊢
    unfold readInt
    have : (c == ' ') = false := by simpa using h1
    simp only [List.dropWhile_cons, this, Bool.false_eq_true, if_false]
    split
    · rename_i h; simp at h; exact absurd h.1 h2
    · rename_i h; simp at h; exact absurd h.1 h3
    · rw [h4]; simp; omega

/-- An explicit sign before a positive number. -/
theorem readInt_neg_setw {w : Nat} {v : Int} {r : Str} (hv : 0 ≤ v) (hr : Stops r) :
    readInt ('-' :: setwInternal w v ++ r) = some (-v, r) := by
  unfold setwInternal
  rw [if_neg (by omega)]
  unfold readInt
  simp only [List.cons_append, List.dropWhile_cons, show ('-' == ' ') = false from rfl, Bool.false_eq_true, if_false]
  rw [readDigits_pad hr]
  simp; omega

theorem expect_cons (c : Char) (s : Str) : expect c (c :: s) = some s := by simp [expect]

theorem stops_cons {c : Char} {s : Str} (h : c.isDigit = false) : Stops (c :: s) := by
  intro x hx; simp at hx; exact hx ▸ h

theorem stops_nil : Stops [] := by intro x hx; simp at hx

theorem ofDigitChars_lt {w : Str} (hw : Digits w) : Nat.ofDigitChars 10 w 0 < 10 ^ w.length := by
  have key : ∀ (w : Str) (a : Nat), Digits w → Nat.ofDigitChars 10 w a < (a + 1) * 10 ^ w.length := by
    intro w
    induction w with
    | nil => intro a _; simp
    | cons c w ih =>
      intro a h
      have hc := h c (by simp)
      have : c.toNat - '0'.toNat ≤ 9 := by
        unfold Char.isDigit at hc
        simp only [Bool.and_eq_true, decide_eq_true_eq] at hc
        have h2 : c.val.toNat ≤ '9'.val.toNat := UInt32.le_iff_toNat_le.1 hc.2
        have h3 : '9'.val.toNat = 57 := rfl
        have h4 : '0'.toNat = 48 := rfl
        have h5 : c.toNat = c.val.toNat := rfl
        omega
      rw [Nat.ofDigitChars_cons]
      refine Nat.lt_of_lt_of_le (ih _ (fun x hx => h x (by simp [hx]))) ?_
      rw [List.length_cons, pow_succ, mul_comm (10 ^ w.length) 10, ← mul_assoc]
      exact Nat.mul_le_mul_right _ (by omega)
  simpa using key w 0 hw

/-! ### The encoding -/

theorem year_eq (d : BitVec 32) : year d = d.toInt / 512 := by
  unfold year; rw [BitVec.toInt_sshiftRight, Int.shiftRight_eq_div_pow]; rfl

theorem day_eq (d : BitVec 32) : day d = (d.toNat % 32 : Nat) := by
  unfold day
  have : (d &&& 0x1F#32).toNat = d.toNat % 32 := by
    rw [BitVec.toNat_and]; exact Nat.and_two_pow_sub_one_eq_mod d.toNat 5
  rw [BitVec.toInt_eq_toNat_cond, this]
  split <;> omega

theorem month_eq (d : BitVec 32) : month d = (d.toNat / 32 % 16 : Nat) := by
  unfold month
  have h1 : ((d.sshiftRight 5) &&& 0xF#32).toNat = (d.sshiftRight 5).toNat % 16 := by
    rw [BitVec.toNat_and]; exact Nat.and_two_pow_sub_one_eq_mod _ 4
  have h2 : (d.sshiftRight 5).toInt = d.toInt / 32 := by
    rw [BitVec.toInt_sshiftRight, Int.shiftRight_eq_div_pow]; rfl
  rw [BitVec.toInt_eq_toNat_cond] at h2
  rw [BitVec.toInt_eq_toNat_cond] at h2
  rw [BitVec.toInt_eq_toNat_cond, h1]
  have := d.isLt
  have := (d.sshiftRight 5).isLt
  split at h2 <;> split at h2 <;> split <;> omega

theorem encode_toNat {y m d : Int} (hm : 0 ≤ m ∧ m < 16) (hd : 0 ≤ d ∧ d < 32) :
    ((encodeDate y m d).toNat : Int) = y % 2 ^ 23 * 512 + m * 32 + d := by
  unfold encodeDate
  rw [BitVec.toNat_or, BitVec.toNat_or, BitVec.toNat_shiftLeft, BitVec.toNat_shiftLeft]
  obtain ⟨m, rfl⟩ := Int.eq_ofNat_of_zero_le hm.1
  obtain ⟨d, rfl⟩ := Int.eq_ofNat_of_zero_le hd.1
  have e1 : (BitVec.ofInt 32 (m : Int)).toNat = m := by simp [BitVec.toNat_ofInt]; omega
  have e2 : (BitVec.ofInt 32 (d : Int)).toNat = d := by simp [BitVec.toNat_ofInt]; omega
  have e3 : (((BitVec.ofInt 32 y).toNat : Nat) : Int) = y % 2 ^ 32 := by simp [BitVec.toNat_ofInt]; omega
  rw [e1, e2]
  generalize (BitVec.ofInt 32 y).toNat = Y at *
  have s1 : Y <<< 9 % 2 ^ 32 = (Y % 2 ^ 23) <<< 9 := by simp only [Nat.shiftLeft_eq]; omega
  have s2 : m <<< 5 % 2 ^ 32 = m <<< 5 := by simp only [Nat.shiftLeft_eq]; omega
  rw [s1, s2]
  rw [← Nat.shiftLeft_add_eq_or_of_lt (b := m <<< 5) (i := 9) (by simp only [Nat.shiftLeft_eq]; omega)]
  have : (Y % 2 ^ 23) <<< 9 + m <<< 5 = ((Y % 2 ^ 23) * 16 + m) <<< 5 := by simp only [Nat.shiftLeft_eq]; omega
  rw [this, ← Nat.shiftLeft_add_eq_or_of_lt (by omega)]
  simp only [Nat.shiftLeft_eq]
  omega

end Mutable.Calendar
