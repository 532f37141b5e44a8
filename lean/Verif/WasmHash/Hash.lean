import Verif.WasmHash.Model
import Verif.WasmStr.Concat
import Mathlib.Tactic.NormNum

/-! # Hash functions: injectivity of the bit mix, dependence on the value only -/

namespace Mutable.WHash
open WStr

/-! ## Bit mix -/

theorem shr_xor (x : U64) (s : Nat) : (x ^^^ (x >>> s)) >>> s = (x >>> s) ^^^ (x >>> (s + s)) := by
  rw [BitVec.ushiftRight_xor_distrib, BitVec.shiftRight_add]

theorem shr_big (x : U64) {s : Nat} (h : 64 ≤ s) : x >>> s = 0 := by
  apply BitVec.eq_of_toNat_eq
  rw [BitVec.toNat_ushiftRight, Nat.shiftRight_eq_div_pow]
  show _ = 0
  apply Nat.div_eq_of_lt
  exact lt_of_lt_of_le x.isLt (Nat.pow_le_pow_right (by decide) h)

theorem xorshift_inj {s : Nat} (hs : 64 ≤ 3 * s) {x y : U64} (h : x ^^^ (x >>> s) = y ^^^ (y >>> s)) : x = y := by
  have key : ∀ x : U64, x = (x ^^^ (x >>> s)) ^^^ ((x ^^^ (x >>> s)) >>> s) ^^^ ((x ^^^ (x >>> s)) >>> (s + s)) := by
    intro x
    have e1 := shr_xor x s
    have e2 : (x ^^^ (x >>> s)) >>> (s + s) = x >>> (s + s) := by
      rw [BitVec.ushiftRight_xor_distrib, ← BitVec.shiftRight_add, shr_big x (s := s + (s + s)) (by omega)]
      simp
    rw [e1, e2]
    generalize x >>> s = a
    generalize x >>> (s + s) = b
    apply BitVec.eq_of_getLsbD_eq
    intro i _
    simp only [BitVec.getLsbD_xor]
    cases x.getLsbD i <;> cases a.getLsbD i <;> cases b.getLsbD i <;> rfl
  rw [key x, key y, h]

theorem mul_inj {c d : U64} (hcd : c * d = 1) {x y : U64} (h : x * c = y * c) : x = y := by
  have : x * c * d = y * c * d := by rw [h]
  rw [BitVec.mul_assoc, BitVec.mul_assoc, hcd] at this
  exact (BitVec.mul_one x).symm.trans (this.trans (BitVec.mul_one y))

theorem bitMix_inj {x y : U64} (h : bitMix x = bitMix y) : x = y := by
  unfold bitMix at h
  simp only at h
  have h := xorshift_inj (s := 33) (by norm_num) h
  have h := mul_inj (d := 0x4d6dff26c61d8485#64) (by decide +kernel) h
  have h := xorshift_inj (s := 27) (by norm_num) h
  have h := mul_inj (d := 0x4c5ff4596f4a2f4d#64) (by decide +kernel) h
  exact xorshift_inj (s := 31) (by norm_num) h

/-! ## Strings -/

/-- The bytes behind the first NUL are NUL, too, within the length of the type. -/
def Padded (s : NChar) : Prop := ∀ i j, i ≤ j → j < s.length → s.mem i = 0 → s.mem j = 0

theorem mem_of_val {s r : NChar} (hv : s.val = r.val) {i : Nat} (hi : i < s.val.length) : s.mem i = r.mem i := by
  have h2 : i < r.val.length := by rw [← hv]; exact hi
  rw [← (val_get s hi).1, ← (val_get r h2).1]
  simp only [hv]

theorem padded_eq {s r : NChar} (hl : s.length = r.length) (hv : s.val = r.val) (hs : Padded s) (hr : Padded r) :
    ∀ i, i < s.length → s.mem i = r.mem i := by
  intro i hi
  by_cases h : i < s.val.length
  · exact mem_of_val hv h
  · have a : s.mem s.val.length = 0 := by
      rcases val_end s with h' | h'
      · omega
      · exact h'
    have b : r.mem s.val.length = 0 := by
      rcases val_end r with h' | h'
      · rw [hv] at h; omega
      · rw [hv]; exact h'
    rw [hs _ i (by omega) hi a, hr _ i (by omega) (by omega) b]

theorem packStr_congr {m m' : Nat → Int} : ∀ (n i : Nat) (h : U64), (∀ j, i ≤ j → j < i + n → m j = m' j) →
    packStr m n i h = packStr m' n i h
  | 0, _, _, _ => rfl
  | n + 1, i, h, hm => by
    rw [packStr, packStr, hm i (by omega) (by omega)]
    exact packStr_congr n (i + 1) _ fun j h1 h2 => hm j (by omega) (by omega)

/-- The hash of a long string, as a function of its characters. -/
def fnvList (h : U64) (l : List Int) : U64 :=
  l.foldl (fun h c => (h ^^^ (BitVec.ofInt 8 c).setWidth 64) * 0x100000001b3#64) h

theorem fnvLoop_eq (m : Nat → Int) : ∀ (n i : Nat) (h : U64),
    fnvLoop m n i h = fnvList h (((List.range' i n).map m).takeWhile (· ≠ 0))
  | 0, _, _ => rfl
  | n + 1, i, h => by
    rw [fnvLoop, List.range'_succ, List.map_cons]
    by_cases h0 : m i = 0
    · rw [if_pos h0, List.takeWhile_cons_of_neg (by simp [h0])]; rfl
    · rw [if_neg h0, List.takeWhile_cons_of_pos (by simp [h0]), fnvLoop_eq m n]; rfl

theorem fnv1a_eq (s : NChar) : fnv1a s.mem s.length = fnvList 0xcbf29ce484222325#64 s.val := by
  unfold fnv1a NChar.val
  rw [fnvLoop_eq, List.range_eq_range']

theorem strHash_eq {s r : NChar} (hl : s.length = r.length) (hv : s.val = r.val)
    (hp : s.length ≤ 8 → Padded s ∧ Padded r) : strHash s.length (some s) = strHash s.length (some r) := by
  unfold strHash
  simp only
  by_cases h8 : s.length ≤ 8
  · rw [if_pos h8, if_pos h8]
    obtain ⟨p1, p2⟩ := hp h8
    rw [packStr_congr _ 0 0 fun j _ h => padded_eq hl hv p1 p2 j (by omega)]
  · rw [if_neg h8, if_neg h8, fnv1a_eq, hl, fnv1a_eq, hv]

/-! ## Comparison of strings of the same type -/

theorem cmp_zero {a b : List Int} {x : Int} (h : IsCmp a b x) : x = 0 ↔ a = b := by
  rcases h with ⟨rfl, h⟩ | ⟨rfl, h⟩ | ⟨rfl, h⟩
  · constructor
    · intro h; cases h
    · rintro rfl; exact absurd h (List.lt_irrefl _)
  · simp [h]
  · constructor
    · intro h; cases h
    · rintro rfl; exact absurd h (List.lt_irrefl _)

theorem strncmp_eq (cache : Cache) (l r : NChar) (hl : l.length = r.length) (fuel : Nat) (hf : l.length + r.length + 2 ≤ fuel) :
    ((strncmp fuel cache l r l.length false).1 == some 0) = decide (l.val = r.val) := by
  have fin : ∀ x, (strncmp fuel cache l r l.length false).1 = some x → (x = 0 ↔ l.val = r.val) →
      ((strncmp fuel cache l r l.length false).1 == some 0) = decide (l.val = r.val) := by
    intro x h1 h2
    rw [h1, Bool.eq_iff_iff]
    simp [h2]
  by_cases h1 : l.length = 1 ∧ r.length = 1
  · refine fin (sgn (l.mem 0) (r.mem 0)) (by unfold strncmp; rw [if_pos h1]) ?_
    rw [cmp_zero (cmp_one h1.1 h1.2)]
    simp
  · by_cases h2 : (l.varying && r.varying && !false) = true
    · obtain ⟨x, x1, x2⟩ := nul_equal_length l r l.length (by rw [hl])
      refine fin x (by unfold strncmp; rw [if_neg h1, if_pos h2]; exact x1 fuel (by omega)) ?_
      rw [cmp_zero x2, List.take_of_length_le (val_len l), List.take_of_length_le (by rw [hl]; exact val_len r)]
      simp
    · have h3 : (strncmp fuel cache l r l.length false).1 = strncmpNoNul fuel l r l.length (cache.getD false) := by
        unfold strncmp; rw [if_neg h1, if_neg h2]
      cases hd : cache.getD false with
      | false =>
        obtain ⟨x, x1, x2⟩ := noNul_forward l r l.length
        refine fin x (by rw [h3, hd]; exact x1 fuel hf) ?_
        rw [cmp_zero x2, List.take_of_length_le (val_len l), List.take_of_length_le (by rw [hl]; exact val_len r)]
        simp
      | true =>
        obtain ⟨x, x1, x2⟩ := noNul_backward l r l.length
        refine fin x (by rw [h3, hd]; exact x1 fuel hf) ?_
        rw [cmp_zero x2, List.take_of_length_le (val_len l), List.take_of_length_le (by rw [hl]; exact val_len r)]
        simp

/-! ## Copying -/

/-- What the copying loop leaves behind: the string, a NUL byte if there is room, and then the bytes which were there before. -/
theorem strncpy_full (fuel : Nat) (out : Nat → Int) (s : NChar) (hf : s.length + 2 ≤ fuel) :
    ∃ d, strncpy fuel out 0 s.mem s.length = some (fun i =>
      if i < s.val.length then s.mem i else if i = s.val.length ∧ i < s.length then 0 else out i, d) := by
  obtain ⟨x, h1, h2, h3⟩ := loopW_spec (cond := fun (t : CpySt) => !t.done && decide (t.src ≠ s.length)) (body := cpyBody s.mem)
    (fun t => t.src ≤ s.val.length ∧ t.dst = t.src ∧ (∀ i, i < t.src → t.out i = s.mem i) ∧
      (∀ i, t.src < i → t.out i = out i) ∧ (t.done = false → t.out t.src = out t.src) ∧
      (t.done = true → t.src = s.val.length ∧ t.src < s.length ∧ t.out t.src = 0))
    (fun t => (if t.done then 0 else 1) + (s.length - t.src)) (by
      rintro ⟨d, c, o, dn⟩ ⟨i1, i2, i3, i4, i5, i6⟩ hc
      simp only [Bool.and_eq_true, Bool.not_eq_true', decide_eq_true_eq] at hc
      obtain ⟨hd, hne⟩ := hc
      dsimp only at i1 i2 i3 i4 i5 hd hne ⊢
      subst hd i2
      have := val_len s
      unfold cpyBody
      by_cases h0 : s.mem d = 0
      · have hcv : d = s.val.length := by
          by_contra hn
          exact (val_get s (i := d) (by omega)).2 h0
        simp only [h0, if_true]
        refine ⟨⟨by omega, trivial, fun i hi => ?_, fun i hi => ?_, by simp, fun _ => ⟨hcv, by omega, trivial⟩⟩, ?_⟩
        · rw [if_neg (by omega)]; exact i3 i hi
        · rw [if_neg (by omega)]; exact i4 i hi
        · simp
      · have hcv : d < s.val.length := by
          rcases Nat.lt_or_eq_of_le i1 with h | h
          · exact h
          · rcases val_end s with h' | h'
            · omega
            · rw [← h] at h'; exact absurd h' h0
        simp only [h0, if_false]
        refine ⟨⟨by omega, trivial, fun i hi => ?_, fun i hi => ?_, fun _ => ?_, by simp⟩, ?_⟩
        · by_cases hi' : i = d
          · subst hi'; simp
          · rw [if_neg (by omega)]; exact i3 i (by omega)
        · rw [if_neg (by omega)]; exact i4 i (by omega)
        · rw [if_neg (by omega)]; exact i4 _ (by omega)
        · simp only [Bool.false_eq_true, if_false]; omega)
    ⟨0, 0, out, false⟩ ⟨Nat.zero_le _, rfl, fun _ h => absurd h (by simp), fun _ _ => rfl, fun _ => rfl, by simp⟩
  obtain ⟨i1, i2, i3, i4, i5, i6⟩ := h2
  have hv := val_len s
  have hsrc : x.src = s.val.length := by
    by_cases hd : x.done = true
    · exact (i6 hd).1
    · simp [hd] at h3; omega
  refine ⟨x.dst, ?_⟩
  unfold strncpy
  rw [h1 fuel (by simp only [Bool.false_eq_true, if_false]; omega)]
  simp only [Option.map_some, Option.some.injEq, Prod.mk.injEq, and_true]
  funext i
  by_cases a : i < s.val.length
  · rw [if_pos a]; exact i3 i (by omega)
  · rw [if_neg a]
    by_cases hd : x.done = true
    · obtain ⟨-, b, e⟩ := i6 hd
      by_cases hi : i = s.val.length
      · rw [if_pos ⟨hi, by omega⟩, hi, ← hsrc]; exact e
      · rw [if_neg (by omega)]; exact i4 i (by omega)
    · have hlen : x.src = s.length := by simpa [hd] using h3
      rw [if_neg (by omega)]
      by_cases hi : i = s.val.length
      · rw [hi, ← hsrc]; exact i5 (by simpa using hd)
      · exact i4 i (by omega)

end Mutable.WHash
