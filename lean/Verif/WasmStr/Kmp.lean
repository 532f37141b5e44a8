import Verif.WasmStr.Affix
/-! # `LIKE '%pattern%'`: the algorithm of Knuth, Morris and Pratt -/
namespace Mutable.WStr

/-- A list ending in `c`. -/
theorem suffix_concat {a b : List Byte} {x c : Byte} : a ++ [x] <:+ b ++ [c] ↔ a <:+ b ∧ x = c := by
  constructor
  · rintro ⟨t, h⟩
    rw [← List.append_assoc] at h
    have := List.append_inj' h rfl
    exact ⟨⟨t, this.1⟩, by simpa using this.2⟩
  · rintro ⟨⟨t, rfl⟩, rfl⟩
    exact ⟨t, by simp⟩

theorem take_concat {a : List Byte} {k : Nat} (h : k < a.length) : a.take (k + 1) = a.take k ++ [a[k]] := by
  rw [List.take_add_one, List.getElem?_eq_getElem h]; rfl

/-- The longest proper border of the first `i` characters has length `k`. -/
def LPB (pat : List Byte) (i k : Nat) : Prop :=
  k < i ∧ pat.take k <:+ pat.take i ∧ ∀ j, j < i → pat.take j <:+ pat.take i → j ≤ k

/-- The table is right up to index `n`. -/
def TblOK (pat : List Byte) (tbl : List Int) (n : Nat) : Prop :=
  rd tbl 0 = -1 ∧ ∀ i, 1 ≤ i → i ≤ n → ∃ k : Nat, rd tbl i = k ∧ LPB pat i k

theorem rd_nat (l : List Int) (i : Nat) : rd l (i : Int) = l.getD i 0 := by simp [rd]

theorem rd_lt {l : List Byte} {i : Nat} (h : i < l.length) : rd l (i : Int) = l[i] := by
  rw [rd_nat, List.getD_eq_getElem?_getD, List.getElem?_eq_getElem h]; rfl

/-- The loop which follows the table from `p` until the next character of the pattern is `c`. -/
theorem follow (pat : List Byte) (tbl : List Int) (n : Nat) (ht : TblOK pat tbl n) (hn : n < pat.length + 1) (w : List Byte) (c : Byte)
    (cond : Int → Bool) (hcond : ∀ k : Int, cond k = true ↔ 0 ≤ k ∧ rd pat k ≠ c)
    (p : Int) (hp : p = -1 ∨ ∃ k : Nat, p = k ∧ k ≤ n ∧ k < pat.length ∧ pat.take k <:+ w) :
    ∃ q : Int, (∀ fuel, (p + 1).toNat < fuel → loopW cond (fun k => rd tbl k) fuel p = some q) ∧
      (∀ j : Nat, (j : Int) ≤ p → (hj : j < pat.length) → pat.take j <:+ w → pat[j] = c → (j : Int) ≤ q) ∧
      (q = -1 ∨ ∃ k : Nat, q = k ∧ (q ≤ p) ∧ ∃ hk : k < pat.length, pat.take k <:+ w ∧ pat[k] = c) := by
  obtain ⟨q, h1, ⟨h2, h3⟩, h4⟩ := loopW_spec (cond := cond) (body := fun k => rd tbl k)
    (fun q => (q = -1 ∨ ∃ k : Nat, q = k ∧ q ≤ p ∧ k ≤ n ∧ k < pat.length ∧ pat.take k <:+ w) ∧
      ∀ j : Nat, (j : Int) ≤ p → (hj : j < pat.length) → pat.take j <:+ w → pat[j] = c → (j : Int) ≤ q)
    (fun q => (q + 1).toNat) (by
      rintro q ⟨i1, i2⟩ hc
      rw [hcond] at hc
      obtain ⟨hq0, hne⟩ := hc
      rcases i1 with rfl | ⟨k, rfl, hkp, hkn, hkl, hks⟩
      · omega
      have hkc : pat[k] ≠ c := by rw [rd_lt hkl] at hne; exact hne
      rcases Nat.eq_zero_or_pos k with rfl | hpos
      · have e : rd tbl ((0 : Nat) : Int) = -1 := ht.1
        rw [e]
        refine ⟨⟨Or.inl rfl, fun j hj hjl hjs hjc => ?_⟩, by omega⟩
        have := i2 j hj hjl hjs hjc
        have : j = 0 := by omega
        subst this
        exact absurd hjc hkc
      · obtain ⟨b, hb, l1, l2, l3⟩ := ht.2 k hpos hkn
        rw [hb]
        refine ⟨⟨Or.inr ⟨b, rfl, by omega, by omega, by omega, l2.trans hks⟩, fun j hj hjl hjs hjc => ?_⟩, by omega⟩
        have hle := i2 j hj hjl hjs hjc
        have hjk : j ≠ k := by rintro rfl; exact hkc hjc
        have : j ≤ b := l3 j (by omega) (List.suffix_of_suffix_length_le hjs hks (by simp; omega))
        omega) p (by
      refine ⟨hp.imp id ?_, fun j hj _ _ _ => hj⟩
      rintro ⟨k, rfl, a, b, d⟩
      exact ⟨k, rfl, le_rfl, a, b, d⟩)
  refine ⟨q, h1, h3, h2.imp id ?_⟩
  rintro ⟨k, rfl, hkp, hkn, hkl, hks⟩
  refine ⟨k, rfl, hkp, hkl, hks, ?_⟩
  by_contra hne
  have : cond k = true := (hcond _).2 ⟨by omega, by rw [rd_lt hkl]; exact hne⟩
  rw [h4] at this
  cases this

/-- One more row of the table. -/
theorem prefix_step (pat : List Byte) (tbl : List Int) (i : Nat) (hi : 1 ≤ i) (hi2 : i ≤ pat.length) (ht : TblOK pat tbl (i - 1))
    (lp : Int) (hlp : lp = rd tbl ((i - 1 : Nat) : Int)) :
    ∃ q : Int, (∀ fuel, pat.length + 1 < fuel → prefixStep fuel pat tbl i lp = some q) ∧ ∃ k : Nat, q + 1 = k ∧ LPB pat i k := by
  have hl : i - 1 < pat.length := by omega
  have hrd : rd pat ((i : Int) - 1) = pat[i - 1] := by
    have : (i : Int) - 1 = ((i - 1 : Nat) : Int) := by omega
    rw [this, rd_lt hl]
  have hlp' : lp = -1 ∨ ∃ k : Nat, lp = k ∧ k ≤ i - 1 ∧ k < pat.length ∧ pat.take k <:+ pat.take (i - 1) := by
    rcases Nat.eq_zero_or_pos (i - 1) with h | h
    · left; rw [hlp, h]; exact ht.1
    · right
      obtain ⟨k, hk, l1, l2, -⟩ := ht.2 (i - 1) h le_rfl
      exact ⟨k, by rw [hlp, hk], by omega, by omega, l2⟩
  have hlp2 : ∀ j, j < i - 1 → pat.take j <:+ pat.take (i - 1) → (j : Int) ≤ lp := by
    intro j hj hs
    obtain ⟨k, hk, l1, l2, l3⟩ := ht.2 (i - 1) (by omega) le_rfl
    have := l3 j hj hs
    rw [hlp, hk]; omega
  have hfl : (lp + 1).toNat ≤ pat.length + 1 := by rcases hlp' with h | ⟨k, h, h', -⟩ <;> omega
  obtain ⟨q, q1, q2, q3⟩ := follow pat tbl (i - 1) ht (by omega) (pat.take (i - 1)) (pat[i - 1])
    (fun k => decide (0 ≤ k ∧ rd pat k ≠ rd pat (i - 1 : Int))) (by intro k; rw [hrd]; simp) lp hlp'
  have hti : pat.take i = pat.take (i - 1) ++ [pat[i - 1]] := by
    rw [← take_concat hl, Nat.sub_add_cancel hi]
  have hlen : lp < i := by
    rcases hlp' with h | ⟨k, h, h', -⟩ <;> omega
  refine ⟨q, fun fuel hf => q1 fuel (lt_of_le_of_lt hfl hf), (q + 1).toNat, ?_, ?_, ?_, ?_⟩
  · have : -1 ≤ q := by
      clear hlp' hlp2 hlp hfl hlen q2 q1
      rcases q3 with h | ⟨k, h, -⟩ <;> omega
    clear hlp' hlp2 hlp hfl hlen q2 q1 q3
    omega
  · rcases q3 with rfl | ⟨k, rfl, hle, -⟩
    · omega
    · rcases hlp' with rfl | ⟨b, rfl, hb, -⟩
      · omega
      · rcases Nat.eq_zero_or_pos (i - 1) with h | h
        · have : rd tbl (((i - 1 : Nat)) : Int) = -1 := by rw [h]; exact ht.1
          omega
        · obtain ⟨k', hk', l1, -, -⟩ := ht.2 (i - 1) h le_rfl
          rw [hk'] at hlp
          omega
  · rcases q3 with rfl | ⟨k, rfl, hle, hk, hs, hc⟩
    · simp
    · have : ((k : Int) + 1).toNat = k + 1 := by omega
      rw [this, take_concat hk, hti, suffix_concat]
      exact ⟨hs, hc⟩
  · intro j hj hs
    cases j with
    | zero => omega
    | succ j =>
      have hjl : j < pat.length := by omega
      rw [take_concat hjl, hti, suffix_concat] at hs
      have hji : j < i - 1 := Nat.lt_sub_of_add_lt hj
      have h1 := hlp2 j hji hs.1
      have h2 := q2 j h1 hjl hs.1 hs.2
      clear q3 hlp' q2 hlp2 hlp hlen h1 hfl
      omega

theorem prefixLoop_spec (pat : List Byte) (fuel : Nat) (hf : pat.length + 1 < fuel) : ∀ (n i : Nat) (tbl : List Int) (lp : Int), 1 ≤ i →
    i + n = pat.length + 1 → tbl.length = i → TblOK pat tbl (i - 1) → lp = rd tbl ((i - 1 : Nat) : Int) →
    ∃ tbl', prefixLoop fuel pat n i tbl lp = some tbl' ∧ TblOK pat tbl' pat.length
  | 0, i, tbl, lp, _, hi2, _, ht, _ => by
    refine ⟨tbl, rfl, ?_⟩
    have : i - 1 = pat.length := by omega
    rwa [this] at ht
  | n + 1, i, tbl, lp, hi, hi2, hl, ht, hlp => by
    obtain ⟨q, q1, k, hk, hb⟩ := prefix_step pat tbl i hi (by omega) ht lp hlp
    rw [prefixLoop, q1 fuel hf]
    have old : ∀ j : Nat, j < i → rd (tbl ++ [q + 1]) (j : Int) = rd tbl (j : Int) := by
      intro j hj
      rw [rd_nat, rd_nat, List.getD_eq_getElem?_getD, List.getD_eq_getElem?_getD, List.getElem?_append_left (by omega)]
    have new : rd (tbl ++ [q + 1]) (i : Int) = q + 1 := by
      rw [rd_nat, List.getD_eq_getElem?_getD, List.getElem?_append_right (by omega), hl]; simp
    refine prefixLoop_spec pat fuel hf n (i + 1) (tbl ++ [q + 1]) (q + 1) (by omega) (by omega) (by simp [hl]) ⟨?_, ?_⟩ ?_
    · have := old 0 (by omega)
      rw [← ht.1]; exact this
    · intro j hj1 hj2
      by_cases hji : j = i
      · subst hji
        exact ⟨k, by rw [new, hk], hb⟩
      · obtain ⟨k', h1, h2⟩ := ht.2 j hj1 (by omega)
        exact ⟨k', by rw [old j (by omega), h1], h2⟩
    · have : (i + 1 - 1 : Nat) = i := by omega
      rw [this, new]

theorem prefixTable_spec (pat : List Byte) (fuel : Nat) (hf : pat.length + 1 < fuel) :
    ∃ tbl, prefixTable fuel pat = some tbl ∧ TblOK pat tbl pat.length := by
  refine prefixLoop_spec pat fuel hf pat.length 1 [-1] (-1) le_rfl (by omega) rfl ⟨rfl, fun i h1 h2 => by omega⟩ ?_
  rfl

/-- The search. -/
theorem kmpLoop_spec (s : NChar) (pat : List Byte) (hne : pat ≠ []) (tbl : List Int) (ht : TblOK pat tbl pat.length) : ∀ (n i : Nat) (pos : Int),
    i + n = s.val.length →
    (∃ k : Nat, pos = k ∧ k < pat.length ∧ pat.take k <:+ s.val.take i) →
    (∀ j, j < pat.length → pat.take j <:+ s.val.take i → (j : Int) ≤ pos) →
    (∀ i', i' ≤ i → ¬ pat <:+ s.val.take i') →
    ∃ b, (∀ fuel, pat.length + n + 2 ≤ fuel → kmpLoop s.mem s.length pat tbl fuel i pos = some b) ∧ (b = true ↔ pat <:+: s.val) := by
  intro n
  have hm : 0 < pat.length := List.length_pos_iff.2 hne
  have vl := val_len s
  induction n with
  | zero =>
    intro i pos hi _ _ hno
    refine ⟨false, fun fuel hf => ?_, ?_⟩
    · obtain ⟨fuel, rfl⟩ : ∃ k, fuel = k + 1 := ⟨fuel - 1, by omega⟩
      rw [kmpLoop, if_neg]
      rintro ⟨h1, h2⟩
      rcases val_end s with h | h
      · omega
      · have : i = s.val.length := by omega
        rw [this] at h2
        exact h2 h
    · simp only [Bool.false_eq_true, false_iff]
      rintro ⟨a, b, h⟩
      refine hno (a.length + pat.length) ?_ ⟨a, ?_⟩
      · have := congrArg List.length h
        simp at this; omega
      · rw [← h, List.take_append_of_le_length (by simp), List.take_of_length_le (by simp)]
  | succ n ih =>
    intro i pos hi ⟨k, hk, hkl, hks⟩ hmax hno
    have hiv : i < s.val.length := by omega
    have hsi := val_get s hiv
    obtain ⟨q, q1, q2, q3⟩ := follow pat tbl pat.length ht (by omega) (s.val.take i) (s.mem i)
      (fun k => decide (¬ k < 0 ∧ s.mem i ≠ rd pat k)) (by
        intro k
        simp only [not_lt, ne_eq, decide_eq_true_eq]
        constructor
        · rintro ⟨a, b⟩; exact ⟨a, fun h => b h.symm⟩
        · rintro ⟨a, b⟩; exact ⟨a, fun h => b h.symm⟩) pos (Or.inr ⟨k, hk, by omega, hkl, hks⟩)
    have step : ∀ fuel, pat.length + (n + 1) + 2 ≤ fuel + 1 → kmpLoop s.mem s.length pat tbl (fuel + 1) i pos =
        if q + 1 = pat.length then some true else kmpLoop s.mem s.length pat tbl fuel (i + 1) (q + 1) := by
      intro fuel hf
      rw [kmpLoop, if_pos ⟨by omega, hsi.2⟩]
      unfold kmpInner
      rw [q1 (fuel + 1) (by omega)]
    have hti : s.val.take (i + 1) = s.val.take i ++ [s.mem i] := by rw [take_concat hiv, hsi.1]
    have hqlo : -1 ≤ q := by rcases q3 with h | ⟨k', h, -⟩ <;> omega
    -- the matches that end here
    have key : ∀ j, j < pat.length → pat.take (j + 1) <:+ s.val.take (i + 1) → (j : Int) ≤ q := by
      intro j hj h
      rw [take_concat hj, hti, suffix_concat] at h
      exact q2 j (hmax j hj h.1) hj h.1 h.2
    by_cases hq : q + 1 = pat.length
    · refine ⟨true, fun fuel hf => ?_, ?_⟩
      · obtain ⟨fuel, rfl⟩ : ∃ k, fuel = k + 1 := ⟨fuel - 1, by omega⟩
        rw [step fuel (by omega), if_pos hq]
      · simp only [true_iff]
        rcases q3 with h | ⟨k', rfl, -, hk', hs', hc'⟩
        · omega
        · have hend : pat.take (k' + 1) <:+ s.val.take (i + 1) := by rw [take_concat hk', hti, suffix_concat]; exact ⟨hs', hc'⟩
          rw [List.take_of_length_le (by omega)] at hend
          exact hend.isInfix.trans (List.take_prefix _ _).isInfix
    · have hq2 : q + 1 < pat.length := by rcases q3 with h | ⟨k', h, -, hk', -⟩ <;> omega
      obtain ⟨b, b1, b2⟩ := ih (i + 1) (q + 1) (by omega) ⟨(q + 1).toNat, by omega, by omega, by
          rcases q3 with rfl | ⟨k', rfl, -, hk', hs', hc'⟩
          · simp
          · have : ((k' : Int) + 1).toNat = k' + 1 := by omega
            rw [this, take_concat hk', hti, suffix_concat]; exact ⟨hs', hc'⟩⟩ (by
          intro j hj hs
          cases j with
          | zero => omega
          | succ j =>
            have := key j (by omega) hs
            omega) (by
          intro i' hi' hs
          by_cases h : i' = i + 1
          · subst h
            have := key (pat.length - 1) (by omega) (by
              have : pat.length - 1 + 1 = pat.length := by omega
              rw [this, List.take_length]; exact hs)
            omega
          · exact hno i' (by omega) hs)
      refine ⟨b, fun fuel hf => ?_, b2⟩
      obtain ⟨fuel, rfl⟩ : ∃ k, fuel = k + 1 := ⟨fuel - 1, by omega⟩
      rw [step fuel (by omega), if_neg hq]
      exact b1 fuel (by omega)

theorem likeContains_spec (s : NChar) (pat : List Byte) (hne : pat ≠ []) :
    ∃ b, (∀ fuel, s.length + pat.length + 2 ≤ fuel → likeContains fuel s pat = some b) ∧ (b = true ↔ pat <:+: s.val) := by
  have hm : 0 < pat.length := List.length_pos_iff.2 hne
  have vl := val_len s
  by_cases h0 : s.length = 0
  · refine ⟨false, fun fuel _ => by unfold likeContains; rw [if_pos h0], ?_⟩
    simp only [Bool.false_eq_true, false_iff]
    intro h
    have := h.length_le
    omega
  · obtain ⟨tbl, -, ht⟩ := prefixTable_spec pat (pat.length + 2) (by omega)
    obtain ⟨b, b1, b2⟩ := kmpLoop_spec s pat hne tbl ht s.val.length 0 0 (by omega) ⟨0, rfl, hm, by simp⟩ (by
        intro j hj hs
        have := hs.length_le
        rw [List.length_take, List.length_take] at this
        omega) (by
        intro i' hi' hs
        have := hs.length_le
        have : i' = 0 := by omega
        subst this
        simp at this hs
        exact hne hs)
    -- the table does not depend on the fuel: both are correct, and the search is correct for every correct table
    by_cases hb : pat <:+: s.val
    · refine ⟨true, fun fuel hf => ?_, by simp [hb]⟩
      unfold likeContains
      obtain ⟨tbl', e, ht'⟩ := prefixTable_spec pat fuel (by omega)
      rw [if_neg h0, e]
      obtain ⟨b', b1', b2'⟩ := kmpLoop_spec s pat hne tbl' ht' s.val.length 0 0 (by omega) ⟨0, rfl, hm, by simp⟩ (by
        intro j hj hs
        have := hs.length_le
        rw [List.length_take, List.length_take] at this
        omega) (by
        intro i' hi' hs
        have : i' = 0 := by omega
        subst this
        simp at hs
        exact hne hs)
      simp only
      rw [b1' fuel (by omega), b2'.2 hb]
    · refine ⟨false, fun fuel hf => ?_, by simp [hb]⟩
      unfold likeContains
      obtain ⟨tbl', e, ht'⟩ := prefixTable_spec pat fuel (by omega)
      rw [if_neg h0, e]
      obtain ⟨b', b1', b2'⟩ := kmpLoop_spec s pat hne tbl' ht' s.val.length 0 0 (by omega) ⟨0, rfl, hm, by simp⟩ (by
        intro j hj hs
        have := hs.length_le
        rw [List.length_take, List.length_take] at this
        omega) (by
        intro i' hi' hs
        have : i' = 0 := by omega
        subst this
        simp at hs
        exact hne hs)
      simp only
      rw [b1' fuel (by omega)]
      cases b' with
      | false => rfl
      | true => exact absurd (b2'.1 rfl) hb

end Mutable.WStr
