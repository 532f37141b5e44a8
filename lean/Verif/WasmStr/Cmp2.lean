import Verif.WasmStr.Cmp
/-! # The three comparison loops -/
namespace Mutable.WStr

theorem isCmp_cons {x y : Byte} {a b : List Byte} {r : Int} :
    IsCmp (x :: a) (y :: b) r ↔ (x ≠ y ∧ r = sgn x y) ∨ (x = y ∧ IsCmp a b r) := by
  constructor
  · intro h
    by_cases hxy : x = y
    · subst hxy
      refine Or.inr ⟨rfl, ?_⟩
      rcases h with ⟨e, h⟩ | ⟨e, h⟩ | ⟨e, h⟩
      · refine Or.inl ⟨e, ?_⟩
        rcases List.cons_lt_cons_iff.1 h with h | h
        · exact absurd h (lt_irrefl _)
        · exact h.2
      · exact Or.inr (Or.inl ⟨e, by simpa using h⟩)
      · refine Or.inr (Or.inr ⟨e, ?_⟩)
        rcases List.cons_lt_cons_iff.1 h with h | h
        · exact absurd h (lt_irrefl _)
        · exact h.2
    · exact Or.inl ⟨hxy, h.unique (IsCmp.of_diff 0 (x :: a) (y :: b) (by simp) (by simp) rfl hxy)⟩
  · rintro (⟨h, rfl⟩ | ⟨rfl, h⟩)
    · exact IsCmp.of_diff 0 (x :: a) (y :: b) (by simp) (by simp) rfl h
    · rcases h with ⟨e, h⟩ | ⟨e, h⟩ | ⟨e, h⟩
      · exact Or.inl ⟨e, List.cons_lt_cons_iff.2 (Or.inr ⟨rfl, h⟩)⟩
      · exact Or.inr (Or.inl ⟨e, by rw [h]⟩)
      · exact Or.inr (Or.inr ⟨e, List.cons_lt_cons_iff.2 (Or.inr ⟨rfl, h⟩)⟩)

/-- For characters with positive code the NUL at the end makes no difference. -/
theorem isCmp_nul {a b : List Byte} (ha : ∀ x ∈ a, 0 < x) (hb : ∀ x ∈ b, 0 < x) {r : Int} :
    IsCmp (a ++ [0]) (b ++ [0]) r ↔ IsCmp a b r := by
  induction a generalizing b with
  | nil =>
    cases b with
    | nil => simp [IsCmp]
    | cons y b =>
      have hy : (0 : Int) < y := hb y (by simp)
      have h0 : ¬ (y : Int) < 0 := not_lt.2 (le_of_lt hy)
      rw [List.nil_append, List.cons_append, isCmp_cons]
      constructor
      · rintro (⟨h, rfl⟩ | ⟨h, -⟩)
        · exact Or.inl ⟨by simp [sgn, hy, h0], List.nil_lt_cons _ _⟩
        · exact absurd h (ne_of_lt hy)
      · rintro (⟨rfl, -⟩ | ⟨-, h⟩ | ⟨-, h⟩)
        · exact Or.inl ⟨ne_of_lt hy, by simp [sgn, hy, h0]⟩
        · simp at h
        · exact absurd h (List.not_lt_nil _)
  | cons x a ih =>
    have hx : (0 : Int) < x := ha x (by simp)
    have h0 : ¬ (x : Int) < 0 := not_lt.2 (le_of_lt hx)
    cases b with
    | nil =>
      rw [List.nil_append, List.cons_append, isCmp_cons]
      constructor
      · rintro (⟨h, rfl⟩ | ⟨h, -⟩)
        · exact Or.inr (Or.inr ⟨by simp [sgn, hx, h0], List.nil_lt_cons _ _⟩)
        · exact absurd h (ne_of_gt hx)
      · rintro (⟨-, h⟩ | ⟨-, h⟩ | ⟨rfl, -⟩)
        · exact absurd h (List.not_lt_nil _)
        · simp at h
        · exact Or.inl ⟨ne_of_gt hx, by simp [sgn, hx, h0]⟩
    | cons y b =>
      rw [List.cons_append, List.cons_append, isCmp_cons, isCmp_cons, ih (fun z hz => ha z (by simp [hz])) (fun z hz => hb z (by simp [hz]))]

/-- If one of the strings ends before position `k`, the first `k` bytes decide. -/
theorem isCmp_trunc : ∀ (k : Nat) (a b : List Byte), NoNul a → NoNul b → (a.length < k ∨ b.length < k) → ∀ {r : Int},
    IsCmp (a.take k ++ [0]) (b.take k ++ [0]) r → IsCmp (a ++ [0]) (b ++ [0]) r
  | 0, _, _, _, _, h, _, _ => by omega
  | k + 1, [], [], _, _, _, _, h => by simpa using h
  | k + 1, [], y :: b, _, hb, _, r, h => by
    have hy : y ≠ 0 := hb y (by simp)
    simp only [List.take_nil, List.nil_append, List.take_succ_cons, List.cons_append] at h ⊢
    rw [isCmp_cons] at h ⊢
    rcases h with h | h
    · exact Or.inl h
    · exact absurd h.1.symm hy
  | k + 1, x :: a, [], ha, _, _, r, h => by
    have hx : x ≠ 0 := ha x (by simp)
    simp only [List.take_nil, List.nil_append, List.take_succ_cons, List.cons_append] at h ⊢
    rw [isCmp_cons] at h ⊢
    rcases h with h | h
    · exact Or.inl h
    · exact absurd h.1 hx
  | k + 1, x :: a, y :: b, ha, hb, hl, r, h => by
    simp only [List.take_succ_cons, List.cons_append] at h ⊢
    rw [isCmp_cons] at h ⊢
    refine h.imp id (fun h => ⟨h.1, isCmp_trunc k a b (fun z hz => ha z (by simp [hz])) (fun z hz => hb z (by simp [hz])) ?_ h.2⟩)
    simpa using hl

/-- The string cut to `k` bytes. -/
def cut (s : NChar) (k : Nat) : NChar := { s with length := k }

theorem takeWhile_take (l : List Byte) (k : Nat) : (l.take k).takeWhile (· ≠ 0) = (l.takeWhile (· ≠ 0)).take k := by
  induction l generalizing k with
  | nil => simp
  | cons x l ih =>
    cases k with
    | zero => simp
    | succ k =>
      by_cases hx : x = 0
      · simp [List.takeWhile_cons, hx]
      · have := ih k
        simp only [List.take_succ_cons, List.takeWhile_cons, ne_eq, hx, not_false_eq_true, decide_true, if_true]
        rw [this]

theorem cut_val (s : NChar) {k : Nat} (h : k ≤ s.length) : (cut s k).val = s.val.take k := by
  unfold NChar.val cut
  simp only
  rw [← takeWhile_take, ← List.map_take, List.take_range, Nat.min_eq_left h]

/-! ### Without terminating NUL, forwards -/

theorem noNul_forward (l r : NChar) (len : Nat) :
    ∃ x, (∀ fuel, l.length + r.length + 2 ≤ fuel → strncmpNoNul fuel l r len false = some x) ∧ IsCmp (l.val.take len ++ [0]) (r.val.take len ++ [0]) x := by
  obtain ⟨lenL, hL⟩ : ∃ k, k = (if len < l.length then len else l.length) := ⟨_, rfl⟩
  obtain ⟨lenR, hR⟩ : ∃ k, k = (if len < r.length then len else r.length) := ⟨_, rfl⟩
  have hL1 : lenL ≤ l.length := by rw [hL]; split <;> omega
  have hR1 : lenR ≤ r.length := by rw [hR]; split <;> omega
  have eL : (cut l lenL).val = l.val.take len := by
    rw [cut_val l hL1]
    have := val_len l
    by_cases h : len < l.length
    · rw [hL, if_pos h]
    · rw [hL, if_neg h, List.take_of_length_le this, List.take_of_length_le (by omega)]
  have eR : (cut r lenR).val = r.val.take len := by
    rw [cut_val r hR1]
    have := val_len r
    by_cases h : len < r.length
    · rw [hR, if_pos h]
    · rw [hR, if_neg h, List.take_of_length_le this, List.take_of_length_le (by omega)]
  obtain ⟨x, x1, x2⟩ := cmp_loop (a := (cut l lenL).val) (b := (cut r lenR).val) (val_noNul _) (val_noNul _) (fun i => (i : Int)) (fun i => (i : Int))
    (noNulBody l r false (lenL : Int) (lenR : Int)) (by
      intro i h1 h2 _
      have s1 := seen (cut l lenL) h1 (n := lenL) le_rfl (h1.trans (val_len _)) (val_len _)
      have s2 := seen (cut r lenR) h2 (n := lenR) le_rfl (h2.trans (val_len _)) (val_len _)
      have m1 : (cut l lenL).mem = l.mem := rfl
      have m2 : (cut r lenR).mem = r.mem := rfl
      rw [m1] at s1
      rw [m2] at s2
      unfold noNulBody
      simp only [Int.toNat_natCast, ne_eq, Int.natCast_inj, Bool.false_eq_true, if_false]
      simp only [ne_eq] at s1 s2
      rw [s1, s2]
      split_ifs <;> simp_all)
  refine ⟨x, fun fuel hf => ?_, by rw [← eL, ← eR]; exact x2⟩
  unfold strncmpNoNul
  simp only [Bool.not_false, if_true, ← hL, ← hR]
  refine x1 fuel ?_
  have := val_len (cut l lenL)
  have h3 : (cut l lenL).length = lenL := rfl
  omega

/-! ### Without terminating NUL, backwards -/

theorem findEnd_spec (s : NChar) {len : Nat} (h : len ≤ s.length) (fuel : Nat) (hf : s.length + 2 ≤ fuel) :
    findEnd fuel s len = some (s.val.take len).length := by
  have e := cut_val s h
  have hv := val_len (cut s len)
  have hl : (cut s len).length = len := rfl
  obtain ⟨x, h1, h2, h3⟩ := loopW_spec (cond := fun e => decide (s.mem e ≠ 0 ∧ e ≠ len)) (body := (· + 1))
    (fun i => i ≤ (cut s len).val.length) (fun i => len - i) (by
      intro i hi hc
      simp only [ne_eq, decide_eq_true_eq] at hc
      have hi2 : i ≠ (cut s len).val.length := by
        intro h
        rcases val_end (cut s len) with h' | h'
        · omega
        · rw [← h] at h'; exact hc.1 h'
      exact ⟨by omega, by omega⟩) 0 (Nat.zero_le _)
  have : x = (cut s len).val.length := by
    simp only [ne_eq, decide_eq_false_iff_not, not_and, not_not] at h3
    by_contra hne
    have hlt : x < (cut s len).val.length := by omega
    have := h3 (val_get _ hlt).2
    omega
  unfold findEnd
  rw [h1 fuel (by omega), this, e]

theorem getD_reverse (a : List Byte) (i : Nat) (h : i ≤ a.length) :
    a.reverse.getD i 0 = if i < a.length then a.getD (a.length - 1 - i) 0 else 0 := by
  by_cases hi : i < a.length
  · rw [if_pos hi, List.getD_eq_getElem?_getD, List.getD_eq_getElem?_getD, List.getElem?_reverse hi]
  · rw [if_neg hi, List.getD_eq_getElem?_getD, List.getElem?_eq_none (by simp; omega)]; rfl

theorem noNul_backward (l r : NChar) (len : Nat) :
    ∃ x, (∀ fuel, l.length + r.length + 2 ≤ fuel → strncmpNoNul fuel l r len true = some x) ∧
      IsCmp ((l.val.take len).reverse ++ [0]) ((r.val.take len).reverse ++ [0]) x := by
  obtain ⟨lenL, hL⟩ : ∃ k, k = (if len < l.length then len else l.length) := ⟨_, rfl⟩
  obtain ⟨lenR, hR⟩ : ∃ k, k = (if len < r.length then len else r.length) := ⟨_, rfl⟩
  have hL1 : lenL ≤ l.length := by rw [hL]; split <;> omega
  have hR1 : lenR ≤ r.length := by rw [hR]; split <;> omega
  have eL : l.val.take lenL = l.val.take len := by
    have := val_len l
    by_cases h : len < l.length
    · rw [hL, if_pos h]
    · rw [hL, if_neg h, List.take_of_length_le this, List.take_of_length_le (by omega)]
  have eR : r.val.take lenR = r.val.take len := by
    have := val_len r
    by_cases h : len < r.length
    · rw [hR, if_pos h]
    · rw [hR, if_neg h, List.take_of_length_le this, List.take_of_length_le (by omega)]
  have nn : ∀ (s : NChar) k, NoNul (s.val.take k).reverse := fun s k x hx => val_noNul s x (List.mem_of_mem_take (List.mem_reverse.1 hx))
  -- the byte seen in round i
  have obs : ∀ (s : NChar) (k i : Nat), i ≤ (s.val.take k).length →
      (if ((s.val.take k).length : Int) - 1 - i ≠ -1 then s.mem (((s.val.take k).length : Int) - 1 - i).toNat else 0) = (s.val.take k).reverse.getD i 0 := by
    intro s k i hi
    rw [getD_reverse _ _ hi]
    by_cases h : i < (s.val.take k).length
    · rw [if_pos (by omega), if_pos h]
      have e1 : (((s.val.take k).length : Int) - 1 - i).toNat = (s.val.take k).length - 1 - i := by omega
      rw [e1]
      have h2 : (s.val.take k).length - 1 - i < (s.val.take k).length := by omega
      rw [List.getD_eq_getElem?_getD, List.getElem?_eq_getElem h2, List.getElem_take]
      simp only [Option.getD_some]
      exact (val_get s _).1.symm
    · rw [if_neg (by omega), if_neg h]
  obtain ⟨x, x1, x2⟩ := cmp_loop (a := (l.val.take len).reverse) (b := (r.val.take len).reverse) (nn l len) (nn r len)
    (fun i => ((l.val.take len).length : Int) - 1 - i) (fun i => ((r.val.take len).length : Int) - 1 - i)
    (noNulBody l r true (-1) (-1)) (by
      intro i h1 h2 _
      have s1 := obs l len i (by simpa using h1)
      have s2 := obs r len i (by simpa using h2)
      unfold noNulBody
      simp only [if_true]
      rw [s1, s2]
      have a1 : ∀ n : Nat, (n : Int) - 1 - i + -1 = (n : Int) - 1 - ((i + 1 : Nat) : Int) := by intro n; push_cast; omega
      rw [a1, a1])
  refine ⟨x, fun fuel hf => ?_, x2⟩
  unfold strncmpNoNul
  simp only [Bool.not_true, Bool.false_eq_true, if_false, ← hL, ← hR]
  rw [findEnd_spec l hL1 fuel (by omega), findEnd_spec r hR1 fuel (by omega), eL, eR]
  have := x1 fuel (by
    have := val_len l
    simp only [List.length_reverse, List.length_take]; omega)
  simpa using this

/-! ### With terminating NUL -/

theorem nul_equal_length (l r : NChar) (len : Nat)
    (he : (if len < l.length then len else l.length) = (if len < r.length then len else r.length)) :
    ∃ x, (∀ fuel, l.length + 2 ≤ fuel → strncmpNul fuel l r len = some x) ∧ IsCmp (l.val.take len ++ [0]) (r.val.take len ++ [0]) x := by
  obtain ⟨lenL, hL⟩ : ∃ k, k = (if len < l.length then len else l.length) := ⟨_, rfl⟩
  have hL1 : lenL ≤ l.length := by rw [hL]; split <;> omega
  have hR1 : lenL ≤ r.length := by rw [hL, he]; split <;> omega
  have eL : (cut l lenL).val = l.val.take len := by
    rw [cut_val l hL1]
    have := val_len l
    by_cases h : len < l.length
    · rw [hL, if_pos h]
    · rw [hL, if_neg h, List.take_of_length_le this, List.take_of_length_le (by omega)]
  have eR : (cut r lenL).val = r.val.take len := by
    rw [cut_val r hR1]
    have := val_len r
    by_cases h : len < r.length
    · rw [hL, he, if_pos h]
    · rw [hL, he, if_neg h, List.take_of_length_le this, List.take_of_length_le (by omega)]
  obtain ⟨x, x1, x2⟩ := cmp_loop (a := (cut l lenL).val) (b := (cut r lenL).val) (val_noNul _) (val_noNul _) (fun i => (i : Int)) (fun i => (i : Int))
    (nulBody l r (lenL : Int) (lenL : Int)) (by
      intro i h1 h2 _
      have s1 := seen (cut l lenL) h1 (n := lenL) le_rfl (h1.trans (val_len _)) (val_len _)
      have s2 := seen (cut r lenL) h2 (n := lenL) le_rfl (h2.trans (val_len _)) (val_len _)
      have m1 : (cut l lenL).mem = l.mem := rfl
      have m2 : (cut r lenL).mem = r.mem := rfl
      rw [m1] at s1
      rw [m2] at s2
      unfold nulBody
      simp only [Int.toNat_natCast, ne_eq, Int.natCast_inj]
      by_cases hi : i = lenL
      · subst hi
        simp only [ne_eq, not_true_eq_false, if_false] at s1 s2
        rw [← s1, ← s2]
        simp [sgn]
      · simp only [ne_eq, hi, not_false_eq_true, if_true] at s1 s2
        rw [s1, s2]
        simp [hi])
  refine ⟨x, fun fuel hf => ?_, by rw [← eL, ← eR]; exact x2⟩
  unfold strncmpNul
  simp only [← he, ← hL]
  refine x1 fuel ?_
  have := val_len (cut l lenL)
  have h3 : (cut l lenL).length = lenL := rfl
  omega

end Mutable.WStr
