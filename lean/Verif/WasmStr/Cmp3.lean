import Verif.WasmStr.Cmp2
/-! # `strcmp` and `strncmp` -/
namespace Mutable.WStr

theorem val_one {s : NChar} (h : s.length = 1) : s.val = if s.mem 0 = 0 then [] else [s.mem 0] := by
  unfold NChar.val
  rw [h]
  by_cases h0 : s.mem 0 = 0 <;> simp [List.range_succ, h0]

theorem cmp_one {l r : NChar} (hl : l.length = 1) (hr : r.length = 1) : IsCmp (l.val ++ [0]) (r.val ++ [0]) (sgn (l.mem 0) (r.mem 0)) := by
  rw [val_one hl, val_one hr]
  generalize l.mem 0 = x
  generalize r.mem 0 = y
  by_cases hx : x = 0 <;> by_cases hy : y = 0
  · subst hx hy; right; left; simp [sgn]
  · subst hx
    rw [if_pos rfl, if_neg hy, List.nil_append, List.cons_append, isCmp_cons]
    exact Or.inl ⟨fun h => hy h.symm, rfl⟩
  · subst hy
    rw [if_pos rfl, if_neg hx, List.nil_append, List.cons_append, isCmp_cons]
    exact Or.inl ⟨hx, rfl⟩
  · rw [if_neg hx, if_neg hy, List.cons_append, List.cons_append, isCmp_cons]
    by_cases h : x = y
    · subst h
      exact Or.inr ⟨rfl, Or.inr (Or.inl ⟨by simp [sgn], rfl⟩)⟩
    · exact Or.inl ⟨h, rfl⟩

/-- Two `VARCHAR`s whose comparison has different bounds: the smaller bound is `m`. -/
theorem nul_bad (l r : NChar) (lenL lenR : Nat) (hne : lenL ≠ lenR)
    (heq : ∀ i, i < lenL → i < lenR → l.mem i = r.mem i ∧ l.mem i ≠ 0) :
    ∀ (n i : Nat), i + n = min lenL lenR → ∀ fuel, n + 2 ≤ fuel →
      (loopW (fun s => s.result.isNone) (nulBody l r lenL lenR) fuel ⟨i, i, none⟩).bind (·.result) = some (if lenL < lenR then -1 else 1) := by
  intro n
  induction n with
  | zero =>
    intro i hi fuel hf
    obtain ⟨fuel, rfl⟩ : ∃ k, fuel = k + 2 := ⟨fuel - 2, by omega⟩
    rw [loopW, if_pos (by simp), loopW, if_neg]
    · unfold nulBody
      simp only [Option.bind_some, Int.natCast_inj]
      rcases Nat.lt_or_gt_of_ne hne with h | h
      · have e : i = lenL := by omega
        subst e
        have a : ¬ (i : Int) = lenR := by omega
        simp [h, a]
      · have e : i = lenR := by omega
        subst e
        have a : ¬ (i : Int) = lenL := by omega
        have b : ¬ lenL < i := by omega
        simp [a, b]
    · unfold nulBody
      simp only [Int.natCast_inj]
      rcases Nat.lt_or_gt_of_ne hne with h | h
      · have e : i = lenL := by omega
        subst e
        simp
      · have e : i = lenR := by omega
        subst e
        have a : ¬ (i : Int) = lenL := by omega
        simp [a]
  | succ n ih =>
    intro i hi fuel hf
    obtain ⟨fuel, rfl⟩ : ∃ k, fuel = k + 1 := ⟨fuel - 1, by omega⟩
    have h1 : i < lenL := by omega
    have h2 : i < lenR := by omega
    obtain ⟨e1, e2⟩ := heq i h1 h2
    have hb : nulBody l r lenL lenR ⟨i, i, none⟩ = ⟨((i + 1 : Nat) : Int), ((i + 1 : Nat) : Int), none⟩ := by
      unfold nulBody
      have a1 : i ≠ lenL := by omega
      have a2 : i ≠ lenR := by omega
      have a3 : ¬ (i : Int) = lenL := by omega
      have a4 : ¬ (i : Int) = lenR := by omega
      have a5 : r.mem i ≠ 0 := e1 ▸ e2
      simp [a3, a4, ← e1, sgn, e2]
    rw [loopW, if_pos (by simp), hb]
    exact ih (i + 1) (by omega) fuel (by omega)

theorem nul_good (l r : NChar) (lenL lenR : Nat) (hL : lenL ≤ l.length) (hR : lenR ≤ r.length)
    (hno : ∀ i, i = lenL ∨ i = lenR → i ≤ l.val.length → i ≤ r.val.length → l.val.take i ≠ r.val.take i) :
    ∃ x, (∀ fuel, l.length + 2 ≤ fuel →
      (loopW (fun s => s.result.isNone) (nulBody l r lenL lenR) fuel ⟨0, 0, none⟩).bind (·.result) = some x) ∧ IsCmp (l.val ++ [0]) (r.val ++ [0]) x := by
  -- the loop never reaches a bound
  have bound : ∀ i, i ≤ l.val.length → i ≤ r.val.length → l.val.take i = r.val.take i → i < lenL ∧ i < lenR := by
    intro i h1 h2 ht
    constructor
    · by_contra hn
      refine hno lenL (Or.inl rfl) (by omega) (by omega) ?_
      have := congrArg (List.take lenL) ht
      rwa [List.take_take, List.take_take, Nat.min_eq_left (by omega)] at this
    · by_contra hn
      refine hno lenR (Or.inr rfl) (by omega) (by omega) ?_
      have := congrArg (List.take lenR) ht
      rwa [List.take_take, List.take_take, Nat.min_eq_left (by omega)] at this
  obtain ⟨x, x1, x2⟩ := cmp_loop (a := l.val) (b := r.val) (val_noNul _) (val_noNul _) (fun i => (i : Int)) (fun i => (i : Int))
    (nulBody l r (lenL : Int) (lenR : Int)) (by
      intro i h1 h2 ht
      obtain ⟨b1, b2⟩ := bound i h1 h2 ht
      have s1 := seen l h1 (n := l.length) le_rfl (h1.trans (val_len _)) (val_len _)
      have s2 := seen r h2 (n := r.length) le_rfl (h2.trans (val_len _)) (val_len _)
      rw [if_pos (by omega)] at s1 s2
      unfold nulBody
      have a3 : ¬ (i : Int) = lenL := by omega
      have a4 : ¬ (i : Int) = lenR := by omega
      simp only [Int.toNat_natCast]
      rw [s1, s2]
      simp [a3, a4])
  exact ⟨x, fun fuel hf => x1 fuel (by have := val_len l; omega), x2⟩

/-- The general result for `strcmp`, forwards: the exact value for all arguments. -/
theorem strcmp_spec (cache : Cache) (hc : cache ≠ some true) (l r : NChar) :
    ∃ x, (∀ fuel, l.length + r.length + 2 ≤ fuel → (strcmp fuel cache l r false).1 = some x) ∧
      ((l.varying = true ∧ r.varying = true ∧ l.length < r.length ∧ l.val.length = l.length ∧ l.val <+: r.val ∧ x = -1) ∨
       (l.varying = true ∧ r.varying = true ∧ r.length < l.length ∧ r.val.length = r.length ∧ r.val <+: l.val ∧ x = 1) ∨
       (¬ (l.varying = true ∧ r.varying = true ∧ l.length < r.length ∧ l.val.length = l.length ∧ l.val <+: r.val) ∧
        ¬ (l.varying = true ∧ r.varying = true ∧ r.length < l.length ∧ r.val.length = r.length ∧ r.val <+: l.val) ∧
        IsCmp (l.val ++ [0]) (r.val ++ [0]) x)) := by
  by_cases h1 : l.length = 1 ∧ r.length = 1
  · refine ⟨sgn (l.mem 0) (r.mem 0), fun fuel _ => ?_, Or.inr (Or.inr ⟨by omega, by omega, cmp_one h1.1 h1.2⟩)⟩
    unfold strcmp strncmp
    rw [if_pos h1]
  by_cases hv : l.varying = true ∧ r.varying = true
  · obtain ⟨hvl, hvr⟩ := hv
    have red : ∀ fuel, (strcmp fuel cache l r false).1 = strncmpNul fuel l r (min l.length r.length + 1) := by
      intro fuel
      unfold strcmp strncmp
      rw [if_neg h1, if_pos (by simp [hvl, hvr])]
    rcases lt_trichotomy l.length r.length with hlt | heq | hgt
    · have e1 : (if min l.length r.length + 1 < l.length then min l.length r.length + 1 else l.length) = l.length := by
        rw [if_neg (by omega)]
      have e2 : (if min l.length r.length + 1 < r.length then min l.length r.length + 1 else r.length) = l.length + 1 := by
        split_ifs <;> omega
      by_cases hbad : l.val.length = l.length ∧ l.val <+: r.val
      · refine ⟨-1, fun fuel hf => ?_, Or.inl ⟨hvl, hvr, hlt, hbad.1, hbad.2, rfl⟩⟩
        rw [red]
        unfold strncmpNul
        simp only [e1, e2]
        have := nul_bad l r l.length (l.length + 1) (by omega) (by
          intro i hi _
          have hi' : i < l.val.length := by omega
          have hi2 : i < r.val.length := lt_of_lt_of_le hi' hbad.2.length_le
          refine ⟨?_, (val_get l hi').2⟩
          rw [← (val_get l hi').1, ← (val_get r hi2).1]
          exact hbad.2.getElem hi') l.length 0 (by omega) fuel (by omega)
        rw [if_pos (by omega)] at this
        exact_mod_cast this
      · obtain ⟨x, x1, x2⟩ := nul_good l r l.length (l.length + 1) le_rfl (by omega) (by
          intro i hi hil hir ht
          have hlen := val_len l
          rcases hi with rfl | rfl
          · refine hbad ⟨by omega, ?_⟩
            rw [List.take_of_length_le hlen] at ht
            rw [ht]; exact List.take_prefix _ _
          · omega)
        refine ⟨x, fun fuel hf => ?_, Or.inr (Or.inr ⟨fun h => hbad ⟨h.2.2.2.1, h.2.2.2.2⟩, by omega, x2⟩)⟩
        rw [red]
        unfold strncmpNul
        simp only [e1, e2]
        exact x1 fuel (by omega)
    · have := nul_equal_length l r (min l.length r.length + 1) (by rw [heq])
      obtain ⟨x, x1, x2⟩ := this
      refine ⟨x, fun fuel hf => ?_, Or.inr (Or.inr ⟨by omega, by omega, ?_⟩)⟩
      · rw [red]; exact x1 fuel (by omega)
      · have a := val_len l
        have b := val_len r
        rwa [List.take_of_length_le (by omega), List.take_of_length_le (by omega)] at x2
    · have e1 : (if min l.length r.length + 1 < r.length then min l.length r.length + 1 else r.length) = r.length := by
        rw [if_neg (by omega)]
      have e2 : (if min l.length r.length + 1 < l.length then min l.length r.length + 1 else l.length) = r.length + 1 := by
        split_ifs <;> omega
      by_cases hbad : r.val.length = r.length ∧ r.val <+: l.val
      · refine ⟨1, fun fuel hf => ?_, Or.inr (Or.inl ⟨hvl, hvr, hgt, hbad.1, hbad.2, rfl⟩)⟩
        rw [red]
        unfold strncmpNul
        simp only [e1, e2]
        have := nul_bad l r (r.length + 1) r.length (by omega) (by
          intro i _ hi
          have hi' : i < r.val.length := by omega
          have hi2 : i < l.val.length := lt_of_lt_of_le hi' hbad.2.length_le
          refine ⟨?_, (val_get l hi2).2⟩
          rw [← (val_get l hi2).1, ← (val_get r hi').1]
          exact (hbad.2.getElem hi').symm) r.length 0 (by omega) fuel (by omega)
        rw [if_neg (by omega)] at this
        exact_mod_cast this
      · obtain ⟨x, x1, x2⟩ := nul_good l r (r.length + 1) r.length (by omega) le_rfl (by
          intro i hi hil hir ht
          have hlen := val_len r
          rcases hi with rfl | rfl
          · omega
          · refine hbad ⟨by omega, ?_⟩
            rw [List.take_of_length_le hlen] at ht
            rw [← ht]; exact List.take_prefix _ _)
        refine ⟨x, fun fuel hf => ?_, Or.inr (Or.inr ⟨by omega, fun h => hbad ⟨h.2.2.2.1, h.2.2.2.2⟩, x2⟩)⟩
        rw [red]
        unfold strncmpNul
        simp only [e1, e2]
        exact x1 fuel (by omega)
  · obtain ⟨x, x1, x2⟩ := noNul_forward l r (min l.length r.length + 1)
    refine ⟨x, fun fuel hf => ?_, Or.inr (Or.inr ⟨fun h => hv ⟨h.1, h.2.1⟩, fun h => hv ⟨h.1, h.2.1⟩, ?_⟩)⟩
    · unfold strcmp strncmp
      have hg : cache.getD false = false := by
        cases cache with
        | none => rfl
        | some b => cases b <;> simp_all
      rw [if_neg h1, if_neg (by simpa using hv), hg]
      exact x1 fuel hf
    · refine isCmp_trunc (min l.length r.length + 1) _ _ (val_noNul _) (val_noNul _) ?_ x2
      have a := val_len l
      have b := val_len r
      omega

/-- `strncmp` backwards over the whole strings. -/
theorem strncmp_reverse (cache : Cache) (hc : cache ≠ some false) (l r : NChar) (len : Nat) (h1 : l.length ≤ len) (h2 : r.length ≤ len) :
    ∃ x, (∀ fuel, l.length + r.length + 2 ≤ fuel → (strncmp fuel cache l r len true).1 = some x) ∧
      IsCmp (l.val.reverse ++ [0]) (r.val.reverse ++ [0]) x := by
  by_cases h : l.length = 1 ∧ r.length = 1
  · refine ⟨sgn (l.mem 0) (r.mem 0), fun fuel _ => ?_, ?_⟩
    · unfold strncmp
      rw [if_pos h]
    · have := cmp_one h.1 h.2
      rw [val_one h.1, val_one h.2] at this ⊢
      have e : ∀ x : Byte, (if x = 0 then [] else [x]).reverse = if x = 0 then [] else [x] := by intro x; split <;> rfl
      rwa [e, e]
  · obtain ⟨x, x1, x2⟩ := noNul_backward l r len
    have a := val_len l
    have b := val_len r
    rw [List.take_of_length_le (by omega), List.take_of_length_le (by omega)] at x2
    refine ⟨x, fun fuel hf => ?_, x2⟩
    unfold strncmp
    have hg : cache.getD true = true := by
      cases cache with
      | none => rfl
      | some b => cases b <;> simp_all
    rw [if_neg h, if_neg (by simp), hg]
    exact x1 fuel hf

theorem strcmp_cache (fuel : Nat) (cache : Cache) (hc : cache ≠ some true) (l r : NChar) : (strcmp fuel cache l r false).2 ≠ some true := by
  unfold strcmp strncmp
  split_ifs <;> cases cache <;> simp_all

theorem strncmp_cache_rev (fuel : Nat) (cache : Cache) (hc : cache ≠ some false) (l r : NChar) (len : Nat) :
    (strncmp fuel cache l r len true).2 ≠ some false := by
  unfold strncmp
  split_ifs <;> cases cache <;> simp_all

end Mutable.WStr
