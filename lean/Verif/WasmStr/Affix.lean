import Verif.WasmStr.Concat
/-! # `LIKE 'pattern%'` and `LIKE '%pattern'` -/
namespace Mutable.WStr

theorem isCmp_end_ge {w : List Byte} (hw : ∀ y, w[0]? = some y → 0 < y) {x : Int} (h : IsCmp (w ++ [0]) [0] x) : 0 ≤ x := by
  cases w with
  | nil =>
    have : x = 0 := h.unique (Or.inr (Or.inl ⟨rfl, rfl⟩))
    omega
  | cons y w =>
    have hy : 0 < y := hw y (by simp)
    rw [List.cons_append, isCmp_cons] at h
    rcases h with ⟨-, rfl⟩ | ⟨rfl, -⟩
    · simp [sgn, hy, not_lt.2 (le_of_lt hy)]
    · exact absurd hy (lt_irrefl _)

/-- The interval from `p ++ [c]` to `p ++ [c + 1]`. -/
theorem bounds (p : List Byte) (c : Byte) (hc0 : c ≠ 0) (hc1 : c + 1 ≠ 0) : ∀ (v : List Byte), NoNul v →
    (p ++ [c] <+: v ∨ p ++ [c + 1] <+: v → ∀ y, v[p.length + 1]? = some y → 0 < y) → ∀ {x y : Int},
    IsCmp (v ++ [0]) (p ++ [c] ++ [0]) x → IsCmp (v ++ [0]) (p ++ [c + 1] ++ [0]) y → (0 ≤ x ∧ y < 0 ↔ p ++ [c] <+: v) := by
  induction p with
  | nil =>
    intro v hv ht x y hx hy
    simp only [List.nil_append, List.cons_append] at hx hy ht ⊢
    cases v with
    | nil =>
      simp only [List.nil_append] at hx hy
      rw [isCmp_cons] at hx hy
      have : ¬ [c] <+: ([] : List Byte) := by simp
      simp only [this, iff_false, not_and]
      rcases hx with ⟨-, rfl⟩ | ⟨h, -⟩
      · rcases hy with ⟨-, rfl⟩ | ⟨h, -⟩
        · intro h1
          unfold sgn at h1 ⊢
          rcases lt_trichotomy (c : Int) 0 with h | h | h
          · have h2 : (c + 1 : Int) < 0 := by
              have : (c + 1 : Int) ≠ 0 := hc1
              omega
            rw [if_pos h2, if_neg (by omega)]; omega
          · exact absurd h hc0
          · rw [if_neg (by omega), if_pos h] at h1; omega
        · exact absurd h.symm hc1
      · exact absurd h.symm hc0
    | cons b w =>
      rw [List.cons_append, isCmp_cons] at hx hy
      by_cases hbc : b = c
      · subst hbc
        have hp : [b] <+: b :: w := by simp
        rcases hx with ⟨h, -⟩ | ⟨-, hx⟩
        · exact absurd rfl h
        rcases hy with ⟨-, rfl⟩ | ⟨h, -⟩
        · have h1 := isCmp_end_ge (w := w) (fun y hy => ht (Or.inl hp) y (by simpa using hy)) hx
          refine ⟨fun _ => hp, fun _ => ⟨h1, ?_⟩⟩
          unfold sgn
          have e1 : ¬ (b + 1 : Int) < b := by omega
          have e2 : (b : Int) < b + 1 := by omega
          rw [if_neg e1, if_pos e2]; omega
        · have : (b : Int) = b + 1 := h
          omega
      · have hnp : ¬ [c] <+: b :: w := by
          rw [List.cons_prefix_cons]
          exact fun h => hbc h.1.symm
        simp only [hnp, iff_false, not_and]
        intro h0
        rcases hx with ⟨-, rfl⟩ | ⟨h, -⟩
        · have hgt : (c : Int) < b := by
            unfold sgn at h0
            rcases lt_trichotomy (b : Int) c with h | h | h
            · rw [if_neg (by omega), if_pos h] at h0; omega
            · exact absurd h hbc
            · exact h
          rcases hy with ⟨h, rfl⟩ | ⟨rfl, hy⟩
          · have h' : (b : Int) ≠ c + 1 := h
            have e1 : (c + 1 : Int) < b := by omega
            have e2 : ¬ (b : Int) < c + 1 := by omega
            unfold sgn
            rw [if_pos e1, if_neg e2]; omega
          · have := isCmp_end_ge (w := w) (fun y hy => ht (Or.inr (by simp)) y (by simpa using hy)) hy
            omega
        · exact absurd h hbc
  | cons a p ih =>
    intro v hv ht x y hx hy
    simp only [List.cons_append] at hx hy ht ⊢
    cases v with
    | nil =>
      simp only [List.nil_append] at hx hy
      rw [isCmp_cons] at hx hy
      simp only [List.prefix_nil, List.cons_ne_nil, reduceCtorEq, iff_false, not_and]
      by_cases ha : a = 0
      · subst ha
        rcases hx with ⟨h, -⟩ | ⟨-, hx⟩
        · exact absurd rfl h
        rcases hy with ⟨h, -⟩ | ⟨-, hy⟩
        · exact absurd rfl h
        intro h0
        have n : ∀ (l : List Byte), IsCmp [] (l ++ [0]) x → x < 0 := by
          intro l h
          rcases h with ⟨h, -⟩ | ⟨-, h⟩ | ⟨-, h⟩
          · omega
          · simp at h
          · exact absurd h (List.not_lt_nil _)
        have := n _ hx
        omega
      · have ha' : (0 : Byte) ≠ a := fun h => ha h.symm
        rcases hx with ⟨-, rfl⟩ | ⟨h, -⟩
        · rcases hy with ⟨-, rfl⟩ | ⟨h, -⟩
          · omega
          · exact absurd h ha'
        · exact absurd h ha'
    | cons b w =>
      rw [List.cons_append, isCmp_cons] at hx hy
      by_cases hbc : b = a
      · subst hbc
        rcases hx with ⟨h, -⟩ | ⟨-, hx⟩
        · exact absurd rfl h
        rcases hy with ⟨h, -⟩ | ⟨-, hy⟩
        · exact absurd rfl h
        rw [List.cons_prefix_cons]
        simp only [true_and]
        refine ih w (fun z hz => hv z (by simp [hz])) (fun h y hy => ht ?_ y (by simpa using hy)) hx hy
        rcases h with h | h
        · exact Or.inl (List.cons_prefix_cons.2 ⟨rfl, h⟩)
        · exact Or.inr (List.cons_prefix_cons.2 ⟨rfl, h⟩)
      · rw [List.cons_prefix_cons]
        have hn : ¬ (a = b ∧ p ++ [c] <+: w) := fun h => hbc h.1.symm
        simp only [hn, iff_false, not_and]
        rcases hx with ⟨-, rfl⟩ | ⟨h, -⟩
        · rcases hy with ⟨-, rfl⟩ | ⟨h, -⟩
          · omega
          · exact absurd h hbc
        · exact absurd h hbc

theorem ofList_val {l : List Byte} (h : NoNul l) : (ofList l).val = l := by
  refine val_unique _ _ h le_rfl (fun i hi => ?_) (Or.inl rfl)
  show l.getD i 0 = _
  rw [List.getD_eq_getElem?_getD, List.getElem?_eq_getElem hi]; rfl

theorem incByte_eq {c : Byte} (h : c ≠ 127) : incByte c = c + 1 := by
  unfold incByte; rw [if_neg h]

theorem test_both (a b : Int) : (CmpOp.ge.test a && CmpOp.lt.test b) = true ↔ 0 ≤ a ∧ b < 0 := by
  simp [CmpOp.test]

/-- Prefix patterns. -/
theorem likePrefix_spec (cache : Cache) (hcache : cache ≠ some true) (s : NChar) (p : List Byte) (c : Byte) (hp : NoNul (p ++ [c]))
    (h127 : c ≠ 127) (h255 : c ≠ -1) (hs : s.varying = true ∨ ∀ y, s.val[p.length + 1]? = some y → 0 < y) :
    ∃ b, (∀ fuel, s.length + p.length + 3 ≤ fuel → likePrefix fuel cache s (p ++ [c]) = some b) ∧ (b = true ↔ p ++ [c] <+: s.val) := by
  have hc0 : c ≠ 0 := hp c (by simp)
  have hc1 : c + 1 ≠ 0 := by
    intro h
    have h1 : (c : Int) + 1 = 0 := h
    have h2 : (c : Int) ≠ -1 := h255
    omega
  have hU : NoNul (p ++ [c + 1]) := by
    intro x hx
    rcases List.mem_append.1 hx with h | h
    · exact hp x (by simp [h])
    · rw [List.mem_singleton] at h; subst h; exact hc1
  have eU : (p ++ [c]).dropLast ++ [incByte ((p ++ [c]).getLastD 0)] = p ++ [c + 1] := by
    simp [incByte_eq h127]
  obtain ⟨x, x1, x2⟩ := strcmp_spec cache hcache s (ofList (p ++ [c]))
  have lenP : (ofList (p ++ [c])).length = p.length + 1 := by simp [ofList]
  have lenU : (ofList (p ++ [c + 1])).length = p.length + 1 := by simp [ofList]
  have vP : (ofList (p ++ [c])).varying = true := rfl
  have vU : (ofList (p ++ [c + 1])).varying = true := rfl
  -- the second comparison has another cache, but its value does not depend on it
  obtain ⟨y, y1, y2⟩ : ∃ y, (∀ fuel, s.length + p.length + 3 ≤ fuel →
      (strcmp fuel (strcmp fuel cache s (ofList (p ++ [c])) false).2 s (ofList (p ++ [c + 1])) false).1 = some y) ∧ _ := by
    obtain ⟨y, y1, y2⟩ := strcmp_spec cache hcache s (ofList (p ++ [c + 1]))
    refine ⟨y, fun fuel hf => ?_, y2⟩
    rw [← y1 fuel (by rw [lenU]; omega)]
    have hc' := strcmp_cache fuel cache hcache s (ofList (p ++ [c]))
    generalize (strcmp fuel cache s (ofList (p ++ [c])) false).2 = cache' at hc'
    unfold strcmp strncmp
    have g : ∀ k : Cache, k ≠ some true → k.getD false = false := by
      intro k hk
      cases k with
      | none => rfl
      | some b => cases b <;> simp_all
    rw [g _ hc', g _ hcache]
    split_ifs <;> rfl
  rw [lenP, ofList_val hp] at x2
  rw [lenU, ofList_val hU] at y2
  refine ⟨CmpOp.ge.test x && CmpOp.lt.test y, fun fuel hf => ?_, ?_⟩
  · unfold likePrefix
    simp only [eU]
    rw [x1 fuel (by rw [lenP]; omega), y1 fuel hf]
  · rw [test_both]
    have vs := val_len s
    have lP : (p ++ [c]).length = p.length + 1 := by simp
    have lU : (p ++ [c + 1]).length = p.length + 1 := by simp
    have notboth : p ++ [c] <+: s.val → ¬ p ++ [c + 1] <+: s.val := by
      intro h1 h2
      have := (List.prefix_of_prefix_length_le h1 h2 (by simp)).eq_of_length (by simp)
      have h3 : c = c + 1 := by simpa using this
      have h4 : (c : Int) = c + 1 := h3
      omega
    rcases x2 with ⟨-, -, a1, a2, a3, rfl⟩ | ⟨hv, -, a1, a2, a3, rfl⟩ | ⟨nb1, nb2, hx⟩
    · have : ¬ p ++ [c] <+: s.val := fun h => by have := h.length_le; omega
      simp [this]
    · -- the pattern is a proper prefix according to the lengths of the types
      refine ⟨fun _ => a3, fun _ => ⟨by omega, ?_⟩⟩
      rcases y2 with ⟨-, -, -, -, -, rfl⟩ | ⟨-, -, -, -, b3, -⟩ | ⟨-, -, hy⟩
      · omega
      · exact absurd b3 (notboth a3)
      · obtain ⟨w, hw⟩ := a3
        rw [← hw] at hy
        have := hy.unique (IsCmp.of_diff p.length (p ++ [c] ++ w ++ [0]) (p ++ [c + 1] ++ [0]) (by simp) (by simp) (by simp)
          (by
            simp
            intro h
            have h4 : (c : Int) = c + 1 := h
            omega))
        rw [this]
        simp
        unfold sgn
        have e1 : ¬ (c + 1 : Int) < c := by omega
        have e2 : (c : Int) < c + 1 := by omega
        rw [if_neg e1, if_pos e2]; omega
    · rcases y2 with ⟨hv, -, b1, b2, b3, rfl⟩ | ⟨hv, -, b1, b2, b3, rfl⟩ | ⟨nb3, nb4, hy⟩
      · -- the string is shorter than the pattern
        have hnp : ¬ p ++ [c] <+: s.val := fun h => by have := h.length_le; omega
        simp only [hnp, iff_false, not_and]
        intro _ h
        refine nb1 ⟨hv, vP, b1, b2, ?_⟩
        have hpre : s.val <+: p := by
          have h1 : s.val.length ≤ p.length := by omega
          exact List.prefix_of_prefix_length_le b3 (List.prefix_append p [c + 1]) h1
        exact hpre.trans (List.prefix_append _ _)
      · have hnp : ¬ p ++ [c] <+: s.val := fun h => notboth h b3
        simp [hnp]
      · refine bounds p c hc0 hc1 s.val (val_noNul s) ?_ hx hy
        intro hpre z hz
        rcases hs with hv | hs
        · -- VARCHAR: no byte can follow
          exfalso
          have hlt : p.length + 1 < s.val.length := by
            by_contra hn
            rw [List.getElem?_eq_none (by omega)] at hz
            cases hz
          rcases hpre with h | h
          · exact nb2 ⟨hv, vP, by omega, lP, h⟩
          · exact nb4 ⟨hv, vU, by omega, lU, h⟩
        · exact hs z hz

/-- Suffix patterns. -/
theorem likeSuffix_spec (cache : Cache) (hcache : cache ≠ some false) (s : NChar) (p : List Byte) (c : Byte) (hp : NoNul (c :: p))
    (h127 : c ≠ 127) (h255 : c ≠ -1) (hs : ∀ y, s.val.reverse[p.length + 1]? = some y → 0 < y) :
    ∃ b, (∀ fuel, s.length + p.length + 3 ≤ fuel → likeSuffix fuel cache s (c :: p) = some b) ∧ (b = true ↔ c :: p <:+ s.val) := by
  have hc0 : c ≠ 0 := hp c (by simp)
  have hc1 : c + 1 ≠ 0 := by
    intro h
    have h1 : (c : Int) + 1 = 0 := h
    have h2 : (c : Int) ≠ -1 := h255
    omega
  have hU : NoNul ((c + 1) :: p) := by
    intro x hx
    rcases List.mem_cons.1 hx with h | h
    · subst h; exact hc1
    · exact hp x (by simp [h])
  have eU : incByte ((c :: p).headD 0) :: (c :: p).tail = (c + 1) :: p := by simp [incByte_eq h127]
  have lenP : (ofList (c :: p)).length = p.length + 1 := by simp [ofList]
  have lenU : (ofList ((c + 1) :: p)).length = p.length + 1 := by simp [ofList]
  obtain ⟨len, hlen⟩ : ∃ n, n = max s.length (c :: p).length := ⟨_, rfl⟩
  have hl1 : s.length ≤ len := by omega
  have hl2 : p.length + 1 ≤ len := by rw [hlen, List.length_cons]; omega
  obtain ⟨x, x1, x2⟩ := strncmp_reverse cache hcache s (ofList (c :: p)) len hl1 (by rw [lenP]; exact hl2)
  obtain ⟨y, y1, y2⟩ : ∃ y, (∀ fuel, s.length + p.length + 3 ≤ fuel →
      (strncmp fuel (strncmp fuel cache s (ofList (c :: p)) len true).2 s (ofList ((c + 1) :: p)) len true).1 = some y) ∧
      IsCmp (s.val.reverse ++ [0]) ((ofList ((c + 1) :: p)).val.reverse ++ [0]) y := by
    obtain ⟨y, y1, y2⟩ := strncmp_reverse cache hcache s (ofList ((c + 1) :: p)) len hl1 (by rw [lenU]; exact hl2)
    refine ⟨y, fun fuel hf => ?_, y2⟩
    rw [← y1 fuel (by rw [lenU]; omega)]
    have hc' := strncmp_cache_rev fuel cache hcache s (ofList (c :: p)) len
    generalize (strncmp fuel cache s (ofList (c :: p)) len true).2 = cache' at hc'
    unfold strncmp
    have g : ∀ k : Cache, k ≠ some false → k.getD true = true := by
      intro k hk
      cases k with
      | none => rfl
      | some b => cases b <;> simp_all
    rw [g _ hc', g _ hcache]
    split_ifs <;> rfl
  rw [ofList_val hp] at x2
  rw [ofList_val hU] at y2
  refine ⟨CmpOp.ge.test x && CmpOp.lt.test y, fun fuel hf => ?_, ?_⟩
  · unfold likeSuffix
    simp only [eU, ← hlen]
    rw [x1 fuel (by rw [lenP]; omega), y1 fuel hf]
  · rw [test_both, List.reverse_cons] at *
    have := bounds p.reverse c hc0 hc1 s.val.reverse (fun z hz => val_noNul s z (List.mem_reverse.1 hz))
      (fun _ z hz => hs z (by simpa using hz)) x2 y2
    rw [this, ← List.reverse_prefix, List.reverse_cons]

end Mutable.WStr
