import Mathlib.Data.List.Basic
import Mathlib.Data.Int.Order.Basic
import Mathlib.Tactic.Push
import Verif.WasmStr.Model
/-! # String comparison: specification and proof -/
namespace Mutable.WStr

/-- A loop with an invariant and a decreasing measure ends. -/
theorem loopW_spec {σ : Type} {cond : σ → Bool} {body : σ → σ} (I : σ → Prop) (μ : σ → Nat)
    (hstep : ∀ s, I s → cond s = true → I (body s) ∧ μ (body s) < μ s) :
    ∀ (s : σ), I s → ∃ s', (∀ n, μ s < n → loopW cond body n s = some s') ∧ I s' ∧ cond s' = false := by
  intro s
  induction hm : μ s using Nat.strong_induction_on generalizing s with
  | _ m ih =>
    intro hI
    by_cases hc : cond s = true
    · obtain ⟨h1, h2⟩ := hstep s hI hc
      obtain ⟨s', e1, e2, e3⟩ := ih (μ (body s)) (by omega) (body s) rfl h1
      refine ⟨s', fun n hn => ?_, e2, e3⟩
      obtain ⟨n', rfl⟩ : ∃ n', n = n' + 1 := ⟨n - 1, by omega⟩
      rw [loopW, if_pos hc]
      exact e1 n' (by omega)
    · refine ⟨s, fun n hn => ?_, hI, by simpa using hc⟩
      obtain ⟨n', rfl⟩ : ∃ n', n = n' + 1 := ⟨n - 1, by omega⟩
      rw [loopW, if_neg hc]

/-! ### Specification -/

/-- The SQL string: the bytes up to the first NUL, at most as many as the length of the type. -/
def NChar.val (s : NChar) : List Byte := ((List.range s.length).map s.mem).takeWhile (· ≠ 0)

/-- A `VARCHAR` has a NUL byte after at most `length` bytes. -/
def NChar.WF (s : NChar) : Prop := s.varying = true → ∃ k, k ≤ s.length ∧ s.mem k = 0

/-- The result of comparing two lists of bytes: -1, 0 or 1 in the lexicographic order. -/
def IsCmp (a b : List Byte) (r : Int) : Prop := (r = -1 ∧ a < b) ∨ (r = 0 ∧ a = b) ∨ (r = 1 ∧ b < a)

/-! ### Facts about the string -/

theorem val_len (s : NChar) : s.val.length ≤ s.length := by
  unfold NChar.val
  refine (List.takeWhile_prefix _).length_le.trans ?_
  simp

theorem val_get (s : NChar) {i : Nat} (h : i < s.val.length) : s.val[i] = s.mem i ∧ s.mem i ≠ 0 := by
  have hp : s.val <+: (List.range s.length).map s.mem := List.takeWhile_prefix _
  have h1 : s.val[i] = s.mem i := by
    rw [hp.getElem h]; simp
  refine ⟨h1, ?_⟩
  rw [← h1]
  have hall : ∀ (l : List Byte), ∀ x ∈ l.takeWhile (· ≠ 0), x ≠ 0 := by
    intro l
    induction l with
    | nil => simp
    | cons y l ih =>
      intro x hx
      by_cases hy : y = 0
      · simp [List.takeWhile_cons, hy] at hx
      · have e : (y :: l).takeWhile (· ≠ 0) = y :: l.takeWhile (· ≠ 0) := by simp [List.takeWhile_cons, hy]
        rw [e] at hx
        rcases List.mem_cons.1 hx with rfl | hx
        · exact hy
        · exact ih x hx
  exact hall _ _ (List.getElem_mem h)

theorem val_end (s : NChar) : s.val.length = s.length ∨ s.mem s.val.length = 0 := by
  by_cases h : s.val.length = s.length
  · exact Or.inl h
  · right
    have hlt : s.val.length < s.length := lt_of_le_of_ne (val_len s) h
    by_contra hne
    have key : ∀ (l : List Byte) (hl : (l.takeWhile (· ≠ 0)).length < l.length), l[(l.takeWhile (· ≠ 0)).length]'hl = 0 := by
      intro l
      induction l with
      | nil => intro hl; simp at hl
      | cons x l ih =>
        intro hl
        by_cases hx : x = 0
        · subst hx; simp
        · have e : (x :: l).takeWhile (· ≠ 0) = x :: l.takeWhile (· ≠ 0) := by simp [List.takeWhile_cons, hx]
          simp only [e, List.length_cons, List.getElem_cons_succ] at hl ⊢
          exact ih (by omega)
    have := key ((List.range s.length).map s.mem) (by rw [List.length_map, List.length_range]; exact hlt)
    rw [List.getElem_map, List.getElem_range] at this
    exact hne this

theorem val_lt_of_wf {s : NChar} (h : s.WF) (hv : s.varying = true) : s.mem s.val.length = 0 := by
  rcases val_end s with h1 | h1
  · obtain ⟨k, hk, h0⟩ := h hv
    by_contra hn
    have : k < s.val.length := by
      rcases Nat.lt_or_ge k s.val.length with h2 | h2
      · exact h2
      · have : k = s.val.length := by omega
        subst this; exact absurd h0 hn
    exact (val_get s this).2 h0
  · exact h1

/-- The byte the comparison sees at position `i`: NUL at the end. -/
theorem seen (s : NChar) {i n : Nat} (hi : i ≤ s.val.length) (hn : n ≤ s.length) (hin : i ≤ n) (hv : s.val.length ≤ n) :
    (if i ≠ n then s.mem i else 0) = s.val.getD i 0 := by
  rw [List.getD_eq_getElem?_getD]
  rcases Nat.lt_or_eq_of_le hi with h | h
  · rw [if_pos (by omega), List.getElem?_eq_getElem h]
    exact (val_get s h).1.symm
  · subst h
    rw [List.getElem?_eq_none le_rfl]
    by_cases hne : s.val.length = n
    · rw [if_neg (by omega)]; rfl
    · rw [if_pos hne]
      rcases val_end s with h1 | h1
      · omega
      · rw [h1]; rfl

/-! ### Lexicographic comparison from the first difference -/

theorem IsCmp.of_diff : ∀ (k : Nat) (a b : List Byte) (h1 : k < a.length) (h2 : k < b.length), a.take k = b.take k →
    a[k] ≠ b[k] → IsCmp a b (sgn a[k] b[k])
  | _, [], _, h, _, _, _ => by simp at h
  | _, _, [], _, h, _, _ => by simp at h
  | 0, x :: a, y :: b, _, _, _, h => by
    simp only [List.getElem_cons_zero] at h ⊢
    unfold sgn
    rcases lt_or_gt_of_ne h with h1 | h1
    · refine Or.inl ⟨by simp [h1, not_lt.2 (le_of_lt h1)], ?_⟩
      exact List.cons_lt_cons_iff.2 (Or.inl h1)
    · refine Or.inr (Or.inr ⟨by simp [h1, not_lt.2 (le_of_lt h1)], ?_⟩)
      exact List.cons_lt_cons_iff.2 (Or.inl h1)
  | k + 1, x :: a, y :: b, h1, h2, ht, hd => by
    simp only [List.take_succ_cons, List.cons.injEq] at ht
    obtain ⟨rfl, ht⟩ := ht
    have ih := IsCmp.of_diff k a b (by simpa using h1) (by simpa using h2) ht (by simpa using hd)
    simp only [List.getElem_cons_succ]
    rcases ih with ⟨e, h⟩ | ⟨e, h⟩ | ⟨e, h⟩
    · exact Or.inl ⟨e, List.cons_lt_cons_iff.2 (Or.inr ⟨rfl, h⟩)⟩
    · exact Or.inr (Or.inl ⟨e, by rw [h]⟩)
    · exact Or.inr (Or.inr ⟨e, List.cons_lt_cons_iff.2 (Or.inr ⟨rfl, h⟩)⟩)

theorem sgn_eq_zero {x y : Int} : sgn x y = 0 ↔ x = y := by
  unfold sgn
  rcases lt_trichotomy x y with h | h | h
  · simp [h, not_lt.2 (le_of_lt h), ne_of_lt h]
  · simp [h]
  · simp [h, not_lt.2 (le_of_lt h), ne_of_gt h]

/-- No byte of the list is NUL. -/
def NoNul (a : List Byte) : Prop := ∀ x ∈ a, x ≠ 0

theorem val_noNul (s : NChar) : NoNul s.val := by
  intro x hx
  obtain ⟨i, hi, rfl⟩ := List.mem_iff_getElem.1 hx
  rw [(val_get s hi).1]
  exact (val_get s hi).2

/-- One step of a comparison of `a` and `b` with a NUL at their ends. -/
theorem cmp_at {a b : List Byte} (ha : NoNul a) (hb : NoNul b) {k : Nat} (h1 : k ≤ a.length) (h2 : k ≤ b.length) (ht : a.take k = b.take k) :
    (a.getD k 0 ≠ b.getD k 0 → IsCmp (a ++ [0]) (b ++ [0]) (sgn (a.getD k 0) (b.getD k 0))) ∧
    (a.getD k 0 = b.getD k 0 → a.getD k 0 = 0 → a = b) ∧
    (a.getD k 0 = b.getD k 0 → a.getD k 0 ≠ 0 → k < a.length ∧ k < b.length ∧ a.take (k + 1) = b.take (k + 1)) := by
  have get : ∀ (a : List Byte), k ≤ a.length → ∀ h : k < (a ++ [0]).length, (a ++ [0])[k] = a.getD k 0 := by
    intro a hk h
    rcases Nat.lt_or_eq_of_le hk with h' | h'
    · rw [List.getElem_append_left h', List.getD_eq_getElem?_getD, List.getElem?_eq_getElem h']; rfl
    · subst h'; simp
  have zero : ∀ (a : List Byte), NoNul a → k ≤ a.length → a.getD k 0 = 0 → k = a.length := by
    intro a ha hk h0
    rcases Nat.lt_or_eq_of_le hk with h' | h'
    · rw [List.getD_eq_getElem?_getD, List.getElem?_eq_getElem h'] at h0
      exact absurd h0 (ha _ (List.getElem_mem h'))
    · exact h'
  refine ⟨fun hd => ?_, fun he h0 => ?_, fun he h0 => ?_⟩
  · have l1 : k < (a ++ [0]).length := by simp; omega
    have l2 : k < (b ++ [0]).length := by simp; omega
    have := IsCmp.of_diff k (a ++ [0]) (b ++ [0]) l1 l2 (by rw [List.take_append_of_le_length h1, List.take_append_of_le_length h2, ht])
      (by rw [get a h1, get b h2]; exact hd)
    rwa [get a h1, get b h2] at this
  · have e1 := zero a ha h1 h0
    have e2 := zero b hb h2 (he ▸ h0)
    have t1 : a.take k = a := by rw [e1]; exact List.take_length
    have t2 : b.take k = b := by rw [e2]; exact List.take_length
    rw [← t1, ← t2, ht]
  · have l1 : k < a.length := by
      by_contra hn
      exact h0 (by rw [List.getD_eq_getElem?_getD, List.getElem?_eq_none (by omega)]; rfl)
    have l2 : k < b.length := by
      by_contra hn
      exact h0 (by rw [he, List.getD_eq_getElem?_getD, List.getElem?_eq_none (by omega)]; rfl)
    refine ⟨l1, l2, ?_⟩
    rw [List.getD_eq_getElem?_getD, List.getD_eq_getElem?_getD, List.getElem?_eq_getElem l1, List.getElem?_eq_getElem l2] at he
    rw [List.take_add_one, List.take_add_one, ht, List.getElem?_eq_getElem l1, List.getElem?_eq_getElem l2]
    simp at he
    rw [he]

theorem IsCmp.unique {a b : List Byte} {r r' : Int} (h : IsCmp a b r) (h' : IsCmp a b r') : r = r' := by
  have irr : ∀ a : List Byte, ¬ a < a := fun a => List.lt_irrefl a
  have asym : ∀ a b : List Byte, a < b → ¬ b < a := fun a b h h' => List.lt_irrefl a (List.lt_trans h h')
  rcases h with ⟨e, h⟩ | ⟨e, h⟩ | ⟨e, h⟩ <;> rcases h' with ⟨e', h'⟩ | ⟨e', h'⟩ | ⟨e', h'⟩ <;> rw [e, e'] <;> exfalso
  · subst h'; exact irr _ h
  · exact asym _ _ h h'
  · subst h; exact irr _ h'
  · subst h; exact irr _ h'
  · exact asym _ _ h h'
  · subst h'; exact irr _ h

/-- A comparison loop which in round `i` compares the `i`-th bytes of `a` and `b`. -/
theorem cmp_loop {a b : List Byte} (ha : NoNul a) (hb : NoNul b) (f g : Nat → Int) (body : CmpSt → CmpSt)
    (hbody : ∀ i, i ≤ a.length → i ≤ b.length → a.take i = b.take i → body ⟨f i, g i, none⟩ =
      if sgn (a.getD i 0) (b.getD i 0) ≠ 0 then ⟨f i, g i, some (sgn (a.getD i 0) (b.getD i 0))⟩
      else if a.getD i 0 = 0 then ⟨f i, g i, some (sgn (a.getD i 0) (b.getD i 0))⟩ else ⟨f (i + 1), g (i + 1), none⟩) :
    ∃ r, (∀ fuel, a.length + 2 ≤ fuel → (loopW (fun s => s.result.isNone) body fuel ⟨f 0, g 0, none⟩).bind (·.result) = some r) ∧
      IsCmp (a ++ [0]) (b ++ [0]) r := by
  -- rounds: `i` is the number of rounds done
  have key : ∀ (n i : Nat), i ≤ a.length → i ≤ b.length → a.take i = b.take i → a.length - i = n →
      ∃ r, (∀ fuel, n + 2 ≤ fuel → (loopW (fun s => s.result.isNone) body fuel ⟨f i, g i, none⟩).bind (·.result) = some r) ∧
        IsCmp (a ++ [0]) (b ++ [0]) r := by
    intro n
    induction n with
    | zero =>
      intro i h1 h2 ht hn
      obtain ⟨c1, c2, c3⟩ := cmp_at ha hb h1 h2 ht
      have hb' := hbody i h1 h2 ht
      by_cases hd : a.getD i 0 = b.getD i 0
      · have h0 : a.getD i 0 = 0 := by
          by_contra h0
          have := c3 hd h0
          omega
        refine ⟨0, fun fuel hf => ?_, Or.inr (Or.inl ⟨rfl, by rw [c2 hd h0]⟩)⟩
        obtain ⟨fuel, rfl⟩ : ∃ k, fuel = k + 2 := ⟨fuel - 2, by omega⟩
        rw [loopW, if_pos (by simp), hb', if_neg (by rw [not_not, sgn_eq_zero]; exact hd), if_pos h0, loopW, if_neg (by simp)]
        simp only [Option.bind_some]
        rw [sgn_eq_zero.2 hd]
      · refine ⟨_, fun fuel hf => ?_, c1 hd⟩
        obtain ⟨fuel, rfl⟩ : ∃ k, fuel = k + 2 := ⟨fuel - 2, by omega⟩
        rw [loopW, if_pos (by simp), hb', if_pos (by rw [ne_eq, sgn_eq_zero]; exact hd), loopW, if_neg (by simp)]
        rfl
    | succ n ih =>
      intro i h1 h2 ht hn
      obtain ⟨c1, c2, c3⟩ := cmp_at ha hb h1 h2 ht
      have hb' := hbody i h1 h2 ht
      by_cases hd : a.getD i 0 = b.getD i 0
      · by_cases h0 : a.getD i 0 = 0
        · refine ⟨0, fun fuel hf => ?_, Or.inr (Or.inl ⟨rfl, by rw [c2 hd h0]⟩)⟩
          obtain ⟨fuel, rfl⟩ : ∃ k, fuel = k + 2 := ⟨fuel - 2, by omega⟩
          rw [loopW, if_pos (by simp), hb', if_neg (by rw [not_not, sgn_eq_zero]; exact hd), if_pos h0, loopW, if_neg (by simp)]
          simp only [Option.bind_some]
          rw [sgn_eq_zero.2 hd]
        · obtain ⟨l1, l2, l3⟩ := c3 hd h0
          obtain ⟨r, r1, r2⟩ := ih (i + 1) (by omega) (by omega) l3 (by omega)
          refine ⟨r, fun fuel hf => ?_, r2⟩
          obtain ⟨fuel, rfl⟩ : ∃ k, fuel = k + 1 := ⟨fuel - 1, by omega⟩
          rw [loopW, if_pos (by simp), hb', if_neg (by rw [not_not, sgn_eq_zero]; exact hd), if_neg h0]
          exact r1 fuel (by omega)
      · refine ⟨_, fun fuel hf => ?_, c1 hd⟩
        obtain ⟨fuel, rfl⟩ : ∃ k, fuel = k + 2 := ⟨fuel - 2, by omega⟩
        rw [loopW, if_pos (by simp), hb', if_pos (by rw [ne_eq, sgn_eq_zero]; exact hd), loopW, if_neg (by simp)]
        rfl
  obtain ⟨r, r1, r2⟩ := key a.length 0 (Nat.zero_le _) (Nat.zero_le _) rfl rfl
  exact ⟨r, r1, r2⟩

end Mutable.WStr
