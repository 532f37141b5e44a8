import Verif.WasmJoin.Spec

/-! The merge loop. -/
namespace Mutable.WasmJoin
open Mutable.WasmAgg

section
variable {A B V : Type}

theorem eqTrue_iff [DecidableEq V] (x y : Option V) : eqTrue x y = true ↔ SqlEq x y := by
  cases x <;> cases y <;> simp [eqTrue, SqlEq]

theorem keysEq_iff [DecidableEq V] : ∀ {x y : List (Option V)}, x.length = y.length → (keysEq x y = true ↔ KeysEq x y) := by
  intro x
  induction x with
  | nil => intro y h; cases y with
    | nil => simp [keysEq, KeysEq]
    | cons => simp at h
  | cons a x ih => intro y h; cases y with
    | nil => simp at h
    | cons b y =>
      have := ih (y := y) (by simpa using h)
      simp only [keysEq, KeysEq, List.zip_cons_cons, List.all_cons, Bool.and_eq_true, eqTrue_iff, List.forall₂_cons] at *
      rw [this]

theorem KeysEq.eq {x y : List (Option V)} (h : KeysEq x y) : x = y := by
  induction h with
  | nil => rfl
  | cons h _ ih => rw [h.2, ih]

theorem KeysEq.notNull {x y : List (Option V)} (h : KeysEq x y) : ∀ v ∈ x, v ≠ none := by
  induction h with
  | nil => simp
  | cons h _ ih =>
    intro v hv
    rcases List.mem_cons.1 hv with rfl | hv
    · exact h.1
    · exact ih v hv

theorem keysEq_of {x : List (Option V)} (h : ∀ v ∈ x, v ≠ none) : KeysEq x x := by
  induction x with
  | nil => exact .nil
  | cons a x ih => exact .cons ⟨h a (by simp), rfl⟩ (ih fun v hv => h v (by simp [hv]))

variable [LinearOrder V]

theorem foldl_and {α : Type} (f : α → Bool) (l : List α) (b : Bool) :
    l.foldl (fun acc x => acc && f x) b = (b && l.all f) := by
  induction l generalizing b with
  | nil => simp
  | cons x l ih => simp [ih, Bool.and_assoc]

theorem childLe1_iff (p c : Option V) : childLe1 p c = true ↔ ValBefore c p ∨ c = p := by
  cases p with
  | none => cases c <;> simp [childLe1, leTrue, ValBefore]
  | some p => cases c with
    | none => simp [childLe1, ValBefore]
    | some c => simp [childLe1, leTrue, ValBefore, le_iff_lt_or_eq]

theorem childLe_iff : ∀ {p c : List (Option V)}, p.length = c.length → (childLe p c = true ↔ AllLe c p) := by
  intro p
  induction p with
  | nil => intro c h; cases c with
    | nil => simp [childLe, AllLe]
    | cons => simp at h
  | cons a p ih => intro c h; cases c with
    | nil => simp at h
    | cons b c =>
      have := ih (c := c) (by simpa using h)
      simp only [childLe, foldl_and, AllLe, Bool.true_and, List.zip_cons_cons, List.all_cons, Bool.and_eq_true,
        childLe1_iff, List.forall₂_cons] at *
      rw [this]

theorem ValBefore.irrefl (x : Option V) : ¬ ValBefore x x := by cases x <;> simp [ValBefore]

theorem ValBefore.trans {x y z : Option V} (h1 : ValBefore x y) (h2 : ValBefore y z) : ValBefore x z := by
  cases x <;> cases y <;> cases z <;> simp_all [ValBefore]
  exact lt_trans h1 h2

/-- Lexicographically at most and componentwise at least: equal. -/
theorem keyLe_antisymm : ∀ {x y : List (Option V)}, KeyLe x y → AllLe y x → x = y := by
  intro x
  induction x with
  | nil => intro y _ h; cases h; rfl
  | cons a x ih =>
    intro y h1 h2
    cases h2 with
    | cons h3 h4 =>
      simp only [KeyLe] at h1
      rcases h1 with h1 | ⟨rfl, h1⟩
      · rcases h3 with h3 | rfl
        · exact absurd (h1.trans h3) (ValBefore.irrefl _)
        · exact absurd h1 (ValBefore.irrefl _)
      · rw [ih h1 h4]

theorem allLe_refl (x : List (Option V)) : AllLe x x := by
  induction x with
  | nil => exact .nil
  | cons a x ih => exact .cons (.inr rfl) ih

/-! ### The pairs -/

theorem pairs_nil_left (p : A → B → Prop) [∀ a b, Decidable (p a b)] (R : List B) : pairs p [] R = [] := by
  simp [pairs]

theorem pairs_cons_left (p : A → B → Prop) [∀ a b, Decidable (p a b)] (l : A) (L : List A) (R : List B)
    (h : ∀ r ∈ R, ¬ p l r) : pairs p (l :: L) R = pairs p L R := by
  unfold pairs
  induction R with
  | nil => rfl
  | cons r R ih =>
    rw [List.flatMap_cons, List.flatMap_cons, ih fun r hr => h r (by simp [hr])]
    rw [List.filter_cons_of_neg (by simpa using h r (by simp))]

theorem pairs_sublist (p : A → B → Prop) [∀ a b, Decidable (p a b)] (l : A) (L : List A) (R : List B) :
    (pairs p L R).Sublist (pairs p (l :: L) R) := by
  unfold pairs
  induction R with
  | nil => simp
  | cons r R ih =>
    rw [List.flatMap_cons, List.flatMap_cons]
    exact ((List.Sublist.filter _ (List.sublist_cons_self l L)).map _).append ih

theorem rowsOf_cons {R : Type} (x : Option Bool × R) (l : List (Option Bool × R)) :
    rowsOf (x :: l) = rowsOf [x] ++ rowsOf l := by
  simp only [rowsOf, ← List.map_append, ← List.filter_append, List.singleton_append]

theorem rowsOf_app {R : Type} (l l' : List (Option Bool × R)) : rowsOf (l ++ l') = rowsOf l ++ rowsOf l' := by
  simp [rowsOf]

theorem smEmit_rows (predicated : Bool) (kl : A → List (Option V)) (kr : B → List (Option V)) (l : A) (r : B) :
    rowsOf (smEmit predicated kl kr l r) = if keysEq (kl l) (kr r) then [(l, r)] else [] := by
  cases predicated <;> cases h : keysEq (kl l) (kr r) <;> simp [smEmit, rowsOf, h]

variable {predicated : Bool} {kl : A → List (Option V)} {kr : B → List (Option V)}

/-- The merge loop produces exactly the matching pairs. -/
theorem merge_spec {n : Nat} (hl : ∀ a, (kl a).length = n) (hr : ∀ b, (kr b).length = n) :
    ∀ (m : Nat) (L : List A) (R : List B), L.length + R.length ≤ m →
      SortedBy kl L → SortedBy kr R → UniqueKeys kl L →
      (∀ l ∈ L, ∀ r ∈ R, KeyLe (kr r) (kl l) → AllLe (kr r) (kl l)) →
      rowsOf (merge predicated kl kr L R) = pairs (fun l r => KeysEq (kl l) (kr r)) L R := by
  intro m
  induction m with
  | zero =>
    intro L R h _ _ _ _
    have : L = [] := List.length_eq_zero_iff.1 (by omega)
    subst this
    rw [merge, pairs_nil_left]; rfl
  | succ m ih =>
    intro L R h hL hR hu hag
    cases L with
    | nil => rw [merge, pairs_nil_left]; rfl
    | cons l ls =>
      cases R with
      | nil => rw [merge]; rfl
      | cons r rs =>
        rw [merge, rowsOf_app, smEmit_rows]
        obtain ⟨hL1, hL2⟩ := List.pairwise_cons.1 hL
        obtain ⟨hR1, hR2⟩ := List.pairwise_cons.1 hR
        obtain ⟨hu1, hu2⟩ := List.pairwise_cons.1 hu
        have hk := keysEq_iff (x := kl l) (y := kr r) (by rw [hl, hr])
        by_cases hc : childLe (kl l) (kr r) = true
        · rw [if_pos hc, ih (l :: ls) rs (by simp at h ⊢; omega) hL hR2 hu
            (fun a ha b hb => hag a ha b (by simp [hb]))]
          have hle := (childLe_iff (by rw [hl, hr])).1 hc
          have hnone : ls.filter (fun l' => KeysEq (kl l') (kr r)) = [] := by
            rw [List.filter_eq_nil_iff]
            intro l' hl' hm
            have hm : KeysEq (kl l') (kr r) := by simpa using hm
            have e := hm.eq
            rw [← e] at hle
            have e2 := keyLe_antisymm (hL1 l' hl') hle
            apply hu1 l' hl'
            rw [e2]
            exact keysEq_of hm.notNull
          have : pairs (fun l r => KeysEq (kl l) (kr r)) (l :: ls) (r :: rs) =
              (if KeysEq (kl l) (kr r) then [(l, r)] else []) ++ pairs (fun l r => KeysEq (kl l) (kr r)) (l :: ls) rs := by
            unfold pairs
            rw [List.flatMap_cons, List.filter_cons, hnone]
            by_cases hkk : KeysEq (kl l) (kr r) <;> simp [hkk]
          rw [this]
          congr 1
          by_cases hkk : KeysEq (kl l) (kr r)
          · rw [if_pos hkk, if_pos (hk.2 hkk)]
          · rw [if_neg hkk, if_neg (fun h => hkk (hk.1 h))]
        · rw [if_neg hc, ih ls (r :: rs) (by simp at h ⊢; omega) hL2 hR hu2
            (fun a ha b hb => hag a (by simp [ha]) b hb)]
          have hnot : ∀ r' ∈ r :: rs, ¬ KeysEq (kl l) (kr r') := by
            intro r' hr' hm
            have e := hm.eq
            apply hc
            rw [childLe_iff (by rw [hl, hr])]
            rcases List.mem_cons.1 hr' with rfl | hr'
            · rw [e]; exact allLe_refl _
            · apply hag l (by simp) r (by simp)
              rw [e]; exact hR1 r' hr'
          rw [pairs_cons_left _ _ _ _ hnot]
          have := hnot r (by simp)
          rw [if_neg (fun h => this (hk.1 h)), List.nil_append]

/-- Whatever the inputs: no wrong pair, and no pair twice. -/
theorem merge_sublist {n : Nat} (hl : ∀ a, (kl a).length = n) (hr : ∀ b, (kr b).length = n) :
    ∀ (m : Nat) (L : List A) (R : List B), L.length + R.length ≤ m →
      (rowsOf (merge predicated kl kr L R)).Sublist (pairs (fun l r => KeysEq (kl l) (kr r)) L R) := by
  intro m
  induction m with
  | zero =>
    intro L R h
    have : L = [] := List.length_eq_zero_iff.1 (by omega)
    subst this
    rw [merge]; exact List.nil_sublist _
  | succ m ih =>
    intro L R h
    cases L with
    | nil => rw [merge]; exact List.nil_sublist _
    | cons l ls =>
      cases R with
      | nil => rw [merge]; exact List.nil_sublist _
      | cons r rs =>
        rw [merge, rowsOf_app, smEmit_rows]
        have hk := keysEq_iff (x := kl l) (y := kr r) (by rw [hl, hr])
        have hk' : (if keysEq (kl l) (kr r) = true then [(l, r)] else []) = if KeysEq (kl l) (kr r) then [(l, r)] else [] := by
          by_cases hkk : KeysEq (kl l) (kr r)
          · rw [if_pos hkk, if_pos (hk.2 hkk)]
          · rw [if_neg hkk, if_neg (fun h => hkk (hk.1 h))]
        have hs : pairs (fun l r => KeysEq (kl l) (kr r)) (l :: ls) (r :: rs) =
            (if KeysEq (kl l) (kr r) then [(l, r)] else []) ++
              ((ls.filter fun l => KeysEq (kl l) (kr r)).map (fun l => (l, r)) ++
                pairs (fun l r => KeysEq (kl l) (kr r)) (l :: ls) rs) := by
          unfold pairs
          rw [List.flatMap_cons, List.filter_cons]
          by_cases hkk : KeysEq (kl l) (kr r) <;> simp [hkk]
        rw [hs, hk']
        apply List.Sublist.append (List.Sublist.refl _)
        by_cases hc : childLe (kl l) (kr r) = true
        · rw [if_pos hc]
          exact (ih (l :: ls) rs (by simp at h ⊢; omega)).trans (List.sublist_append_right _ _)
        · rw [if_neg hc]
          refine (ih ls (r :: rs) (by simp at h ⊢; omega)).trans ?_
          have : pairs (fun l r => KeysEq (kl l) (kr r)) ls (r :: rs) =
            (ls.filter fun l => KeysEq (kl l) (kr r)).map (fun l => (l, r)) ++ pairs (fun l r => KeysEq (kl l) (kr r)) ls rs := by
            simp [pairs]
          rw [this]
          exact List.Sublist.append (List.Sublist.refl _) (pairs_sublist _ _ _ _)

theorem smEmit_mem {x : Option Bool × (A × B)} {l : A} {r : B} (h : x ∈ smEmit predicated kl kr l r) : x.2 = (l, r) := by
  unfold smEmit at h
  split at h
  · simp at h; rw [h]
  · split at h
    · simp at h; rw [h]
    · simp at h

theorem merge_mem : ∀ (m : Nat) (L : List A) (R : List B), L.length + R.length ≤ m →
    ∀ x ∈ merge predicated kl kr L R, x.2.1 ∈ L ∧ x.2.2 ∈ R := by
  intro m
  induction m with
  | zero =>
    intro L R h x hx
    have : L = [] := List.length_eq_zero_iff.1 (by omega)
    subst this
    rw [merge] at hx; simp at hx
  | succ m ih =>
    intro L R h x hx
    cases L with
    | nil => rw [merge] at hx; simp at hx
    | cons l ls =>
      cases R with
      | nil => rw [merge] at hx; simp at hx
      | cons r rs =>
        rw [merge, List.mem_append] at hx
        rcases hx with hx | hx
        · rw [smEmit_mem hx]; simp
        · split at hx
          · have := ih (l :: ls) rs (by simp at h ⊢; omega) x hx
            exact ⟨this.1, by simp [this.2]⟩
          · have := ih ls (r :: rs) (by simp at h ⊢; omega) x hx
            exact ⟨by simp [this.1], this.2⟩

/-- The output follows the order of both inputs. -/
theorem merge_order (leL : A → A → Prop) (leR : B → B → Prop) (hrl : ∀ a, leL a a) (hrr : ∀ b, leR b b) :
    ∀ (m : Nat) (L : List A) (R : List B), L.length + R.length ≤ m → L.Pairwise leL → R.Pairwise leR →
      (merge predicated kl kr L R).Pairwise fun x y => leL x.2.1 y.2.1 ∧ leR x.2.2 y.2.2 := by
  intro m
  induction m with
  | zero =>
    intro L R h _ _
    have : L = [] := List.length_eq_zero_iff.1 (by omega)
    subst this
    rw [merge]; exact .nil
  | succ m ih =>
    intro L R h hL hR
    cases L with
    | nil => rw [merge]; exact .nil
    | cons l ls =>
      cases R with
      | nil => rw [merge]; exact .nil
      | cons r rs =>
        rw [merge, List.pairwise_append]
        obtain ⟨hL1, hL2⟩ := List.pairwise_cons.1 hL
        obtain ⟨hR1, hR2⟩ := List.pairwise_cons.1 hR
        refine ⟨?_, ?_, ?_⟩
        · unfold smEmit
          split
          · simp
          · split <;> simp
        · split
          · exact ih (l :: ls) rs (by simp at h ⊢; omega) hL hR2
          · exact ih ls (r :: rs) (by simp at h ⊢; omega) hL2 hR
        · intro x hx y hy
          rw [smEmit_mem hx]
          have hin : y.2.1 ∈ l :: ls ∧ y.2.2 ∈ r :: rs := by
            split at hy
            · have := merge_mem _ (l :: ls) rs le_rfl y hy
              exact ⟨this.1, by simp [this.2]⟩
            · have := merge_mem _ ls (r :: rs) le_rfl y hy
              exact ⟨by simp [this.1], this.2⟩
          constructor
          · rcases List.mem_cons.1 hin.1 with h1 | h1
            · rw [h1]; exact hrl l
            · exact hL1 _ h1
          · rcases List.mem_cons.1 hin.2 with h1 | h1
            · rw [h1]; exact hrr r
            · exact hR1 _ h1

end

end Mutable.WasmJoin
