import Verif.Deliver.Spec
import Mathlib.Data.List.Nodup

namespace Mutable.Deliver

variable {α : Type}

/-! ## Schemas -/

theorem hasId_iff (S : Schema) (id : Ident) : hasId S id = true ↔ ∃ e ∈ S, e.id = id := by
  simp [hasId]

theorem hasId_dropConst (S : Schema) {id : Ident} (h : id ≠ constId) :
    hasId (dropConst S) id = hasId S id := by
  rw [Bool.eq_iff_iff, hasId_iff, hasId_iff]
  constructor
  · rintro ⟨e, he, rfl⟩
    exact ⟨e, (List.mem_filter.1 he).1, rfl⟩
  · rintro ⟨e, he, rfl⟩
    exact ⟨e, List.mem_filter.2 ⟨he, by simpa using h⟩, rfl⟩

theorem dropConst_dedupAux (S : Schema) : ∀ acc,
    dropConst (dedupAux acc S) = dedupAux (dropConst acc) (dropConst S) := by
  induction S with
  | nil => intro acc; rfl
  | cons e r ih =>
    intro acc
    rw [dedupAux]
    by_cases hc : e.id = constId
    · have h1 : dropConst (e :: r) = dropConst r := by simp [dropConst, hc]
      have h2 : dropConst (acc ++ [e]) = dropConst acc := by simp [dropConst, hc]
      rw [h1]
      split
      · exact ih acc
      · rw [ih, h2]
    · have h1 : dropConst (e :: r) = e :: dropConst r := by simp [dropConst, hc]
      have h2 : dropConst (acc ++ [e]) = dropConst acc ++ [e] := by simp [dropConst, hc]
      rw [h1, dedupAux, hasId_dropConst _ hc]
      split
      · exact ih acc
      · rw [ih, h2]

theorem write_eq_read (S : Schema) : writeSchema S = readSchema S := by
  rw [writeSchema, readSchema, dedup, dedup, dropConst_dedupAux]
  rfl

theorem dedupAux_nodup (S : Schema) : ∀ acc : Schema, (acc.map (·.id)).Nodup →
    ((dedupAux acc S).map (·.id)).Nodup := by
  induction S with
  | nil => intro acc h; exact h
  | cons e r ih =>
    intro acc h
    rw [dedupAux]
    split
    · exact ih acc h
    · rename_i hn
      apply ih
      rw [List.map_append, List.nodup_append]
      refine ⟨h, by simp, ?_⟩
      intro x hx y hy hxy
      simp only [List.map_cons, List.map_nil, List.mem_singleton] at hy
      obtain ⟨e', he', rfl⟩ := List.mem_map.1 hx
      exact hn ((hasId_iff _ _).2 ⟨e', he', hxy.trans hy⟩)

theorem dedup_nodup (S : Schema) : ((dedup S).map (·.id)).Nodup := dedupAux_nodup S [] (by simp)

theorem mem_dedupAux_sub (S : Schema) : ∀ acc e, e ∈ dedupAux acc S → e ∈ acc ∨ e ∈ S := by
  induction S with
  | nil => intro acc e h; exact Or.inl h
  | cons x r ih =>
    intro acc e h
    rw [dedupAux] at h
    split at h
    · rcases ih _ _ h with h | h
      · exact Or.inl h
      · exact Or.inr (List.mem_cons_of_mem _ h)
    · rcases ih _ _ h with h | h
      · rcases List.mem_append.1 h with h | h
        · exact Or.inl h
        · exact Or.inr (by simp at h; simp [h])
      · exact Or.inr (List.mem_cons_of_mem _ h)

theorem mem_dedup_sub {S : Schema} {e : Entry} (h : e ∈ dedup S) : e ∈ S := by
  rcases mem_dedupAux_sub S [] e h with h | h
  · simp at h
  · exact h

theorem dedupAux_acc (S : Schema) : ∀ acc e, e ∈ acc → e ∈ dedupAux acc S := by
  induction S with
  | nil => intro acc e h; exact h
  | cons x r ih =>
    intro acc e h
    rw [dedupAux]
    split
    · exact ih _ _ h
    · exact ih _ _ (List.mem_append_left _ h)

theorem dedupAux_covers (S : Schema) : ∀ acc, ∀ e ∈ S, ∃ e' ∈ dedupAux acc S, e'.id = e.id := by
  induction S with
  | nil => intro acc e h; simp at h
  | cons x r ih =>
    intro acc e h
    rw [dedupAux]
    rcases List.mem_cons.1 h with rfl | h
    · split
      · rename_i hh
        obtain ⟨e', he', hid⟩ := (hasId_iff _ _).1 hh
        exact ⟨e', dedupAux_acc _ _ _ he', hid⟩
      · exact ⟨e, dedupAux_acc _ _ _ (by simp), rfl⟩
    · split
      · exact ih _ e h
      · exact ih _ e h

theorem dedup_covers {S : Schema} {e : Entry} (h : e ∈ S) : ∃ e' ∈ dedup S, e'.id = e.id :=
  dedupAux_covers S [] e h

theorem dedupAux_len (S : Schema) : ∀ acc, (dedupAux acc S).length ≤ acc.length + S.length := by
  induction S with
  | nil => intro acc; simp [dedupAux]
  | cons x r ih =>
    intro acc
    rw [dedupAux]
    split
    · have := ih acc; simp only [List.length_cons]; omega
    · have := ih (acc ++ [x])
      simp only [List.length_append, List.length_cons, List.length_nil] at this ⊢; omega

theorem dedupAux_eq (S : Schema) : ∀ acc, (dedupAux acc S).length = acc.length + S.length →
    dedupAux acc S = acc ++ S := by
  induction S with
  | nil => intro acc _; simp [dedupAux]
  | cons x r ih =>
    intro acc h
    rw [dedupAux] at h ⊢
    split at h
    · have := dedupAux_len r acc; simp only [List.length_cons] at h; omega
    · rename_i hn
      rw [if_neg hn, ih]
      · simp
      · simp only [List.length_append, List.length_cons, List.length_nil] at h ⊢; omega

theorem dedup_eq_self {S : Schema} (h : S.length = (dedup S).length) : dedup S = S := by
  have := dedupAux_eq S [] (by simp only [List.length_nil, Nat.zero_add]; exact h.symm)
  rw [dedup, this]
  rfl

theorem dedupAux_of_nodup (S : Schema) : ∀ acc : Schema, ((acc ++ S).map (·.id)).Nodup →
    dedupAux acc S = acc ++ S := by
  induction S with
  | nil => intro acc _; simp [dedupAux]
  | cons x r ih =>
    intro acc h
    rw [dedupAux]
    have hn : ¬ hasId acc x.id = true := by
      intro hh
      obtain ⟨e', he', hid⟩ := (hasId_iff _ _).1 hh
      rw [List.map_append, List.nodup_append] at h
      exact h.2.2 e'.id (List.mem_map_of_mem he') x.id (by simp) hid
    rw [if_neg hn, ih]
    · simp
    · simpa using h

/-- The schema of the result set lists names once, none of them that of constants. -/
theorem readSchema_nodup (S : Schema) : ((readSchema S).map (·.id)).Nodup := by
  have h := dedup_nodup S
  rw [readSchema, dropConst]
  exact h.sublist (List.Sublist.map _ List.filter_sublist)

theorem mem_readSchema {S : Schema} {e : Entry} (h : e ∈ readSchema S) : e ∈ S ∧ e.id ≠ constId := by
  have h' := List.mem_filter.1 h
  exact ⟨mem_dedup_sub h'.1, by simpa using h'.2⟩

theorem readSchema_covers {S : Schema} {e : Entry} (h : e ∈ S) (hc : e.id ≠ constId) :
    ∃ e' ∈ readSchema S, e'.id = e.id := by
  obtain ⟨e', he', hid⟩ := dedup_covers h
  exact ⟨e', List.mem_filter.2 ⟨he', by simpa [hid] using hc⟩, hid⟩

theorem readSchema_empty {S : Schema} : (readSchema S).length = 0 ↔ ∀ e ∈ S, e.id = constId := by
  rw [List.length_eq_zero_iff]
  constructor
  · intro h e he
    by_contra hc
    obtain ⟨e', he', _⟩ := readSchema_covers he hc
    rw [h] at he'
    simp at he'
  · intro h
    rw [List.eq_nil_iff_forall_not_mem]
    intro e he
    have := mem_readSchema he
    exact this.2 (h e this.1)

/-- Loading a row stored in the order of the schema finds the value of a name at its position. -/
theorem getD_idxOf (D : Schema) (f : Ident → Option α) {id : Ident} (h : ∃ e ∈ D, e.id = id) :
    idxOf D id < D.length ∧ (D.map (fun e => f e.id)).getD (idxOf D id) none = f id := by
  have hlt : idxOf D id < D.length := by
    rw [idxOf, List.findIdx_lt_length]
    obtain ⟨e, he, hid⟩ := h
    exact ⟨e, he, by simp [hid]⟩
  have hid : (D[idxOf D id]).id = id := by
    have := List.findIdx_getElem (p := fun e : Entry => e.id == id) (xs := D) (w := hlt)
    exact beq_iff_eq.1 this
  refine ⟨hlt, ?_⟩
  rw [List.getD_eq_getElem?_getD, List.getElem?_map, List.getElem?_eq_getElem hlt]
  simp [hid]

/-! ## Names -/

theorem ends_paren (s : String) : s ++ ")" ≠ "$const" := by
  intro h
  have h2 := congrArg (fun t : String => t.toList.getLast?) h
  simp [String.toList_append] at h2

/-- Only unaliased constants get the name of constants. -/
theorem projId_const {items : List (Item α)} (hR : ReservedFree items) {it : Item α} (hi : it ∈ items) :
    projId it = constId ↔ it.isConst := by
  obtain ⟨h1, h2⟩ := hR it hi
  obtain ⟨e, a, ty⟩ := it
  cases a with
  | some a =>
    simp only [projId, constId, Item.isConst, Ident.mk.injEq, true_and]
    constructor
    · rintro rfl; exact absurd rfl h1
    · intro h; cases e <;> exact h.elim
  | none =>
    cases e with
    | des t a =>
      simp only [projId, constId, Item.isConst, Ident.mk.injEq, iff_false]
      rintro ⟨rfl, rfl⟩
      exact h2 rfl
    | const t v => simp [projId, Item.isConst]
    | aggNil f =>
      simp only [projId, constId, Item.isConst, Ident.mk.injEq, true_and, iff_false, Ex.print]
      intro h
      exact ends_paren (f ++ "(") (by rw [← h, String.append_assoc]; rfl)
    | agg f e =>
      simp only [projId, constId, Item.isConst, Ident.mk.injEq, true_and, iff_false, Ex.print]
      exact ends_paren _
    | call f e =>
      simp only [projId, constId, Item.isConst, Ident.mk.injEq, true_and, iff_false, Ex.print]
      exact ends_paren _
    | un op e =>
      simp only [projId, constId, Item.isConst, Ident.mk.injEq, true_and, iff_false, Ex.print]
      exact ends_paren _
    | bin op l r =>
      simp only [projId, constId, Item.isConst, Ident.mk.injEq, true_and, iff_false, Ex.print]
      exact ends_paren _

/-! ## Environments -/

theorem get_eq_column (env : Env α) (id : Ident) : env.get id = column env id := by
  rw [Env.get, column]
  rfl

theorem has_iff (env : Env α) (id : Ident) : env.has id = true ↔ id ∈ env.map (·.1) := by
  simp [Env.has]

theorem column_isSome (env : Env α) (id : Ident) : (column env id).isSome ↔ id ∈ env.map (·.1) := by
  simp [column]

theorem get_append (env : Env α) (x : Ident × Option α) (id : Ident) :
    Env.get (env ++ [x]) id = (Env.get env id).or (if x.1 = id then some x.2 else none) := by
  rw [Env.get, Env.get, List.find?_append]
  cases h : env.find? (fun p => p.1 == id) with
  | some p => simp
  | none =>
    by_cases hx : x.1 = id
    · simp [hx]
    · simp [hx]

theorem evalW_eq (sem : Sem α) (env : Env α) (e : Ex α) : evalW sem env e = compute sem env e := by
  induction e with
  | des t a => rw [evalW, compute, get_eq_column]
  | const t v => rfl
  | aggNil f => rw [evalW, compute, get_eq_column]; rfl
  | agg f e _ => rw [evalW, compute, get_eq_column]; rfl
  | call f e ih => rw [evalW, compute, ih]
  | un op e ih => rw [evalW, compute, ih]
  | bin op l r ihl ihr =>
    rw [evalW, compute, ihl, ihr]
    cases compute sem env l <;> cases compute sem env r <;> rfl

theorem value_of_not_const (sem : Sem α) (env : Env α) {e : Ex α} (h : ∀ t v, e ≠ .const t v) :
    value sem env e = match column env (exprId e) with
      | some v => some v
      | none => compute sem env e := by
  cases e <;> first | rfl | exact absurd rfl (h _ _)

theorem compute_name (sem : Sem α) (env : Env α) {e : Ex α} (h : e.isName) :
    compute sem env e = column env (exprId e) := by
  cases e <;> first | rfl | exact h.elim

/-- The projection of the generated code: every column but the constants has the value of its item. -/
theorem wasmProject_ok (sem : Sem α) (items : List (Item α)) (cols : List Ident) (old : Env α)
    (hR : ReservedFree items) (hN : NoClash items cols) (hG : GoodRow sem items cols old) :
    ∀ (r : List (Item α)) (new : Env α), (∀ it ∈ r, it ∈ items) →
      (∀ it ∈ items, new.has (projId it) = true → projId it ≠ constId →
        new.get (projId it) = value sem old it.e) →
      ∃ new', wasmProject sem old r new = some new' ∧
        (∀ it ∈ items, new'.has (projId it) = true → projId it ≠ constId →
          new'.get (projId it) = value sem old it.e) ∧
        (∀ it ∈ items, new.has (projId it) = true → new'.has (projId it) = true) ∧
        (∀ it ∈ r, projId it ≠ constId → new'.has (projId it) = true) := by
  intro r
  induction r with
  | nil =>
    intro new _ hinv
    exact ⟨new, rfl, hinv, fun _ _ h => h, by simp⟩
  | cons it r ih =>
    intro new hsub hinv
    have hit : it ∈ items := hsub it (by simp)
    have hsub' : ∀ x ∈ r, x ∈ items := fun x hx => hsub x (by simp [hx])
    rw [wasmProject]
    by_cases h1 : (new.has (projId it) || projId it == constId) = true
    · rw [if_pos h1]
      obtain ⟨new', he, ha, hb, hc⟩ := ih new hsub' hinv
      refine ⟨new', he, ha, hb, ?_⟩
      intro x hx hxc
      rcases List.mem_cons.1 hx with rfl | hx
      · simp only [Bool.or_eq_true, beq_iff_eq] at h1
        rcases h1 with h1 | h1
        · exact hb _ hit h1
        · exact absurd h1 hxc
      · exact hc x hx hxc
    · rw [if_neg h1]
      simp only [Bool.or_eq_true, beq_iff_eq, not_or, Bool.not_eq_true] at h1
      obtain ⟨hnew, hcon⟩ := h1
      have hncon : ¬ it.isConst := fun h => hcon ((projId_const hR hit).2 h)
      -- the value appended is that of the item
      obtain ⟨v, hv⟩ := Option.isSome_iff_exists.1 (hG.val it hit)
      have key : ∃ new', wasmProject sem old r (new ++ [(projId it, v)]) = some new' ∧
          (∀ x ∈ items, new'.has (projId x) = true → projId x ≠ constId →
            new'.get (projId x) = value sem old x.e) ∧
          (∀ x ∈ items, new.has (projId x) = true → new'.has (projId x) = true) ∧
          (∀ x ∈ it :: r, projId x ≠ constId → new'.has (projId x) = true) := by
        have hinv' : ∀ x ∈ items, Env.has (new ++ [(projId it, v)]) (projId x) = true →
            projId x ≠ constId → Env.get (new ++ [(projId it, v)]) (projId x) = value sem old x.e := by
          intro x hx hh hxc
          rw [get_append]
          by_cases hnx : new.has (projId x) = true
          · rw [hinv x hx hnx hxc]
            obtain ⟨u, hu⟩ := Option.isSome_iff_exists.1 (hG.val x hx)
            rw [hu]; rfl
          · have hnone : new.get (projId x) = none := by
              rw [get_eq_column, ← Option.not_isSome_iff_eq_none, column_isSome, ← has_iff]
              exact hnx
            rw [hnone]
            have hidx : projId it = projId x := by
              rw [has_iff, List.map_append, List.mem_append] at hh
              rcases hh with hh | hh
              · exact absurd ((has_iff _ _).2 hh) hnx
              · simp only [List.map_cons, List.map_nil, List.mem_singleton] at hh
                exact hh.symm
            have hnxc : ¬ x.isConst := fun h => hxc ((projId_const hR hx).2 h)
            rw [if_pos hidx, ← (hN.same it hit x hx hncon hnxc hidx).1, hv]
            rfl
        obtain ⟨new', he, ha, hb, hc⟩ := ih (new ++ [(projId it, v)]) hsub' hinv'
        refine ⟨new', he, ha, ?_, ?_⟩
        · intro x hx hh
          exact hb x hx (by rw [has_iff] at hh ⊢; rw [List.map_append]; exact List.mem_append_left _ hh)
        · intro x hx hxc
          rcases List.mem_cons.1 hx with rfl | hx
          · exact hb _ hit (by rw [has_iff, List.map_append]; simp)
          · exact hc x hx hxc
      by_cases hold : old.has (projId it) = true
      · rw [if_pos hold]
        have hin : projId it ∈ cols := by rw [← hG.cols]; exact (has_iff _ _).1 hold
        obtain ⟨heq, hnc⟩ := hN.below it hit hncon hin
        have hcol : (column old (projId it)).isSome := (column_isSome _ _).2 ((has_iff _ _).1 hold)
        have : old.get (projId it) = some v := by
          rw [get_eq_column]
          rw [value_of_not_const _ _ hnc, heq] at hv
          cases hc : column old (projId it) with
          | some u => rw [hc] at hv; exact hv
          | none => rw [hc] at hcol; simp at hcol
        rw [this]
        exact key
      · rw [if_neg hold]
        have : evalW sem old it.e = some v := by
          rw [evalW_eq]
          by_cases hnc : ∀ t v, it.e ≠ .const t v
          · rw [value_of_not_const _ _ hnc] at hv
            cases hc : column old (exprId it.e) with
            | none => rw [hc] at hv; exact hv
            | some u =>
              -- the row has the expression as a column: then the expression is looked up by name
              rw [hc] at hv
              have hmem : exprId it.e ∈ cols := by
                rw [← hG.cols]; exact (column_isSome _ _).1 (by simp [hc])
              have hname : it.e.isName := by
                by_cases ha : it.as_ = none
                · exfalso
                  apply hold
                  rw [has_iff, hG.cols]
                  have : projId it = exprId it.e := by
                    obtain ⟨e, a, ty⟩ := it
                    simp only at ha
                    subst ha
                    cases e <;> first | rfl | exact absurd rfl (hnc _ _)
                  rw [this]; exact hmem
                · exact hN.again it hit ha hmem
              rw [compute_name _ _ hname, hc]
              exact hv
          · push Not at hnc
            obtain ⟨t, u, hu⟩ := hnc
            rw [hu] at hv ⊢
            exact hv
        rw [this]
        exact key

end Mutable.Deliver
