import Verif.SortCond.Lemmas

namespace Mutable.SortCond

variable {I V : Type} [LinearOrder V] [DecidableEq I]

/-! ## Projection -/

theorem old2new_eq : ∀ (l acc : List (I × I)), (∀ p ∈ acc, acc.find? (fun q => decide (q.2 = p.2)) = some p) →
    ∀ p ∈ old2new acc l, (acc ++ l).find? (fun q => decide (q.2 = p.2)) = some p
  | [], acc, h, p, hp => by
    simp only [old2new] at hp
    simpa using h p hp
  | x :: t, acc, h, p, hp => by
    unfold old2new at hp
    split at hp
    · rename_i hx
      have ih := old2new_eq t acc h p hp
      rw [List.find?_append] at ih ⊢
      cases hf : acc.find? (fun q => decide (q.2 = p.2)) with
      | some y => rw [hf] at ih; simpa using ih
      | none =>
        rw [hf] at ih
        simp only [Option.none_or] at ih ⊢
        rw [List.find?_cons]
        have hne : ¬ x.2 = p.2 := by
          intro he
          obtain ⟨q, hq, hqx⟩ := List.any_eq_true.mp hx
          have := List.find?_eq_none.mp hf q hq
          simp only [decide_eq_true_eq] at this hqx
          exact this (hqx.trans he)
        simp only [hne, decide_false]
        exact ih
    · rename_i hx
      have := old2new_eq t (acc ++ [x]) (by
        intro q hq
        rw [List.find?_append]
        rcases List.mem_append.mp hq with hq | hq
        · rw [h q hq]; rfl
        · simp only [List.mem_singleton] at hq
          subst hq
          have hn : acc.find? (fun r => decide (r.2 = q.2)) = none := by
            refine List.find?_eq_none.mpr fun r hr he => hx (List.any_eq_true.mpr ⟨r, hr, he⟩)
          rw [hn]; simp) p hp
      simpa using this

theorem old2new_find {items : List (I × I)} {p} (h : p ∈ old2new [] items) :
    items.find? (fun q => decide (q.2 = p.2)) = some p := by
  simpa using old2new_eq items [] (by simp) p h

/-- the entries of a condition that a list of items finds -/
def hits (items : List (I × I)) (o : Orders I) : Orders I :=
  items.flatMap fun p => match find o p.1 0 with
    | none => []
    | some (_, x) => [(p.1, x)]

theorem hits_cons (p : I × I) (t : List (I × I)) (o : Orders I) :
    hits (p :: t) o = (match find o p.1 0 with
      | none => []
      | some (_, x) => [(p.1, x)]) ++ hits t o := by
  simp [hits]

theorem KeepsPrefix_iff {items : List (I × I)} {o : Orders I} : KeepsPrefix items o ↔ nub [] (dirs (hits items o)) <+: dirs o :=
  Iff.rfl

/-- a condition is inherited through renaming: rows `f r` have at `new` the value of `r` at `old` -/
theorem Holds.rename {o : Orders I} {rows : List (Row I V)} (h : Holds o rows) {items : List (I × I)} {f : Row I V → Row I V}
    (hf : ∀ r, ∀ p ∈ items, f r p.2 = r p.1) (hk : KeepsPrefix items o) :
    Holds (projectAndRename o items) (rows.map f) := by
  have hs : Sorted (dirs (hits items o)) rows :=
    (h.1.prefix (KeepsPrefix_iff.mp hk)).imp fun r _ s _ hl => LexLe.of_nub (by simp) hl
  have hm : ∀ (its : List (I × I)), (∀ p ∈ its, p ∈ items) → ∀ r s : Row I V,
      List.Forall₂ (fun p q => p.2 = q.2 ∧ f r q.1 = r p.1 ∧ f s q.1 = s p.1) (dirs (hits its o))
        (dirs (projectAndRename o its)) := by
    intro its
    induction its with
    | nil => intro _ r s; exact .nil
    | cons p t ih =>
      intro hsub r s
      obtain ⟨old, new⟩ := p
      rw [hits_cons]
      have iht := ih (fun q hq => hsub q (List.mem_cons_of_mem _ hq)) r s
      have hp := hsub _ List.mem_cons_self
      unfold projectAndRename
      cases hfd : find o old 0 with
      | none => simpa [hfd] using iht
      | some q =>
        obtain ⟨m, x⟩ := q
        simp only [hfd, List.cons_append, List.nil_append]
        cases x
        · exact .cons ⟨rfl, hf r _ hp, hf s _ hp⟩ iht
        · exact .cons ⟨rfl, hf r _ hp, hf s _ hp⟩ iht
        · exact iht
  refine ⟨?_, ?_⟩
  · refine List.Pairwise.map f (fun r s hl => ?_) hs
    exact LexLe.map (hm items (fun _ h => h) r s) hl
  · intro i hi r' hr' s' hs'
    obtain ⟨r, hr, rfl⟩ := List.mem_map.mp hr'
    obtain ⟨s, hs, rfl⟩ := List.mem_map.mp hs'
    have aux : ∀ its : List (I × I), (∀ p ∈ its, p ∈ items) → (i, Order.undef) ∈ projectAndRename o its →
        ∃ old, (old, i) ∈ items ∧ (old, Order.undef) ∈ o := by
      intro its
      induction its with
      | nil => intro _ h; cases h
      | cons p t ih =>
        intro hsub h
        obtain ⟨old, new⟩ := p
        unfold projectAndRename at h
        cases hfd : find o old 0 with
        | none => rw [hfd] at h; exact ih (fun q hq => hsub q (List.mem_cons_of_mem _ hq)) h
        | some q =>
          obtain ⟨m, x⟩ := q
          rw [hfd] at h
          rcases List.mem_cons.mp h with h | h
          · injection h with h1 h2
            subst h1; subst h2
            exact ⟨old, hsub _ List.mem_cons_self, find_mem hfd⟩
          · exact ih (fun q hq => hsub q (List.mem_cons_of_mem _ hq)) h
    obtain ⟨old, h1, h2⟩ := aux items (fun _ h => h) hi
    rw [hf r _ h1, hf s _ h1]
    exact h.2 _ h2 r hr s hs

/-! ## Ordered grouping -/

theorem groupOrders_eq (o : Orders I) : ∀ (l : List (I × I)) (acc : Orders I) (pre : List (I × I)),
    acc = projectAndRename o (old2new [] pre) →
    (∀ p ∈ l, (find o p.1 0).isSome = true) → (acc.map (·.1) = (old2new [] pre).map (·.2)) →
    groupOrders o acc l = projectAndRename o (old2new (old2new [] pre) l)
  | [], acc, pre, h, _, _ => by simp [groupOrders, old2new, h]
  | (k, al) :: t, acc, pre, h, hf, hi => by
    have hk := hf _ List.mem_cons_self
    simp only at hk
    have hf' := fun p hp => hf p (List.mem_cons_of_mem _ hp)
    unfold groupOrders old2new
    cases hfd : find o k 0 with
    | none => rw [hfd] at hk; cases hk
    | some q =>
      obtain ⟨m, x⟩ := q
      simp only
      have hiff : (find acc al 0).isSome = true ↔ (old2new [] pre).any (fun q => decide (q.2 = al)) = true := by
        rw [find_isSome, hi, List.any_eq_true]
        simp only [List.mem_map, decide_eq_true_eq]
      by_cases hal : (find acc al 0).isSome = true
      · rw [if_pos hal, if_pos (hiff.mp hal)]
        exact groupOrders_eq o t acc pre h hf' hi
      · rw [if_neg hal, if_neg (fun hh => hal (hiff.mpr hh))]
        have hpr : ∀ (a b : List (I × I)), projectAndRename o (a ++ b) = projectAndRename o a ++ projectAndRename o b := by
          intro a b
          induction a with
          | nil => rfl
          | cons p t ih =>
            obtain ⟨u, v⟩ := p
            simp only [List.cons_append, projectAndRename]
            split
            · exact ih
            · simp [ih]
        have hpre : old2new [] (pre ++ [(k, al)]) = old2new [] pre ++ [(k, al)] := by
          have gen : ∀ (l a : List (I × I)), old2new a (l ++ [(k, al)]) =
              if (old2new a l).any (fun q => decide (q.2 = al)) then old2new a l else old2new a l ++ [(k, al)] := by
            intro l
            induction l with
            | nil => intro a; rfl
            | cons y t ih =>
              intro a
              simp only [List.cons_append, old2new]
              split
              · exact ih a
              · exact ih _
          rw [gen, if_neg (fun hh => hal (hiff.mpr hh))]
        have hone : projectAndRename o [(k, al)] = [(al, x)] := by simp [projectAndRename, hfd]
        have := groupOrders_eq o t (acc ++ [(al, x)]) (pre ++ [(k, al)]) (by rw [hpre, hpr, ← h, hone]) hf'
          (by rw [hpre]; simp [hi])
        rw [hpre] at this
        exact this

theorem groupOrders_nil {o : Orders I} {keys : List (I × I)} (h : ∀ p ∈ keys, (find o p.1 0).isSome = true) :
    groupOrders o [] keys = projectAndRename o (old2new [] keys) := by
  simpa [old2new] using groupOrders_eq o keys [] [] rfl h rfl

/-- rows with equal keys are next to each other -/
def Contig (keys : List (I × I)) (l : List (Row I V)) : Prop :=
  ∀ x y z, [x, y, z].Sublist l → keyOf keys x = keyOf keys z → keyOf keys y = keyOf keys x

theorem Contig.sublist {keys : List (I × I)} {l l' : List (Row I V)} (h : Contig keys l) (hs : l'.Sublist l) :
    Contig keys l' := fun x y z hx => h x y z (hx.trans hs)

theorem runs_spec {keys : List (I × I)} : ∀ (rs : List (Row I V)) (f : Row I V) (cur : List (Row I V)),
    (∀ r ∈ cur, keyOf keys r = keyOf keys f) → Contig keys (f :: cur ++ rs) →
    ((runs keys f cur rs).map fun g => g.1).Sublist (f :: rs) ∧ IsGrouping keys (f :: cur ++ rs) (runs keys f cur rs)
  | [], f, cur, hc, _ => by
    simp only [runs, List.append_nil]
    refine ⟨by simp, by simp, ?_, ?_⟩
    · intro g hg
      simp only [List.mem_singleton] at hg
      subst hg
      simp only
      rw [List.filter_eq_self.mpr]
      intro a ha
      rcases List.mem_cons.mp ha with rfl | ha
      · simp
      · simpa using hc a ha
    · intro r hr
      refine ⟨(f, cur), by simp, ?_⟩
      rcases List.mem_cons.mp hr with rfl | hr
      · rfl
      · exact (hc r hr).symm
  | r :: rs, f, cur, hc, hcon => by
    unfold runs
    by_cases hk : keys.map (fun k => r k.1) = keys.map (fun k => f k.1)
    · rw [if_pos hk]
      have := runs_spec rs f (cur ++ [r]) (by
        intro x hx
        rcases List.mem_append.mp hx with hx | hx
        · exact hc x hx
        · simp only [List.mem_singleton] at hx; subst hx; exact hk) (by simpa using hcon)
      refine ⟨this.1.trans ?_, by simpa using this.2⟩
      exact List.Sublist.cons_cons f (List.sublist_cons_self r rs)
    · rw [if_neg hk]
      obtain ⟨h1, h2⟩ := runs_spec rs r [] (by simp) (hcon.sublist (by
        simp only [List.cons_append, List.nil_append]
        exact (List.sublist_append_right cur _).trans (List.sublist_cons_self f _)))
      have hrf : keyOf keys r ≠ keyOf keys f := hk
      have hne : ∀ x ∈ r :: rs, keyOf keys x ≠ keyOf keys f := by
        intro x hx he
        rcases List.mem_cons.mp hx with rfl | hx
        · exact hrf he
        · refine hrf (hcon f r x ?_ he.symm)
          have hsx : [x].Sublist rs := List.singleton_sublist.mpr hx
          simp only [List.cons_append]
          refine List.Sublist.cons_cons f ?_
          exact (List.Sublist.cons_cons r hsx).trans (List.sublist_append_right cur _)
      have hgm : ∀ g ∈ runs keys r [] rs, g.1 ∈ r :: rs := fun g hg => h1.subset (List.mem_map.mpr ⟨g, hg, rfl⟩)
      refine ⟨?_, ?_, ?_, ?_⟩
      · simp only [List.map_cons]
        exact List.Sublist.cons_cons f h1
      · simp only [List.map_cons, List.nodup_cons]
        refine ⟨?_, h2.nodup⟩
        intro hm
        obtain ⟨g, hg, he⟩ := List.mem_map.mp hm
        exact hne _ (hgm g hg) he
      · intro g hg
        rw [List.filter_append]
        rcases List.mem_cons.mp hg with rfl | hg
        · simp only
          have e1 : (f :: cur).filter (fun x => decide (keyOf keys x = keyOf keys f)) = f :: cur := by
            rw [List.filter_eq_self]
            intro a ha
            rcases List.mem_cons.mp ha with rfl | ha
            · simp
            · simpa using hc a ha
          have e2 : (r :: rs).filter (fun x => decide (keyOf keys x = keyOf keys f)) = [] := by
            rw [List.filter_eq_nil_iff]
            intro a ha
            simpa using hne a ha
          rw [e1, e2]; simp
        · have e1 : (f :: cur).filter (fun x => decide (keyOf keys x = keyOf keys g.1)) = [] := by
            rw [List.filter_eq_nil_iff]
            intro a ha
            have hgne := hne _ (hgm g hg)
            have haf : keyOf keys a = keyOf keys f := by
              rcases List.mem_cons.mp ha with rfl | ha
              · rfl
              · exact hc a ha
            rw [haf]
            simpa using fun h => hgne h.symm
          rw [e1, List.nil_append]
          exact h2.group g hg
      · intro x hx
        rcases List.mem_append.mp hx with hx | hx
        · refine ⟨(f, cur), List.mem_cons_self, ?_⟩
          rcases List.mem_cons.mp hx with rfl | hx
          · rfl
          · exact (hc x hx).symm
        · obtain ⟨g, hg, he⟩ := h2.all x hx
          exact ⟨g, List.mem_cons_of_mem _ hg, he⟩

theorem orderedGroups_spec {keys : List (I × I)} {rows : List (Row I V)} (h : Contig keys rows) :
    ((orderedGroups keys rows).map fun g => g.1).Sublist rows ∧ IsGrouping keys rows (orderedGroups keys rows) := by
  cases rows with
  | nil => exact ⟨by simp [orderedGroups], by simp [orderedGroups], by simp [orderedGroups], by simp⟩
  | cons r rs => simpa [orderedGroups] using runs_spec rs r [] (by simp) (by simpa using h)

/-- heads of runs are rows, in order – without any hypothesis -/
theorem runs_heads {keys : List (I × I)} : ∀ (rs : List (Row I V)) (f : Row I V) (cur : List (Row I V)),
    ((runs keys f cur rs).map fun g => g.1).Sublist (f :: rs)
  | [], f, cur => by simp [runs]
  | r :: rs, f, cur => by
    unfold runs
    split
    · exact (runs_heads rs f _).trans (List.Sublist.cons_cons f (List.sublist_cons_self r rs))
    · simp only [List.map_cons]
      exact List.Sublist.cons_cons f (runs_heads rs r [])

theorem orderedGroups_heads {keys : List (I × I)} {rows : List (Row I V)} :
    ((orderedGroups keys rows).map fun g => g.1).Sublist rows := by
  cases rows with
  | nil => simp [orderedGroups]
  | cons r rs => exact runs_heads rs r []

/-- keys that are, up to constant attributes, the first attributes of the sort order (in any order) are contiguous -/
theorem contig_of_sorted {o : Orders I} {rows : List (Row I V)} (hh : Holds o rows) {keys : List (I × I)} {n : Nat}
    (hk : ∀ p ∈ keys, (p.1, Order.undef) ∈ o ∨ ∃ q ∈ (dirs o).take n, q.1 = p.1)
    (hn : ∀ q ∈ (dirs o).take n, ∃ p ∈ keys, q.1 = p.1) : Contig keys rows := by
  intro x y z hs hxz
  have hmem := hs.subset
  have hx : x ∈ rows := hmem (by simp)
  have hy : y ∈ rows := hmem (by simp)
  have hsrt := hh.1.prefix (List.take_prefix n (dirs o)) |>.sublist hs
  unfold Sorted at hsrt
  simp only [List.pairwise_cons, List.mem_cons, List.not_mem_nil, or_false, forall_eq_or_imp, forall_eq] at hsrt
  obtain ⟨⟨hxy, _⟩, hyz, _⟩ := hsrt
  have hkx : ∀ p ∈ keys, x p.1 = z p.1 := by
    intro p hp
    exact List.map_inj_left.mp hxz p hp
  have hzx : LexLe ((dirs o).take n) z x := LexLe.of_eq fun q hq => by
    obtain ⟨p, hp, he⟩ := hn q hq
    rw [he]; exact (hkx p hp).symm
  have heq := LexLe.antisymm hxy (hyz.trans hzx)
  refine List.map_inj_left.mpr fun p hp => ?_
  rcases hk p hp with hu | ⟨q, hq, he⟩
  · exact hh.2 _ hu y hy x hx
  · rw [← he]; exact (heq q hq).symm

theorem hits_mem {items : List (I × I)} {o : Orders I} {p} (hp : p ∈ items) {m x} (hf : find o p.1 0 = some (m, x)) :
    (p.1, x) ∈ hits items o := by
  unfold hits
  refine List.mem_flatMap.mpr ⟨p, hp, ?_⟩
  simp [hf]

theorem mem_dirs {o : Orders I} {i x} (h : (i, x) ∈ o) : x = .undef ∨ ∃ b, (i, b) ∈ dirs o := by
  induction o with
  | nil => cases h
  | cons q t ih =>
    obtain ⟨j, y⟩ := q
    rcases List.mem_cons.mp h with h | h
    · injection h with h1 h2
      subst h1; subst h2
      cases x
      · exact .inr ⟨true, List.mem_cons_self⟩
      · exact .inr ⟨false, List.mem_cons_self⟩
      · exact .inl rfl
    · rcases ih h with h | ⟨b, hb⟩
      · exact .inl h
      · refine .inr ⟨b, ?_⟩
        cases y
        · exact List.mem_cons_of_mem _ hb
        · exact List.mem_cons_of_mem _ hb
        · exact hb

theorem nub_sub : ∀ {b : List (I × Bool)} {s : List I} {p}, p ∈ nub s b → p ∈ b
  | [], _, _, h => h
  | (i, x) :: t, s, p, h => by
    unfold nub at h
    split at h
    · exact List.mem_cons_of_mem _ (nub_sub h)
    · rcases List.mem_cons.mp h with rfl | h
      · exact List.mem_cons_self
      · exact List.mem_cons_of_mem _ (nub_sub h)

theorem hits_dirs {items : List (I × I)} {o : Orders I} {q} (h : q ∈ dirs (hits items o)) : ∃ p ∈ items, q.1 = p.1 := by
  obtain ⟨x, hx, _⟩ := dirs_mem h
  unfold hits at hx
  obtain ⟨p, hp, hx⟩ := List.mem_flatMap.mp hx
  refine ⟨p, hp, ?_⟩
  cases hf : find o p.1 0 with
  | none => rw [hf] at hx; cases hx
  | some y =>
    obtain ⟨m, y⟩ := y
    rw [hf] at hx
    simp only [List.mem_singleton] at hx
    injection hx

theorem contig_of_prefix {o : Orders I} {rows : List (Row I V)} (hh : Holds o rows) {keys : List (I × I)}
    (hf : ∀ p ∈ keys, (find o p.1 0).isSome = true) (hk : KeepsPrefix keys o) : Contig keys rows := by
  have hp : nub [] (dirs (hits keys o)) = (dirs o).take (nub [] (dirs (hits keys o))).length :=
    List.prefix_iff_eq_take.mp hk
  refine contig_of_sorted (n := (nub [] (dirs (hits keys o))).length) hh ?_ ?_
  · intro p hpk
    have := hf p hpk
    cases hfd : find o p.1 0 with
    | none => rw [hfd] at this; cases this
    | some y =>
      obtain ⟨m, x⟩ := y
      rcases mem_dirs (hits_mem hpk hfd) with rfl | ⟨b, hb⟩
      · exact .inl (find_mem hfd)
      · rcases nub_mem (seen := []) hb with h | ⟨q, hq, he⟩
        · cases h
        · rw [hp] at hq
          exact .inr ⟨q, hq, he⟩
  · intro q hq
    rw [← hp] at hq
    exact hits_dirs (nub_sub hq)

theorem old2new_sub : ∀ (l acc : List (I × I)) {p}, p ∈ old2new acc l → p ∈ acc ∨ p ∈ l
  | [], acc, p, h => .inl h
  | x :: t, acc, p, h => by
    unfold old2new at h
    split at h
    · rcases old2new_sub t acc h with h | h
      · exact .inl h
      · exact .inr (List.mem_cons_of_mem _ h)
    · rcases old2new_sub t _ h with h | h
      · rcases List.mem_append.mp h with h | h
        · exact .inl h
        · exact .inr (by simp only [List.mem_singleton] at h; subst h; exact List.mem_cons_self)
      · exact .inr (List.mem_cons_of_mem _ h)

end Mutable.SortCond
