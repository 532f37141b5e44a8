import Verif.QGraph.Main

/-! The query graph represents WHERE. -/
namespace Mutable.QG
open SQL CNF SB PE

variable {Row V : Type} {L : Nat → Leaf Row V} {I : Ops V}

theorem idOf_spec {names : List Nat} {n i : Nat} (h : idOf names n = some i) : i < names.length ∧ names.getD i 0 = n := by
  rw [idOf, List.idxOf?, List.findIdx?_eq_some_iff_getElem] at h
  obtain ⟨hi, h, _⟩ := h
  exact ⟨hi, by rw [List.getD_eq_getElem _ _ hi]; simpa using h⟩

theorem idOf_some {names : List Nat} {n : Nat} (h : n ∈ names) : ∃ i, idOf names n = some i := by
  cases e : idOf names n with
  | some i => exact ⟨i, rfl⟩
  | none =>
    rw [idOf, List.idxOf?, List.findIdx?_eq_none_iff] at e
    exact absurd (e n h) (by simp)

theorem mapM_idOf {names : List Nat} : ∀ {ss ids : List Nat}, ss.mapM (idOf names) = some ids →
    List.Forall₂ (fun s i => i < names.length ∧ names.getD i 0 = s) ss ids := by
  intro ss
  induction ss with
  | nil => intro ids h; simp at h; subst h; exact .nil
  | cons s ss ih =>
    intro ids h
    rw [List.mapM_cons] at h
    cases e : idOf names s with
    | none => rw [e] at h; simp at h
    | some i =>
      rw [e] at h
      cases e' : ss.mapM (idOf names) with
      | none => rw [e'] at h; simp at h
      | some is =>
        rw [e'] at h
        simp at h
        subst h
        exact .cons (idOf_spec e) (ih e')

theorem mapM_idOf_some {names : List Nat} {ss : List Nat} (h : ∀ s ∈ ss, s ∈ names) : ∃ ids, ss.mapM (idOf names) = some ids := by
  induction ss with
  | nil => exact ⟨[], rfl⟩
  | cons s ss ih =>
    obtain ⟨i, hi⟩ := idOf_some (h s (by simp))
    obtain ⟨ids, e⟩ := ih fun x hx => h x (by simp [hx])
    exact ⟨i :: ids, by rw [List.mapM_cons, hi, e]; rfl⟩

theorem foldl_update (G : Graph) (c : Clause) (l : List Nat) (hl : l.Nodup) :
    (l.foldl (fun G i => G.updateFilter i [c]) G).names = G.names ∧
    (l.foldl (fun G i => G.updateFilter i [c]) G).joins = G.joins ∧
    ∀ j, (l.foldl (fun G i => G.updateFilter i [c]) G).filter j = if j ∈ l then G.filter j ++ [c] else G.filter j := by
  induction l generalizing G with
  | nil => simp
  | cons i l ih =>
    obtain ⟨h1, h2, h3⟩ := ih (G.updateFilter i [c]) (List.nodup_cons.1 hl).2
    refine ⟨by rw [List.foldl_cons, h1]; rfl, by rw [List.foldl_cons, h2]; rfl, fun j => ?_⟩
    rw [List.foldl_cons, h3, Graph.updateFilter]
    have := (List.nodup_cons.1 hl).1
    by_cases e : j = i
    · subst e; simp [this, CNF.and]
    · simp [e]

/-- The graph represents the conjunction of the clauses. -/
structure Rep (L : Nat → Leaf Row V) (I : Ops V) (names : List Nat) (G : Graph) (cs : List Clause) : Prop where
  nms : G.names = names
  loc : Local L G
  ne : ∀ i, ∀ c ∈ G.filter i, c ≠ []
  sem : names ≠ [] → ∀ t : Tup Row, ((∀ i, i < names.length → cnfVal L I t (G.filter i) = .T) ∧ ∀ J ∈ G.joins, cnfVal L I t J.cond = .T) ↔
    ∀ c ∈ cs, clauseVal L I t c = .T

theorem repr_from (names : List Nat) : Rep L I names (Graph.ofFrom names) [] where
  nms := rfl
  loc := ⟨by simp [Graph.ofFrom], by simp [Graph.ofFrom], by simp [Graph.ofFrom], by simp [Graph.ofFrom]⟩
  ne := by simp [Graph.ofFrom]
  sem := by simp [Graph.ofFrom, cnfVal]

theorem cnfVal_append (t : Tup Row) (f : CNF) (c : Clause) : cnfVal L I t (f ++ [c]) = .T ↔ cnfVal L I t f = .T ∧ clauseVal L I t c = .T := by
  simp only [cnfVal_T, List.mem_append, List.mem_singleton]
  exact ⟨fun h => ⟨fun d hd => h d (.inl hd), h c (.inr rfl)⟩, fun h d hd => hd.elim (h.1 d) (fun e => e ▸ h.2)⟩

theorem addClause_spec {names : List Nat} {G : Graph} {cs : List Clause} (hR : Rep L I names G cs) {c : Clause} (hc : c ≠ [])
    (hb : ∀ n ∈ dataSources L c, n ∈ names) : ∃ G', addClause L G c = some G' ∧ Rep L I names G' (cs ++ [c]) := by
  have snoc : ∀ t : Tup Row, (∀ d ∈ cs ++ [c], clauseVal L I t d = .T) ↔ (∀ d ∈ cs, clauseVal L I t d = .T) ∧ clauseVal L I t c = .T := by
    intro t
    simp only [List.mem_append, List.mem_singleton]
    exact ⟨fun h => ⟨fun d hd => h d (.inl hd), h c (.inr rfl)⟩, fun h d hd => hd.elim (h.1 d) (fun e => e ▸ h.2)⟩
  have hnd : (dataSources L c).Nodup := by rw [dataSources]; exact List.nodup_dedup _
  rw [addClause.eq_def]
  split
  · rename_i e
    obtain ⟨f1, f2, f3⟩ := foldl_update G c (List.range G.names.length) List.nodup_range
    refine ⟨_, rfl, ?_⟩
    generalize (List.range G.names.length).foldl (fun G i => G.updateFilter i [c]) G = G' at f1 f2 f3
    constructor
    · rw [f1, hR.nms]
    · constructor
      · intro i hi d hd n hn
        rw [f1] at hi ⊢
        rw [f3, if_pos (List.mem_range.2 hi)] at hd
        rcases List.mem_append.1 hd with h | h
        · exact hR.loc.filter i hi d h n hn
        · rw [List.mem_singleton] at h; subst h; rw [e] at hn; simp at hn
      · rw [f1, f2]; exact hR.loc.join
      · rw [f1, f2]; exact hR.loc.ids
      · rw [f2]; exact hR.loc.two
    · intro i d hd
      rw [f3] at hd
      split at hd
      · rcases List.mem_append.1 hd with h | h
        · exact hR.ne i d h
        · rw [List.mem_singleton] at h; subst h; exact hc
      · exact hR.ne i d hd
    · intro h0 t
      rw [snoc, ← hR.sem h0 t, f2]
      have : ∀ i, i < names.length → G'.filter i = G.filter i ++ [c] := by
        intro i hi; rw [f3, if_pos (by rw [hR.nms]; exact List.mem_range.2 hi)]
      constructor
      · rintro ⟨a, b⟩
        have a' : ∀ i, i < names.length → cnfVal L I t (G.filter i) = .T ∧ clauseVal L I t c = .T := by
          intro i hi; rw [← cnfVal_append, ← this i hi]; exact a i hi
        exact ⟨⟨fun i hi => (a' i hi).1, b⟩, (a' 0 (List.length_pos_iff.2 h0)).2⟩
      · rintro ⟨⟨a, b⟩, d⟩
        refine ⟨fun i hi => ?_, b⟩
        rw [this i hi, cnfVal_append]; exact ⟨a i hi, d⟩
  · rename_i s e
    obtain ⟨i, hi⟩ := idOf_some (hb s (by rw [e]; simp))
    obtain ⟨h1, h2⟩ := idOf_spec hi
    rw [hR.nms, hi]
    refine ⟨_, rfl, ?_⟩
    have f3 : ∀ j, (G.updateFilter i [c]).filter j = if j = i then G.filter j ++ [c] else G.filter j := fun j => rfl
    constructor
    · exact hR.nms
    · constructor
      · intro j hj d hd n hn
        rw [f3] at hd
        split at hd
        · rename_i hji
          subst hji
          rcases List.mem_append.1 hd with h | h
          · exact hR.loc.filter j hj d h n hn
          · rw [List.mem_singleton] at h; subst h; rw [e, List.mem_singleton] at hn
            rw [hn, ← h2, ← hR.nms]; rfl
        · exact hR.loc.filter j hj d hd n hn
      · exact hR.loc.join
      · exact hR.loc.ids
      · exact hR.loc.two
    · intro j d hd
      rw [f3] at hd
      split at hd
      · rcases List.mem_append.1 hd with h | h
        · exact hR.ne j d h
        · rw [List.mem_singleton] at h; subst h; exact hc
      · exact hR.ne j d hd
    · intro h0 t
      rw [snoc, ← hR.sem h0 t]
      constructor
      · rintro ⟨a, b⟩
        have ai := a i h1
        rw [f3, if_pos rfl, cnfVal_append] at ai
        refine ⟨⟨fun j hj => ?_, b⟩, ai.2⟩
        by_cases hji : j = i
        · subst hji; exact ai.1
        · have := a j hj; rwa [f3, if_neg hji] at this
      · rintro ⟨⟨a, b⟩, d⟩
        refine ⟨fun j hj => ?_, b⟩
        rw [f3]
        split
        · rw [cnfVal_append]; exact ⟨a j hj, d⟩
        · exact a j hj
  · rename_i ss hne1 hne2
    obtain ⟨ids, hids⟩ := mapM_idOf_some (names := names) (ss := dataSources L c) hb
    have hf := mapM_idOf hids
    have hids' : (dataSources L c).mapM (idOf G.names) = some ids := by rw [hR.nms]; exact hids
    rw [hids']
    refine ⟨_, rfl, ?_⟩
    constructor
    · exact hR.nms
    · constructor
      · exact hR.loc.filter
      · intro J hJ d hd n hn
        rcases List.mem_append.1 hJ with h | h
        · exact hR.loc.join J h d hd n hn
        · rw [List.mem_singleton] at h
          subst h
          simp only [List.mem_singleton] at hd
          subst hd
          obtain ⟨k, hk, rfl⟩ := List.getElem_of_mem hn
          have hk' : k < ids.length := hf.length_eq ▸ hk
          have := (List.forall₂_iff_get.1 hf).2 k hk hk'
          refine ⟨ids[k], List.getElem_mem hk', ?_⟩
          have e2 := this.2
          simp only [List.get_eq_getElem] at e2
          rw [← e2, ← hR.nms]
      · intro J hJ i hi
        rcases List.mem_append.1 hJ with h | h
        · exact hR.loc.ids J h i hi
        · rw [List.mem_singleton] at h
          subst h
          obtain ⟨k, hk, rfl⟩ := List.getElem_of_mem hi
          have hk' : k < (dataSources L c).length := hf.length_eq ▸ hk
          have := ((List.forall₂_iff_get.1 hf).2 k hk' hk).1
          simp only [List.get_eq_getElem] at this
          rw [← hR.nms] at this
          exact this
      · intro J hJ
        rcases List.mem_append.1 hJ with h | h
        · exact hR.loc.two J h
        · rw [List.mem_singleton] at h
          subst h
          generalize dataSources L c = ds at hf hnd hne1 hne2
          match ds, ids, hf with
          | [], _, _ => exact absurd rfl hne1
          | [s], _, _ => exact absurd rfl (hne2 s)
          | s1 :: s2 :: _, i1 :: i2 :: _, .cons a (.cons b _) =>
            refine ⟨i1, by simp, i2, by simp, ?_⟩
            intro e
            subst e
            have : s1 = s2 := a.2.symm.trans b.2
            subst this
            simp at hnd
    · exact hR.ne
    · intro h0 t
      rw [snoc, ← hR.sem h0 t]
      have : cnfVal L I t [c] = .T ↔ clauseVal L I t c = .T := by simp [cnfVal_T]
      simp only [List.mem_append, List.mem_singleton]
      constructor
      · rintro ⟨a, b⟩
        exact ⟨⟨a, fun J hJ => b J (.inl hJ)⟩, this.1 (b ⟨[c], ids⟩ (.inr rfl))⟩
      · rintro ⟨⟨a, b⟩, d⟩
        refine ⟨a, fun J hJ => hJ.elim (b J) ?_⟩
        rintro rfl
        exact this.2 d

theorem addClauses_spec {names : List Nat} (ds : List Clause) : ∀ {G : Graph} {cs : List Clause}, Rep L I names G cs → (∀ c ∈ ds, c ≠ []) →
    (∀ c ∈ ds, ∀ n ∈ dataSources L c, n ∈ names) → ∃ G', ds.foldlM (addClause L) G = some G' ∧ Rep L I names G' (cs ++ ds) := by
  induction ds with
  | nil => intro G cs h _ _; exact ⟨G, rfl, by simpa using h⟩
  | cons c ds ih =>
    intro G cs h h1 h2
    obtain ⟨G1, e1, r1⟩ := addClause_spec h (h1 c (by simp)) (h2 c (by simp))
    obtain ⟨G2, e2, r2⟩ := ih r1 (fun d hd => h1 d (by simp [hd])) (fun d hd => h2 d (by simp [hd]))
    refine ⟨G2, ?_, by simpa using r2⟩
    rw [List.foldlM_cons, e1]; exact e2

theorem tryEmplace_spec (sh : Clause → Clause → Bool) (m : List Clause) (c : Clause) :
    (∀ d ∈ tryEmplace sh m c, d ∈ m ∨ d = c) ∧ ∀ t : Tup Row, (∀ d ∈ tryEmplace sh m c, clauseVal L I t d = .T) ↔
      (∀ d ∈ m, clauseVal L I t d = .T) ∧ clauseVal L I t c = .T := by
  rw [tryEmplace]
  split
  · rename_i h
    rw [List.any_eq_true] at h
    obtain ⟨d, hd, he⟩ := h
    rw [Bool.and_eq_true] at he
    refine ⟨fun x hx => .inl hx, fun t => ⟨fun a => ⟨a, ?_⟩, fun a => a.1⟩⟩
    have := C17_clause_eq_sound d c he.2 (atom L I t)
    rw [clauseVal_eq, ← this]; exact a d hd
  · refine ⟨fun x hx => by simpa using hx, fun t => ?_⟩
    simp only [List.mem_append, List.mem_singleton]
    exact ⟨fun h => ⟨fun d hd => h d (.inl hd), h c (.inr rfl)⟩, fun h d hd => hd.elim (h.1 d) (fun e => e ▸ h.2)⟩

theorem boundClauses_fold (sh : Clause → Clause → Bool) (cnf : List Clause) : ∀ m : List Clause,
    (∀ d ∈ cnf.foldl (tryEmplace sh) m, d ∈ m ∨ d ∈ cnf) ∧ ∀ t : Tup Row, (∀ d ∈ cnf.foldl (tryEmplace sh) m, clauseVal L I t d = .T) ↔
      (∀ d ∈ m, clauseVal L I t d = .T) ∧ ∀ d ∈ cnf, clauseVal L I t d = .T := by
  induction cnf with
  | nil => intro m; simp
  | cons c cnf ih =>
    intro m
    obtain ⟨a1, a2⟩ := tryEmplace_spec (L := L) (I := I) sh m c
    obtain ⟨b1, b2⟩ := ih (tryEmplace sh m c)
    refine ⟨fun d hd => ?_, fun t => ?_⟩
    · rcases b1 d hd with h | h
      · rcases a1 d h with h | h
        · exact .inl h
        · exact .inr (by simp [h])
      · exact .inr (by simp [h])
    · rw [List.foldl_cons, b2, a2]
      simp only [List.mem_cons, forall_eq_or_imp]
      tauto

theorem atoms_sources (Γ : Nat → Ty) : ∀ e : Expr, ∀ a ∈ atoms Γ e, ∀ n ∈ exprSources L a, n ∈ exprSources L e := by
  intro e
  induction e with
  | leaf i => intro a ha; rw [atoms.eq_def] at ha; simp at ha; subst ha; simp
  | unary op e ih =>
    intro a ha
    cases op <;> rw [atoms.eq_def] at ha <;> simp at ha
    all_goals first
      | (subst ha; exact fun n h => h)
      | exact fun n h => ih a ha n h
  | binary op l r ihl ihr =>
    intro a ha n hn
    rw [atoms.eq_def] at ha
    simp only at ha
    split at ha
    · rw [exprSources, List.mem_append]
      rcases List.mem_append.1 ha with h | h
      · exact .inl (ihl a h n hn)
      · exact .inr (ihr a h n hn)
    · simp at ha; subst ha; exact hn

/-- The graph of a checked statement represents WHERE. -/
theorem buildGraph_spec {Γ : Nat → Ty} {sh : Clause → Clause → Bool} {ord : List Clause → List Clause} (ho : ∀ l, (ord l).Perm l)
    {names : List Nat} {wher : Option Expr} (hc : Checked L Γ names wher) :
    ∃ G cs, buildGraph L Γ sh ord names wher = some G ∧ Rep L I names G cs ∧
      ∀ t : Tup Row, (∀ c ∈ cs, clauseVal L I t c = .T) ↔ whereHolds L I Γ wher t := by
  cases wher with
  | none => exact ⟨_, [], rfl, repr_from names, fun t => by simp [whereHolds]⟩
  | some e =>
    obtain ⟨cnf, h1, -, h2, h3⟩ := C17_to_CNF_preserves_meaning Γ e (hc.bool e rfl)
    have ha := C17_literals_are_atoms Γ e cnf h1
    obtain ⟨b1, b2⟩ := boundClauses_fold (L := L) (I := I) sh cnf []
    have hmem : ∀ c ∈ ord (boundClauses sh cnf), c ∈ cnf := by
      intro c h
      rcases b1 c ((ho _).mem_iff.1 h) with h | h
      · simp at h
      · exact h
    obtain ⟨G, e1, r1⟩ := addClauses_spec (L := L) (I := I) (names := names) (ord (boundClauses sh cnf)) (repr_from names)
      (fun c h => h2 c (hmem c h)) (fun c h n hn => by
        rw [dataSources, List.mem_dedup, List.mem_flatMap] at hn
        obtain ⟨p, hp, hn⟩ := hn
        exact hc.bound e rfl n (atoms_sources Γ e _ (ha c (hmem c h) p hp) n hn))
    refine ⟨G, _, ?_, r1, ?_⟩
    · rw [buildGraph]; simp only [h1]; exact e1
    · intro t
      rw [whereHolds, ← h3, ← cnfVal_eq, cnfVal_T, List.nil_append]
      have := b2 t
      simp only [List.not_mem_nil, false_imp_iff, implies_true, true_and] at this
      rw [← this, boundClauses]
      exact ⟨fun h c hc => h c ((ho _).mem_iff.2 hc), fun h c hc => h c ((ho _).mem_iff.1 hc)⟩

end Mutable.QG
