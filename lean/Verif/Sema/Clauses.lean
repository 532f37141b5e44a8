import Verif.Sema.Group

namespace Mutable.Sema

variable {V : Type}

/-- the sources of the statement, as enumerated -/
def blockSrcs (enum : List Src → List Src) (outer : List (Ctx V)) (b : Block V) : List Src :=
  enum (fromItems outer ⟨.from_, false, [], [], []⟩ (b.from_.getD [])).1.sources

theorem goodCtx_empty (st : Stage) (g : Bool) (ss : List Src) : GoodCtx (⟨st, g, ss, [], []⟩ : Ctx V) := by
  constructor <;> intro r hr <;> cases hr

theorem condition_spec {c : Ctx V} {cs : List (Ctx V)} (hg : GoodCtx c) {sc : Bool} {x : Option (Expr V)}
    (h : (condition (c :: cs) sc x).2.1 = false) : ∀ o, (condition (c :: cs) sc x).1 = some o →
    ∃ e, x = some e ∧ o = analyze (c :: cs) e ∧ o.err = false ∧ ∃ k, o.ty = .bool k ∧ (sc = true → k = .scalar) := by
  cases x with
  | none => intro o ho; simp [condition] at ho
  | some e =>
    intro o ho
    simp only [condition] at h ho
    have herr := (analyze_error (cs := cs) hg e).1
    split at h
    · rename_i ht
      simp only at h
      rw [herr ht] at h; cases h
    · rename_i k ht
      simp only [ht, Option.some.injEq] at ho
      subst ho
      simp only [Bool.or_eq_false_iff] at h
      refine ⟨e, rfl, rfl, h.1, k, ht, ?_⟩
      intro hs
      rw [hs] at h
      cases k with
      | scalar => rfl
      | vector => simp at h
    · simp at h

theorem groupKeys_spec {c : Ctx V} {cs : List (Ctx V)} (hg : GoodCtx c) : ∀ {l : List (Item V)},
    (groupKeys (c :: cs) l).2.1 = false →
    (∀ k ∈ (groupKeys (c :: cs) l).1, ∃ g ∈ l, k = ⟨keyLabel g, (analyze (c :: cs) g.expr).ty, (analyze (c :: cs) g.expr).rex⟩ ∧
      (analyze (c :: cs) g.expr).err = false ∧ (analyze (c :: cs) g.expr).rex.free = false ∧
      (analyze (c :: cs) g.expr).ty.isVec = true) ∧
    (groupKeys (c :: cs) l).1.map (·.label) = l.map keyLabel
  | [], _ => by simp [groupKeys]
  | g :: gs, h => by
    have herr := (analyze_error (cs := cs) hg g.expr).1
    simp only [groupKeys] at h ⊢
    split at h
    · rename_i ht
      simp only [Bool.or_eq_false_iff] at h
      rw [herr ht] at h; simp at h
    · rename_i hne
      split at h
      · rename_i hv
        simp only [Bool.or_eq_false_iff] at h
        obtain ⟨⟨h1, h2⟩, h3⟩ := h
        obtain ⟨i1, i2⟩ := groupKeys_spec hg h3
        rw [if_neg hne, if_pos hv]
        constructor
        · intro k hk
          rcases List.mem_cons.mp hk with rfl | hk
          · exact ⟨g, List.mem_cons_self, rfl, h1, h2, hv⟩
          · obtain ⟨g', hg', hx⟩ := i1 k hk
            exact ⟨g', List.mem_cons_of_mem _ hg', hx⟩
        · simp [i2]
      · simp at h

theorem selectItems_spec {c : Ctx V} {cs : List (Ctx V)} (hg : GoodCtx c) {gr : Bool} : ∀ {l : List (Item V)} {n : Nat},
    (selectItems (c :: cs) gr n l).err = false →
    ∀ r ∈ (selectItems (c :: cs) gr n l).results, ∃ it ∈ l, r.ty = (analyze (c :: cs) it.expr).ty ∧
      r.rex = (analyze (c :: cs) it.expr).rex ∧ (analyze (c :: cs) it.expr).err = false ∧ r.ty ≠ .error ∧
      (gr = true → r.ty.isVec = false) ∧ (it.expr.isQuery = false → r.rex.free = false) ∧
      (r.rex.isConst = false → it.expr.isQuery = false → r.ty.isVec = true → (selectItems (c :: cs) gr n l).hasVec = true) ∧
      (r.rex.isConst = false → it.expr.isQuery = false → r.ty.isScalar = true → (selectItems (c :: cs) gr n l).hasScalar = true) ∧
      ((∀ m, it.name = some m → r.label = .id m) ∧ (it.name = none → ∀ t a, it.expr = .des t a → r.label = a))
  | [], n, _, r, hr => by simp [selectItems] at hr
  | it :: rest, n, h, r, hr => by
    have herr := (analyze_error (cs := cs) hg it.expr).1
    simp only [selectItems] at h hr ⊢
    split at h
    · rename_i ht
      simp only [Bool.or_eq_false_iff] at h
      rw [herr ht] at h; simp at h
    · rename_i hne
      split at h
      · simp at h
      · rename_i hnv
        rw [if_neg hne, if_neg hnv] at hr
        rw [if_neg hne, if_neg hnv]
        simp only [Bool.or_eq_false_iff] at h
        obtain ⟨⟨h1, h2⟩, h3⟩ := h
        rcases List.mem_cons.mp hr with rfl | hr
        · refine ⟨it, List.mem_cons_self, rfl, rfl, h1, hne, ?_, ?_, ?_, ?_, ?_, ?_⟩
          · intro hgr
            simpa [hgr] using hnv
          · intro hq
            simpa [hq] using h2
          · intro hc hq hv
            simp only at hc hv
            simp [hc, hq, hv]
          · intro hc hq hv
            simp only at hc hv
            simp [hc, hq, hv]
          · intro m hm
            simp [itemLabel, hm]
          · intro hm t a ha
            simp [itemLabel, hm, ha]
        · obtain ⟨it', hm, e1, e2, e3, e4, e5, e6, e7, e8, e9⟩ := selectItems_spec hg h3 r hr
          refine ⟨it', List.mem_cons_of_mem _ hm, e1, e2, e3, e4, e5, e6, ?_, ?_, e9⟩
          · intro hc hq hv
            rw [Bool.or_eq_true]; exact .inr (e7 hc hq hv)
          · intro hc hq hv
            rw [Bool.or_eq_true]; exact .inr (e8 hc hq hv)

theorem starOuts_spec {cs : List (Ctx V)} {l : List (Label × Expr V)} (h : (starOuts cs l).err = false) :
    ∀ r ∈ (starOuts cs l).results, ∃ p ∈ l, r = ⟨p.1, (analyze cs p.2).ty, (analyze cs p.2).rex⟩ ∧ (analyze cs p.2).err = false ∧
      (r.ty.isVec = true → (starOuts cs l).hasVec = true) ∧ (r.ty.isScalar = true → (starOuts cs l).hasScalar = true) := by
  rw [starOuts_eq] at h ⊢
  intro r hr
  obtain ⟨p, hp, rfl⟩ := List.mem_map.mp hr
  refine ⟨p, hp, rfl, ?_, ?_, ?_⟩
  · simp only [List.any_eq_false] at h
    simpa using h p hp
  · intro hv
    exact List.any_eq_true.mpr ⟨p, hp, hv⟩
  · intro hv
    exact List.any_eq_true.mpr ⟨p, hp, hv⟩

theorem orderItems_spec {c : Ctx V} {cs : List (Ctx V)} (hg : GoodCtx c) {gr : Bool} : ∀ {l : List (Expr V)},
    (orderItems (c :: cs) gr l).2.1 = false →
    ∀ o ∈ (orderItems (c :: cs) gr l).1, ∃ e ∈ l, o = analyze (c :: cs) e ∧ o.err = false ∧ o.ty ≠ .error ∧ o.rex.free = false ∧
      (gr = true → o.ty.isVec = false) ∧ (gr = false → o.ty.isScalar = false)
  | [], _, o, ho => by simp [orderItems] at ho
  | e :: es, h, o, ho => by
    have herr := (analyze_error (cs := cs) hg e).1
    simp only [orderItems] at h ho ⊢
    split at h
    · rename_i ht
      simp only [Bool.or_eq_false_iff] at h
      rw [herr ht] at h; simp at h
    · rename_i hne
      rw [if_neg hne] at ho
      simp only [Bool.or_eq_false_iff] at h
      obtain ⟨⟨h1, h2, h2'⟩, h3⟩ := h
      rcases List.mem_cons.mp ho with rfl | ho
      · refine ⟨e, List.mem_cons_self, rfl, h1, hne, h2, ?_, ?_⟩
        · intro hgr; simpa [hgr] using h2'
        · intro hgr; simpa [hgr] using h2'
      · obtain ⟨e', hm, hx⟩ := orderItems_spec hg h3 o ho
        exact ⟨e', List.mem_cons_of_mem _ hm, hx⟩

/-! ## Statements -/

theorem isVec_prim {t : Ty} (h : t.isVec = true) : t.isPrim = true := by
  simp only [Ty.isVec, decide_eq_true_eq] at h
  simp [Ty.isPrim, h]

/-- the parts of an accepted statement, one by one -/
structure BlockSpec (enum : List Src → List Src) (outer : List (Ctx V)) (b : Block V) (o : BOut V) : Prop where
  where_ : ∀ w, o.where_ = some w → ∃ e, b.where_ = some e ∧ w = analyze (⟨.where_, false, blockSrcs enum outer b, [], []⟩ :: outer) e ∧
    w.err = false ∧ ∃ k, w.ty = .bool k
  keys : ∀ k ∈ o.keys, ∃ g ∈ b.groupBy.getD [],
    k = ⟨keyLabel g, (analyze (⟨.groupBy, true, blockSrcs enum outer b, [], []⟩ :: outer) g.expr).ty,
      (analyze (⟨.groupBy, true, blockSrcs enum outer b, [], []⟩ :: outer) g.expr).rex⟩ ∧
    (analyze (⟨.groupBy, true, blockSrcs enum outer b, [], []⟩ :: outer) g.expr).err = false ∧ k.rex.free = false ∧ k.ty.isVec = true
  keyLabels : o.keys.map (·.label) = (b.groupBy.getD []).map keyLabel
  having : ∀ w, o.having = some w → ∃ e, b.having = some e ∧
    w = analyze (⟨.having, true, blockSrcs enum outer b, [], o.keys⟩ :: outer) e ∧ w.err = false ∧ w.ty = .bool .scalar
  results : ∀ r ∈ o.results,
    (∃ it ∈ b.select, r.ty = (analyze (⟨.select, b.groupBy.isSome || b.having.isSome, blockSrcs enum outer b, [], o.keys⟩ :: outer) it.expr).ty ∧
      r.rex = (analyze (⟨.select, b.groupBy.isSome || b.having.isSome, blockSrcs enum outer b, [], o.keys⟩ :: outer) it.expr).rex ∧
      (analyze (⟨.select, b.groupBy.isSome || b.having.isSome, blockSrcs enum outer b, [], o.keys⟩ :: outer) it.expr).err = false ∧
      r.ty ≠ .error ∧ (b.groupBy.isSome || b.having.isSome → r.ty.isVec = false) ∧ (it.expr.isQuery = false → r.rex.free = false) ∧
      (r.rex.isConst = false → it.expr.isQuery = false → r.ty.isVec = true →
        (selectItems (⟨.select, b.groupBy.isSome || b.having.isSome, blockSrcs enum outer b, [], o.keys⟩ :: outer)
          (b.groupBy.isSome || b.having.isSome) 0 b.select).hasVec = true) ∧
      (r.rex.isConst = false → it.expr.isQuery = false → r.ty.isScalar = true →
        (selectItems (⟨.select, b.groupBy.isSome || b.having.isSome, blockSrcs enum outer b, [], o.keys⟩ :: outer)
          (b.groupBy.isSome || b.having.isSome) 0 b.select).hasScalar = true)) ∨
    (∃ p ∈ starExprs b (blockSrcs enum outer b),
      r = ⟨p.1, (analyze (⟨.select, b.groupBy.isSome || b.having.isSome, blockSrcs enum outer b, [], o.keys⟩ :: outer) p.2).ty,
        (analyze (⟨.select, b.groupBy.isSome || b.having.isSome, blockSrcs enum outer b, [], o.keys⟩ :: outer) p.2).rex⟩ ∧
      (analyze (⟨.select, b.groupBy.isSome || b.having.isSome, blockSrcs enum outer b, [], o.keys⟩ :: outer) p.2).err = false ∧
      (r.ty.isVec = true → (starOuts (⟨.select, b.groupBy.isSome || b.having.isSome, blockSrcs enum outer b, [], o.keys⟩ :: outer)
        (starExprs b (blockSrcs enum outer b))).hasVec = true))
  mixed : b.groupBy = none → b.having = none →
    (selectItems (⟨.select, b.groupBy.isSome || b.having.isSome, blockSrcs enum outer b, [], o.keys⟩ :: outer)
      (b.groupBy.isSome || b.having.isSome) 0 b.select).hasScalar = true →
    (selectItems (⟨.select, b.groupBy.isSome || b.having.isSome, blockSrcs enum outer b, [], o.keys⟩ :: outer)
      (b.groupBy.isSome || b.having.isSome) 0 b.select).hasVec = false ∧
    (b.star = true → (starOuts (⟨.select, b.groupBy.isSome || b.having.isSome, blockSrcs enum outer b, [], o.keys⟩ :: outer)
        (starExprs b (blockSrcs enum outer b))).hasVec = false)
  order : ∀ x ∈ o.order, ∃ e ∈ b.orderBy,
    x = analyze (⟨.orderBy, b.groupBy.isSome || b.having.isSome, blockSrcs enum outer b, o.results, o.keys⟩ :: outer) e ∧ x.err = false ∧
    x.ty ≠ .error ∧ x.rex.free = false ∧ (b.groupBy.isSome || b.having.isSome → x.ty.isVec = false) ∧
    ((b.groupBy.isSome || b.having.isSome) = false → x.ty.isScalar = false)

theorem starResult_ne {cs : List (Ctx V)} {c : Ctx V} (hg : GoodCtx c) {p : Expr V} (h : (analyze (c :: cs) p).err = false) :
    (analyze (c :: cs) p).ty ≠ .error := by
  intro ht
  rw [(analyze_error hg p).1 ht] at h
  cases h

theorem block_spec {enum : List Src → List Src} {outer : List (Ctx V)} {b : Block V} (h : (analyzeBlock enum outer b).err = false) :
    BlockSpec enum outer b (analyzeBlock enum outer b) := by
  simp only [analyzeBlock, Bool.or_eq_false_iff] at h
  obtain ⟨⟨⟨⟨⟨⟨⟨h1, h2⟩, h3⟩, h4⟩, hst⟩, hsel⟩, hmix⟩, hord⟩ := h
  obtain ⟨k1, k2⟩ := groupKeys_spec (goodCtx_empty _ _ _) h3
  have hgk : ∀ st g, GoodCtx (⟨st, g, blockSrcs enum outer b, [], (analyzeBlock enum outer b).keys⟩ : Ctx V) := by
    intro st g
    refine ⟨(by intro r hr; cases hr), ?_⟩
    intro k hk
    obtain ⟨g', _, rfl, _, _, hv⟩ := k1 k hk
    exact isVec_prim hv
  have hgr : GoodCtx (⟨.orderBy, b.groupBy.isSome || b.having.isSome, blockSrcs enum outer b, (analyzeBlock enum outer b).results,
      (analyzeBlock enum outer b).keys⟩ : Ctx V) := by
    refine ⟨?_, (hgk .orderBy true).2⟩
    intro r hr
    rcases List.mem_append.mp hr with hr | hr
    · obtain ⟨p, _, rfl, he, _⟩ := starOuts_spec hst r hr
      exact starResult_ne (hgk .select _) he
    · obtain ⟨it, _, _, _, _, hne, _⟩ := selectItems_spec (hgk .select _) hsel r hr
      exact hne
  refine ⟨?_, ?_, k2, ?_, ?_, ?_, ?_⟩
  · intro w hw
    obtain ⟨e, e1, e2, e3, k, e4, _⟩ := condition_spec (goodCtx_empty _ _ _) h2 w hw
    exact ⟨e, e1, e2, e3, k, e4⟩
  · intro k hk
    obtain ⟨g, hg, rfl, hx⟩ := k1 k hk
    exact ⟨g, hg, rfl, hx⟩
  · intro w hw
    obtain ⟨e, e1, e2, e3, k, e4, e5⟩ := condition_spec (hgk .having true) h4 w hw
    exact ⟨e, e1, e2, e3, by rw [e4, e5 rfl]⟩
  · intro r hr
    rcases List.mem_append.mp hr with hr | hr
    · right
      obtain ⟨p, hp, hx, he, hv, _⟩ := starOuts_spec hst r hr
      exact ⟨p, hp, hx, he, hv⟩
    · left
      obtain ⟨it, hit, e1, e2, e3, e4, e5, e6, e7, e8, _⟩ := selectItems_spec (hgk .select _) hsel r hr
      exact ⟨it, hit, e1, e2, e3, e4, e5, e6, e7, e8⟩
  · intro hb1 hb2 hs
    have hs' : (selectItems (⟨.select, b.groupBy.isSome || b.having.isSome, enum (fromItems outer ⟨.from_, false, [], [], []⟩
      (b.from_.getD [])).1.sources, [], (groupKeys (⟨.groupBy, true, enum (fromItems outer ⟨.from_, false, [], [], []⟩
      (b.from_.getD [])).1.sources, [], []⟩ :: outer) (b.groupBy.getD [])).1⟩ :: outer)
      (b.groupBy.isSome || b.having.isSome) 0 b.select).hasScalar = true := hs
    rw [hs'] at hmix
    simp only [Bool.true_or, Bool.true_and, Bool.or_eq_false_iff] at hmix
    refine ⟨hmix.1, ?_⟩
    intro hstar
    have := hmix.2
    rw [hstar, hb1, hb2] at this
    simp only [Option.isNone_none, Bool.and_self, Bool.true_and, Bool.or_eq_false_iff] at this
    have h' := this.1
    have e1 : (b.groupBy.isSome || b.having.isSome) = false := by rw [hb1, hb2]; rfl
    have e2 : (analyzeBlock enum outer b).keys = (groupKeys (⟨.groupBy, true, enum (fromItems outer ⟨.from_, false, [], [], []⟩
      (b.from_.getD [])).1.sources, [], []⟩ :: outer) ((none : Option (List (Item V))).getD [])).1 := by
      simp only [analyzeBlock, hb1]
    rw [e1, e2]
    exact h'
  · intro x hx
    obtain ⟨e, he, e1, e2, e3, e4, e5, e6⟩ := orderItems_spec hgr hord x hx
    exact ⟨e, he, e1, e2, e3, e4, e5, e6⟩

end Mutable.Sema
