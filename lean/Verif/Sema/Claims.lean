import Verif.Sema.Clauses

namespace Mutable.Sema

variable {V : Type}

/-! ## Columns -/

theorem addSrc_mem {ss : List Src} {s x : Src} (h : x ∈ addSrc ss s) : x ∈ ss ∨ x = s := by
  unfold addSrc at h
  split at h
  · exact .inl h
  · simpa using h

theorem fromItems_sources {outer : List (Ctx V)} : ∀ (l : List (FItem V)) (ctx : Ctx V), ctx.stage = .from_ →
    ∀ x ∈ (fromItems outer ctx l).1.sources, x ∈ ctx.sources ∨
      (∃ cols, FItem.table x.name cols ∈ l ∧ x.cols = cols) ∨
      (∃ q c, FItem.nested x.name q ∈ l ∧ c.stage = .from_ ∧ x.cols = nestedCols (q (c :: outer)))
  | [], ctx, _, x, hx => .inl hx
  | .unknown :: _, ctx, _, x, hx => .inl hx
  | .table n cols :: rest, ctx, hst, x, hx => by
    simp only [fromItems] at hx
    rcases fromItems_sources rest { ctx with sources := addSrc ctx.sources ⟨n, true, cols⟩ } hst x hx with h | ⟨c, h, h'⟩ | ⟨q, c, h, h'⟩
    · rcases addSrc_mem h with h | rfl
      · exact .inl h
      · exact .inr (.inl ⟨cols, List.mem_cons_self, rfl⟩)
    · exact .inr (.inl ⟨c, List.mem_cons_of_mem _ h, h'⟩)
    · exact .inr (.inr ⟨q, c, List.mem_cons_of_mem _ h, h'⟩)
  | .nested n q :: rest, ctx, hst, x, hx => by
    simp only [fromItems] at hx
    have own : x ∈ addSrc ctx.sources ⟨n, false, nestedCols (q (ctx :: outer))⟩ → x ∈ ctx.sources ∨
      (∃ cols, FItem.table x.name cols ∈ FItem.nested n q :: rest ∧ x.cols = cols) ∨
      (∃ q' c, FItem.nested x.name q' ∈ FItem.nested n q :: rest ∧ c.stage = .from_ ∧ x.cols = nestedCols (q' (c :: outer))) := by
      intro h
      rcases addSrc_mem h with h | rfl
      · exact .inl h
      · exact .inr (.inr ⟨q, ctx, List.mem_cons_self, hst, rfl⟩)
    split at hx
    · exact own hx
    · rcases fromItems_sources rest { ctx with sources := addSrc ctx.sources ⟨n, false, nestedCols (q (ctx :: outer))⟩ } hst x hx
        with h | ⟨c, h, h'⟩ | ⟨q, c, h, h'⟩
      · exact own h
      · exact .inr (.inl ⟨c, List.mem_cons_of_mem _ h, h'⟩)
      · exact .inr (.inr ⟨q, c, List.mem_cons_of_mem _ h, h'⟩)

theorem visible_same {st st' : Stage} {g g' : Bool} {ss : List Src} {rs rs' ks ks' : List (Named V)} {outer : List (Ctx V)}
    (hst : st' ≠ .from_) {p : Nat × Name × Label} (h : Visible (⟨st, g, ss, rs, ks⟩ :: outer) p) :
    Visible (⟨st', g', ss, rs', ks'⟩ :: outer) p := by
  obtain ⟨⟨c, h1, h2⟩, h3⟩ := h
  refine ⟨?_, ?_⟩
  · cases hp : p.1 with
    | zero =>
      rw [hp] at h1
      simp only [List.getElem?_cons_zero, Option.some.injEq] at h1
      subst h1
      exact ⟨⟨st', g', ss, rs', ks'⟩, by simp, h2⟩
    | succ d => rw [hp] at h1; exact ⟨c, by simpa using h1, h2⟩
  · intro i c' hi hc'
    cases i with
    | zero => simp only [List.getElem?_cons_zero, Option.some.injEq] at hc'; subst hc'; exact hst
    | succ i => exact h3 (i + 1) c' hi (by simpa using hc')

theorem block_visible {enum : List Src → List Src} {outer : List (Ctx V)} {b : Block V} (h : (analyzeBlock enum outer b).err = false) :
    ∀ e ∈ exprsOf (analyzeBlock enum outer b), ∀ p ∈ columns e,
      Visible (⟨.select, false, blockSrcs enum outer b, [], []⟩ :: outer) p := by
  have B := block_spec h
  have hk : ∀ k ∈ (analyzeBlock enum outer b).keys, ∀ p ∈ columns k.rex,
      Visible (⟨.select, false, blockSrcs enum outer b, [], []⟩ :: outer) p := by
    intro k hk p hp
    obtain ⟨g, _, rfl, he, _⟩ := B.keys k hk
    exact visible_same (by simp) (analyze_visible (c := ⟨.groupBy, true, blockSrcs enum outer b, [], []⟩) (by intro r hr; cases hr)
      (by intro r hr; cases hr) g.expr he p hp)
  have hr : ∀ r ∈ (analyzeBlock enum outer b).results, ∀ p ∈ columns r.rex,
      Visible (⟨.select, false, blockSrcs enum outer b, [], []⟩ :: outer) p := by
    intro r hr p hp
    rcases B.results r hr with ⟨it, _, _, e2, e3, _⟩ | ⟨q, _, rfl, e3, _⟩
    · rw [e2] at hp
      exact visible_same (by simp) (analyze_visible (by intro r hr; cases hr)
        (fun k hk' p hp => visible_same (by simp) (hk k hk' p hp)) it.expr e3 p hp)
    · exact visible_same (by simp) (analyze_visible (by intro r hr; cases hr)
        (fun k hk' p hp => visible_same (by simp) (hk k hk' p hp)) q.2 e3 p hp)
  intro e he p hp
  simp only [exprsOf, List.mem_append, List.mem_map, Option.mem_toList, Option.mem_def] at he
  rcases he with (((⟨w, hw, rfl⟩ | ⟨k, hk', rfl⟩) | ⟨w, hw, rfl⟩) | ⟨r, hr', rfl⟩) | ⟨x, hx, rfl⟩
  · obtain ⟨e, _, rfl, he, _⟩ := B.where_ w hw
    exact visible_same (by simp) (analyze_visible (by intro r hr; cases hr) (by intro r hr; cases hr) e he p hp)
  · exact hk k hk' p hp
  · obtain ⟨e, _, rfl, he, _⟩ := B.having w hw
    exact visible_same (by simp) (analyze_visible (by intro r hr; cases hr)
      (fun k hk' p hp => visible_same (by simp) (hk k hk' p hp)) e he p hp)
  · exact hr r hr' p hp
  · obtain ⟨e, _, rfl, he, _⟩ := B.order x hx
    exact visible_same (by simp) (analyze_visible (fun r hr' p hp => visible_same (by simp) (hr r hr' p hp))
      (fun k hk' p hp => visible_same (by simp) (hk k hk' p hp)) e he p hp)

/-- where the columns of an accepted statement come from -/
theorem block_columns {enum : List Src → List Src} (henum : ∀ l, (enum l).Perm l) {outer : List (Ctx V)} {b : Block V}
    (h : (analyzeBlock enum outer b).err = false) : ∀ e ∈ exprsOf (analyzeBlock enum outer b), ∀ d s l, (d, s, l) ∈ columns e →
    (d = 0 ∧ FromColumn outer b s l) ∨ (∃ n, d = n + 1 ∧ OuterColumn outer n s l) := by
  intro e he d s l hp
  obtain ⟨⟨c, h1, x, hx, hn, y, hy, hl⟩, h3⟩ := block_visible h e he _ hp
  cases d with
  | zero =>
    left
    refine ⟨rfl, ?_⟩
    simp only [List.getElem?_cons_zero, Option.some.injEq] at h1
    subst h1
    simp only at hn hl
    subst hn
    have hx' := (henum _).mem_iff.mp hx
    rcases fromItems_sources _ _ rfl x hx' with h | ⟨cols, h, h'⟩ | ⟨q, c, h, hc, h'⟩
    · cases h
    · subst h'; exact .inl ⟨x.cols, h, y, hy, hl⟩
    · rw [h'] at hy
      obtain ⟨r, hr, rfl⟩ := List.mem_map.mp hy
      exact .inr ⟨q, c, h, hc, r, hr, hl⟩
  | succ n =>
    right
    refine ⟨n, rfl, ⟨c, by simpa using h1, x, hx, hn, y, hy, hl⟩, ?_⟩
    intro i c' hi hc'
    exact h3 (i + 1) c' (by simp only; omega) (by simpa using hc')

/-! ## Values -/

theorem key_rowLocal {enum : List Src → List Src} {outer : List (Ctx V)} {b : Block V} (h : (analyzeBlock enum outer b).err = false) :
    ∀ k ∈ (analyzeBlock enum outer b).keys, RowLocal k.rex := by
  intro k hk
  obtain ⟨g, _, rfl, he, hf, _⟩ := (block_spec h).keys k hk
  exact analyze_rowLocal rfl g.expr he hf

theorem isVec_false {t : Ty} (h : t.isVec = false) : t.cat ≠ some .vector := by
  simpa [Ty.isVec] using h

theorem block_determined {enum : List Src → List Src} {outer : List (Ctx V)} {b : Block V} {O : Ops V} {env G : List (Row V)}
    (h : (analyzeBlock enum outer b).err = false) (hG : IsGroup O env G (analyzeBlock enum outer b).keys) :
    (∀ w, (analyzeBlock enum outer b).having = some w → Uncorrelated w.rex → Determined O env G w.rex) ∧
    (∀ r ∈ (analyzeBlock enum outer b).results, r.ty.cat ≠ some .vector → Uncorrelated r.rex → Determined O env G r.rex) ∧
    (∀ x ∈ (analyzeBlock enum outer b).order, x.ty.cat ≠ some .vector → Uncorrelated x.rex → Determined O env G x.rex) := by
  have B := block_spec h
  have hk : ∀ k ∈ (analyzeBlock enum outer b).keys, Determined O env G k.rex := fun k hk => hG k hk G
  have hr : ∀ r ∈ (analyzeBlock enum outer b).results, r.ty.cat ≠ some .vector → Uncorrelated r.rex → Determined O env G r.rex := by
    intro r hr hv hu
    rcases B.results r hr with ⟨it, _, e1, e2, e3, _⟩ | ⟨q, _, rfl, e3, _⟩
    · rw [e1] at hv; rw [e2] at hu ⊢
      exact analyze_determined (by intro r hr; cases hr) hk it.expr e3 hv hu
    · exact analyze_determined (by intro r hr; cases hr) hk q.2 e3 hv hu
  refine ⟨?_, hr, ?_⟩
  · intro w hw hu
    obtain ⟨e, _, rfl, he, ht⟩ := B.having w hw
    exact analyze_determined (by intro r hr; cases hr) hk e he (by rw [ht]; simp [Ty.cat]) hu
  · intro x hx hv hu
    obtain ⟨e, _, rfl, he, _⟩ := B.order x hx
    exact analyze_determined hr hk e he hv hu

/-- in a grouped statement nothing is vectorial -/
theorem block_scalar {enum : List Src → List Src} {outer : List (Ctx V)} {b : Block V} (h : (analyzeBlock enum outer b).err = false)
    (hg : (b.groupBy.isSome || b.having.isSome) = true) :
    (∀ r ∈ (analyzeBlock enum outer b).results, r.ty.cat ≠ some .vector) ∧
    (∀ x ∈ (analyzeBlock enum outer b).order, x.ty.cat ≠ some .vector) := by
  have B := block_spec h
  constructor
  · intro r hr
    rcases B.results r hr with ⟨it, _, _, _, _, _, e5, _⟩ | ⟨q, hq, rfl, e3, _⟩
    · exact isVec_false (e5 hg)
    · unfold starExprs at hq
      split at hq
      · cases hq
      · rename_i gs _ heq
        obtain ⟨g, hg', rfl⟩ := List.mem_map.mp hq
        simp only [analyze] at e3 ⊢
        have hl : keyLabel g ∈ (analyzeBlock enum outer b).keys.map (·.label) := by
          rw [B.keyLabels, heq]
          exact List.mem_map.mpr ⟨g, hg', rfl⟩
        obtain ⟨k, hk, hkl⟩ := List.mem_map.mp hl
        have hkf : k ∈ (analyzeBlock enum outer b).keys.filter (fun x => decide (x.label = keyLabel g)) :=
          List.mem_filter.mpr ⟨hk, by simpa using hkl⟩
        simp only [analyzeDes, Option.isNone_none, Stage.afterSelect, Stage.afterGroupBy, Bool.and_false, Bool.and_true,
          Bool.false_eq_true, if_false, if_true] at e3 ⊢
        split
        · rename_i k' hk'
          have hm : k' ∈ (analyzeBlock enum outer b).keys := by
            have : k' ∈ (analyzeBlock enum outer b).keys.filter (fun x => decide (x.label = keyLabel g)) := by rw [hk']; simp
            exact (List.mem_filter.mp this).1
          obtain ⟨_, _, rfl, _, _, hv⟩ := B.keys k' hm
          rw [withCat_cat (isVec_prim hv)]; simp
        · simp [Out.fail, Ty.cat]
        · rename_i hnil; rw [hnil] at hkf; cases hkf
      · cases hq
      · rename_i h1 h2
        rw [h1, h2] at hg; simp at hg
  · intro x hx
    obtain ⟨e, _, _, _, _, _, hv, _⟩ := B.order x hx
    exact isVec_false (hv hg)

theorem rex_isQuery {c : Ctx V} {cs : List (Ctx V)} {e : Expr V} (h : (analyze (c :: cs) e).err = false) (hq : e.isQuery = true) :
    (analyze (c :: cs) e).rex.IsQuery := by
  cases e with
  | query q =>
    simp only [analyze] at h ⊢
    obtain ⟨_, _, r, _, _, he, _⟩ := analyzeQuery_ok h
    rw [he]; trivial
  | _ => simp [Expr.isQuery] at hq

theorem des_vec {c : Ctx V} {cs : List (Ctx V)} {t : Name} {a : Label} (h : (analyze (c :: cs) (.des (some t) a)).err = false) :
    (analyze (c :: cs) (.des (some t) a)).ty.isVec = true := by
  simp only [analyze] at h ⊢
  rcases analyzeDes_ok h with ⟨_, _, _, hn, _⟩ | ⟨_, _, _, hn, _⟩ | ⟨_, _, _, _, _, hv⟩
  · cases hn
  · cases hn
  · simp [Ty.isVec, hv]

/-- without grouping: an aggregate among the results -/
theorem block_ungrouped {enum : List Src → List Src} {outer : List (Ctx V)} {b : Block V} {O : Ops V} {env G : List (Row V)}
    (h : (analyzeBlock enum outer b).err = false) (hb1 : b.groupBy = none) (hb2 : b.having = none)
    {r0 : Named V} (hr0 : r0 ∈ (analyzeBlock enum outer b).results) (hs0 : r0.ty.isScalar = true) (hc0 : r0.rex.isConst = false)
    (hq0 : ¬ r0.rex.IsQuery) :
    ∀ r ∈ (analyzeBlock enum outer b).results, Uncorrelated r.rex → ConstantColumns env G r.rex → Determined O env G r.rex := by
  have B := block_spec h
  have hkeys : (analyzeBlock enum outer b).keys = [] := by
    have := B.keyLabels
    rw [hb1] at this
    simpa using this
  have hG : IsGroup O env G (analyzeBlock enum outer b).keys := by rw [hkeys]; intro k hk; cases hk
  have hdet := (block_determined h hG).2.1
  have hstar : ∀ p ∈ starExprs b (blockSrcs enum outer b), b.star = true ∧ ∃ t a, p.2 = .des (some t) a := by
    intro p hp
    unfold starExprs at hp
    split at hp
    · cases hp
    · rename_i heq; rw [hb1] at heq; cases heq
    · rename_i heq; rw [hb2] at heq; cases heq
    · rename_i h' _ _
      obtain ⟨s, _, hp⟩ := List.mem_flatMap.mp hp
      obtain ⟨x, _, rfl⟩ := List.mem_map.mp hp
      exact ⟨h', _, _, rfl⟩
  have hsc : (selectItems (⟨.select, b.groupBy.isSome || b.having.isSome, blockSrcs enum outer b, [], (analyzeBlock enum outer b).keys⟩ :: outer)
      (b.groupBy.isSome || b.having.isSome) 0 b.select).hasScalar = true := by
    rcases B.results r0 hr0 with ⟨it, _, _, e2, e3, _, _, _, _, e8⟩ | ⟨p, hp, rfl, e3, _⟩
    · refine e8 hc0 ?_ hs0
      cases hq : it.expr.isQuery with
      | false => rfl
      | true =>
        have := rex_isQuery e3 hq
        rw [← e2] at this; exact absurd this hq0
    · obtain ⟨_, t, a, hpa⟩ := hstar p hp
      rw [hpa] at e3 hs0
      have hv := des_vec e3
      simp only [Ty.isVec, Ty.isScalar, decide_eq_true_eq] at hv hs0
      rw [hv] at hs0; cases hs0
  obtain ⟨m1, m2⟩ := B.mixed hb1 hb2 hsc
  intro r hr hu hc
  rcases B.results r hr with ⟨it, _, _, e2, e3, _, _, _, e7, _⟩ | ⟨p, hp, rfl, e3, e4⟩
  · by_cases hcon : r.rex.isConst = true
    · exact isConst_determined r.rex hcon hu hc
    · cases hq : it.expr.isQuery with
      | true =>
        have := rex_isQuery e3 hq
        rw [← e2] at this
        cases hrr : r.rex with
        | query con den =>
          rw [hrr] at hu
          intro x _ y _
          exact hu x y env
        | _ => rw [hrr] at this; exact this.elim
      | false =>
        apply hdet r hr ?_ hu
        intro hv
        have := e7 (by simpa using hcon) hq (by simp [Ty.isVec, hv])
        rw [m1] at this; cases this
  · obtain ⟨hst, t, a, hpa⟩ := hstar p hp
    have hv := e4 (by simp only [hpa]; rw [hpa] at e3; exact des_vec e3)
    rw [m2 hst] at hv; cases hv

/-! ## Types of accepted statements -/

theorem block_types {enum : List Src → List Src} {outer : List (Ctx V)} {b : Block V} (h : (analyzeBlock enum outer b).err = false) :
    (∀ w, (analyzeBlock enum outer b).where_ = some w → ∃ k, w.ty = .bool k) ∧
    (∀ k ∈ (analyzeBlock enum outer b).keys, k.ty.isPrim = true) ∧
    (∀ w, (analyzeBlock enum outer b).having = some w → w.ty = .bool .scalar) ∧
    (∀ r ∈ (analyzeBlock enum outer b).results, r.ty ≠ .error) ∧
    (∀ x ∈ (analyzeBlock enum outer b).order, x.ty ≠ .error) := by
  have B := block_spec h
  have hg : GoodCtx (⟨.select, b.groupBy.isSome || b.having.isSome, blockSrcs enum outer b, [], (analyzeBlock enum outer b).keys⟩ : Ctx V) := by
    refine ⟨(by intro r hr; cases hr), ?_⟩
    intro k hk
    obtain ⟨g, _, rfl, _, _, hv⟩ := B.keys k hk
    exact isVec_prim hv
  refine ⟨?_, hg.2, ?_, ?_, ?_⟩
  · intro w hw
    obtain ⟨_, _, _, _, k, hk⟩ := B.where_ w hw
    exact ⟨k, hk⟩
  · intro w hw
    obtain ⟨_, _, _, _, hk⟩ := B.having w hw
    exact hk
  · intro r hr
    rcases B.results r hr with ⟨_, _, _, _, _, hne, _⟩ | ⟨p, _, rfl, he, _⟩
    · exact hne
    · exact starResult_ne hg he
  · intro x hx
    obtain ⟨_, _, _, _, hne, _⟩ := B.order x hx
    exact hne

/-! ## Crashes -/

theorem analyze_none {c : Ctx V} {cs : List (Ctx V)} (hk : ∀ k ∈ c.keys, k.ty.isPrim = true) (e : Expr V)
    (h : (analyze (c :: cs) e).ty = .none) : (∃ v, e = .const .null v) ∨ ∃ r ∈ c.results, r.ty = .none := by
  by_cases hr : ∀ r ∈ c.results, r.ty ≠ .error
  · exact (analyze_error ⟨hr, hk⟩ e).2 h
  · cases e with
    | des t a =>
      simp only [analyze, analyzeDes] at h
      split at h
      · rename_i r hf
        exact .inr ⟨r, (filter_singleton hf).1, h⟩
      · cases h
      · split at h
        · rename_i k hf
          exact absurd h (cat_ne_none (withCat_cat (hk k (filter_singleton hf).1))).2
        · cases h
        · exact absurd h analyzeColumn_error.2
    | const k v =>
      have := (analyze_error (c := ⟨.where_, false, [], [], []⟩) (cs := cs) (goodCtx_empty _ _ _) (.const k v)).2 h
      rcases this with h | ⟨r, hr, _⟩
      · exact .inl h
      · cases hr
    | call0 k => exact absurd h (analyzeCall0_error _ k).2
    | call1 k a => exact absurd h (analyzeCall1_error _ k _).2
    | call2 k a b => simp only [analyze, analyzeCall2] at h; split at h <;> simp [Out.fail, Out.crashed] at h
    | un op e =>
      simp only [analyze] at h
      split at h
      · simp [Out.fail] at h
      · rename_i ht
        have := (unTy_cat ht).2
        simp only at h; rw [h] at this; simp [Ty.cat] at this
    | bin op l r =>
      simp only [analyze] at h
      split at h
      · simp [Out.fail] at h
      · rename_i ht
        obtain ⟨_, _, _, _, h'⟩ := binTy_cat ht
        exact absurd h (cat_ne_none h').2
    | query q => exact absurd h (analyzeQuery_error _ _).2

/-- What keeps the analysis from crashing: columns of tables have a primitive type, nested queries are analyzed without crash
and their results (if they are in FROM) have primitive types, only identifiers are called, `NULL` is neither an item of SELECT
nor of ORDER BY. -/
structure Robust (b : Block V) : Prop where
  tables : ∀ n cols, FItem.table n cols ∈ b.from_.getD [] → ∀ x ∈ cols, x.ty.isPrim = true
  nested : ∀ n q, FItem.nested n q ∈ b.from_.getD [] → ∀ cs, PrimColumns cs →
    (q cs).crash = false ∧ ∀ r ∈ (q cs).results, r.ty.isPrim = true
  where_ : ∀ e, b.where_ = some e → Sane PrimColumns e
  groupBy : ∀ g ∈ b.groupBy.getD [], Sane PrimColumns g.expr
  having : ∀ e, b.having = some e → Sane PrimColumns e
  select : ∀ i ∈ b.select, Sane PrimColumns i.expr ∧ ∀ v, i.expr ≠ .const .null v
  orderBy : ∀ e ∈ b.orderBy, Sane PrimColumns e ∧ ∀ v, e ≠ .const .null v

theorem fromItems_crash {outer : List (Ctx V)} (ho : PrimColumns outer) : ∀ (l : List (FItem V)) (ctx : Ctx V),
    (∀ s ∈ ctx.sources, ∀ x ∈ s.cols, x.ty.isPrim = true) →
    (∀ n cols, FItem.table n cols ∈ l → ∀ x ∈ cols, x.ty.isPrim = true) →
    (∀ n q, FItem.nested n q ∈ l → ∀ cs, PrimColumns cs → (q cs).crash = false ∧ ∀ r ∈ (q cs).results, r.ty.isPrim = true) →
    (fromItems outer ctx l).2.2 = false ∧ ∀ s ∈ (fromItems outer ctx l).1.sources, ∀ x ∈ s.cols, x.ty.isPrim = true
  | [], ctx, hc, _, _ => ⟨rfl, hc⟩
  | .unknown :: _, ctx, hc, _, _ => ⟨rfl, hc⟩
  | .table n cols :: rest, ctx, hc, ht, hn => by
    have hc' : ∀ s ∈ addSrc ctx.sources ⟨n, true, cols⟩, ∀ x ∈ s.cols, x.ty.isPrim = true := by
      intro s hs
      rcases addSrc_mem hs with hs | rfl
      · exact hc s hs
      · exact ht n cols List.mem_cons_self
    simp only [fromItems]
    exact fromItems_crash ho rest { ctx with sources := addSrc ctx.sources ⟨n, true, cols⟩ } hc'
      (fun n cols h => ht n cols (List.mem_cons_of_mem _ h)) (fun n q h => hn n q (List.mem_cons_of_mem _ h))
  | .nested n q :: rest, ctx, hc, ht, hn => by
    have hP : PrimColumns (ctx :: outer) := by
      intro c hc'
      rcases List.mem_cons.mp hc' with rfl | hc'
      · exact hc
      · exact ho c hc'
    obtain ⟨h1, h2⟩ := hn n q List.mem_cons_self _ hP
    have hbad : ((q (ctx :: outer)).results.any fun r => !r.ty.isPrim) = false := by
      rw [List.any_eq_false]
      intro r hr
      simp [h2 r hr]
    have hc' : ∀ s ∈ addSrc ctx.sources ⟨n, false, nestedCols (q (ctx :: outer))⟩, ∀ x ∈ s.cols, x.ty.isPrim = true := by
      intro s hs
      rcases addSrc_mem hs with hs | rfl
      · exact hc s hs
      · intro x hx
        obtain ⟨r, hr, rfl⟩ := List.mem_map.mp hx
        simp only
        simp [Ty.isPrim, withCat_cat (h2 r hr)]
    simp only [fromItems, h1, hbad]
    split
    · exact ⟨rfl, hc'⟩
    · have := fromItems_crash ho rest { ctx with sources := addSrc ctx.sources ⟨n, false, nestedCols (q (ctx :: outer))⟩ } hc'
        (fun n cols h => ht n cols (List.mem_cons_of_mem _ h)) (fun n q h => hn n q (List.mem_cons_of_mem _ h))
      simpa using this

theorem condition_crash {c : Ctx V} {cs : List (Ctx V)} (hp : PrimColumns (c :: cs)) (hst : c.stage ≠ .from_) {sc : Bool}
    {x : Option (Expr V)} (hs : ∀ e, x = some e → Sane PrimColumns e) : (condition (c :: cs) sc x).2.2 = false := by
  cases x with
  | none => rfl
  | some e =>
    have := analyze_crash hp hst (P := PrimColumns) hp e (hs e rfl)
    simp only [condition]
    split <;> exact this

theorem groupKeys_crash {c : Ctx V} {cs : List (Ctx V)} (hp : PrimColumns (c :: cs)) (hst : c.stage ≠ .from_) : ∀ {l : List (Item V)},
    (∀ g ∈ l, Sane PrimColumns g.expr) →
    (groupKeys (c :: cs) l).2.2 = false ∧ ∀ k ∈ (groupKeys (c :: cs) l).1, k.ty.isPrim = true
  | [], _ => by simp [groupKeys]
  | g :: gs, hs => by
    have h1 := analyze_crash hp hst (P := PrimColumns) hp g.expr (hs g List.mem_cons_self)
    obtain ⟨h2, h3⟩ := groupKeys_crash hp hst (l := gs) fun x hx => hs x (List.mem_cons_of_mem _ hx)
    simp only [groupKeys]
    split
    · exact ⟨by simp [h1, h2], h3⟩
    · split
      · rename_i hv
        refine ⟨by simp [h1, h2], ?_⟩
        intro k hk
        rcases List.mem_cons.mp hk with rfl | hk
        · exact isVec_prim hv
        · exact h3 k hk
      · exact ⟨by simp [h1, h2], h3⟩

theorem prim_of {t : Ty} (h1 : t ≠ .error) (h2 : t ≠ .none) : t.isPrim = true := by
  cases h : t.isPrim with
  | true => rfl
  | false => rcases isPrim_iff.mp h with h | h <;> [exact absurd h h1; exact absurd h h2]

theorem selectItems_crash {c : Ctx V} {cs : List (Ctx V)} (hp : PrimColumns (c :: cs)) (hst : c.stage ≠ .from_)
    (hk : ∀ k ∈ c.keys, k.ty.isPrim = true) (hr : c.results = []) {gr : Bool} : ∀ {l : List (Item V)} {n : Nat},
    (∀ g ∈ l, Sane PrimColumns g.expr ∧ ∀ v, g.expr ≠ .const .null v) →
    (selectItems (c :: cs) gr n l).crash = false ∧ ∀ r ∈ (selectItems (c :: cs) gr n l).results, r.ty ≠ .none
  | [], n, _ => by simp [selectItems]
  | it :: rest, n, hs => by
    have h1 := analyze_crash hp hst (P := PrimColumns) hp it.expr (hs it List.mem_cons_self).1
    have hnn : (analyze (c :: cs) it.expr).ty ≠ .none := by
      intro h
      rcases analyze_none hk it.expr h with ⟨v, hv⟩ | ⟨r, hr', _⟩
      · exact (hs it List.mem_cons_self).2 v hv
      · rw [hr] at hr'; cases hr'
    have ih := fun n => selectItems_crash hp hst hk hr (gr := gr) (l := rest) (n := n) fun x hx => hs x (List.mem_cons_of_mem _ hx)
    simp only [selectItems]
    split
    · exact ⟨by simp [h1, (ih n).1], (ih n).2⟩
    · rename_i hne
      split
      · exact ⟨by simp [h1, (ih n).1], (ih n).2⟩
      · generalize (if (it.name.isNone && (analyze (c :: cs) it.expr).rex.isConst && _) = true then n + 1 else n) = m
        refine ⟨?_, ?_⟩
        · simp only [h1, (ih m).1, prim_of hne hnn]; simp
        · intro r hr
          rcases List.mem_cons.mp hr with rfl | hr
          · exact hnn
          · exact (ih m).2 r hr

theorem orderItems_crash {c : Ctx V} {cs : List (Ctx V)} (hp : PrimColumns (c :: cs)) (hst : c.stage ≠ .from_)
    (hk : ∀ k ∈ c.keys, k.ty.isPrim = true) (hr : ∀ r ∈ c.results, r.ty ≠ .none) {gr : Bool} : ∀ {l : List (Expr V)},
    (∀ g ∈ l, Sane PrimColumns g ∧ ∀ v, g ≠ .const .null v) → (orderItems (c :: cs) gr l).2.2 = false
  | [], _ => rfl
  | e :: es, hs => by
    have h1 := analyze_crash hp hst (P := PrimColumns) hp e (hs e List.mem_cons_self).1
    have hnn : (analyze (c :: cs) e).ty ≠ .none := by
      intro h
      rcases analyze_none hk e h with ⟨v, hv⟩ | ⟨r, hr', h'⟩
      · exact (hs e List.mem_cons_self).2 v hv
      · exact hr r hr' h'
    have ih := orderItems_crash hp hst hk hr (gr := gr) (l := es) fun x hx => hs x (List.mem_cons_of_mem _ hx)
    simp only [orderItems]
    split
    · simp [h1, ih]
    · rename_i hne
      simp [h1, ih, prim_of hne hnn]

theorem block_crash {enum : List Src → List Src} (henum : ∀ l, (enum l).Perm l) {outer : List (Ctx V)} (ho : PrimColumns outer)
    {b : Block V} (hb : Robust b) : (analyzeBlock enum outer b).crash = false ∧
      ((analyzeBlock enum outer b).err = false → ∀ r ∈ (analyzeBlock enum outer b).results, r.ty.isPrim = true) := by
  obtain ⟨h1, h2⟩ := fromItems_crash ho (b.from_.getD []) ⟨.from_, false, [], [], []⟩ (by intro s hs; cases hs) hb.tables hb.nested
  have hp : ∀ st g rs ks, PrimColumns ((⟨st, g, blockSrcs enum outer b, rs, ks⟩ : Ctx V) :: outer) := by
    intro st g rs ks c hc
    rcases List.mem_cons.mp hc with rfl | hc
    · intro s hs
      exact h2 s ((henum _).mem_iff.mp hs)
    · exact ho c hc
  have c2 := condition_crash (hp .where_ false [] []) (by simp) (sc := false) hb.where_
  obtain ⟨c3, k3⟩ := groupKeys_crash (hp .groupBy true [] []) (by simp) hb.groupBy
  have c4 := condition_crash (hp .having true [] (analyzeBlock enum outer b).keys) (by simp) (sc := true) hb.having
  obtain ⟨c5, k5⟩ := selectItems_crash (hp .select (b.groupBy.isSome || b.having.isSome) [] (analyzeBlock enum outer b).keys) (by simp)
    k3 rfl (gr := b.groupBy.isSome || b.having.isSome) (n := 0) hb.select
  have hsane : ∀ p ∈ starExprs b (blockSrcs enum outer b), Sane PrimColumns p.2 ∧ ∀ v, p.2 ≠ .const .null v := by
    intro p hpm
    unfold starExprs at hpm
    split at hpm
    · cases hpm
    · obtain ⟨g, _, rfl⟩ := List.mem_map.mp hpm
      exact ⟨trivial, by simp⟩
    · cases hpm
    · obtain ⟨s, _, hpm⟩ := List.mem_flatMap.mp hpm
      obtain ⟨x, _, rfl⟩ := List.mem_map.mp hpm
      exact ⟨trivial, by simp⟩
  have cs : (starOuts (⟨.select, b.groupBy.isSome || b.having.isSome, blockSrcs enum outer b, [], (analyzeBlock enum outer b).keys⟩ :: outer)
      (starExprs b (blockSrcs enum outer b))).crash = false ∧
      ∀ r ∈ (starOuts (⟨.select, b.groupBy.isSome || b.having.isSome, blockSrcs enum outer b, [], (analyzeBlock enum outer b).keys⟩ :: outer)
      (starExprs b (blockSrcs enum outer b))).results, r.ty ≠ .none := by
    rw [starOuts_eq]
    constructor
    · simp only [List.any_eq_false]
      intro p hpm
      rw [analyze_crash (hp _ _ _ _) (by simp) (P := PrimColumns) (hp _ _ _ _) p.2 (hsane p hpm).1]
      simp
    · intro r hr
      obtain ⟨p, hpm, rfl⟩ := List.mem_map.mp hr
      intro h
      rcases analyze_none k3 p.2 h with ⟨v, hv⟩ | ⟨r, hr', _⟩
      · exact (hsane p hpm).2 v hv
      · cases hr'
  have hres : ∀ r ∈ (analyzeBlock enum outer b).results, r.ty ≠ .none := by
    intro r hr
    rcases List.mem_append.mp hr with hr | hr
    · exact cs.2 r hr
    · exact k5 r hr
  have c6 := orderItems_crash (hp .orderBy (b.groupBy.isSome || b.having.isSome) (analyzeBlock enum outer b).results
    (analyzeBlock enum outer b).keys) (by simp) k3 hres (gr := b.groupBy.isSome || b.having.isSome) hb.orderBy
  refine ⟨?_, fun h r hr => prim_of ((block_types h).2.2.2.1 r hr) (hres r hr)⟩
  change (_ || _ || _ || _ || _ || _ || _) = false
  simp only [Bool.or_eq_false_iff]
  exact ⟨⟨⟨⟨⟨⟨h1, c2⟩, c3⟩, c4⟩, cs.1⟩, c5⟩, c6⟩

end Mutable.Sema
