import Verif.Sema.Extra

/-! # Claims about the semantic analysis -/

namespace Mutable.Sema

variable {V : Type}

/-! ## C60: names -/

/-- A name without table: accepted iff the innermost query that has a column of that name has exactly one, and then it
refers to that column. -/
theorem C60_unqualified_name {c : Ctx V} {cs : List (Ctx V)} {a : Label} (hl : NotLocal c a) :
    ((analyze (c :: cs) (.des none a)).err = false ↔ ∃ d x s col, Innermost a (c :: cs) d x ∧ candidates a x = [(s, col)] ∧
      col.ty.isPrim = true ∧ NoFrom (c :: cs) d) ∧
    (∀ d x s col, Innermost a (c :: cs) d x → candidates a x = [(s, col)] → col.ty.isPrim = true → NoFrom (c :: cs) d →
      analyze (c :: cs) (.des none a) = ⟨col.ty.withCat .vector, false, false, .attr d s a col.con⟩) := by
  have hspec := (findUnqualified_spec a (c :: cs) 0).1
  have main : ∀ d x s col, Innermost a (c :: cs) d x → candidates a x = [(s, col)] → col.ty.isPrim = true → NoFrom (c :: cs) d →
      analyze (c :: cs) (.des none a) = ⟨col.ty.withCat .vector, false, false, .attr d s a col.con⟩ := by
    intro d x s col h1 h2 h3 h4
    simp only [analyze]
    rw [analyzeDes_column (fun _ => hl), analyzeColumn_eq]
    simp only [Option.elim]
    rw [(hspec d s col).mpr ⟨Nat.zero_le _, x, by simpa using h1, h2⟩]
    simp only [colCore, h3, noFrom_iff.mpr h4, if_true, Bool.false_eq_true, if_false]
  refine ⟨⟨?_, ?_⟩, main⟩
  · intro h
    simp only [analyze] at h
    rw [analyzeDes_column (fun _ => hl), analyzeColumn_eq] at h
    simp only [Option.elim] at h
    obtain ⟨d, s, col, hf, h3, h4, _⟩ := colCore_ok.mp h
    obtain ⟨_, x, h1, h2⟩ := (hspec d s col).mp hf
    exact ⟨d, x, s, col, by simpa using h1, h2, h3, h4⟩
  · rintro ⟨d, x, s, col, h1, h2, h3, h4⟩
    rw [main d x s col h1 h2 h3 h4]

/-- A name with table: accepted iff the innermost query that has a source of that name has exactly one such column in it. -/
theorem C60_qualified_name {c : Ctx V} {cs : List (Ctx V)} (hd : ∀ x ∈ c :: cs, DistinctNames x) {t : Name} {a : Label} :
    ((analyze (c :: cs) (.des (some t) a)).err = false ↔ ∃ d s col, InnermostSource t (c :: cs) d s ∧
      s.cols.filter (fun x => decide (x.label = a)) = [col] ∧ col.ty.isPrim = true ∧ NoFrom (c :: cs) d) ∧
    (∀ d s col, InnermostSource t (c :: cs) d s → s.cols.filter (fun x => decide (x.label = a)) = [col] → col.ty.isPrim = true →
      NoFrom (c :: cs) d → analyze (c :: cs) (.des (some t) a) = ⟨col.ty.withCat .vector, false, false, .attr d t a col.con⟩) := by
  have hspec := (findSource_spec t (c :: cs) 0 hd).1
  have main : ∀ d s col, InnermostSource t (c :: cs) d s → s.cols.filter (fun x => decide (x.label = a)) = [col] → col.ty.isPrim = true →
      NoFrom (c :: cs) d → analyze (c :: cs) (.des (some t) a) = ⟨col.ty.withCat .vector, false, false, .attr d t a col.con⟩ := by
    intro d s col h1 h2 h3 h4
    have hn : s.name = t := by obtain ⟨⟨_, _, _, h⟩, _⟩ := h1; exact h
    simp only [analyze]
    rw [analyzeDes_column (by simp), analyzeColumn_eq]
    simp only [Option.elim, findQualified]
    rw [(hspec d s).mpr ⟨Nat.zero_le _, by simpa using h1⟩]
    simp only [colCore, colsOf, h2, h3, noFrom_iff.mpr h4, hn, if_true, Bool.false_eq_true, if_false]
  refine ⟨⟨?_, ?_⟩, main⟩
  · intro h
    simp only [analyze] at h
    rw [analyzeDes_column (by simp), analyzeColumn_eq] at h
    simp only [Option.elim] at h
    obtain ⟨d, n, col, hf, h3, h4, _⟩ := colCore_ok.mp h
    simp only [findQualified] at hf
    split at hf
    · cases hf
    · rename_i d' s' hs
      split at hf
      · cases hf
      · rename_i c' hc
        injection hf with e1 e2 e3
        subst e1 e2 e3
        exact ⟨d', s', c', by simpa using ((hspec d' s').mp hs).2, hc, h3, h4⟩
      · cases hf
  · rintro ⟨d, s, col, h1, h2, h3, h4⟩
    rw [main d s col h1 h2 h3 h4]

/-- The meaning of an expression does not depend on the order in which the hash tables enumerate sources and results. -/
theorem C60_order_independent_partial {cs cs' : List (Ctx V)} (h : List.Forall₂ SameUpToOrder cs cs') {e : Expr V} (hs : StableExpr e) :
    analyze cs e = analyze cs' e :=
  analyze_order h e hs

/-- Neither does that of a statement, except for the order of the columns of `SELECT *`. -/
theorem C60_statement_order_partial {enum enum' : List Src → List Src} (h : ∀ l, (enum l).Perm l) (h' : ∀ l, (enum' l).Perm l)
    {outer : List (Ctx V)} (ho : ∀ c ∈ outer, DistinctNames c) {b : Block V} (hs : StableBlock b) :
    (analyzeBlock enum outer b).where_ = (analyzeBlock enum' outer b).where_ ∧
    (analyzeBlock enum outer b).keys = (analyzeBlock enum' outer b).keys ∧
    (analyzeBlock enum outer b).having = (analyzeBlock enum' outer b).having ∧
    (analyzeBlock enum outer b).results.Perm (analyzeBlock enum' outer b).results ∧
    (b.star = false → (analyzeBlock enum outer b).results = (analyzeBlock enum' outer b).results) ∧
    (analyzeBlock enum outer b).order = (analyzeBlock enum' outer b).order ∧
    (analyzeBlock enum outer b).err = (analyzeBlock enum' outer b).err ∧
    (analyzeBlock enum outer b).crash = (analyzeBlock enum' outer b).crash :=
  analyzeBlock_enum h h' ho hs

/-- An accepted expression means the same when the statement becomes part of another one. -/
theorem C60_scope_extension {c : Ctx V} {cs more : List (Ctx V)} {e : Expr V} (hx : Extensible more e)
    (h : (analyze (c :: cs) e).err = false) : analyze (c :: (cs ++ more)) e = analyze (c :: cs) e :=
  analyze_append e hx h

/-- Every column of an accepted statement is one of its own FROM clause or one of an enclosing statement, and no statement up
to there is in its FROM clause. -/
theorem C60_columns_exist {enum : List Src → List Src} (henum : ∀ l, (enum l).Perm l) {outer : List (Ctx V)} {b : Block V}
    (h : (analyzeBlock enum outer b).err = false) : ∀ e ∈ exprsOf (analyzeBlock enum outer b), ∀ d s l, (d, s, l) ∈ columns e →
    (d = 0 ∧ FromColumn outer b s l) ∨ (∃ n, d = n + 1 ∧ OuterColumn outer n s l) :=
  block_columns henum h

/-- A nested query in a FROM clause refers to nothing outside. -/
theorem C60_from_is_uncorrelated {enum : List Src → List Src} (henum : ∀ l, (enum l).Perm l) {c : Ctx V} {outer : List (Ctx V)}
    (hc : c.stage = .from_) {b : Block V} (h : (analyzeBlock enum (c :: outer) b).err = false) :
    ∀ e ∈ exprsOf (analyzeBlock enum (c :: outer) b), ∀ d s l, (d, s, l) ∈ columns e → d = 0 := by
  intro e he d s l hp
  rcases block_columns henum h e he d s l hp with ⟨h0, _⟩ | ⟨n, _, _, h2⟩
  · exact h0
  · exact absurd hc (h2 0 c (Nat.zero_le _) rfl)

/-- The name of an item of FROM. -/
def itemName : FItem V → Option Name
  | .unknown => none
  | .table n _ => some n
  | .nested n _ => some n

theorem fromItems_checked {outer : List (Ctx V)} : ∀ (l : List (FItem V)) (ctx : Ctx V), (fromItems outer ctx l).2.1 = false →
    (∀ x ∈ l, ∃ n, itemName x = some n ∧ inUse outer ctx.sources n = false) ∧ (l.map itemName).Nodup ∧
    ∀ pre n q post, l = pre ++ .nested n q :: post → ∃ c : Ctx V, c.stage = ctx.stage ∧
      c.sources.map (fun s => some s.name) = ctx.sources.map (fun s => some s.name) ++ pre.map itemName ∧ (q (c :: outer)).err = false
  | [], ctx, _ => ⟨by simp, by simp, by intro pre n q post e; simp at e⟩
  | .unknown :: _, ctx, h => by simp [fromItems] at h
  | .table n cols :: rest, ctx, h => by
    simp only [fromItems, Bool.or_eq_false_iff] at h
    obtain ⟨h1, h2⟩ := h
    obtain ⟨r1, r2, r3⟩ := fromItems_checked rest _ h2
    have hadd : addSrc ctx.sources ⟨n, true, cols⟩ = ctx.sources ++ [⟨n, true, cols⟩] := by
      unfold addSrc
      simp only [inUse, Bool.or_eq_false_iff] at h1
      simp only [h1.1, Bool.false_eq_true, if_false]
    simp only [hadd] at r1 r3
    have hin : ∀ m, inUse outer (ctx.sources ++ [⟨n, true, cols⟩]) m = false → inUse outer ctx.sources m = false ∧ m ≠ n := by
      intro m hm
      simp only [inUse, List.any_append, List.any_cons, List.any_nil, Bool.or_false, Bool.or_eq_false_iff, decide_eq_false_iff_not] at hm ⊢
      exact ⟨⟨hm.1.1, hm.2⟩, fun e => hm.1.2 e.symm⟩
    refine ⟨?_, ?_, ?_⟩
    · intro x hx
      rcases List.mem_cons.mp hx with rfl | hx
      · exact ⟨n, rfl, h1⟩
      · obtain ⟨m, e, hm⟩ := r1 x hx
        exact ⟨m, e, (hin m hm).1⟩
    · refine List.nodup_cons.mpr ⟨fun hc => ?_, r2⟩
      obtain ⟨x, hx, e⟩ := List.mem_map.mp hc
      obtain ⟨m, e', hm⟩ := r1 x hx
      rw [e'] at e
      exact (hin m hm).2 (Option.some.inj e)
    · intro pre k q post e
      cases pre with
      | nil => simp at e
      | cons p pre =>
        obtain ⟨rfl, e2⟩ := List.cons.inj e
        obtain ⟨c, c1, c2, c3⟩ := r3 pre k q post e2
        exact ⟨c, c1, by rw [c2]; simp [itemName], c3⟩
  | .nested n q :: rest, ctx, h => by
    simp only [fromItems] at h
    by_cases h1 : inUse outer ctx.sources n = true
    · rw [if_pos h1] at h; simp at h
    rw [if_neg h1] at h
    have h1 : inUse outer ctx.sources n = false := by simpa using h1
    simp only [Bool.or_eq_false_iff] at h
    obtain ⟨h0, h2⟩ := h
    obtain ⟨r1, r2, r3⟩ := fromItems_checked rest _ h2
    have hadd : addSrc ctx.sources ⟨n, false, nestedCols (q (ctx :: outer))⟩ =
        ctx.sources ++ [⟨n, false, nestedCols (q (ctx :: outer))⟩] := by
      unfold addSrc
      have h1' := h1
      simp only [inUse, Bool.or_eq_false_iff] at h1'
      simp only [h1'.1, Bool.false_eq_true, if_false]
    simp only [hadd] at r1 r3
    have hin : ∀ m, inUse outer (ctx.sources ++ [⟨n, false, nestedCols (q (ctx :: outer))⟩]) m = false →
        inUse outer ctx.sources m = false ∧ m ≠ n := by
      intro m hm
      simp only [inUse, List.any_append, List.any_cons, List.any_nil, Bool.or_false, Bool.or_eq_false_iff, decide_eq_false_iff_not] at hm ⊢
      exact ⟨⟨hm.1.1, hm.2⟩, fun e => hm.1.2 e.symm⟩
    refine ⟨?_, ?_, ?_⟩
    · intro x hx
      rcases List.mem_cons.mp hx with rfl | hx
      · exact ⟨n, rfl, h1⟩
      · obtain ⟨m, e, hm⟩ := r1 x hx
        exact ⟨m, e, (hin m hm).1⟩
    · refine List.nodup_cons.mpr ⟨fun hc => ?_, r2⟩
      obtain ⟨x, hx, e⟩ := List.mem_map.mp hc
      obtain ⟨m, e', hm⟩ := r1 x hx
      rw [e'] at e
      exact (hin m hm).2 (Option.some.inj e)
    · intro pre k q' post e
      cases pre with
      | nil =>
        simp only [List.nil_append, List.cons.injEq, FItem.nested.injEq] at e
        obtain ⟨⟨rfl, rfl⟩, rfl⟩ := e
        exact ⟨ctx, rfl, by simp, h0⟩
      | cons p pre =>
        obtain ⟨rfl, e2⟩ := List.cons.inj e
        obtain ⟨c, c1, c2, c3⟩ := r3 pre k q' post e2
        exact ⟨c, c1, by rw [c2]; simp [itemName], c3⟩

/-- In an accepted statement all sources of FROM exist, their names are different from each other and from those of enclosing
statements, and every nested query in FROM is accepted as well, with the sources before it in sight. -/
theorem C60_from_accepted {enum : List Src → List Src} {outer : List (Ctx V)} {b : Block V} {items : List (FItem V)}
    (hb : b.from_ = some items) (h : (analyzeBlock enum outer b).err = false) :
    (∀ x ∈ items, ∃ n, itemName x = some n ∧ ∀ c ∈ outer, c.stage ≠ .from_ → ∀ s ∈ c.sources, s.name ≠ n) ∧
    (items.map itemName).Nodup ∧
    ∀ pre n q post, items = pre ++ .nested n q :: post → ∃ c : Ctx V, c.stage = .from_ ∧
      c.sources.map (fun s => some s.name) = pre.map itemName ∧ (q (c :: outer)).err = false := by
  have h' : (fromItems outer ⟨.from_, false, [], [], []⟩ items).2.1 = false := by
    simp only [analyzeBlock, hb, Option.getD_some, Bool.or_eq_false_iff] at h
    exact h.1.1.1.1.1.1.1
  obtain ⟨r1, r2, r3⟩ := fromItems_checked items _ h'
  refine ⟨fun x hx => ?_, r2, fun pre n q post e => ?_⟩
  · obtain ⟨n, e, hn⟩ := r1 x hx
    refine ⟨n, e, fun c hc hs s hs' e' => ?_⟩
    simp only [inUse, Bool.or_eq_false_iff, List.any_eq_false, Bool.and_eq_true, decide_eq_true_eq, not_and, List.any_eq_true,
      not_exists] at hn
    exact hn.2 c hc hs s hs' e'
  · obtain ⟨c, c1, c2, c3⟩ := r3 pre n q post e
    exact ⟨c, c1, by simpa using c2, c3⟩

/-- An accepted statement has only meaningful types: conditions are Boolean, keys have a primitive type, no result or key of
ORDER BY has the error type. -/
theorem C60_accepted_types {enum : List Src → List Src} {outer : List (Ctx V)} {b : Block V}
    (h : (analyzeBlock enum outer b).err = false) :
    (∀ w, (analyzeBlock enum outer b).where_ = some w → ∃ k, w.ty = .bool k) ∧
    (∀ k ∈ (analyzeBlock enum outer b).keys, k.ty.isPrim = true) ∧
    (∀ w, (analyzeBlock enum outer b).having = some w → w.ty = .bool .scalar) ∧
    (∀ r ∈ (analyzeBlock enum outer b).results, r.ty ≠ .error) ∧
    (∀ x ∈ (analyzeBlock enum outer b).order, x.ty ≠ .error) :=
  block_types h

/-- In ORDER BY a name that belongs to exactly one result means this result, even if there is a column of that name. -/
theorem C60_order_by_result {c : Ctx V} {cs : List (Ctx V)} (hc : c.stage = .orderBy) {a : Label} {r : Named V}
    (hr : c.results.filter (fun x => decide (x.label = a)) = [r]) :
    analyze (c :: cs) (.des none a) = ⟨r.ty, false, false, .ref r.rex⟩ := by
  simp [analyze, analyzeDes, hc, Stage.afterSelect, hr]

/-- The analysis does not crash if only identifiers are called and NULL is no item of SELECT or ORDER BY; if the statement is
accepted, its results have primitive types. -/
theorem C60_no_crash_partial {enum : List Src → List Src} (henum : ∀ l, (enum l).Perm l) {outer : List (Ctx V)} (ho : PrimColumns outer)
    {b : Block V} (hb : Robust b) : (analyzeBlock enum outer b).crash = false ∧
      ((analyzeBlock enum outer b).err = false → ∀ r ∈ (analyzeBlock enum outer b).results, r.ty.isPrim = true) :=
  block_crash henum ho hb

/-! ## C61: grouping -/

/-- WHERE contains no aggregate: its value is a function of the row (and of the rows of enclosing queries). -/
theorem C61_where_is_row_local {enum : List Src → List Src} {outer : List (Ctx V)} {b : Block V}
    (h : (analyzeBlock enum outer b).err = false) {w : Out V} (hw : (analyzeBlock enum outer b).where_ = some w) :
    NoAggregate w.rex ∧ ∀ (O : Ops V) env G G' r, ev O env G w.rex r = ev O env G' w.rex r := by
  obtain ⟨e, _, rfl, he, _⟩ := (block_spec h).where_ w hw
  have := analyze_noAggregate (.inl rfl) e he
  exact ⟨this, fun O env G G' r => ev_noAggregate _ this r⟩

/-- A grouping key is a function of the row alone. -/
theorem C61_key_is_function_of_row {enum : List Src → List Src} {outer : List (Ctx V)} {b : Block V}
    (h : (analyzeBlock enum outer b).err = false) {k : Named V} (hk : k ∈ (analyzeBlock enum outer b).keys) :
    NoAggregate k.rex ∧ ∀ (O : Ops V) env env' G G' r, ev O env G k.rex r = ev O env' G' k.rex r := by
  obtain ⟨g, _, rfl, he, hf, _⟩ := (block_spec h).keys k hk
  refine ⟨analyze_noAggregate (.inr rfl) g.expr he, fun O env env' G G' r => ev_rowLocal _ (analyze_rowLocal rfl g.expr he hf) r⟩

/-- In an accepted statement with GROUP BY or HAVING, everything after the grouping has one value per group: the condition of
HAVING, every result (also those of `*`), every key of ORDER BY.  Missing: nested queries that depend on the row. -/
theorem C61_grouped_statement_partial {enum : List Src → List Src} {outer : List (Ctx V)} {b : Block V}
    (h : (analyzeBlock enum outer b).err = false) (hg : b.groupBy.isSome = true ∨ b.having.isSome = true)
    {O : Ops V} {env G : List (Row V)} (hG : IsGroup O env G (analyzeBlock enum outer b).keys) :
    (∀ w, (analyzeBlock enum outer b).having = some w → Uncorrelated w.rex → Determined O env G w.rex) ∧
    (∀ r ∈ (analyzeBlock enum outer b).results, Uncorrelated r.rex → Determined O env G r.rex) ∧
    (∀ x ∈ (analyzeBlock enum outer b).order, Uncorrelated x.rex → Determined O env G x.rex) := by
  have hg' : (b.groupBy.isSome || b.having.isSome) = true := by simpa using hg
  obtain ⟨s1, s2⟩ := block_scalar h hg'
  obtain ⟨d1, d2, d3⟩ := block_determined h hG
  exact ⟨d1, fun r hr => d2 r hr (s1 r hr), fun x hx => d3 x hx (s2 x hx)⟩

/-- Without grouping: if one result is an aggregate (scalar, not constant, no nested query), then all results have one value
for all rows. -/
theorem C61_aggregate_statement_partial {enum : List Src → List Src} {outer : List (Ctx V)} {b : Block V}
    (h : (analyzeBlock enum outer b).err = false) (hb1 : b.groupBy = none) (hb2 : b.having = none)
    {r0 : Named V} (hr0 : r0 ∈ (analyzeBlock enum outer b).results) (hs0 : r0.ty.isScalar = true) (hc0 : r0.rex.isConst = false)
    (hq0 : ¬ r0.rex.IsQuery) {O : Ops V} {env G : List (Row V)} :
    ∀ r ∈ (analyzeBlock enum outer b).results, Uncorrelated r.rex → ConstantColumns env G r.rex → Determined O env G r.rex :=
  block_ungrouped h hb1 hb2 hr0 hs0 hc0 hq0

/-- A nested query that is accepted as a value has one result, of scalar type, which has one value for all of its rows. -/
theorem C61_nested_value_partial {enum : List Src → List Src} {c : Ctx V} {cs : List (Ctx V)} {b : Block V} {den : List (Row V) → V}
    (h : (analyze (c :: cs) (.query (toInfo enum den b))).err = false) (hb : b.groupBy = none) {O : Ops V} {env G : List (Row V)} :
    ∃ r, (analyzeBlock enum (c :: cs) b).results = [r] ∧ r.ty.isScalar = true ∧
      (Uncorrelated r.rex → Determined O env G r.rex) := by
  simp only [analyze] at h
  obtain ⟨_, he, r, hr, hs, _, _⟩ := analyzeQuery_ok h
  have hkeys : (analyzeBlock enum (c :: cs) b).keys = [] := by
    have := (block_spec (b := b) he).keyLabels
    rw [hb] at this
    simpa using this
  refine ⟨r, hr, hs, fun hu => ?_⟩
  refine (block_determined (b := b) he ?_).2.1 r ?_ ?_ hu
  · rw [hkeys]; intro k hk; cases hk
  · change r ∈ (toInfo enum den b (c :: cs)).results
    rw [hr]; simp
  · simp only [Ty.isScalar, decide_eq_true_eq] at hs
    rw [hs]; simp

/-! ## C62: types of arithmetic -/

/-- The type of an arithmetic expression is vectorial iff one of the operands is. -/
theorem C62_category {op : BinOp} {a b t : Ty} (h : binTy op a b = some t) :
    t.isVec = true ↔ a.isVec = true ∨ b.isVec = true := by
  obtain ⟨c, c', h1, h2, h3⟩ := binTy_cat h
  simp only [Ty.isVec, h1, h2, h3, decide_eq_true_eq, Option.some.injEq]
  cases c <;> cases c' <;> simp [Cat.max]

/-- The type does not depend on the order of the operands. -/
theorem C62_symmetric (c : Cat) (k k' : NumKind) (p p' s s' : Nat) : arithJoin c k k' p p' s s' = arithJoin c k' k p' p s' s := by
  unfold arithJoin
  rw [show Nat.max (bits k p) (bits k' p') = Nat.max (bits k' p') (bits k p) from Nat.max_comm _ _,
    show Nat.max s s' = Nat.max s' s from Nat.max_comm _ _]
  cases k <;> cases k' <;> rfl

/-- Integers: the wider type; every value of the operands fits. -/
theorem C62_integer_join (c c1 c2 : Cat) (p p' s s' : Nat) {m : Int} {d : Nat}
    (h : Fits (.num c1 .int p s) m d ∨ Fits (.num c2 .int p' s') m d) : Fits (arithJoin c .int .int p p' s s') m d := by
  rw [join_int]
  rcases h with h | h
  · exact fits_int_mono (Nat.le_max_left _ _) h
  · exact fits_int_mono (Nat.le_max_right _ _) h

/-- Decimals: precision and scale are the maxima; so every value of the operands fits if the scales are equal. -/
theorem C62_decimal_join_partial (c c1 c2 : Cat) (p p' s : Nat) {m : Int} {d : Nat}
    (h : Fits (.num c1 .decimal p s) m d ∨ Fits (.num c2 .decimal p' s) m d) : Fits (arithJoin c .decimal .decimal p p' s s) m d := by
  rw [join_decimal, show Nat.max s s = s from Nat.max_self _]
  rcases h with h | h
  · exact fits_decimal_mono (Nat.le_max_left _ _) h
  · exact fits_decimal_mono (Nat.le_max_right _ _) h

/-- Floating-point types have 32 or 64 bits, so that the assertion of `arithmetic_join` holds: if INT has 1, 2, 4 or 8 bytes
and FLOAT 32 or 64 bits, so does every result. -/
theorem C62_float_join {k k' : NumKind} {p p' : Nat}
    (h : (k = .float ∧ (p = 32 ∨ p = 64)) ∧ ((k' = .float ∧ (p' = 32 ∨ p' = 64)) ∨ (k' = .int ∧ (p' = 1 ∨ p' = 2 ∨ p' = 4 ∨ p' = 8)))) :
    Nat.max (bits k p) (bits k' p') = 32 ∨ Nat.max (bits k p) (bits k' p') = 64 := by
  obtain ⟨⟨rfl, h1⟩, h2⟩ := h
  rcases h2 with ⟨rfl, h2⟩ | ⟨rfl, h2⟩ <;> simp only [bits, Nat.max_def] <;> split <;> omega

/-! ## Examples -/

namespace Ex

/-- tables `T(a, b)` (name 0) and `S(a, c)` (name 1) with integer columns -/
def la : Label := .id 10
def lb : Label := .id 11
def lc : Label := .id 12
def int4 : Ty := .num .vector .int 4 0
def T : FItem Int := .table 0 [⟨la, int4, false⟩, ⟨lb, int4, false⟩]
def S : FItem Int := .table 1 [⟨la, int4, false⟩, ⟨lc, int4, false⟩]
def des (l : Label) : Expr Int := .des none l
def sum (e : Expr Int) : Expr Int := .call1 (.ident (some .sum)) e
def count : Expr Int := .call0 (.ident (some .count))
def lit (n : Int) : Expr Int := .const (.int true) n
def item (e : Expr Int) (n : Option Name := none) : Item Int := ⟨e, n, 0⟩

/-- what the operators compute -/
def ops : Ops Int where
  un := fun _ v => -v
  bin := fun _ a b => a + b
  isnull := fun _ => 0
  agg := fun _ l => l.foldl (· + ·) 0
  count := fun n => n
  undef := 0

/-- a row of `T` -/
def row (x y : Int) : Row Int := fun _ l => if l = la then x else y

/-- `SELECT a, SUM(b) AS s FROM T WHERE b < 5 GROUP BY a HAVING COUNT() > 0 ORDER BY a, s` -/
def grouped : Block Int :=
  ⟨some [T], some (.bin .lt (des lb) (lit 5)), some [item (des la)], some (.bin .gt count (lit 0)), false,
    [item (des la), item (sum (des lb)) (some 20)], [des la, des (.id 20)]⟩

/-- `SELECT SUM(a), COUNT(), 7 FROM T` -/
def aggregated : Block Int := ⟨some [T], none, none, none, false, [item (sum (des la)), item count, item (lit 7)], []⟩

/-- `SELECT T.a, c FROM T, S WHERE T.a = S.a` -/
def joined : Block Int :=
  ⟨some [T, S], some (.bin .eq (.des (some 0) la) (.des (some 1) la)), none, none, false,
    [item (.des (some 0) la), item (des lc)], []⟩

/-- `SELECT * FROM T, S` -/
def starred : Block Int := ⟨some [T, S], none, none, none, true, [], []⟩

/-- `SELECT b FROM T WHERE b < (SELECT SUM(c) FROM S WHERE S.a = b)` -/
def correlated : Block Int :=
  ⟨some [T], some (.bin .lt (des lb) (.query (toInfo id (fun _ => 0)
      ⟨some [S], some (.bin .eq (.des (some 1) la) (des lb)), none, none, false, [item (sum (des lc))], []⟩))),
    none, none, false, [item (des lb)], []⟩

/-- `SELECT s FROM (SELECT SUM(b) AS s FROM T GROUP BY a) AS Q` -/
def derived : Block Int :=
  ⟨some [.nested 5 (toInfo id (fun _ => 0) ⟨some [T], none, some [item (des la)], none, false, [item (sum (des lb)) (some 20)], []⟩)],
    none, none, none, false, [item (des (.id 20))], []⟩

example : accepted id grouped = true ∧ accepted id aggregated = true ∧ accepted id joined = true ∧ accepted id starred = true ∧
    accepted id correlated = true ∧ accepted id derived = true := by decide

/-- names: `a` is ambiguous in `T, S`, `c` and `T.a` are not -/
def ctx : Ctx Int := ⟨.where_, false, [⟨0, true, [⟨la, int4, false⟩, ⟨lb, int4, false⟩]⟩, ⟨1, true, [⟨la, int4, false⟩, ⟨lc, int4, false⟩]⟩], [], []⟩

example : (analyze [ctx] (des la)).err = true ∧ (analyze [ctx] (des lc)).err = false ∧
    (analyze [ctx] (.des (some 0) la)).err = false ∧ (analyze [ctx] (.des (some 2) la)).err = true := by decide

example : NotLocal ctx lc ∧ Innermost lc [ctx] 0 ctx ∧ DistinctNames ctx := by
  refine ⟨⟨by simp [ctx], by simp [ctx]⟩, ⟨rfl, ?_, fun i _ hi => by omega⟩, by unfold DistinctNames; decide⟩
  intro h
  have := congrArg List.length h
  revert this
  decide

/-- a group of `grouped` with two rows -/
example : IsGroup ops [] [row 1 2, row 1 3] (analyzeBlock id [] grouped).keys := by
  intro k hk G' r hr r' hr'
  have hk' : k.rex = .attr 0 0 la false := by
    have : k ∈ [(⟨la, int4, .attr 0 0 la false⟩ : Named Int)] := hk
    simp only [List.mem_singleton] at this
    rw [this]
  rw [hk']
  simp only [List.mem_cons, List.not_mem_nil, or_false] at hr hr'
  rcases hr with rfl | rfl <;> rcases hr' with rfl | rfl <;> rfl

example : (analyzeBlock id [] grouped).results.length = 2 ∧ (analyzeBlock id [] grouped).order.length = 2 ∧
    (analyzeBlock id [] grouped).having.isSome = true ∧ (analyzeBlock id [] grouped).where_.isSome = true := by decide

example : ∃ r ∈ (analyzeBlock id [] aggregated).results, r.ty.isScalar = true ∧ r.rex.isConst = false ∧ ¬ r.rex.IsQuery :=
  ⟨_, List.mem_cons_self, by decide, by decide, fun h => h⟩

example : Robust grouped where
  tables := by
    intro n cols h x hx
    simp only [grouped, Option.getD_some, List.mem_singleton, T, FItem.table.injEq] at h
    obtain ⟨_, rfl⟩ := h
    simp only [List.mem_cons, List.not_mem_nil, or_false] at hx
    rcases hx with rfl | rfl <;> rfl
  nested := by
    intro n q h
    simp [grouped, T] at h
  where_ := by
    intro e h
    simp only [grouped, Option.some.injEq] at h
    subst h
    exact ⟨trivial, trivial⟩
  groupBy := by
    intro g h
    simp only [grouped, Option.getD_some, List.mem_singleton] at h
    subst h
    trivial
  having := by
    intro e h
    simp only [grouped, Option.some.injEq] at h
    subst h
    exact ⟨by simp [count, Sane], trivial⟩
  select := by
    intro g h
    simp only [grouped, List.mem_cons, List.not_mem_nil, or_false] at h
    rcases h with rfl | rfl
    · exact ⟨trivial, by simp [item, des]⟩
    · exact ⟨⟨by simp, trivial⟩, by simp [item, sum]⟩
  orderBy := by
    intro g h
    simp only [grouped, List.mem_cons, List.not_mem_nil, or_false] at h
    rcases h with rfl | rfl
    · exact ⟨trivial, by simp [des]⟩
    · exact ⟨trivial, by simp [des]⟩

example : StableBlock joined where
  from_ := by intro n q h; simp [joined, T, S] at h
  where_ := by
    intro e h
    simp only [joined, Option.some.injEq] at h
    subst h
    exact ⟨trivial, trivial⟩
  groupBy := by intro g h; simp [joined] at h
  having := by intro e h; simp [joined] at h
  select := by
    intro g h
    simp only [joined, List.mem_cons, List.not_mem_nil, or_false] at h
    rcases h with rfl | rfl <;> trivial
  orderBy := by intro g h; simp [joined] at h

example : Fits (.num .scalar .int 4 0) 7 0 ∧ Fits (.num .scalar .decimal 3 2) 123 2 :=
  ⟨⟨7, by decide⟩, ⟨123, by decide⟩⟩

end Ex

/-! ## What does not hold -/

open Ex

/-- **Finding**: the order of the columns of `SELECT *` over several sources is that of the hash table. -/
theorem C60_bug_star_order :
    (analyzeBlock id [] starred).results.map (·.label) = [la, lb, la, lc] ∧
    (analyzeBlock List.reverse [] starred).results.map (·.label) = [la, lc, la, lb] := by decide

/-- **Bug**: a call of something that is not a name, as in `SELECT 42(1)`, crashes the analysis (null pointer). -/
theorem C60_bug_call_crashes :
    (analyzeBlock id [] (⟨none, none, none, none, false, [item (.call1 .other (lit 1))], []⟩ : Block Int)).crash = true := by decide

/-- **Bug**: `SELECT x FROM (SELECT NULL AS x) AS Q` crashes the analysis. -/
theorem C60_bug_null_column_crashes :
    (analyzeBlock id [] (⟨some [.nested 5 (toInfo id (fun _ => 0)
      ⟨none, none, none, none, false, [item (.const .null 0) (some 20)], []⟩)], none, none, none, false,
      [item (des (.id 20))], []⟩ : Block Int)).crash = true := by decide

/-- **Bug**: so does `SELECT NULL AS x FROM T ORDER BY x`. -/
theorem C60_bug_order_by_null_crashes :
    (analyzeBlock id [] (⟨some [T], none, none, none, false, [item (.const .null 0) (some 20)], [des (.id 20)]⟩ : Block Int)).crash = true := by
  decide

/-- **Bug**: and every call in a context in the stage FROM, which is that of the values of `INSERT`. -/
theorem C60_bug_call_in_insert_crashes :
    (analyze [(⟨.from_, false, [], [], []⟩ : Ctx Int)] count).crash = true := by decide

/-- **Bug**: `SELECT SUM(a) + b FROM T` is accepted, although it has no well-defined value. -/
theorem C61_bug_mixed_expression :
    ∃ (b : Block Int) (r : Named Int) (G : List (Row Int)),
      b = ⟨some [T], none, none, none, false, [item (.bin .add (sum (des la)) (des lb))], []⟩ ∧ accepted id b = true ∧
      (analyzeBlock id [] b).results = [r] ∧ ¬ NoAggregate r.rex ∧ ¬ Determined ops [] G r.rex := by
  refine ⟨_, _, [row 1 2, row 1 3], rfl, by decide, rfl, fun h => h.1, ?_⟩
  intro h
  have := h (row 1 2) List.mem_cons_self (row 1 3) (List.mem_cons_of_mem _ List.mem_cons_self)
  revert this
  decide

/-- **Bug**: `SELECT SUM(a) FROM T ORDER BY b` is accepted, although `b` has no value for the only row of the result. -/
theorem C61_bug_order_by_column_of_aggregate :
    ∃ (b : Block Int) (x : Out Int) (G : List (Row Int)),
      b = ⟨some [T], none, none, none, false, [item (sum (des la))], [des lb]⟩ ∧ accepted id b = true ∧
      (analyzeBlock id [] b).order = [x] ∧ ¬ Determined ops [] G x.rex := by
  refine ⟨_, _, [row 1 2, row 1 3], rfl, by decide, rfl, ?_⟩
  intro h
  have := h (row 1 2) List.mem_cons_self (row 1 3) (List.mem_cons_of_mem _ List.mem_cons_self)
  revert this
  decide

/-- **Bug**: in HAVING a nested query can refer to a column that is no grouping key:
`SELECT a FROM T GROUP BY a HAVING 0 < (SELECT SUM(c) FROM S WHERE S.a = b)`. -/
theorem C61_bug_correlated_having :
    ∃ (q b : Block Int) (w : Out Int) (G : List (Row Int)),
      q = ⟨some [S], some (.bin .eq (.des (some 1) la) (des lb)), none, none, false, [item (sum (des lc))], []⟩ ∧
      b = ⟨some [T], none, some [item (des la)], some (.bin .lt (lit 0)
        (.query (toInfo id (fun env => (env.map fun r => r 0 lb).headD 0) q))), false, [item (des la)], []⟩ ∧
      accepted id b = true ∧ (analyzeBlock id [] b).having = some w ∧
      IsGroup ops [] G (analyzeBlock id [] b).keys ∧ ¬ Determined ops [] G w.rex := by
  refine ⟨_, _, _, [row 1 2, row 1 3], rfl, rfl, by decide, rfl, ?_, ?_⟩
  · intro k hk G' r hr r' hr'
    have hk' : k ∈ [(⟨la, int4, .attr 0 0 la false⟩ : Named Int)] := hk
    simp only [List.mem_singleton] at hk'
    subst hk'
    simp only [List.mem_cons, List.not_mem_nil, or_false] at hr hr'
    rcases hr with rfl | rfl <;> rcases hr' with rfl | rfl <;> rfl
  · intro h
    have := h (row 1 2) List.mem_cons_self (row 1 3) (List.mem_cons_of_mem _ List.mem_cons_self)
    revert this
    decide

/-- **Observation**: grouping keys are found by their unqualified names only: `SELECT T.a FROM T GROUP BY T.a` is rejected,
`SELECT a FROM T GROUP BY T.a` accepted. -/
theorem C61_qualified_key_rejected :
    accepted id (⟨some [T], none, some [item (.des (some 0) la)], none, false, [item (.des (some 0) la)], []⟩ : Block Int) = false ∧
    accepted id (⟨some [T], none, some [item (.des (some 0) la)], none, false, [item (des la)], []⟩ : Block Int) = true := by
  decide

/-- **Bug**: a nested query that returns one row for every row of its table is accepted as a value:
`SELECT (SELECT ISNULL(1) FROM S) FROM T`. -/
theorem C61_bug_nested_many_rows :
    accepted id (⟨some [T], none, none, none, false, [item (.query (toInfo id (fun _ => 0)
      ⟨some [S], none, none, none, false, [item (.call1 (.ident (some .isnull)) (lit 1))], []⟩))], []⟩ : Block Int) = true := by decide

/-- **Bug**: aggregates of aggregates are accepted: `SELECT SUM(SUM(a)) FROM T`. -/
theorem C61_bug_nested_aggregate :
    accepted id (⟨some [T], none, none, none, false, [item (sum (sum (des la)))], []⟩ : Block Int) = true := by decide

/-- **Bug**: the type of a sum of decimals can be too small for its operands: DECIMAL(5,0) + DECIMAL(5,5) has type
DECIMAL(5,5), whose values are smaller than 1. -/
theorem C62_bug_decimal_scale :
    arithJoin .scalar .decimal .decimal 5 5 0 5 = .num .scalar .decimal 5 5 ∧
    Fits (.num .scalar .decimal 5 0) 1 0 ∧ ¬ Fits (.num .scalar .decimal 5 5) 1 0 := by
  refine ⟨by decide, ⟨1, by decide⟩, ?_⟩
  rintro ⟨n, h1, h2⟩
  simp only [Int.pow_zero, Int.mul_one, Int.one_mul] at h1
  subst h1
  revert h2
  decide

/-- **Bug**: nor does an INT(4) fit into its sum with a DECIMAL: the result is DECIMAL(9,2). -/
theorem C62_bug_integer_decimal :
    arithJoin .scalar .int .decimal 4 3 0 2 = .num .scalar .decimal 9 2 ∧
    Fits (.num .scalar .int 4 0) 2000000000 0 ∧ ¬ Fits (.num .scalar .decimal 9 2) 2000000000 0 := by
  refine ⟨by decide, ⟨2000000000, by decide⟩, ?_⟩
  rintro ⟨n, h1, h2⟩
  simp only [Int.pow_zero, Int.mul_one] at h1
  subst h1
  revert h2
  decide

end Mutable.Sema
