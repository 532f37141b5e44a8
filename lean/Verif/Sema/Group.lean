import Verif.Sema.Types

namespace Mutable.Sema

variable {V : Type}

/-! ## Which columns an expression refers to -/

/-- the column exists: query `d` of the stack has a source of that name with a column of that label; no query up to there
is in its FROM clause -/
def Visible (cs : List (Ctx V)) (p : Nat × Name × Label) : Prop :=
  (∃ c, cs[p.1]? = some c ∧ ∃ s ∈ c.sources, s.name = p.2.1 ∧ ∃ x ∈ s.cols, x.label = p.2.2) ∧
    ∀ i c, i ≤ p.1 → cs[i]? = some c → c.stage ≠ .from_

theorem findUnqualified_at {a : Label} : ∀ {cs : List (Ctx V)} {n d : Nat} {s : Name} {c : Col}, findUnqualified a cs n = .found d s c →
    n ≤ d ∧ ∃ x, cs[d - n]? = some x ∧ ∃ y ∈ x.sources, y.name = s ∧ c ∈ y.cols ∧ c.label = a
  | [], _, _, _, _, h => by simp [findUnqualified] at h
  | k :: cs, n, d, s, c, h => by
    unfold findUnqualified at h
    split at h
    · cases h
    · rename_i hs
      injection h with h1 h2 h3
      subst h1 h2 h3
      rcases scan_mem hs with h | h
      · cases h
      · exact ⟨Nat.le_refl _, k, by simp, h⟩
    · obtain ⟨hn, x, hx, hy⟩ := findUnqualified_at h
      refine ⟨by omega, x, ?_, hy⟩
      have : d - n = (d - (n + 1)) + 1 := by omega
      rw [this]; simpa using hx

theorem findSource_at {t : Name} : ∀ {cs : List (Ctx V)} {n d : Nat} {s : Src}, findSource t cs n = some (d, s) →
    n ≤ d ∧ ∃ x, cs[d - n]? = some x ∧ s ∈ x.sources ∧ s.name = t
  | [], _, _, _, h => by simp [findSource] at h
  | k :: cs, n, d, s, h => by
    unfold findSource at h
    split at h
    · rename_i hf
      injection h with h
      injection h with h1 h
      subst h1 h
      exact ⟨Nat.le_refl _, k, by simp, List.mem_of_find?_eq_some hf, by simpa using List.find?_some hf⟩
    · obtain ⟨hn, x, hx, hy⟩ := findSource_at h
      refine ⟨by omega, x, ?_, hy⟩
      have : d - n = (d - (n + 1)) + 1 := by omega
      rw [this]; simpa using hx

theorem found_at {cs : List (Ctx V)} {t : Option Name} {a : Label} {d : Nat} {s : Name} {c : Col}
    (h : (match t with | some t => findQualified cs t a | none => findUnqualified a cs 0) = .found d s c) :
    ∃ x, cs[d]? = some x ∧ ∃ y ∈ x.sources, y.name = s ∧ c ∈ y.cols ∧ c.label = a := by
  cases t with
  | none => simpa using (findUnqualified_at h).2
  | some t =>
    simp only [findQualified] at h
    split at h
    · cases h
    · rename_i d' s' hf
      obtain ⟨_, x, hx, hy, hn⟩ := findSource_at hf
      split at h
      · cases h
      · rename_i c' hc
        injection h with h1 h2 h3
        subst h1 h2 h3
        have : c' ∈ colsOf a s' := by rw [hc]; simp
        exact ⟨x, by simpa using hx, s', hy, rfl, (List.mem_filter.mp this).1, by simpa using (List.mem_filter.mp this).2⟩
      · cases h

theorem analyzeColumn_ok {cs : List (Ctx V)} {t : Option Name} {a : Label} (h : (analyzeColumn cs t a).err = false) :
    ∃ d s con, (analyzeColumn cs t a).rex = .attr d s a con ∧ Visible cs (d, s, a) ∧
      (analyzeColumn cs t a).ty.cat = some .vector := by
  unfold analyzeColumn at h ⊢
  split
  · rename_i hf; rw [hf] at h; simp [Out.fail] at h
  · rename_i hf; rw [hf] at h; simp [Out.fail] at h
  · rename_i d s c hf
    rw [hf] at h
    dsimp only at h
    obtain ⟨x, hx, y, hy, hn, hc, hl⟩ := found_at hf
    by_cases hp : c.ty.isPrim = true
    · rw [if_pos hp] at h ⊢
      split
      · rename_i hany; rw [if_pos hany] at h; simp [Out.fail] at h
      · rename_i hany
        refine ⟨d, s, c.con, rfl, ⟨⟨x, hx, y, hy, hn, c, hc, hl⟩, ?_⟩, withCat_cat hp⟩
        intro i c' hi hc' hst
        apply hany
        rw [List.any_eq_true]
        refine ⟨c', ?_, by simpa using hst⟩
        rw [List.mem_iff_getElem?]
        refine ⟨i, ?_⟩
        rw [List.getElem?_take_of_lt (by simp only at hi; omega)]
        exact hc'
    · rw [if_neg hp] at h; simp [Out.crashed] at h

/-- the outcomes of a designator that is accepted -/
theorem analyzeDes_ok {c : Ctx V} {cs : List (Ctx V)} {t : Option Name} {a : Label} (h : (analyzeDes (c :: cs) t a).err = false) :
    (∃ r ∈ c.results, c.stage = .orderBy ∧ t = none ∧ r.label = a ∧ analyzeDes (c :: cs) t a = ⟨r.ty, false, false, .ref r.rex⟩) ∨
    (∃ k ∈ c.keys, c.stage.afterGroupBy = true ∧ t = none ∧ k.label = a ∧
      analyzeDes (c :: cs) t a = ⟨k.ty.withCat .scalar, false, false, .ref k.rex⟩) ∨
    (∃ d s con, (analyzeDes (c :: cs) t a).rex = .attr d s a con ∧ Visible (c :: cs) (d, s, a) ∧
      (analyzeDes (c :: cs) t a).ty.cat = some .vector) := by
  unfold analyzeDes at h ⊢
  dsimp only at h ⊢
  split
  · rename_i r hr
    obtain ⟨hm, hl, hb⟩ := filter_singleton hr
    rw [Bool.and_eq_true] at hb
    refine .inl ⟨r, hm, ?_, by simpa using hb.1, by simpa using hl, rfl⟩
    have := hb.2
    cases hs : c.stage <;> rw [hs] at this <;> simp [Stage.afterSelect] at this ⊢
  · rename_i heq; rw [heq] at h; simp [Out.fail] at h
  · rename_i heq
    rw [heq] at h
    dsimp only at h
    split
    · rename_i k hk
      obtain ⟨hm, hl, hb⟩ := filter_singleton hk
      rw [Bool.and_eq_true] at hb
      exact .inr (.inl ⟨k, hm, hb.2, by simpa using hb.1, by simpa using hl, rfl⟩)
    · rename_i heq'; rw [heq'] at h; simp [Out.fail] at h
    · rename_i heq'
      rw [heq'] at h
      exact .inr (.inr (analyzeColumn_ok h))

theorem analyzeCall0_ok {st : Stage} {c : Callee} (h : (analyzeCall0 st c : Out V).err = false) :
    analyzeCall0 st c = (⟨.num .scalar .int 8 0, false, false, .countStar⟩ : Out V) ∧ st ≠ .from_ ∧ st ≠ .where_ ∧ st ≠ .groupBy := by
  cases c with
  | other => simp [analyzeCall0, Out.crashed] at h
  | qualified => simp [analyzeCall0, Out.fail] at h
  | ident f =>
    cases f with
    | none => simp [analyzeCall0, Out.fail] at h
    | some f => cases f <;> first | (simp [analyzeCall0, Out.fail] at h; done) | (cases st <;> simp_all [analyzeCall0, finishCall, Fn.isAgg])

/-- the outcomes of a call that is accepted: an aggregate, or ISNULL -/
theorem analyzeCall1_ok {st : Stage} {c : Callee} {a : Out V} (h : (analyzeCall1 st c a).err = false) : a.err = false ∧ st ≠ .from_ ∧
    ((∃ f, f.isAgg = true ∧ st ≠ .where_ ∧ st ≠ .groupBy ∧ (analyzeCall1 st c a).rex = .agg f a.rex ∧
        (analyzeCall1 st c a).ty.cat = some .scalar) ∨
      ((analyzeCall1 st c a).rex = .isnull a.rex ∧ (analyzeCall1 st c a).ty.cat = a.ty.cat ∧ a.ty.cat ≠ none)) := by
  have key : ∀ f, f ≠ .udf → f ≠ .count → f ≠ .isnull → (analyzeCall1 st (.ident (some f)) a).err = false →
      a.err = false ∧ st ≠ .from_ ∧ ∃ f', f'.isAgg = true ∧ st ≠ .where_ ∧ st ≠ .groupBy ∧
        (analyzeCall1 st (.ident (some f)) a).rex = .agg f' a.rex ∧ (analyzeCall1 st (.ident (some f)) a).ty.cat = some .scalar := by
    intro f hf1 hf2 hf3 h
    have heq : analyzeCall1 st (.ident (some f)) a = match aggTy f a.ty with
      | none => .fail a.crash
      | some t => finishCall st f ⟨t, a.err, a.crash, .agg f a.rex⟩ := by
      cases f <;> first | rfl | contradiction
    rw [heq] at h ⊢
    split at h
    · simp [Out.fail] at h
    · rename_i t ht
      obtain ⟨h1, h2, h3⟩ := finishCall_err h
      have hagg := aggTy_isAgg ht
      refine ⟨h1, h2, f, hagg, ?_, ?_, ?_, ?_⟩
      · intro hs; rw [h3 (.inl hs)] at hagg; cases hagg
      · intro hs; rw [h3 (.inr hs)] at hagg; cases hagg
      · rw [finishCall_rex]
      · rw [finishCall_ty]; exact aggTy_cat ht
  cases c with
  | other => simp [analyzeCall1, Out.crashed] at h
  | qualified => simp [analyzeCall1, Out.fail] at h
  | ident f =>
    cases f with
    | none => simp [analyzeCall1, Out.fail] at h
    | some f =>
      by_cases hf1 : f = .udf
      · subst hf1; simp [analyzeCall1, Out.fail] at h
      · by_cases hf2 : f = .count
        · subst hf2
          simp only [analyzeCall1] at h ⊢
          obtain ⟨h1, h2, h3⟩ := finishCall_err h
          refine ⟨h1, h2, .inl ⟨.count, rfl, ?_, ?_, ?_, ?_⟩⟩
          · intro hs; simpa [Fn.isAgg] using h3 (.inl hs)
          · intro hs; simpa [Fn.isAgg] using h3 (.inr hs)
          · rw [finishCall_rex]
          · rw [finishCall_ty]; rfl
        · by_cases hf3 : f = .isnull
          · subst hf3
            simp only [analyzeCall1] at h ⊢
            split at h
            · simp [Out.fail] at h
            · rename_i cat hcat
              obtain ⟨h1, h2, h3⟩ := finishCall_err h
              exact ⟨h1, h2, .inr ⟨by rw [finishCall_rex], by rw [finishCall_ty, hcat]; rfl, by rw [hcat]; simp⟩⟩
          · obtain ⟨h1, h2, h3⟩ := key f hf1 hf2 hf3 h
            exact ⟨h1, h2, .inl h3⟩

theorem analyzeQuery_ok {st : Stage} {i : QInfo V} (h : (analyzeQuery st i).err = false) :
    (st = .where_ ∨ st = .having ∨ st = .select) ∧ i.err = false ∧ ∃ r, i.results = [r] ∧ r.ty.isScalar = true ∧
      analyzeQuery st i = ⟨r.ty, false, i.crash, .query (!i.hasFrom && r.rex.isConst) i.den⟩ ∧
      ((r.rex.isConst = true ∧ i.hasFrom = false) ∨ (r.rex.isFn = true ∧ i.hasGroupBy = false)) := by
  unfold analyzeQuery at h ⊢
  split at h
  · rename_i r hr
    split at h
    · simp [Out.fail] at h
    · rename_i hp
      have key : ∀ (o : Out V), o = (if !r.ty.isScalar then .fail i.crash
        else if !(r.rex.isConst && !i.hasFrom) && !(r.rex.isFn && !i.hasGroupBy) then .fail i.crash
        else ⟨r.ty, i.err, i.crash, .query (!i.hasFrom && r.rex.isConst) i.den⟩) → o.err = false →
        i.err = false ∧ r.ty.isScalar = true ∧ o = ⟨r.ty, false, i.crash, .query (!i.hasFrom && r.rex.isConst) i.den⟩ ∧
        ((r.rex.isConst = true ∧ i.hasFrom = false) ∨ (r.rex.isFn = true ∧ i.hasGroupBy = false)) := by
        intro o ho he
        split at ho
        · subst ho; simp [Out.fail] at he
        · rename_i hs
          split at ho
          · subst ho; simp [Out.fail] at he
          · rename_i hq
            subst ho
            simp only at he
            refine ⟨he, by simpa using hs, by rw [he], ?_⟩
            simp only [Bool.and_eq_true, Bool.not_eq_true', not_and, Bool.not_eq_false] at hq
            by_cases hc : (r.rex.isConst && !i.hasFrom) = true
            · left; simpa using hc
            · right; simpa using hq (by simpa using hc)
      split at h
      · obtain ⟨k1, k2, k3, k4⟩ := key _ rfl h
        refine ⟨.inl rfl, k1, r, hr, k2, ?_, k4⟩
        rw [if_neg hp]; exact k3
      · obtain ⟨k1, k2, k3, k4⟩ := key _ rfl h
        refine ⟨.inr (.inl rfl), k1, r, hr, k2, ?_, k4⟩
        rw [if_neg hp]; exact k3
      · obtain ⟨k1, k2, k3, k4⟩ := key _ rfl h
        refine ⟨.inr (.inr rfl), k1, r, hr, k2, ?_, k4⟩
        rw [if_neg hp]; exact k3
      · simp [Out.fail] at h
  · simp [Out.fail] at h

/-- all columns of an accepted expression are visible -/
theorem analyze_visible {c : Ctx V} {cs : List (Ctx V)} (hr : ∀ r ∈ c.results, ∀ p ∈ columns r.rex, Visible (c :: cs) p)
    (hk : ∀ k ∈ c.keys, ∀ p ∈ columns k.rex, Visible (c :: cs) p) : ∀ (e : Expr V), (analyze (c :: cs) e).err = false →
    ∀ p ∈ columns (analyze (c :: cs) e).rex, Visible (c :: cs) p
  | .des t a, h => by
    simp only [analyze] at h ⊢
    rcases analyzeDes_ok h with ⟨r, hm, _, _, _, he⟩ | ⟨k, hm, _, _, _, he⟩ | ⟨d, s, con, he, hv, _⟩
    · rw [he]; exact hr r hm
    · rw [he]; exact hk k hm
    · rw [he]; intro p hp; simp only [columns, List.mem_singleton] at hp; subst hp; exact hv
  | .const _ _, _ => by simp [analyze, columns]
  | .call0 k, h => by
    simp only [analyze] at h ⊢
    rw [(analyzeCall0_ok h).1]; simp [columns]
  | .call1 k a, h => by
    simp only [analyze] at h ⊢
    obtain ⟨h1, _, h2⟩ := analyzeCall1_ok h
    have ih := analyze_visible hr hk a h1
    rcases h2 with ⟨f, _, _, _, he, _⟩ | ⟨he, _⟩
    · rw [he]; exact ih
    · rw [he]; exact ih
  | .call2 k a b, h => by
    simp only [analyze, analyzeCall2] at h
    split at h <;> simp [Out.fail, Out.crashed] at h
  | .un op e, h => by
    have ih := analyze_visible hr hk e
    simp only [analyze] at h ⊢
    split at h
    · simp [Out.fail] at h
    · rename_i t ht; simp only [ht]; exact ih h
  | .bin op l r, h => by
    have i1 := analyze_visible hr hk l
    have i2 := analyze_visible hr hk r
    simp only [analyze] at h ⊢
    split at h
    · simp [Out.fail] at h
    · rename_i t ht
      simp only [Bool.or_eq_false_iff] at h
      simp only [ht, columns, List.mem_append]
      rintro p (hp | hp)
      · exact i1 h.1 p hp
      · exact i2 h.2 p hp
  | .query q, h => by
    simp only [analyze] at h ⊢
    obtain ⟨_, _, r, _, _, he, _⟩ := analyzeQuery_ok h
    rw [he]; simp [columns]

/-! ## Aggregates -/

theorem analyze_noAggregate {c : Ctx V} {cs : List (Ctx V)} (hs : c.stage = .where_ ∨ c.stage = .groupBy) : ∀ (e : Expr V),
    (analyze (c :: cs) e).err = false → NoAggregate (analyze (c :: cs) e).rex
  | .des t a, h => by
    simp only [analyze] at h ⊢
    rcases analyzeDes_ok h with ⟨r, hm, h', _⟩ | ⟨k, hm, h', _⟩ | ⟨d, s, con, he, hv, _⟩
    · rw [h'] at hs; simp at hs
    · rcases hs with hs | hs <;> rw [hs] at h' <;> simp [Stage.afterGroupBy] at h'
    · rw [he]; trivial
  | .const _ _, _ => trivial
  | .call0 k, h => by
    simp only [analyze, stageOf] at h ⊢
    obtain ⟨_, _, h1, h2⟩ := analyzeCall0_ok h
    rcases hs with hs | hs
    · exact absurd hs h1
    · exact absurd hs h2
  | .call1 k a, h => by
    simp only [analyze, stageOf] at h ⊢
    obtain ⟨h1, _, h2⟩ := analyzeCall1_ok h
    have ih := analyze_noAggregate hs a h1
    rcases h2 with ⟨f, _, g1, g2, _⟩ | ⟨he, _⟩
    · rcases hs with hs | hs
      · exact absurd hs g1
      · exact absurd hs g2
    · rw [he]; exact ih
  | .call2 k a b, h => by
    simp only [analyze, analyzeCall2] at h
    split at h <;> simp [Out.fail, Out.crashed] at h
  | .un op e, h => by
    have ih := analyze_noAggregate (cs := cs) hs e
    simp only [analyze] at h ⊢
    split at h
    · simp [Out.fail] at h
    · rename_i t ht; simp only [ht]; exact ih h
  | .bin op l r, h => by
    have i1 := analyze_noAggregate (cs := cs) hs l
    have i2 := analyze_noAggregate (cs := cs) hs r
    simp only [analyze] at h ⊢
    split at h
    · simp [Out.fail] at h
    · rename_i t ht
      simp only [Bool.or_eq_false_iff] at h
      simp only [ht]
      exact ⟨i1 h.1, i2 h.2⟩
  | .query q, h => by
    simp only [analyze] at h ⊢
    obtain ⟨_, _, r, _, _, he, _⟩ := analyzeQuery_ok h
    rw [he]; trivial

/-- without aggregates the value does not depend on the group -/
theorem ev_noAggregate {O : Ops V} {env G G' : List (Row V)} : ∀ (e : RExpr V), NoAggregate e → ∀ r, ev O env G e r = ev O env G' e r
  | .attr _ _ _ _, _, r => rfl
  | .ref e, h, r => ev_noAggregate e h r
  | .const _, _, r => rfl
  | .agg _ _, h, r => h.elim
  | .countStar, h, r => h.elim
  | .isnull e, h, r => by simp only [ev]; rw [ev_noAggregate e h r]
  | .un _ e, h, r => by simp only [ev]; rw [ev_noAggregate e h r]
  | .bin _ a b, h, r => by simp only [ev]; rw [ev_noAggregate a h.1 r, ev_noAggregate b h.2 r]
  | .query _ _, _, r => rfl
  | .bad, _, r => rfl

/-- the grouping keys are functions of the row alone -/
def RowLocal : RExpr V → Prop
  | .attr d _ _ _ => d = 0
  | .ref _ => False
  | .const _ => True
  | .agg _ _ => False
  | .countStar => False
  | .isnull e => RowLocal e
  | .un _ e => RowLocal e
  | .bin _ l r => RowLocal l ∧ RowLocal r
  | .query _ _ => False
  | .bad => False

theorem ev_rowLocal {O : Ops V} {env env' G G' : List (Row V)} : ∀ (e : RExpr V), RowLocal e → ∀ r, ev O env G e r = ev O env' G' e r
  | .attr d _ _ _, h, r => by simp only [RowLocal] at h; subst h; rfl
  | .ref e, h, r => h.elim
  | .const _, _, r => rfl
  | .agg _ _, h, r => h.elim
  | .countStar, h, r => h.elim
  | .isnull e, h, r => by simp only [ev]; rw [ev_rowLocal e h r]
  | .un _ e, h, r => by simp only [ev]; rw [ev_rowLocal e h r]
  | .bin _ a b, h, r => by simp only [ev]; rw [ev_rowLocal a h.1 r, ev_rowLocal b h.2 r]
  | .query _ _, h, r => h.elim
  | .bad, h, r => h.elim

theorem analyze_rowLocal {c : Ctx V} {cs : List (Ctx V)} (hs : c.stage = .groupBy) : ∀ (e : Expr V),
    (analyze (c :: cs) e).err = false → (analyze (c :: cs) e).rex.free = false → RowLocal (analyze (c :: cs) e).rex
  | .des t a, h, hf => by
    simp only [analyze] at h hf ⊢
    rcases analyzeDes_ok h with ⟨r, hm, h', _⟩ | ⟨k, hm, h', _⟩ | ⟨d, s, con, he, hv, _⟩
    · rw [h'] at hs; cases hs
    · rw [hs] at h'; simp [Stage.afterGroupBy] at h'
    · rw [he] at hf ⊢; simpa [RExpr.free, RowLocal] using hf
  | .const _ _, _, _ => trivial
  | .call0 k, h, _ => by
    simp only [analyze, stageOf] at h ⊢
    exact absurd hs (analyzeCall0_ok h).2.2.2
  | .call1 k a, h, hf => by
    simp only [analyze, stageOf] at h hf ⊢
    obtain ⟨h1, _, h2⟩ := analyzeCall1_ok h
    rcases h2 with ⟨f, _, g1, g2, _⟩ | ⟨he, _⟩
    · exact absurd hs g2
    · rw [he] at hf ⊢; exact analyze_rowLocal hs a h1 hf
  | .call2 k a b, h, _ => by
    simp only [analyze, analyzeCall2] at h
    split at h <;> simp [Out.fail, Out.crashed] at h
  | .un op e, h, hf => by
    have ih := analyze_rowLocal (cs := cs) hs e
    simp only [analyze] at h hf ⊢
    split at h
    · simp [Out.fail] at h
    · rename_i t ht; simp only [ht] at hf ⊢; exact ih h hf
  | .bin op l r, h, hf => by
    have i1 := analyze_rowLocal (cs := cs) hs l
    have i2 := analyze_rowLocal (cs := cs) hs r
    simp only [analyze] at h hf ⊢
    split at h
    · simp [Out.fail] at h
    · rename_i t ht
      simp only [Bool.or_eq_false_iff] at h
      simp only [ht, RExpr.free, Bool.or_eq_false_iff] at hf ⊢
      exact ⟨i1 h.1 hf.1, i2 h.2 hf.2⟩
  | .query q, h, _ => by
    simp only [analyze, stageOf] at h ⊢
    obtain ⟨h', _⟩ := analyzeQuery_ok h
    rw [hs] at h'; simp at h'

/-! ## One value for the group -/

theorem max_scalar {c c' : Cat} (h : c.max c' = .scalar) : c = .scalar ∧ c' = .scalar := by
  cases c <;> cases c' <;> simp [Cat.max] at h ⊢

theorem analyze_determined {O : Ops V} {env G : List (Row V)} {c : Ctx V} {cs : List (Ctx V)}
    (hr : ∀ r ∈ c.results, r.ty.cat ≠ some .vector → Uncorrelated r.rex → Determined O env G r.rex)
    (hk : ∀ k ∈ c.keys, Determined O env G k.rex) : ∀ (e : Expr V),
    (analyze (c :: cs) e).err = false → (analyze (c :: cs) e).ty.cat ≠ some .vector →
    Uncorrelated (analyze (c :: cs) e).rex → Determined O env G (analyze (c :: cs) e).rex
  | .des t a, h, hv, hu => by
    simp only [analyze] at h hv hu ⊢
    rcases analyzeDes_ok h with ⟨r, hm, _, _, _, he⟩ | ⟨k, hm, _, _, _, he⟩ | ⟨d, s, con, _, _, hc⟩
    · rw [he] at hv hu ⊢; exact hr r hm hv hu
    · rw [he] at hu ⊢; exact hk k hm
    · exact absurd hc hv
  | .const _ _, _, _, _ => fun _ _ _ _ => rfl
  | .call0 k, h, _, _ => by
    simp only [analyze] at h ⊢
    rw [(analyzeCall0_ok h).1]; exact fun _ _ _ _ => rfl
  | .call1 k a, h, hv, hu => by
    simp only [analyze] at h hv hu ⊢
    obtain ⟨h1, _, h2⟩ := analyzeCall1_ok h
    rcases h2 with ⟨f, _, _, _, he, _⟩ | ⟨he, hc, _⟩
    · rw [he]; exact fun _ _ _ _ => rfl
    · rw [he] at hu ⊢; rw [hc] at hv
      have ih := analyze_determined hr hk a h1 hv hu
      intro r hr' r' hr''
      simp only [ev]
      rw [ih r hr' r' hr'']
  | .call2 k a b, h, _, _ => by
    simp only [analyze, analyzeCall2] at h
    split at h <;> simp [Out.fail, Out.crashed] at h
  | .un op e, h, hv, hu => by
    have ih := analyze_determined hr hk (cs := cs) e
    simp only [analyze] at h hv hu ⊢
    split at h
    · simp [Out.fail] at h
    · rename_i t ht
      simp only [ht] at hv hu ⊢
      rw [(unTy_cat ht).1] at hv
      have ih := ih h hv hu
      intro r hr' r' hr''
      simp only [ev]
      rw [ih r hr' r' hr'']
  | .bin op a b, h, hv, hu => by
    have i1 := analyze_determined hr hk (cs := cs) a
    have i2 := analyze_determined hr hk (cs := cs) b
    simp only [analyze] at h hv hu ⊢
    split at h
    · simp [Out.fail] at h
    · rename_i t ht
      simp only [Bool.or_eq_false_iff] at h
      simp only [ht] at hv hu ⊢
      obtain ⟨c1, c2, e1, e2, e3⟩ := binTy_cat ht
      have : c1.max c2 = .scalar := by
        rw [e3] at hv; cases hm : c1.max c2 with
        | scalar => rfl
        | vector => rw [hm] at hv; exact absurd rfl hv
      obtain ⟨rfl, rfl⟩ := max_scalar this
      have j1 := i1 h.1 (by rw [e1]; simp) hu.1
      have j2 := i2 h.2 (by rw [e2]; simp) hu.2
      intro r hr' r' hr''
      simp only [ev]
      rw [j1 r hr' r' hr'', j2 r hr' r' hr'']
  | .query q, h, _, hu => by
    simp only [analyze] at h hu ⊢
    obtain ⟨_, _, r, _, _, he, _⟩ := analyzeQuery_ok h
    rw [he] at hu ⊢
    intro r _ r' _
    exact hu r r' env

/-- constant expressions have one value -/
theorem isConst_determined {O : Ops V} {env G : List (Row V)} : ∀ (e : RExpr V), e.isConst = true → Uncorrelated e →
    ConstantColumns env G e → Determined O env G e
  | .attr d s l con, h, _, hc => by
    intro r hr r' hr'
    simp only [ev]
    cases d with
    | zero => exact hc h r hr r' hr' r r' rfl rfl
    | succ d => rfl
  | .ref e, h, hu, hc => isConst_determined e h hu hc
  | .const _, _, _, _ => fun _ _ _ _ => rfl
  | .agg _ _, _, _, _ => fun _ _ _ _ => rfl
  | .countStar, _, _, _ => fun _ _ _ _ => rfl
  | .isnull e, h, _, _ => by simp [RExpr.isConst] at h
  | .un _ e, h, hu, hc => by
    intro r hr r' hr'
    simp only [ev]
    rw [isConst_determined e h hu hc r hr r' hr']
  | .bin _ a b, h, hu, hc => by
    simp only [RExpr.isConst, Bool.and_eq_true] at h
    intro r hr r' hr'
    simp only [ev]
    rw [isConst_determined a h.1 hu.1 hc.1 r hr r' hr', isConst_determined b h.2 hu.2 hc.2 r hr r' hr']
  | .query _ _, _, hu, _ => fun r _ r' _ => hu r r' env
  | .bad, _, _, _ => fun _ _ _ _ => rfl

end Mutable.Sema
