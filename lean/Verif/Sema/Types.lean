import Verif.Sema.Order

namespace Mutable.Sema

variable {V : Type}

theorem withCat_error {t : Ty} {c : Cat} : t.withCat c = .error ↔ t = .error := by cases t <;> simp [Ty.withCat]

theorem withCat_none {t : Ty} {c : Cat} : t.withCat c = .none ↔ t = .none := by cases t <;> simp [Ty.withCat]

theorem withCat_cat {t : Ty} {c : Cat} (h : t.isPrim = true) : (t.withCat c).cat = some c := by
  cases t <;> simp_all [Ty.withCat, Ty.cat, Ty.isPrim]

theorem isPrim_iff {t : Ty} : t.isPrim = false ↔ t = .error ∨ t = .none := by
  cases t <;> simp [Ty.isPrim, Ty.cat]

theorem unTy_cat {op : UnOp} {a t : Ty} (h : unTy op a = some t) : t.cat = a.cat ∧ t.cat ≠ none := by
  cases op <;> cases a <;> simp only [unTy, Option.some.injEq, reduceCtorEq] at h <;> subst h <;> simp [Ty.cat]

theorem arithJoin_cat (c : Cat) (k k' : NumKind) (p p' s s' : Nat) : (arithJoin c k k' p p' s s').cat = some c := by
  unfold arithJoin
  cases k <;> cases k' <;> rfl

theorem binTy_cat {op : BinOp} {a b t : Ty} (h : binTy op a b = some t) :
    ∃ c c', a.cat = some c ∧ b.cat = some c' ∧ t.cat = some (c.max c') := by
  cases op <;> cases a <;> cases b <;>
    simp [binTy, comparable, Ty.cat] at h <;> subst h <;>
    first
      | exact ⟨_, _, rfl, rfl, rfl⟩
      | exact ⟨_, _, rfl, rfl, arithJoin_cat _ _ _ _ _ _ _⟩

theorem aggTy_cat {f : Fn} {a t : Ty} (h : aggTy f a = some t) : t.cat = some .scalar := by
  cases f <;> cases a <;> simp only [aggTy, Option.some.injEq, reduceCtorEq] at h <;>
    first
      | (subst h; rfl)
      | (rename_i k _ _; cases k <;> simp only [aggTy, Option.some.injEq] at h <;> subst h <;> rfl)

theorem aggTy_isAgg {f : Fn} {a t : Ty} (h : aggTy f a = some t) : f.isAgg = true := by
  cases f <;> first | rfl | (cases a <;> simp [aggTy] at h)

/-! ## Errors are reported -/

theorem cat_ne_none {t : Ty} {c : Cat} (h : t.cat = some c) : t ≠ .error ∧ t ≠ .none := by
  constructor <;> rintro rfl <;> simp [Ty.cat] at h

theorem analyzeColumn_error {cs : List (Ctx V)} {t : Option Name} {a : Label} :
    ((analyzeColumn cs t a).ty = .error → (analyzeColumn cs t a).err = true) ∧ (analyzeColumn cs t a).ty ≠ .none := by
  unfold analyzeColumn
  split
  · simp [Out.fail]
  · simp [Out.fail]
  · rename_i d s c _
    by_cases hp : c.ty.isPrim = true
    · simp only [hp, if_true]
      split
      · simp [Out.fail]
      · have := cat_ne_none (withCat_cat (c := .vector) hp)
        exact ⟨fun h => absurd h this.1, this.2⟩
    · simp [hp, Out.crashed]

/-- results and keys that a context offers -/
def GoodCtx (c : Ctx V) : Prop :=
  (∀ r ∈ c.results, r.ty ≠ .error) ∧ (∀ k ∈ c.keys, k.ty.isPrim = true)

theorem filter_singleton {α : Type} {p : α → Bool} {l : List α} {x : α} {b : Bool}
    (h : (if b = true then l.filter p else []) = [x]) : x ∈ l ∧ p x = true ∧ b = true := by
  cases b with
  | false => simp at h
  | true =>
    simp only [if_true] at h
    have : x ∈ l.filter p := by rw [h]; simp
    exact ⟨(List.mem_filter.mp this).1, (List.mem_filter.mp this).2, rfl⟩

theorem analyzeDes_error {c : Ctx V} {cs : List (Ctx V)} (hg : GoodCtx c) {t : Option Name} {a : Label} :
    ((analyzeDes (c :: cs) t a).ty = .error → (analyzeDes (c :: cs) t a).err = true) ∧
    ((analyzeDes (c :: cs) t a).ty = .none → ∃ r ∈ c.results, r.ty = .none) := by
  unfold analyzeDes
  dsimp only
  split
  · rename_i r h
    have hm := (filter_singleton h).1
    exact ⟨fun h => absurd h (hg.1 r hm), fun h => ⟨r, hm, h⟩⟩
  · simp [Out.fail]
  · split
    · rename_i k h
      have hm := (filter_singleton h).1
      have := cat_ne_none (withCat_cat (c := .scalar) (hg.2 k hm))
      exact ⟨fun h => absurd h this.1, fun h => absurd h this.2⟩
    · simp [Out.fail]
    · have := analyzeColumn_error (cs := c :: cs) (t := t) (a := a)
      exact ⟨this.1, fun h => absurd h this.2⟩

theorem finishCall_ty (st : Stage) (f : Fn) (o : Out V) : (finishCall st f o).ty = o.ty := by
  unfold finishCall
  split <;> first | rfl | (split <;> rfl)

theorem analyzeCall0_error (st : Stage) (c : Callee) :
    ((analyzeCall0 st c : Out V).ty = .error → (analyzeCall0 st c : Out V).err = true) ∧
    (analyzeCall0 st c : Out V).ty ≠ .none := by
  unfold analyzeCall0
  split
  · simp [Out.crashed]
  · simp [Out.fail]
  · rw [finishCall_ty]; simp
  · simp [Out.fail]

theorem analyzeCall1_error (st : Stage) (c : Callee) (a : Out V) :
    ((analyzeCall1 st c a).ty = .error → (analyzeCall1 st c a).err = true) ∧ (analyzeCall1 st c a).ty ≠ .none := by
  unfold analyzeCall1
  split
  · simp [Out.crashed]
  · simp [Out.fail]
  · simp [Out.fail]
  · simp [Out.fail]
  · rw [finishCall_ty]; simp
  · split
    · simp [Out.fail]
    · rw [finishCall_ty]; simp
  · split
    · simp [Out.fail]
    · rename_i h
      rw [finishCall_ty]
      have := cat_ne_none (aggTy_cat h)
      exact ⟨fun h => absurd h this.1, this.2⟩

theorem analyzeQuery_error (st : Stage) (i : QInfo V) :
    ((analyzeQuery st i).ty = .error → (analyzeQuery st i).err = true) ∧ (analyzeQuery st i).ty ≠ .none := by
  unfold analyzeQuery
  split
  · rename_i r _
    by_cases hp : r.ty.isPrim = true
    · simp only [hp, Bool.not_true, Bool.false_eq_true, if_false]
      have hne : r.ty ≠ .error ∧ r.ty ≠ .none := by
        constructor <;> (intro h; rw [h] at hp; simp [Ty.isPrim, Ty.cat] at hp)
      split
      all_goals first
        | simp [Out.fail]; done
        | (split
           · simp [Out.fail]
           · split
             · simp [Out.fail]
             · exact ⟨fun h => absurd h hne.1, hne.2⟩)
    · simp [hp, Out.fail]
  · simp [Out.fail]

theorem analyze_error {c : Ctx V} {cs : List (Ctx V)} (hg : GoodCtx c) (e : Expr V) :
    ((analyze (c :: cs) e).ty = .error → (analyze (c :: cs) e).err = true) ∧
    ((analyze (c :: cs) e).ty = .none → (∃ v, e = .const .null v) ∨ ∃ r ∈ c.results, r.ty = .none) := by
  cases e with
  | des t a => exact ⟨(analyzeDes_error hg).1, fun h => .inr ((analyzeDes_error hg).2 h)⟩
  | const k v =>
    refine ⟨fun h => by simpa [analyze] using h, fun h => .inl ⟨v, ?_⟩⟩
    simp only [analyze] at h
    cases k <;> simp only [constTy, reduceCtorEq] at h <;> first | rfl | (rename_i b; cases b <;> simp at h)
  | call0 k => exact ⟨(analyzeCall0_error _ k).1, fun h => absurd h (analyzeCall0_error _ k).2⟩
  | call1 k a => exact ⟨(analyzeCall1_error _ k _).1, fun h => absurd h (analyzeCall1_error _ k _).2⟩
  | call2 k a b => simp only [analyze, analyzeCall2]; split <;> simp [Out.fail, Out.crashed]
  | un op e =>
    simp only [analyze]
    split
    · simp [Out.fail]
    · rename_i h
      have := unTy_cat h
      refine ⟨fun h => ?_, fun h => ?_⟩ <;> (simp only at h; rw [h] at this; simp [Ty.cat] at this)
  | bin op l r =>
    simp only [analyze]
    split
    · simp [Out.fail]
    · rename_i h
      obtain ⟨_, _, _, _, h'⟩ := binTy_cat h
      have := cat_ne_none h'
      exact ⟨fun h => absurd h this.1, fun h => absurd h this.2⟩
  | query q => exact ⟨(analyzeQuery_error _ _).1, fun h => absurd h (analyzeQuery_error _ _).2⟩

/-! ## Crashes -/

/-- nothing but an identifier is called; nested queries are analyzed without crash in contexts that satisfy `P` -/
def Sane (P : List (Ctx V) → Prop) : Expr V → Prop
  | .des _ _ => True
  | .const _ _ => True
  | .call0 c => c ≠ .other
  | .call1 c a => c ≠ .other ∧ Sane P a
  | .call2 c a b => c ≠ .other ∧ Sane P a ∧ Sane P b
  | .un _ e => Sane P e
  | .bin _ l r => Sane P l ∧ Sane P r
  | .query q => ∀ cs, P cs → (q cs).crash = false

/-- all columns have a primitive type -/
def PrimColumns (cs : List (Ctx V)) : Prop := ∀ c ∈ cs, ∀ s ∈ c.sources, ∀ x ∈ s.cols, x.ty.isPrim = true

theorem scan_mem {a : Label} : ∀ {ss : List Src} {t : Option (Name × Col)} {s c}, scanSources a t ss = some (some (s, c)) →
    t = some (s, c) ∨ ∃ x ∈ ss, x.name = s ∧ c ∈ x.cols ∧ c.label = a
  | [], t, s, c, h => by simp only [scanSources, Option.some.injEq] at h; exact .inl h
  | y :: ss, t, s, c, h => by
    unfold scanSources at h
    split at h
    · rcases scan_mem h with h | ⟨x, hx, hy⟩
      · exact .inl h
      · exact .inr ⟨x, List.mem_cons_of_mem _ hx, hy⟩
    · rename_i c' hc
      split at h
      · cases h
      · rcases scan_mem h with h | ⟨x, hx, hy⟩
        · injection h with h
          injection h with h1 h2
          subst h1 h2
          have : c' ∈ colsOf a y := by rw [hc]; simp
          exact .inr ⟨y, List.mem_cons_self, rfl, (List.mem_filter.mp this).1, by simpa using (List.mem_filter.mp this).2⟩
        · exact .inr ⟨x, List.mem_cons_of_mem _ hx, hy⟩
    · cases h

theorem findUnqualified_mem {a : Label} : ∀ {cs : List (Ctx V)} {n d s c}, findUnqualified a cs n = .found d s c →
    ∃ x ∈ cs, ∃ y ∈ x.sources, y.name = s ∧ c ∈ y.cols ∧ c.label = a
  | [], _, _, _, _, h => by simp [findUnqualified] at h
  | k :: cs, n, d, s, c, h => by
    unfold findUnqualified at h
    split at h
    · cases h
    · rename_i hs
      injection h with h1 h2 h3
      subst h2 h3
      rcases scan_mem hs with h | h
      · cases h
      · exact ⟨k, List.mem_cons_self, h⟩
    · obtain ⟨x, hx, hy⟩ := findUnqualified_mem h
      exact ⟨x, List.mem_cons_of_mem _ hx, hy⟩

theorem findSource_mem {t : Name} : ∀ {cs : List (Ctx V)} {n d s}, findSource t cs n = some (d, s) →
    ∃ x ∈ cs, s ∈ x.sources ∧ s.name = t
  | [], _, _, _, h => by simp [findSource] at h
  | k :: cs, n, d, s, h => by
    unfold findSource at h
    split at h
    · rename_i hf
      injection h with h
      injection h with _ h
      subst h
      exact ⟨k, List.mem_cons_self, List.mem_of_find?_eq_some hf, by simpa using List.find?_some hf⟩
    · obtain ⟨x, hx, hy⟩ := findSource_mem h
      exact ⟨x, List.mem_cons_of_mem _ hx, hy⟩

theorem found_mem {cs : List (Ctx V)} {t : Option Name} {a : Label} {d : Nat} {s : Name} {c : Col}
    (h : (match t with | some t => findQualified cs t a | none => findUnqualified a cs 0) = .found d s c) :
    ∃ x ∈ cs, ∃ y ∈ x.sources, y.name = s ∧ c ∈ y.cols ∧ c.label = a ∧ ∀ n, t = some n → y.name = n := by
  cases t with
  | none =>
    obtain ⟨x, hx, y, hy, h1, h2, h3⟩ := findUnqualified_mem h
    exact ⟨x, hx, y, hy, h1, h2, h3, by simp⟩
  | some t =>
    simp only [findQualified] at h
    split at h
    · cases h
    · rename_i d' s' hf
      obtain ⟨x, hx, hy, hn⟩ := findSource_mem hf
      split at h
      · cases h
      · rename_i c' hc
        injection h with h1 h2 h3
        subst h2 h3
        have : c' ∈ colsOf a s' := by rw [hc]; simp
        exact ⟨x, hx, s', hy, rfl, (List.mem_filter.mp this).1, by simpa using (List.mem_filter.mp this).2,
          by intro n hn'; injection hn' with hn'; rw [← hn']; exact hn⟩
      · cases h

theorem analyzeColumn_crash {cs : List (Ctx V)} (h : PrimColumns cs) (t : Option Name) (a : Label) :
    (analyzeColumn cs t a).crash = false := by
  unfold analyzeColumn
  split
  · rfl
  · rfl
  · rename_i d s c hf
    obtain ⟨x, hx, y, hy, _, hc, _⟩ := found_mem hf
    rw [if_pos (h x hx y hy c hc)]
    split <;> rfl

theorem analyze_crash {c : Ctx V} {cs : List (Ctx V)} (h : PrimColumns (c :: cs)) (hst : c.stage ≠ .from_)
    {P : List (Ctx V) → Prop} (hP : P (c :: cs)) : ∀ (e : Expr V), Sane P e → (analyze (c :: cs) e).crash = false
  | .des t a, _ => by
    simp only [analyze, analyzeDes]
    split
    · rfl
    · rfl
    · split
      · rfl
      · rfl
      · exact analyzeColumn_crash h t a
  | .const _ _, _ => rfl
  | .call0 k, hs => by
    have hfin : ∀ f (o : Out V), o.crash = false → (finishCall c.stage f o).crash = false := by
      intro f o ho
      unfold finishCall
      split
      · rename_i h; exact absurd h hst
      · split <;> exact ho
      · split <;> exact ho
      · exact ho
    simp only [analyze, stageOf, analyzeCall0]
    split
    · exact absurd rfl hs
    · rfl
    · exact hfin _ _ rfl
    · rfl
  | .call1 k a, hs => by
    have ih := analyze_crash h hst hP a hs.2
    have hfin : ∀ f (o : Out V), o.crash = false → (finishCall c.stage f o).crash = false := by
      intro f o ho
      unfold finishCall
      split
      · rename_i h; exact absurd h hst
      · split <;> exact ho
      · split <;> exact ho
      · exact ho
    simp only [analyze, stageOf, analyzeCall1]
    split
    · exact absurd rfl hs.1
    · rfl
    · exact ih
    · exact ih
    · exact hfin _ _ ih
    · split
      · exact ih
      · exact hfin _ _ ih
    · split
      · exact ih
      · exact hfin _ _ ih
  | .call2 k a b, hs => by
    have i1 := analyze_crash h hst hP a hs.2.1
    have i2 := analyze_crash h hst hP b hs.2.2
    simp only [analyze, analyzeCall2]
    split
    · exact absurd rfl hs.1
    · rfl
    · simp [Out.fail, i1, i2]
  | .un op e, hs => by
    have ih := analyze_crash h hst hP e hs
    simp only [analyze]
    split <;> exact ih
  | .bin op l r, hs => by
    have i1 := analyze_crash h hst hP l hs.1
    have i2 := analyze_crash h hst hP r hs.2
    simp only [analyze]
    split <;> simp [Out.fail, i1, i2]
  | .query q, hs => by
    have ih : (q (c :: cs)).crash = false := hs _ hP
    simp only [analyze, analyzeQuery]
    split
    · split
      · exact ih
      · split
        all_goals first
          | exact ih
          | (split <;> first | exact ih | (split <;> exact ih))
    · exact ih

/-! ## No column from beyond a FROM clause -/

theorem finishCall_rex (st : Stage) (f : Fn) (o : Out V) : (finishCall st f o).rex = o.rex := by
  unfold finishCall
  split <;> first | rfl | (split <;> rfl)

theorem finishCall_err {st : Stage} {f : Fn} {o : Out V} (h : (finishCall st f o).err = false) : o.err = false ∧
    st ≠ .from_ ∧ ((st = .where_ ∨ st = .groupBy) → f.isAgg = false) := by
  unfold finishCall at h
  split at h
  · simp at h
  · split at h
    · simp at h
    · rename_i hf; exact ⟨h, by simp, fun _ => by simpa using hf⟩
  · split at h
    · simp at h
    · rename_i hf; exact ⟨h, by simp, fun _ => by simpa using hf⟩
  · rename_i h1 h2 h3
    exact ⟨h, h1, fun h' => by rcases h' with h' | h' <;> [exact absurd h' h2; exact absurd h' h3]⟩

end Mutable.Sema
