import Verif.Minimize.Exec

/-! The invariant of minimization. -/
namespace Mutable.Minimize

variable {I C : Type} [DecidableEq I]

omit [DecidableEq I] in
theorem WF.nodup {p : Plan I C} (h : WF p) : (schema p).Nodup := by
  induction p with
  | scan => exact h
  | filter S p c ih => simp only [schema]; rw [h.2.1]; exact ih h.1
  | join => exact h.2.2.2.1
  | proj => exact h.2.1
  | proj0 => exact h.1
  | limit _ _ c ih => exact ih h
  | group => exact h.2.1
  | agg => exact h.2.2.1
  | sort S p c ih => simp only [schema]; rw [h.2.1]; exact ih h.1

/-- What holds of the plan `p'` that results from minimizing `p` for the requirements `req`. -/
structure Inv (req : List I) (p p' : Plan I C) : Prop where
  mini : mini? false req p = some p'
  nodup : (schema p').Nodup
  sub : ∀ i ∈ schema p', i ∈ schema p
  req_sub : ∀ i ∈ req, i ∈ schema p'
  exact : Exact p → schema p' = req
  full : req = schema p → schema p' = schema p ∧ layout p' = schema p
  lay_sub : ∀ i ∈ layout p', i ∈ schema p
  sch_lay : ∀ i ∈ schema p', i ∈ layout p'
  aligned : Aligned p → schema p' <+: layout p'
  idem : AggsLive (· ∈ req) p → mini? false req p' = some p'
  rows : ∀ cl junk, Harmless p → Rows cl junk p p'
  named : ∀ junk, Named junk p p'
  scans : ∀ i, i ∈ scanned p' ↔ Live (· ∈ req) p i

omit [DecidableEq I] in
theorem filter_eq_self_of {p : I → Bool} {l : List I} (h : ∀ i ∈ l, p i = true) : l.filter p = l :=
  List.filter_eq_self.mpr h

omit [DecidableEq I] in
theorem filter_idem {α : Type} (p : α → Bool) (l : List α) : (l.filter p).filter p = l.filter p := by
  rw [List.filter_filter]
  apply List.filter_congr
  intro a _
  simp

theorem mem_filter_fst {β : Type} {xs : List (I × β)} {req : List I} {i : I} :
    i ∈ (xs.filter fun x => false || decide (x.1 ∈ req)).map Prod.fst ↔ i ∈ xs.map Prod.fst ∧ i ∈ req := by
  simp only [List.mem_map, List.mem_filter, Bool.false_or, decide_eq_true_eq]
  constructor
  · rintro ⟨x, ⟨h1, h2⟩, rfl⟩; exact ⟨⟨x, h1, rfl⟩, h2⟩
  · rintro ⟨⟨x, h1, rfl⟩, h2⟩; exact ⟨x, ⟨h1, h2⟩, rfl⟩

/-- `keep?` when everything is required. -/
theorem filter_all {β : Type} {xs : List (I × β)} {req : List I} (h : ∀ i ∈ xs.map Prod.fst, i ∈ req) :
    (xs.filter fun x => false || decide (x.1 ∈ req)) = xs := by
  apply List.filter_eq_self.mpr
  intro x hx
  simp [h x.1 (List.mem_map_of_mem hx)]

theorem Live.congr {R R' : I → Prop} (h : ∀ i, R i ↔ R' i) {p : Plan I C} (i : I) : Live R p i ↔ Live R' p i := by
  have : R = R' := funext fun i => propext (h i)
  rw [this]

theorem AggsLive.congr {R R' : I → Prop} (h : ∀ i, R i ↔ R' i) {p : Plan I C} : AggsLive R p ↔ AggsLive R' p := by
  have : R = R' := funext fun i => propext (h i)
  rw [this]

/-- The items kept are those with a required identifier. -/
theorem kept_iff {β : Type} {xs ys : List (I × β)} {req : List I}
    (h : (xs.filter fun x => false || decide (x.1 ∈ req)) = ys) (P : I × β → Prop) :
    (∃ x ∈ ys, P x) ↔ ∃ x ∈ xs, x.1 ∈ req ∧ P x := by
  rw [← h]
  simp only [List.mem_filter, Bool.false_or, decide_eq_true_eq]
  exact ⟨fun ⟨x, ⟨h1, h2⟩, h3⟩ => ⟨x, h1, h2, h3⟩, fun ⟨x, h1, h2, h3⟩ => ⟨x, ⟨h1, h2⟩, h3⟩⟩

theorem Over.req {p : JPred I C} {l r : List I} (h : p.Over l r) {q : List I} (hq : ∀ i, i ∈ q ↔ p.Mentions i) : ∀ i ∈ q, i ∈ l ∨ i ∈ r := by
  intro i hi
  rw [hq] at hi
  cases p with
  | theta p => exact h i hi
  | equi keys eqk =>
    obtain ⟨k, hk, hi | hi⟩ := hi
    · exact Or.inl ((h k hk).1 i hi)
    · exact Or.inr ((h k hk).2 i hi)

/-- The predicate refers to the minimized children. -/
theorem Over.mono {p : JPred I C} {l r l' r' : List I} (h : p.Over l r) {q : List I} (hq : ∀ i, i ∈ q ↔ p.Mentions i) (hl : ∀ i ∈ q, i ∈ l → i ∈ l') (hr : ∀ i ∈ q, i ∈ r → i ∈ r') :
    p.Over l' r' := by
  cases p with
  | theta p =>
    intro i hi
    rcases h i hi with h' | h'
    · exact Or.inl (hl i ((hq i).mpr hi) h')
    · exact Or.inr (hr i ((hq i).mpr hi) h')
  | equi keys eqk =>
    intro k hk
    exact ⟨fun i hi => hl i ((hq i).mpr ⟨k, hk, Or.inl hi⟩) ((h k hk).1 i hi),
      fun i hi => hr i ((hq i).mpr ⟨k, hk, Or.inr hi⟩) ((h k hk).2 i hi)⟩

theorem inv_filter {S : List I} {p : Ex I C Bool} {c : Plan I C} (h : WF (.filter S p c))
    (ih : ∀ req : List I, req.Nodup → (∀ i ∈ req, i ∈ schema c) → ∃ c', Inv req c c')
    {req : List I} (hn : req.Nodup) (hs : ∀ i ∈ req, i ∈ schema (.filter S p c)) :
    ∃ p', Inv req (.filter S p c) p' := by
  obtain ⟨hc, rfl, hp⟩ := h
  simp only [schema] at hs
  obtain ⟨U, u1, u2, u3, u4, u5⟩ := union?_ok hn p.req
  obtain ⟨c', ic⟩ := ih U u2 (fun i hi => ((u3 i).mp hi).elim (hs i) (hp i))
  have hreq : ∀ i ∈ req, i ∈ schema c' := fun i hi => ic.req_sub i ((u3 i).mpr (Or.inl hi))
  have hpr : ∀ i ∈ p.req, i ∈ schema c' := fun i hi => ic.req_sub i ((u3 i).mpr (Or.inr hi))
  refine ⟨.filter req p c', ?_, ?_, ?_, ?_, ?_, ?_, ?_, ?_, ?_, ?_, ?_, ?_, ?_⟩
  · simp only [mini?, Bool.false_eq_true, if_false]
    rw [insist?_ok hc.nodup hs, u1]
    simp only [Option.bind_eq_bind, Option.bind_some]
    rw [ic.mini]
    simp only [Option.bind_some]
    rw [lookups?_ok ic.nodup]
    rfl
  · exact hn
  · exact hs
  · exact fun i hi => hi
  · exact fun _ => rfl
  · intro hf
    simp only [schema] at hf
    refine ⟨hf, ?_⟩
    simp only [layout, schema]
    have hU : U = req := u5 fun i hi => by rw [hf]; exact hp i hi
    exact (ic.full (hU.trans hf)).2
  · exact ic.lay_sub
  · exact fun i hi => ic.sch_lay i (hreq i hi)
  · intro ha
    simp only [schema, layout]
    have e := ic.exact ha.1
    have := ic.aligned ha.2
    rw [e] at this
    exact u4.trans this
  · intro ha
    simp only [mini?, Bool.false_eq_true, if_false]
    rw [insist?_ok hn fun i hi => hi, u1]
    simp only [Option.bind_eq_bind, Option.bind_some]
    rw [ic.idem ((AggsLive.congr u3).mpr ha)]
    simp only [Option.bind_some]
    rw [lookups?_ok ic.nodup]
    rfl
  · intro cl junk hh
    exact rows_filter cl junk (ic.rows cl junk hh) fun i hi => ic.sch_lay i (hpr i hi)
  · intro junk
    exact named_filter junk (ic.named junk) hpr hreq
  · intro i
    simp only [scanned, Live]
    rw [ic.scans]
    exact Live.congr u3 i

theorem inv_sort {S : List I} {o : Ord I C} {c : Plan I C} (h : WF (.sort S o c))
    (ih : ∀ req : List I, req.Nodup → (∀ i ∈ req, i ∈ schema c) → ∃ c', Inv req c c')
    {req : List I} (hn : req.Nodup) (hs : ∀ i ∈ req, i ∈ schema (.sort S o c)) :
    ∃ p', Inv req (.sort S o c) p' := by
  obtain ⟨hc, rfl, hp⟩ := h
  simp only [schema] at hs
  obtain ⟨U, u1, u2, u3, u4, u5⟩ := union?_ok hn o.req
  obtain ⟨c', ic⟩ := ih U u2 (fun i hi => ((u3 i).mp hi).elim (hs i) (hp i))
  have hreq : ∀ i ∈ req, i ∈ schema c' := fun i hi => ic.req_sub i ((u3 i).mpr (Or.inl hi))
  have hpr : ∀ i ∈ o.req, i ∈ schema c' := fun i hi => ic.req_sub i ((u3 i).mpr (Or.inr hi))
  refine ⟨.sort req o c', ?_, ?_, ?_, ?_, ?_, ?_, ?_, ?_, ?_, ?_, ?_, ?_, ?_⟩
  · simp only [mini?, Bool.false_eq_true, if_false]
    rw [insist?_ok hc.nodup hs, u1]
    simp only [Option.bind_eq_bind, Option.bind_some]
    rw [ic.mini]
    simp only [Option.bind_some]
    rw [lookups?_ok ic.nodup]
    rfl
  · exact hn
  · exact hs
  · exact fun i hi => hi
  · exact fun _ => rfl
  · intro hf
    simp only [schema] at hf
    refine ⟨hf, ?_⟩
    simp only [layout, schema]
    have hU : U = req := u5 fun i hi => by rw [hf]; exact hp i hi
    exact (ic.full (hU.trans hf)).2
  · exact ic.lay_sub
  · exact fun i hi => ic.sch_lay i (hreq i hi)
  · intro ha
    simp only [schema, layout]
    have e := ic.exact ha.1
    have := ic.aligned ha.2
    rw [e] at this
    exact u4.trans this
  · intro ha
    simp only [mini?, Bool.false_eq_true, if_false]
    rw [insist?_ok hn fun i hi => hi, u1]
    simp only [Option.bind_eq_bind, Option.bind_some]
    rw [ic.idem ((AggsLive.congr u3).mpr ha)]
    simp only [Option.bind_some]
    rw [lookups?_ok ic.nodup]
    rfl
  · intro cl junk hh
    exact rows_sort cl junk (ic.rows cl junk hh) fun i hi => ic.sch_lay i (hpr i hi)
  · intro junk
    exact named_sort junk (ic.named junk) hpr hreq
  · intro i
    simp only [scanned, Live]
    rw [ic.scans]
    exact Live.congr u3 i

theorem inv_join {S : List I} {p : JPred I C} {enum : Nat → Nat → List (Nat × Nat)} {l r : Plan I C}
    (h : WF (.join S p enum l r))
    (ihl : ∀ req : List I, req.Nodup → (∀ i ∈ req, i ∈ schema l) → ∃ c', Inv req l c')
    (ihr : ∀ req : List I, req.Nodup → (∀ i ∈ req, i ∈ schema r) → ∃ c', Inv req r c')
    {req : List I} (hn : req.Nodup) (hs : ∀ i ∈ req, i ∈ schema (.join S p enum l r)) :
    ∃ p', Inv req (.join S p enum l r) p' := by
  obtain ⟨hl, hr, rfl, hnd, ho⟩ := h
  simp only [schema, List.mem_append] at hs
  obtain ⟨q, q1, q2⟩ := p.req?_ok
  have hq := Over.req ho q2
  obtain ⟨U, u1, u2, u3, _, _⟩ := union?_ok hn q
  have hd : ∀ i ∈ schema l, i ∉ schema r := by
    rw [List.nodup_append] at hnd
    intro i hi hj
    exact hnd.2.2 i hi i hj rfl
  obtain ⟨l', il⟩ := ihl (U.filter fun i => decide (i ∈ schema l)) (u2.filter _) (by simp)
  obtain ⟨r', ir⟩ := ihr (U.filter fun i => decide (i ∈ schema r)) (u2.filter _) (by simp)
  have hUl : ∀ i ∈ U, i ∈ schema l → i ∈ schema l' := fun i hi hj => il.req_sub i (by simp [hi, hj])
  have hUr : ∀ i ∈ U, i ∈ schema r → i ∈ schema r' := fun i hi hj => ir.req_sub i (by simp [hi, hj])
  have hreqU : ∀ i ∈ req, i ∈ U := fun i hi => (u3 i).mpr (Or.inl hi)
  have hqU : ∀ i ∈ q, i ∈ U := fun i hi => (u3 i).mpr (Or.inr hi)
  have hS : ∀ i ∈ req, i ∈ schema l' ∨ i ∈ schema r' := fun i hi =>
    (hs i hi).imp (hUl i (hreqU i hi)) (hUr i (hreqU i hi))
  refine ⟨.join req p enum l' r', ?_, ?_, ?_, ?_, ?_, ?_, ?_, ?_, ?_, ?_, ?_, ?_, ?_⟩
  · simp only [mini?, q1, Bool.false_eq_true, if_false, Option.bind_eq_bind, Option.bind_some]
    rw [u1, insist?_ok hnd (by simpa using hs)]
    simp only [Option.map_some, Option.bind_some]
    rw [inter?_ok hl.nodup, inter?_ok hr.nodup]
    simp only [Option.bind_some, il.mini, ir.mini, lookups?_ok il.nodup, lookups?_ok ir.nodup]
  · exact hn
  · intro i hi; simp only [schema, List.mem_append]; exact hs i hi
  · exact fun i hi => hi
  · exact fun _ => rfl
  · intro hf; exact ⟨hf, hf⟩
  · intro i hi; simp only [schema, List.mem_append]; exact hs i hi
  · exact fun i hi => hi
  · intro _; exact List.prefix_refl _
  · intro ha
    have hm : ∀ i, i ∈ U ↔ i ∈ req ∨ p.Mentions i := fun i => by rw [u3, q2]
    have hil := il.idem ((AggsLive.congr fun i => by simp only [List.mem_filter, decide_eq_true_eq, hm]).mpr ha.1)
    have hir := ir.idem ((AggsLive.congr fun i => by simp only [List.mem_filter, decide_eq_true_eq, hm]).mpr ha.2)
    simp only [mini?, q1, Bool.false_eq_true, if_false, Option.bind_eq_bind, Option.bind_some]
    rw [u1, insist?_ok hn fun i hi => hi]
    simp only [Option.map_some, Option.bind_some]
    rw [inter?_ok il.nodup, inter?_ok ir.nodup]
    have e1 : (U.filter fun i => decide (i ∈ schema l')) = U.filter fun i => decide (i ∈ schema l) := by
      apply List.filter_congr
      intro i hi
      rw [decide_eq_decide]
      exact ⟨il.sub i, hUl i hi⟩
    have e2 : (U.filter fun i => decide (i ∈ schema r')) = U.filter fun i => decide (i ∈ schema r) := by
      apply List.filter_congr
      intro i hi
      rw [decide_eq_decide]
      exact ⟨ir.sub i, hUr i hi⟩
    simp only [Option.bind_some, e1, e2, hil, hir, lookups?_ok il.nodup, lookups?_ok ir.nodup]
  · intro cl junk hh
    refine rows_join cl junk (il.rows cl junk hh.2.1) (ir.rows cl junk hh.2.2) (il.aligned hh.1) hd il.lay_sub ir.lay_sub
      (fun i hi => (hS i hi).imp id (ir.sch_lay i)) ?_
    exact Over.mono ho q2 (fun i hi => hUl i (hqU i hi)) (fun i hi hj => ir.sch_lay i (hUr i (hqU i hi) hj))
  · intro junk
    refine named_join junk (il.named junk) (ir.named junk) hd il.sub ir.sub hS ?_
    exact Over.mono ho q2 (fun i hi => hUl i (hqU i hi)) (fun i hi => hUr i (hqU i hi))
  · intro i
    simp only [scanned, Live, List.mem_append]
    rw [il.scans, ir.scans]
    have hm : ∀ i, i ∈ U ↔ i ∈ req ∨ p.Mentions i := fun i => by rw [u3, q2]
    refine or_congr (Live.congr (fun i => ?_) i) (Live.congr (fun i => ?_) i) <;>
      simp only [List.mem_filter, decide_eq_true_eq, hm]

theorem inv_proj {items : List (I × Ex I C C)} {c : Plan I C} (h : WF (.proj items c))
    (ih : ∀ req : List I, req.Nodup → (∀ i ∈ req, i ∈ schema c) → ∃ c', Inv req c c')
    {req : List I} (hn : req.Nodup) (hs : ∀ i ∈ req, i ∈ schema (.proj items c)) :
    ∃ p', Inv req (.proj items c) p' := by
  obtain ⟨hc, hnd, hp⟩ := h
  simp only [schema] at hs
  generalize hit : (items.filter fun x => false || decide (x.1 ∈ req)) = items'
  have hsub : items'.Sublist items := hit ▸ List.filter_sublist
  obtain ⟨U, u1, u2, u3⟩ := unionAll?_ok (A := ([] : List I)) List.nodup_nil (items'.map fun x => x.2.req)
  have hU : ∀ i, i ∈ U ↔ ∃ x ∈ items', i ∈ x.2.req := by
    intro i; rw [u3]; simp
  obtain ⟨c', ic⟩ := ih U u2 (fun i hi => by
    obtain ⟨x, hx, hi⟩ := (hU i).mp hi
    exact hp x (hsub.subset hx) i hi)
  have hreq : ∀ x ∈ items', ∀ i ∈ x.2.req, i ∈ schema c' := fun x hx i hi => ic.req_sub i ((hU i).mpr ⟨x, hx, hi⟩)
  refine ⟨.proj items' c', ?_, ?_, ?_, ?_, ?_, ?_, ?_, ?_, ?_, ?_, ?_, ?_, ?_⟩
  · simp only [mini?, keep?_ok false hn, hit, Option.bind_eq_bind, Option.bind_some, u1, ic.mini, lookups?_ok ic.nodup]
  · exact hnd.sublist (hsub.map _)
  · exact fun i hi => (hsub.map _).subset hi
  · intro i hi
    simp only [schema]
    rw [← hit, mem_filter_fst]
    exact ⟨hs i hi, hi⟩
  · exact fun hh => absurd hh (by simp [Exact])
  · intro hf
    have : items' = items := by
      rw [← hit]
      exact filter_all fun i hi => by rw [hf]; exact hi
    simp [schema, layout, this]
  · exact fun i hi => (hsub.map _).subset hi
  · exact fun i hi => hi
  · exact fun _ => List.prefix_refl _
  · intro ha
    have hi' := ic.idem ((AggsLive.congr fun i => (hU i).trans (kept_iff hit fun x => i ∈ x.2.req)).mpr ha)
    simp only [mini?, keep?_ok false hn, Option.bind_eq_bind, Option.bind_some]
    have : (items'.filter fun x => false || decide (x.1 ∈ req)) = items' := by rw [← hit]; exact filter_idem _ _
    simp only [this, u1, Option.bind_some, hi', lookups?_ok ic.nodup]
  · intro cl junk hh
    exact rows_proj cl junk (ic.rows cl junk hh) hnd hsub fun x hx i hi => ic.sch_lay i (hreq x hx i hi)
  · intro junk
    exact named_proj junk (ic.named junk) hnd hsub hreq
  · intro i
    simp only [scanned, Live]
    rw [ic.scans]
    refine Live.congr (fun i => ?_) i
    rw [hU]
    exact kept_iff hit fun x => i ∈ x.2.req

theorem inv_group {keys : List (I × Ex I C C)} {eqk : List C → List C → Bool} {aggs : List (I × Agg I C)}
    {enum : Nat → List Nat} {c : Plan I C} (h : WF (.group keys eqk aggs enum c))
    (ih : ∀ req : List I, req.Nodup → (∀ i ∈ req, i ∈ schema c) → ∃ c', Inv req c c')
    {req : List I} (hn : req.Nodup) (hs : ∀ i ∈ req, i ∈ schema (.group keys eqk aggs enum c)) :
    ∃ p', Inv req (.group keys eqk aggs enum c) p' := by
  obtain ⟨hc, hnd, hk, hp⟩ := h
  simp only [schema] at hs
  generalize hit : (aggs.filter fun x => false || decide (x.1 ∈ req)) = aggs'
  have hsub : aggs'.Sublist aggs := hit ▸ List.filter_sublist
  have hsub' : (keys.map Prod.fst ++ aggs'.map Prod.fst).Sublist (keys.map Prod.fst ++ aggs.map Prod.fst) :=
    (hsub.map _).append_left _
  obtain ⟨U, u1, u2, u3⟩ := unionAll?_ok (A := ([] : List I)) List.nodup_nil
    (keys.map (fun x => x.2.req) ++ aggs'.map fun x => x.2.req)
  have hU : ∀ i, i ∈ U ↔ (∃ x ∈ keys, i ∈ x.2.req) ∨ ∃ x ∈ aggs', i ∈ x.2.req := by
    intro i; rw [u3]; simp only [List.not_mem_nil, false_or, List.mem_append, List.mem_map]
    constructor
    · rintro ⟨B, ⟨x, hx, rfl⟩ | ⟨x, hx, rfl⟩, hi⟩
      · exact Or.inl ⟨x, hx, hi⟩
      · exact Or.inr ⟨x, hx, hi⟩
    · rintro (⟨x, hx, hi⟩ | ⟨x, hx, hi⟩)
      · exact ⟨_, Or.inl ⟨x, hx, rfl⟩, hi⟩
      · exact ⟨_, Or.inr ⟨x, hx, rfl⟩, hi⟩
  obtain ⟨c', ic⟩ := ih U u2 (fun i hi => by
    rcases (hU i).mp hi with ⟨x, hx, hi⟩ | ⟨x, hx, hi⟩
    · exact hk x hx i hi
    · exact hp x (hsub.subset hx) i hi)
  have hreq : ∀ x ∈ aggs', ∀ i ∈ x.2.req, i ∈ schema c' := fun x hx i hi =>
    ic.req_sub i ((hU i).mpr (Or.inr ⟨x, hx, hi⟩))
  have hreqk : ∀ x ∈ keys, ∀ i ∈ x.2.req, i ∈ schema c' := fun x hx i hi =>
    ic.req_sub i ((hU i).mpr (Or.inl ⟨x, hx, hi⟩))
  refine ⟨.group keys eqk aggs' enum c', ?_, ?_, ?_, ?_, ?_, ?_, ?_, ?_, ?_, ?_, ?_, ?_, ?_⟩
  · simp only [mini?, keep?_ok false hn, hit, Option.bind_eq_bind, Option.bind_some, u1, ic.mini, lookups?_ok ic.nodup]
  · exact hnd.sublist hsub'
  · exact fun i hi => hsub'.subset hi
  · intro i hi
    have := hs i hi
    simp only [schema]
    rw [List.mem_append] at this ⊢
    refine this.imp id fun h => ?_
    rw [← hit, mem_filter_fst]
    exact ⟨h, hi⟩
  · exact fun hh => absurd hh (by simp [Exact])
  · intro hf
    have : aggs' = aggs := by
      rw [← hit]
      exact filter_all fun i hi => by rw [hf]; simp only [schema, List.mem_append]; exact Or.inr hi
    simp [schema, layout, this]
  · exact fun i hi => hsub'.subset hi
  · exact fun i hi => hi
  · exact fun _ => List.prefix_refl _
  · intro ha
    have hi' := ic.idem ((AggsLive.congr fun i =>
      (hU i).trans (or_congr Iff.rfl (kept_iff hit fun x => i ∈ x.2.req))).mpr ha)
    simp only [mini?, keep?_ok false hn, Option.bind_eq_bind, Option.bind_some]
    have : (aggs'.filter fun x => false || decide (x.1 ∈ req)) = aggs' := by rw [← hit]; exact filter_idem _ _
    simp only [this, u1, Option.bind_some, hi', lookups?_ok ic.nodup]
  · intro cl junk hh
    exact rows_group cl junk (ic.rows cl junk hh.2) (ic.aligned hh.1) hnd hsub hreqk hreq
  · intro junk
    exact named_group junk (ic.named junk) hnd hsub hreqk hreq
  · intro i
    simp only [scanned, Live]
    rw [ic.scans]
    refine Live.congr (fun i => ?_) i
    rw [hU]
    exact or_congr Iff.rfl (kept_iff hit fun x => i ∈ x.2.req)

theorem inv_agg {aggs : List (I × Agg I C)} {c : Plan I C} (h : WF (.agg aggs c))
    (ih : ∀ req : List I, req.Nodup → (∀ i ∈ req, i ∈ schema c) → ∃ c', Inv req c c')
    {req : List I} (hn : req.Nodup) (hs : ∀ i ∈ req, i ∈ schema (.agg aggs c)) :
    ∃ p', Inv req (.agg aggs c) p' := by
  obtain ⟨hc, hne, hnd, hp⟩ := h
  have he : aggs.isEmpty = false := by cases aggs with | nil => exact absurd rfl hne | cons => rfl
  simp only [schema] at hs
  generalize hit : (aggs.filter fun x => false || decide (x.1 ∈ req)) = aggs'
  have hsub : aggs'.Sublist aggs := hit ▸ List.filter_sublist
  obtain ⟨U, u1, u2, u3⟩ := unionAll?_ok (A := ([] : List I)) List.nodup_nil (aggs'.map fun x => x.2.req)
  have hU : ∀ i, i ∈ U ↔ ∃ x ∈ aggs', i ∈ x.2.req := by
    intro i; rw [u3]; simp
  obtain ⟨c', ic⟩ := ih U u2 (fun i hi => by
    obtain ⟨x, hx, hi⟩ := (hU i).mp hi
    exact hp x (hsub.subset hx) i hi)
  have hreq : ∀ x ∈ aggs', ∀ i ∈ x.2.req, i ∈ schema c' := fun x hx i hi => ic.req_sub i ((hU i).mpr ⟨x, hx, hi⟩)
  refine ⟨.agg aggs' c', ?_, ?_, ?_, ?_, ?_, ?_, ?_, ?_, ?_, ?_, ?_, ?_, ?_⟩
  · simp only [mini?, he, Bool.false_eq_true, if_false, keep?_ok false hn, hit, Option.bind_eq_bind, Option.bind_some, u1, ic.mini]
  · exact hnd.sublist (hsub.map _)
  · exact fun i hi => (hsub.map _).subset hi
  · intro i hi
    simp only [schema]
    rw [← hit, mem_filter_fst]
    exact ⟨hs i hi, hi⟩
  · exact fun hh => absurd hh (by simp [Exact])
  · intro hf
    have : aggs' = aggs := by
      rw [← hit]
      exact filter_all fun i hi => by rw [hf]; exact hi
    simp [schema, layout, this]
  · exact fun i hi => (hsub.map _).subset hi
  · exact fun i hi => hi
  · exact fun _ => List.prefix_refl _
  · intro ha
    have hi' := ic.idem ((AggsLive.congr fun i => (hU i).trans (kept_iff hit fun x => i ∈ x.2.req)).mpr ha.2)
    have he' : aggs'.isEmpty = false := by
      obtain ⟨x, hx, hr⟩ := ha.1
      have : x ∈ aggs' := by rw [← hit]; simp [hx, hr]
      cases h : aggs' with
      | nil => rw [h] at this; cases this
      | cons => rfl
    simp only [mini?, he', Bool.false_eq_true, if_false, keep?_ok false hn, Option.bind_eq_bind, Option.bind_some]
    have : (aggs'.filter fun x => false || decide (x.1 ∈ req)) = aggs' := by rw [← hit]; exact filter_idem _ _
    simp only [this, u1, Option.bind_some, hi']
  · intro cl junk hh
    exact rows_agg cl junk (ic.rows cl junk hh.2) (ic.aligned hh.1) hnd hsub hreq
  · intro junk
    exact named_agg junk (ic.named junk) hnd hsub hreq
  · intro i
    simp only [scanned, Live]
    rw [ic.scans]
    refine Live.congr (fun i => ?_) i
    rw [hU]
    exact kept_iff hit fun x => i ∈ x.2.req

theorem inv_proj0 {items : List (I × Ex I C C)} (h : WF (.proj0 items))
    {req : List I} (hn : req.Nodup) (hs : ∀ i ∈ req, i ∈ schema (.proj0 items)) :
    ∃ p', Inv req (.proj0 items) p' := by
  obtain ⟨hnd, hp⟩ := h
  simp only [schema] at hs
  generalize hit : (items.filter fun x => false || decide (x.1 ∈ req)) = items'
  have hsub : items'.Sublist items := hit ▸ List.filter_sublist
  refine ⟨.proj0 items', ?_, ?_, ?_, ?_, ?_, ?_, ?_, ?_, ?_, ?_, ?_, ?_, ?_⟩
  · simp only [mini?, keep?_ok false hn, hit, Option.bind_eq_bind, Option.bind_some]
  · exact hnd.sublist (hsub.map _)
  · exact fun i hi => (hsub.map _).subset hi
  · intro i hi
    simp only [schema]
    rw [← hit, mem_filter_fst]
    exact ⟨hs i hi, hi⟩
  · exact fun hh => absurd hh (by simp [Exact])
  · intro hf
    have : items' = items := by
      rw [← hit]
      exact filter_all fun i hi => by rw [hf]; exact hi
    simp [schema, layout, this]
  · exact fun i hi => (hsub.map _).subset hi
  · exact fun i hi => hi
  · exact fun _ => List.prefix_refl _
  · intro ha
    simp only [mini?, keep?_ok false hn, Option.bind_eq_bind, Option.bind_some]
    have : (items'.filter fun x => false || decide (x.1 ∈ req)) = items' := by rw [← hit]; exact filter_idem _ _
    simp only [this]
  · intro cl junk _
    exact rows_proj0 cl junk hnd hsub
  · intro junk
    exact named_proj0 junk hnd hsub
  · intro i; simp [scanned, Live]

theorem inv_scan {S : List I} {rws : List (I → C)} (h : WF (.scan S rws))
    {req : List I} (hn : req.Nodup) (hs : ∀ i ∈ req, i ∈ schema (.scan S rws)) :
    ∃ p', Inv req (.scan S rws) p' := by
  simp only [schema] at hs
  have e : (req.filter fun i => decide (i ∈ S)) = req := filter_eq_self_of fun i hi => by simp [hs i hi]
  have e' : (req.filter fun i => decide (i ∈ req)) = req := filter_eq_self_of fun i hi => by simp [hi]
  refine ⟨.scan req rws, ?_, ?_, ?_, ?_, ?_, ?_, ?_, ?_, ?_, ?_, ?_, ?_, ?_⟩
  · simp only [mini?, Bool.false_eq_true, if_false, inter?_ok (B := S) h, e, Option.bind_eq_bind, Option.bind_some]
  · exact hn
  · exact hs
  · exact fun i hi => hi
  · exact fun _ => rfl
  · intro hf; exact ⟨hf, hf⟩
  · exact hs
  · exact fun i hi => hi
  · exact fun _ => List.prefix_refl _
  · intro _
    simp only [mini?, Bool.false_eq_true, if_false, inter?_ok hn, e', Option.bind_eq_bind, Option.bind_some]
  · intro cl junk _
    simp only [Rows, run, rowsOf, layout]
  · intro junk
    simp only [Named, runW, rowsOf, schema]
    conv => arg 3; rw [← List.map_id rws]
    apply F2.self
    intro r _ i hi
    simp [restrict, hi]
  · exact fun i => Iff.rfl

theorem inv_limit {off lim : Nat} {c : Plan I C} {req : List I} (h : ∃ c', Inv req c c') :
    ∃ p', Inv req (.limit off lim c) p' := by
  obtain ⟨c', ic⟩ := h
  refine ⟨.limit off lim c', ?_, ic.nodup, ic.sub, ic.req_sub, ic.exact, ic.full, ic.lay_sub, ic.sch_lay, ic.aligned, ?_,
    ?_, ?_, ic.scans⟩
  · simp only [mini?, ic.mini, Option.bind_eq_bind, Option.bind_some]
  · intro ha
    simp only [mini?, ic.idem ha, Option.bind_eq_bind, Option.bind_some]
  · intro cl junk hh
    exact rows_limit cl junk (ic.rows cl junk hh)
  · intro junk
    exact named_limit junk (ic.named junk)

theorem inv (p : Plan I C) (h : WF p) : ∀ req : List I, req.Nodup → (∀ i ∈ req, i ∈ schema p) → ∃ p', Inv req p p' := by
  induction p with
  | scan S rws => exact fun _ hn hs => inv_scan h hn hs
  | filter S p c ih => exact fun _ hn hs => inv_filter h (ih h.1) hn hs
  | join S p enum l r ihl ihr => exact fun _ hn hs => inv_join h (ihl h.1) (ihr h.2.1) hn hs
  | proj items c ih => exact fun _ hn hs => inv_proj h (ih h.1) hn hs
  | proj0 items => exact fun _ hn hs => inv_proj0 h hn hs
  | limit off lim c ih => exact fun req hn hs => inv_limit (ih h req hn hs)
  | group keys eqk aggs enum c ih => exact fun _ hn hs => inv_group h (ih h.1) hn hs
  | agg aggs c ih => exact fun _ hn hs => inv_agg h (ih h.1) hn hs
  | sort S o c ih => exact fun _ hn hs => inv_sort h (ih h.1) hn hs

/-! ### The top of the plan -/

/-- What holds of the result of `minimize`. -/
structure Top (p p' : Plan I C) : Prop where
  mini : ∀ req : List I, req.Nodup → mini? true req p = some p'
  sch : schema p' = schema p
  lay : layout p' = schema p
  idem : AggsLive (· ∈ schema p) p → ∀ req : List I, req.Nodup → mini? true req p' = some p'
  rows : ∀ cl junk, Harmless p → Rows cl junk p p'
  named : ∀ junk, Named junk p p'
  scans : ∀ i, i ∈ scanned p' ↔ Live (· ∈ schema p) p i

theorem filter_true {α : Type} (l : List α) (f : α → Bool) : (l.filter fun x => true || f x) = l := by simp

theorem top (p : Plan I C) (h : WF p) : ∃ p', Top p p' := by
  induction p with
  | scan S rws =>
    refine ⟨.scan S rws, fun _ _ => rfl, rfl, rfl, fun _ _ _ => rfl, fun cl junk _ => rfl, ?_, fun _ => Iff.rfl⟩
    intro junk
    simp only [Named, runW, rowsOf, schema]
    conv => arg 3; rw [← List.map_id rws]
    apply F2.self
    intro r _ i hi
    simp [restrict, hi]
  | filter S p c _ =>
    obtain ⟨hc, rfl, hp⟩ := h
    obtain ⟨c', ic⟩ := inv c hc (schema c) hc.nodup fun _ hi => hi
    obtain ⟨f1, f2⟩ := ic.full rfl
    refine ⟨.filter (schema c) p c', ?_, rfl, f2, ?_, ?_, ?_, fun i =>
      (ic.scans i).trans (Live.congr (fun i => ⟨Or.inl, fun h => h.elim id (hp i)⟩) i)⟩
    · intro _ _
      simp only [mini?, if_true, ic.mini, lookups?_ok ic.nodup, Option.bind_eq_bind, Option.bind_some]
    · intro ha _ _
      have hi' := ic.idem ((AggsLive.congr fun i => ⟨Or.inl, fun h => h.elim id (hp i)⟩).mpr ha)
      simp only [mini?, if_true, hi', lookups?_ok ic.nodup, Option.bind_eq_bind, Option.bind_some]
    · intro cl junk hh
      exact rows_filter cl junk (ic.rows cl junk hh) fun i hi => by rw [f2]; exact hp i hi
    · intro junk
      exact named_filter junk (ic.named junk) (fun i hi => by rw [f1]; exact hp i hi) fun i hi => by rw [f1]; exact hi
  | join S p enum l r _ _ =>
    obtain ⟨hl, hr, rfl, hnd, ho⟩ := h
    obtain ⟨q, q1, q2⟩ := p.req?_ok
    have hq := Over.req ho q2
    have hd : ∀ i ∈ schema l, i ∉ schema r := by
      rw [List.nodup_append] at hnd
      intro i hi hj
      exact hnd.2.2 i hi i hj rfl
    have el : ((schema l ++ schema r).filter fun i => decide (i ∈ schema l)) = schema l := by
      rw [List.filter_append, filter_eq_self_of (fun i hi => by simp [hi]), List.filter_eq_nil_iff.mpr, List.append_nil]
      intro i hi
      simpa using fun hh => hd i hh hi
    have er : ((schema l ++ schema r).filter fun i => decide (i ∈ schema r)) = schema r := by
      rw [List.filter_append, List.filter_eq_nil_iff.mpr, List.nil_append, filter_eq_self_of (fun i hi => by simp [hi])]
      intro i hi
      simpa using hd i hi
    obtain ⟨l', il⟩ := inv l hl (schema l) hl.nodup fun _ hi => hi
    obtain ⟨r', ir⟩ := inv r hr (schema r) hr.nodup fun _ hi => hi
    obtain ⟨l1, l2⟩ := il.full rfl
    obtain ⟨r1, r2⟩ := ir.full rfl
    refine ⟨.join (schema l ++ schema r) p enum l' r', ?_, rfl, rfl, ?_, ?_, ?_, ?_⟩
    · intro _ _
      simp only [mini?, q1, if_true, Option.bind_eq_bind, Option.bind_some, inter?_ok hl.nodup, inter?_ok hr.nodup, el, er,
        il.mini, ir.mini, lookups?_ok il.nodup, lookups?_ok ir.nodup]
    · intro ha _ _
      have hil := il.idem ((AggsLive.congr fun i => ⟨fun h => ⟨Or.inl (List.mem_append_left _ h), h⟩, And.right⟩).mpr ha.1)
      have hir := ir.idem ((AggsLive.congr fun i => ⟨fun h => ⟨Or.inl (List.mem_append_right _ h), h⟩, And.right⟩).mpr ha.2)
      simp only [mini?, q1, if_true, Option.bind_eq_bind, Option.bind_some, l1, r1, inter?_ok hl.nodup, inter?_ok hr.nodup,
        el, er, hil, hir, lookups?_ok hl.nodup, lookups?_ok hr.nodup]
    · intro cl junk hh
      refine rows_join cl junk (il.rows cl junk hh.2.1) (ir.rows cl junk hh.2.2) (il.aligned hh.1) hd il.lay_sub ir.lay_sub
        ?_ ?_
      · rw [l1, r2]; simp
      · rw [l1, r2]; exact ho
    · intro junk
      refine named_join junk (il.named junk) (ir.named junk) hd il.sub ir.sub ?_ ?_
      · rw [l1, r1]; simp
      · rw [l1, r1]; exact ho
    · intro i
      simp only [scanned, Live, List.mem_append, schema]
      rw [il.scans, ir.scans]
      exact or_congr (Live.congr (fun i => ⟨fun h => ⟨Or.inl (Or.inl h), h⟩, And.right⟩) i)
        (Live.congr (fun i => ⟨fun h => ⟨Or.inl (Or.inr h), h⟩, And.right⟩) i)
  | proj items c _ =>
    obtain ⟨hc, hnd, hp⟩ := h
    obtain ⟨U, u1, u2, u3⟩ := unionAll?_ok (A := ([] : List I)) List.nodup_nil (items.map fun x => x.2.req)
    have hU : ∀ i, i ∈ U ↔ ∃ x ∈ items, i ∈ x.2.req := by
      intro i; rw [u3]; simp
    obtain ⟨c', ic⟩ := inv c hc U u2 (fun i hi => by
      obtain ⟨x, hx, hi⟩ := (hU i).mp hi
      exact hp x hx i hi)
    have hreq : ∀ x ∈ items, ∀ i ∈ x.2.req, i ∈ schema c' := fun x hx i hi => ic.req_sub i ((hU i).mpr ⟨x, hx, hi⟩)
    refine ⟨.proj items c', ?_, rfl, rfl, ?_, ?_, ?_, fun i =>
      (ic.scans i).trans (Live.congr (fun i => (hU i).trans
        ⟨fun ⟨x, h1, h2⟩ => ⟨x, h1, List.mem_map_of_mem h1, h2⟩, fun ⟨x, h1, _, h2⟩ => ⟨x, h1, h2⟩⟩) i)⟩
    · intro req hn
      simp only [mini?, keep?_ok true hn, filter_true, u1, ic.mini, lookups?_ok ic.nodup, Option.bind_eq_bind,
        Option.bind_some]
    · intro ha req hn
      have hi' := ic.idem ((AggsLive.congr fun i => (hU i).trans
        ⟨fun ⟨x, h1, h2⟩ => ⟨x, h1, List.mem_map_of_mem h1, h2⟩, fun ⟨x, h1, _, h2⟩ => ⟨x, h1, h2⟩⟩).mpr ha)
      simp only [mini?, keep?_ok true hn, filter_true, u1, hi', lookups?_ok ic.nodup, Option.bind_eq_bind,
        Option.bind_some]
    · intro cl junk hh
      exact rows_proj cl junk (ic.rows cl junk hh) hnd (List.Sublist.refl _) fun x hx i hi =>
        ic.sch_lay i (hreq x hx i hi)
    · intro junk
      exact named_proj junk (ic.named junk) hnd (List.Sublist.refl _) hreq
  | proj0 items =>
    obtain ⟨hnd, _⟩ := h
    refine ⟨.proj0 items, ?_, rfl, rfl, ?_, fun cl junk _ => rows_proj0 cl junk hnd (List.Sublist.refl _),
      fun junk => named_proj0 junk hnd (List.Sublist.refl _), fun i => by simp [scanned, Live]⟩
    · intro req hn
      simp only [mini?, keep?_ok true hn, filter_true, Option.bind_eq_bind, Option.bind_some]
    · intro ha req hn
      simp only [mini?, keep?_ok true hn, filter_true, Option.bind_eq_bind, Option.bind_some]
  | limit off lim c ih =>
    obtain ⟨c', ic⟩ := ih h
    refine ⟨.limit off lim c', ?_, ic.sch, ic.lay, ?_, fun cl junk hh => rows_limit cl junk (ic.rows cl junk hh),
      fun junk => named_limit junk (ic.named junk), ic.scans⟩
    · intro req hn
      simp only [mini?, ic.mini req hn, Option.bind_eq_bind, Option.bind_some]
    · intro ha req hn
      simp only [mini?, ic.idem ha req hn, Option.bind_eq_bind, Option.bind_some]
  | group keys eqk aggs enum c _ =>
    obtain ⟨hc, hnd, hk, hp⟩ := h
    obtain ⟨U, u1, u2, u3⟩ := unionAll?_ok (A := ([] : List I)) List.nodup_nil
      (keys.map (fun x => x.2.req) ++ aggs.map fun x => x.2.req)
    have hU : ∀ i, i ∈ U ↔ (∃ x ∈ keys, i ∈ x.2.req) ∨ ∃ x ∈ aggs, i ∈ x.2.req := by
      intro i; rw [u3]; simp only [List.not_mem_nil, false_or, List.mem_append, List.mem_map]
      constructor
      · rintro ⟨B, ⟨x, hx, rfl⟩ | ⟨x, hx, rfl⟩, hi⟩
        · exact Or.inl ⟨x, hx, hi⟩
        · exact Or.inr ⟨x, hx, hi⟩
      · rintro (⟨x, hx, hi⟩ | ⟨x, hx, hi⟩)
        · exact ⟨_, Or.inl ⟨x, hx, rfl⟩, hi⟩
        · exact ⟨_, Or.inr ⟨x, hx, rfl⟩, hi⟩
    obtain ⟨c', ic⟩ := inv c hc U u2 (fun i hi => by
      rcases (hU i).mp hi with ⟨x, hx, hi⟩ | ⟨x, hx, hi⟩
      · exact hk x hx i hi
      · exact hp x hx i hi)
    have hreq : ∀ x ∈ aggs, ∀ i ∈ x.2.req, i ∈ schema c' := fun x hx i hi =>
      ic.req_sub i ((hU i).mpr (Or.inr ⟨x, hx, hi⟩))
    have hreqk : ∀ x ∈ keys, ∀ i ∈ x.2.req, i ∈ schema c' := fun x hx i hi =>
      ic.req_sub i ((hU i).mpr (Or.inl ⟨x, hx, hi⟩))
    refine ⟨.group keys eqk aggs enum c', ?_, rfl, rfl, ?_, ?_, ?_, fun i =>
      (ic.scans i).trans (Live.congr (fun i => (hU i).trans (or_congr Iff.rfl
        ⟨fun ⟨x, h1, h2⟩ => ⟨x, h1, List.mem_append_right _ (List.mem_map_of_mem h1), h2⟩,
          fun ⟨x, h1, _, h2⟩ => ⟨x, h1, h2⟩⟩)) i)⟩
    · intro req hn
      simp only [mini?, keep?_ok true hn, filter_true, u1, ic.mini, lookups?_ok ic.nodup, Option.bind_eq_bind,
        Option.bind_some]
    · intro ha req hn
      have hi' := ic.idem ((AggsLive.congr fun i => (hU i).trans (or_congr Iff.rfl
        ⟨fun ⟨x, h1, h2⟩ => ⟨x, h1, List.mem_append_right _ (List.mem_map_of_mem h1), h2⟩,
          fun ⟨x, h1, _, h2⟩ => ⟨x, h1, h2⟩⟩)).mpr ha)
      simp only [mini?, keep?_ok true hn, filter_true, u1, hi', lookups?_ok ic.nodup, Option.bind_eq_bind,
        Option.bind_some]
    · intro cl junk hh
      exact rows_group cl junk (ic.rows cl junk hh.2) (ic.aligned hh.1) hnd (List.Sublist.refl _) hreqk hreq
    · intro junk
      exact named_group junk (ic.named junk) hnd (List.Sublist.refl _) hreqk hreq
  | agg aggs c _ =>
    obtain ⟨hc, hne, hnd, hp⟩ := h
    have he : aggs.isEmpty = false := by cases aggs with | nil => exact absurd rfl hne | cons => rfl
    obtain ⟨U, u1, u2, u3⟩ := unionAll?_ok (A := ([] : List I)) List.nodup_nil (aggs.map fun x => x.2.req)
    have hU : ∀ i, i ∈ U ↔ ∃ x ∈ aggs, i ∈ x.2.req := by
      intro i; rw [u3]; simp
    obtain ⟨c', ic⟩ := inv c hc U u2 (fun i hi => by
      obtain ⟨x, hx, hi⟩ := (hU i).mp hi
      exact hp x hx i hi)
    have hreq : ∀ x ∈ aggs, ∀ i ∈ x.2.req, i ∈ schema c' := fun x hx i hi => ic.req_sub i ((hU i).mpr ⟨x, hx, hi⟩)
    refine ⟨.agg aggs c', ?_, rfl, rfl, ?_, ?_, ?_, fun i =>
      (ic.scans i).trans (Live.congr (fun i => (hU i).trans
        ⟨fun ⟨x, h1, h2⟩ => ⟨x, h1, List.mem_map_of_mem h1, h2⟩, fun ⟨x, h1, _, h2⟩ => ⟨x, h1, h2⟩⟩) i)⟩
    · intro req hn
      simp only [mini?, he, Bool.false_eq_true, if_false, keep?_ok true hn, filter_true, u1, ic.mini, Option.bind_eq_bind, Option.bind_some]
    · intro ha req hn
      have hi' := ic.idem ((AggsLive.congr fun i => (hU i).trans
        ⟨fun ⟨x, h1, h2⟩ => ⟨x, h1, List.mem_map_of_mem h1, h2⟩, fun ⟨x, h1, _, h2⟩ => ⟨x, h1, h2⟩⟩).mpr ha.2)
      simp only [mini?, he, Bool.false_eq_true, if_false, keep?_ok true hn, filter_true, u1, hi', Option.bind_eq_bind, Option.bind_some]
    · intro cl junk hh
      exact rows_agg cl junk (ic.rows cl junk hh.2) (ic.aligned hh.1) hnd (List.Sublist.refl _) hreq
    · intro junk
      exact named_agg junk (ic.named junk) hnd (List.Sublist.refl _) hreq
  | sort S o c _ =>
    obtain ⟨hc, rfl, hp⟩ := h
    obtain ⟨c', ic⟩ := inv c hc (schema c) hc.nodup fun _ hi => hi
    obtain ⟨f1, f2⟩ := ic.full rfl
    refine ⟨.sort (schema c) o c', ?_, rfl, f2, ?_, ?_, ?_, fun i =>
      (ic.scans i).trans (Live.congr (fun i => ⟨Or.inl, fun h => h.elim id (hp i)⟩) i)⟩
    · intro _ _
      simp only [mini?, if_true, ic.mini, lookups?_ok ic.nodup, Option.bind_eq_bind, Option.bind_some]
    · intro ha _ _
      have hi' := ic.idem ((AggsLive.congr fun i => ⟨Or.inl, fun h => h.elim id (hp i)⟩).mpr ha)
      simp only [mini?, if_true, hi', lookups?_ok ic.nodup, Option.bind_eq_bind, Option.bind_some]
    · intro cl junk hh
      exact rows_sort cl junk (ic.rows cl junk hh) fun i hi => by rw [f2]; exact hp i hi
    · intro junk
      exact named_sort junk (ic.named junk) (fun i hi => by rw [f1]; exact hp i hi) fun i hi => by rw [f1]; exact hi

/-! ### Without minimization -/

/-- The interpreter computes the rows of a plan that was not minimized. -/
theorem unminimized (cl : C → C) (junk : C) (p : Plan I C) (h : WF p) : layout p = schema p ∧ Rows cl junk p p := by
  induction p with
  | scan S rws => exact ⟨rfl, rfl⟩
  | filter S p c ih =>
    obtain ⟨hc, rfl, hp⟩ := h
    obtain ⟨h1, h2⟩ := ih hc
    exact ⟨h1, rows_filter cl junk h2 fun i hi => by rw [h1]; exact hp i hi⟩
  | join S p enum l r ihl ihr =>
    obtain ⟨hl, hr, rfl, hnd, ho⟩ := h
    obtain ⟨l1, l2⟩ := ihl hl
    obtain ⟨r1, r2⟩ := ihr hr
    have hd : ∀ i ∈ schema l, i ∉ schema r := by
      rw [List.nodup_append] at hnd
      intro i hi hj
      exact hnd.2.2 i hi i hj rfl
    refine ⟨rfl, rows_join cl junk l2 r2 (by rw [l1]) hd (by rw [l1]; exact fun _ h => h)
      (by rw [r1]; exact fun _ h => h) (by rw [r1]; simp) (by rw [r1]; exact ho)⟩
  | proj items c ih =>
    obtain ⟨hc, hnd, hp⟩ := h
    obtain ⟨h1, h2⟩ := ih hc
    exact ⟨rfl, rows_proj cl junk h2 hnd (List.Sublist.refl _) (by rw [h1]; exact hp)⟩
  | proj0 items => exact ⟨rfl, rows_proj0 cl junk h.1 (List.Sublist.refl _)⟩
  | limit off lim c ih =>
    obtain ⟨h1, h2⟩ := ih h
    exact ⟨h1, rows_limit cl junk h2⟩
  | group keys eqk aggs enum c ih =>
    obtain ⟨hc, hnd, hk, hp⟩ := h
    obtain ⟨h1, h2⟩ := ih hc
    exact ⟨rfl, rows_group cl junk h2 (by rw [h1]) hnd (List.Sublist.refl _) hk hp⟩
  | agg aggs c ih =>
    obtain ⟨hc, _, hnd, hp⟩ := h
    obtain ⟨h1, h2⟩ := ih hc
    exact ⟨rfl, rows_agg cl junk h2 (by rw [h1]) hnd (List.Sublist.refl _) hp⟩
  | sort S o c ih =>
    obtain ⟨hc, rfl, hp⟩ := h
    obtain ⟨h1, h2⟩ := ih hc
    exact ⟨h1, rows_sort cl junk h2 fun i hi => by rw [h1]; exact hp i hi⟩

end Mutable.Minimize
