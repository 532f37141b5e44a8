import Verif.Sema.Lemmas

/-! # The order of enumeration of sources does not matter for names -/

namespace Mutable.Sema

variable {V : Type}

theorem cands_perm {a : Label} {ss ss' : List Src} (h : ss.Perm ss') : (cands a ss).Perm (cands a ss') :=
  h.flatMap_right _

theorem scan_perm {a : Label} {ss ss' : List Src} (h : ss.Perm ss') : scanSources a none ss = scanSources a none ss' := by
  have hp := cands_perm (a := a) h
  rw [scanSources_eq, scanSources_eq]
  simp only [Option.toList_none, List.nil_append]
  generalize cands a ss = l at hp
  generalize cands a ss' = l' at hp
  match l, l', hp with
  | [], [], _ => rfl
  | [], y :: l', hp => exact absurd hp.length_eq (by simp)
  | x :: l, [], hp => exact absurd hp.length_eq (by simp)
  | [x], [y], hp => simp only [List.singleton_perm_singleton] at hp; rw [hp]
  | [x], _ :: _ :: _, hp => exact absurd hp.length_eq (by simp)
  | _ :: _ :: _, [y], hp => exact absurd hp.length_eq (by simp)
  | _ :: _ :: _, _ :: _ :: _, _ => rfl

theorem findUnqualified_order {a : Label} {cs cs' : List (Ctx V)} (h : List.Forall₂ SameUpToOrder cs cs') :
    ∀ n, findUnqualified a cs n = findUnqualified a cs' n := by
  induction h with
  | nil => intro n; rfl
  | cons hc _ ih =>
    intro n
    simp only [findUnqualified]
    rw [scan_perm hc.2.2.1, ih]

theorem find_perm {ss ss' : List Src} {t : Name} (h : ss.Perm ss') (hd : (ss.map (·.name)).Nodup) :
    ss.find? (fun s => decide (s.name = t)) = ss'.find? (fun s => decide (s.name = t)) := by
  have hd' : (ss'.map (·.name)).Nodup := (h.map _).nodup_iff.mp hd
  cases h1 : ss.find? (fun s => decide (s.name = t)) with
  | none =>
    symm
    rw [List.find?_eq_none] at h1 ⊢
    intro x hx
    exact h1 x (h.mem_iff.mpr hx)
  | some s =>
    have hm := List.mem_of_find?_eq_some h1
    have hn : s.name = t := by simpa using List.find?_some h1
    cases h2 : ss'.find? (fun s => decide (s.name = t)) with
    | none =>
      have := List.find?_eq_none.mp h2 s (h.mem_iff.mp hm)
      simp [hn] at this
    | some s' =>
      have hm' := List.mem_of_find?_eq_some h2
      have hn' : s'.name = t := by simpa using List.find?_some h2
      rw [List.inj_on_of_nodup_map hd' (h.mem_iff.mp hm) hm' (hn.trans hn'.symm)]

theorem findSource_order {t : Name} {cs cs' : List (Ctx V)} (h : List.Forall₂ SameUpToOrder cs cs') :
    ∀ n, findSource t cs n = findSource t cs' n := by
  induction h with
  | nil => intro n; rfl
  | cons hc _ ih =>
    intro n
    simp only [findSource]
    rw [find_perm hc.2.2.1 hc.2.2.2.2.2, ih]

theorem stages_order {cs cs' : List (Ctx V)} (h : List.Forall₂ SameUpToOrder cs cs') :
    ∀ n, (cs.take n).any (fun x => decide (x.stage = .from_)) = (cs'.take n).any (fun x => decide (x.stage = .from_)) := by
  induction h with
  | nil => intro n; rfl
  | cons hc _ ih =>
    intro n
    cases n with
    | zero => rfl
    | succ n => simp only [List.take_succ_cons, List.any_cons, hc.1, ih]

theorem analyzeColumn_order {cs cs' : List (Ctx V)} (h : List.Forall₂ SameUpToOrder cs cs') (t : Option Name) (a : Label) :
    analyzeColumn cs t a = analyzeColumn cs' t a := by
  unfold analyzeColumn
  cases t with
  | none =>
    simp only
    rw [findUnqualified_order h]
    split <;> first | rfl | simp only [stages_order h]
  | some t =>
    simp only [findQualified]
    rw [findSource_order h]
    split <;> first | rfl | simp only [stages_order h]

theorem analyzeDes_order {cs cs' : List (Ctx V)} (h : List.Forall₂ SameUpToOrder cs cs') (t : Option Name) (a : Label) :
    analyzeDes cs t a = analyzeDes cs' t a := by
  have hcol := analyzeColumn_order h t a
  cases h with
  | nil => rfl
  | @cons c c' cs cs' hc ht =>
    simp only [analyzeDes, hc.1, hc.2.2.2.2.1]
    rw [hcol]
    have hp : (if (t.isNone && c'.stage.afterSelect) = true then c.results.filter (fun r => decide (r.label = a)) else []).Perm
        (if (t.isNone && c'.stage.afterSelect) = true then c'.results.filter (fun r => decide (r.label = a)) else []) := by
      split
      · exact (hc.2.2.2.1).filter _
      · exact .refl _
    revert hp
    generalize (if (t.isNone && c'.stage.afterSelect) = true then c.results.filter (fun r => decide (r.label = a)) else []) = l
    generalize (if (t.isNone && c'.stage.afterSelect) = true then c'.results.filter (fun r => decide (r.label = a)) else []) = l'
    intro hp
    match l, l', hp with
    | [], [], _ => rfl
    | [], y :: l', hp => exact absurd hp.length_eq (by simp)
    | x :: l, [], hp => exact absurd hp.length_eq (by simp)
    | [x], [y], hp => simp only [List.singleton_perm_singleton] at hp; rw [hp]
    | [x], _ :: _ :: _, hp => exact absurd hp.length_eq (by simp)
    | _ :: _ :: _, [y], hp => exact absurd hp.length_eq (by simp)
    | _ :: _ :: _, _ :: _ :: _, _ => rfl

theorem stageOf_order {cs cs' : List (Ctx V)} (h : List.Forall₂ SameUpToOrder cs cs') : stageOf cs = stageOf cs' := by
  cases h with
  | nil => rfl
  | cons hc _ => exact hc.1

theorem analyze_order {cs cs' : List (Ctx V)} (h : List.Forall₂ SameUpToOrder cs cs') : ∀ (e : Expr V), StableExpr e →
    analyze cs e = analyze cs' e
  | .des t a, _ => analyzeDes_order h t a
  | .const _ _, _ => rfl
  | .call0 c, _ => by simp only [analyze]; rw [stageOf_order h]
  | .call1 c a, hs => by simp only [analyze]; rw [stageOf_order h, analyze_order h a hs]
  | .call2 c a b, hs => by simp only [analyze]; rw [analyze_order h a hs.1, analyze_order h b hs.2]
  | .un op e, hs => by simp only [analyze]; rw [analyze_order h e hs]
  | .bin op l r, hs => by simp only [analyze]; rw [analyze_order h l hs.1, analyze_order h r hs.2]
  | .query q, hs => by simp only [analyze]; rw [stageOf_order h, hs _ _ h]

/-! ## Statements -/

/-- the parts of a statement do not depend on the order of enumeration -/
structure StableBlock (b : Block V) : Prop where
  from_ : ∀ n q, FItem.nested n q ∈ b.from_.getD [] → ∀ cs cs', List.Forall₂ SameUpToOrder cs cs' → q cs = q cs'
  where_ : ∀ e, b.where_ = some e → StableExpr e
  groupBy : ∀ g ∈ b.groupBy.getD [], StableExpr g.expr
  having : ∀ e, b.having = some e → StableExpr e
  select : ∀ i ∈ b.select, StableExpr i.expr
  orderBy : ∀ e ∈ b.orderBy, StableExpr e

theorem inUse_order {cs cs' : List (Ctx V)} (h : List.Forall₂ SameUpToOrder cs cs') (ss : List Src) (n : Name) :
    inUse cs ss n = inUse cs' ss n := by
  unfold inUse
  congr 1
  induction h with
  | nil => rfl
  | cons hc _ ih =>
    simp only [List.any_cons, hc.1, ih]
    congr 2
    have hp := hc.2.2.1
    rw [Bool.eq_iff_iff, List.any_eq_true, List.any_eq_true]
    constructor
    · rintro ⟨x, hx, hy⟩; exact ⟨x, hp.mem_iff.mp hx, hy⟩
    · rintro ⟨x, hx, hy⟩; exact ⟨x, hp.mem_iff.mpr hx, hy⟩

theorem addSrc_distinct {ss : List Src} (h : (ss.map (·.name)).Nodup) (s : Src) : ((addSrc ss s).map (·.name)).Nodup := by
  unfold addSrc
  split
  · exact h
  · rename_i hn
    rw [List.map_append, List.nodup_append]
    refine ⟨h, by simp, ?_⟩
    intro a ha b hb
    simp only [List.map_cons, List.map_nil, List.mem_singleton] at hb
    subst hb
    rintro rfl
    obtain ⟨x, hx, he⟩ := List.mem_map.mp ha
    exact hn (List.any_eq_true.mpr ⟨x, hx, by simpa using he⟩)

theorem SameUpToOrder.refl {c : Ctx V} (h : DistinctNames c) : SameUpToOrder c c :=
  ⟨rfl, rfl, .refl _, .refl _, rfl, h⟩

theorem fromItems_order {cs cs' : List (Ctx V)} (h : List.Forall₂ SameUpToOrder cs cs') : ∀ (l : List (FItem V)) (ctx : Ctx V),
    DistinctNames ctx → (∀ n q, FItem.nested n q ∈ l → ∀ cs cs', List.Forall₂ SameUpToOrder cs cs' → q cs = q cs') →
    fromItems cs ctx l = fromItems cs' ctx l ∧ DistinctNames (fromItems cs ctx l).1
  | [], ctx, hd, _ => ⟨rfl, hd⟩
  | .unknown :: _, ctx, hd, _ => ⟨rfl, hd⟩
  | .table n cols :: rest, ctx, hd, hs => by
    have := fromItems_order h rest { ctx with sources := addSrc ctx.sources ⟨n, true, cols⟩ } (addSrc_distinct hd _)
      fun n q hq => hs n q (List.mem_cons_of_mem _ hq)
    simp only [fromItems]
    rw [inUse_order h, this.1]
    exact ⟨rfl, by rw [← this.1]; exact this.2⟩
  | .nested n q :: rest, ctx, hd, hs => by
    have hq := hs n q List.mem_cons_self (ctx :: cs) (ctx :: cs') (.cons (.refl hd) h)
    have := fromItems_order h rest { ctx with sources := addSrc ctx.sources ⟨n, false, nestedCols (q (ctx :: cs'))⟩ }
      (addSrc_distinct hd _) fun n q hq => hs n q (List.mem_cons_of_mem _ hq)
    simp only [fromItems]
    rw [hq, inUse_order h]
    split
    · exact ⟨rfl, addSrc_distinct hd _⟩
    · rw [this.1]
      exact ⟨rfl, by rw [← this.1]; exact this.2⟩

theorem condition_order {cs cs' : List (Ctx V)} (h : List.Forall₂ SameUpToOrder cs cs') (b : Bool) (o : Option (Expr V))
    (hs : ∀ e, o = some e → StableExpr e) : condition cs b o = condition cs' b o := by
  cases o with
  | none => rfl
  | some e => simp only [condition]; rw [analyze_order h e (hs e rfl)]

theorem groupKeys_order {cs cs' : List (Ctx V)} (h : List.Forall₂ SameUpToOrder cs cs') : ∀ (l : List (Item V)),
    (∀ g ∈ l, StableExpr g.expr) → groupKeys cs l = groupKeys cs' l
  | [], _ => rfl
  | g :: gs, hs => by
    simp only [groupKeys]
    rw [analyze_order h _ (hs g List.mem_cons_self), groupKeys_order h gs fun x hx => hs x (List.mem_cons_of_mem _ hx)]

theorem selectItems_order {cs cs' : List (Ctx V)} (h : List.Forall₂ SameUpToOrder cs cs') (gr : Bool) :
    ∀ (l : List (Item V)) (n : Nat), (∀ g ∈ l, StableExpr g.expr) → selectItems cs gr n l = selectItems cs' gr n l
  | [], _, _ => rfl
  | g :: gs, n, hs => by
    have ih := fun m => selectItems_order h gr gs m fun x hx => hs x (List.mem_cons_of_mem _ hx)
    simp only [selectItems]
    rw [analyze_order h _ (hs g List.mem_cons_self)]
    simp only [ih]

theorem starOuts_order {cs cs' : List (Ctx V)} (h : List.Forall₂ SameUpToOrder cs cs') : ∀ (l : List (Label × Expr V)),
    (∀ p ∈ l, StableExpr p.2) → starOuts cs l = starOuts cs' l
  | [], _ => rfl
  | (a, e) :: l, hs => by
    simp only [starOuts]
    rw [analyze_order h _ (hs (a, e) List.mem_cons_self), starOuts_order h l fun x hx => hs x (List.mem_cons_of_mem _ hx)]

theorem orderItems_order {cs cs' : List (Ctx V)} (h : List.Forall₂ SameUpToOrder cs cs') (gr : Bool) :
    ∀ (l : List (Expr V)), (∀ g ∈ l, StableExpr g) → orderItems cs gr l = orderItems cs' gr l
  | [], _ => rfl
  | g :: gs, hs => by
    have ih := orderItems_order h gr gs fun x hx => hs x (List.mem_cons_of_mem _ hx)
    simp only [orderItems]
    rw [analyze_order h _ (hs g List.mem_cons_self)]
    simp only [ih]

theorem starExprs_stable (b : Block V) (ss : List Src) : ∀ p ∈ starExprs b ss, StableExpr p.2 := by
  intro p hp
  unfold starExprs at hp
  split at hp
  · cases hp
  · obtain ⟨g, _, rfl⟩ := List.mem_map.mp hp; trivial
  · cases hp
  · obtain ⟨s, _, hp⟩ := List.mem_flatMap.mp hp
    obtain ⟨c, _, rfl⟩ := List.mem_map.mp hp; trivial

/-- the analysis of a statement does not depend on the order of the sources of enclosing statements -/
theorem analyzeBlock_outer {enum : List Src → List Src} (henum : ∀ l, (enum l).Perm l) {cs cs' : List (Ctx V)}
    (h : List.Forall₂ SameUpToOrder cs cs') {b : Block V} (hs : StableBlock b) :
    analyzeBlock enum cs b = analyzeBlock enum cs' b := by
  obtain ⟨h1, hd⟩ := fromItems_order h (b.from_.getD []) ⟨.from_, false, [], [], []⟩ (by simp [DistinctNames]) hs.from_
  have hd' : ((enum (fromItems cs' ⟨.from_, false, [], [], []⟩ (b.from_.getD [])).1.sources).map (·.name)).Nodup := by
    rw [← h1]
    exact ((henum _).map _).nodup_iff.mpr hd
  have hc : ∀ st g rs ks, List.Forall₂ SameUpToOrder
      (⟨st, g, enum (fromItems cs' ⟨.from_, false, [], [], []⟩ (b.from_.getD [])).1.sources, rs, ks⟩ :: cs)
      (⟨st, g, enum (fromItems cs' ⟨.from_, false, [], [], []⟩ (b.from_.getD [])).1.sources, rs, ks⟩ :: cs') :=
    fun st g rs ks => .cons (.refl hd') h
  simp only [analyzeBlock]
  rw [h1, condition_order (hc _ _ _ _) _ _ hs.where_, groupKeys_order (hc _ _ _ _) _ hs.groupBy,
    condition_order (hc _ _ _ _) _ _ hs.having, starOuts_order (hc _ _ _ _) _ (starExprs_stable b _),
    selectItems_order (hc _ _ _ _) _ _ _ hs.select, orderItems_order (hc _ _ _ _) _ _ hs.orderBy]

/-! ## The order of the own sources -/

theorem starOuts_eq (cs : List (Ctx V)) : ∀ (l : List (Label × Expr V)), starOuts cs l =
    ⟨l.map fun p => ⟨p.1, (analyze cs p.2).ty, (analyze cs p.2).rex⟩, l.any fun p => (analyze cs p.2).ty.isVec,
      l.any fun p => (analyze cs p.2).ty.isScalar, l.any fun p => (analyze cs p.2).err, l.any fun p => (analyze cs p.2).crash⟩
  | [] => rfl
  | (a, e) :: l => by simp [starOuts, starOuts_eq cs l]

theorem any_perm {α : Type} {l l' : List α} (h : l.Perm l') (p : α → Bool) : l.any p = l'.any p := by
  rw [Bool.eq_iff_iff, List.any_eq_true, List.any_eq_true]
  constructor
  · rintro ⟨x, hx, hy⟩; exact ⟨x, h.mem_iff.mp hx, hy⟩
  · rintro ⟨x, hx, hy⟩; exact ⟨x, h.mem_iff.mpr hx, hy⟩

theorem starExprs_perm (b : Block V) {ss ss' : List Src} (h : ss.Perm ss') : (starExprs b ss).Perm (starExprs b ss') := by
  unfold starExprs
  split
  · exact .refl _
  · exact .refl _
  · exact .refl _
  · exact h.flatMap_right _

theorem analyzeBlock_enum {enum enum' : List Src → List Src} (h : ∀ l, (enum l).Perm l) (h' : ∀ l, (enum' l).Perm l)
    {outer : List (Ctx V)} (ho : ∀ c ∈ outer, DistinctNames c) {b : Block V} (hs : StableBlock b) :
    (analyzeBlock enum outer b).where_ = (analyzeBlock enum' outer b).where_ ∧
    (analyzeBlock enum outer b).keys = (analyzeBlock enum' outer b).keys ∧
    (analyzeBlock enum outer b).having = (analyzeBlock enum' outer b).having ∧
    (analyzeBlock enum outer b).results.Perm (analyzeBlock enum' outer b).results ∧
    (b.star = false → (analyzeBlock enum outer b).results = (analyzeBlock enum' outer b).results) ∧
    (analyzeBlock enum outer b).order = (analyzeBlock enum' outer b).order ∧
    (analyzeBlock enum outer b).err = (analyzeBlock enum' outer b).err ∧
    (analyzeBlock enum outer b).crash = (analyzeBlock enum' outer b).crash := by
  have hrefl : List.Forall₂ SameUpToOrder outer outer := by
    induction outer with
    | nil => exact .nil
    | cons c cs ih => exact .cons (.refl (ho c List.mem_cons_self)) (ih fun x hx => ho x (List.mem_cons_of_mem _ hx))
  obtain ⟨_, hd⟩ := fromItems_order hrefl (b.from_.getD []) ⟨.from_, false, [], [], []⟩ (by simp [DistinctNames]) hs.from_
  generalize hF : fromItems outer ⟨.from_, false, [], [], []⟩ (b.from_.getD []) = F at hd
  have hss : (enum F.1.sources).Perm (enum' F.1.sources) := (h _).trans (h' _).symm
  have hd1 : ((enum F.1.sources).map (·.name)).Nodup := ((h _).map _).nodup_iff.mpr hd
  have hc : ∀ st g (rs rs' : List (Named V)) ks, rs.Perm rs' → List.Forall₂ SameUpToOrder
      (⟨st, g, enum F.1.sources, rs, ks⟩ :: outer) (⟨st, g, enum' F.1.sources, rs', ks⟩ :: outer) :=
    fun st g rs rs' ks hr => .cons ⟨rfl, rfl, hss, hr, rfl, hd1⟩ hrefl
  have e1 := condition_order (hc .where_ false [] [] [] (.refl _)) false b.where_ hs.where_
  have e2 := groupKeys_order (hc .groupBy true [] [] [] (.refl _)) (b.groupBy.getD []) hs.groupBy
  simp only [analyzeBlock, hF]
  rw [e1, e2]
  generalize hK : groupKeys (⟨.groupBy, true, enum' F.1.sources, [], []⟩ :: outer) (b.groupBy.getD []) = K
  have e3 := condition_order (hc .having true [] [] K.1 (.refl _)) true b.having hs.having
  rw [e3]
  generalize hg : (b.groupBy.isSome || b.having.isSome) = gr
  have e4 := selectItems_order (hc .select gr [] [] K.1 (.refl _)) gr b.select 0 hs.select
  rw [e4]
  have e5 := starOuts_order (hc .select gr [] [] K.1 (.refl _)) (starExprs b (enum F.1.sources)) (starExprs_stable b _)
  rw [e5]
  have hpS := starExprs_perm b hss
  rw [starOuts_eq, starOuts_eq]
  have hres : (List.map (fun p : Label × Expr V => (⟨p.1, (analyze (⟨.select, gr, enum' F.1.sources, [], K.1⟩ :: outer) p.2).ty,
      (analyze (⟨.select, gr, enum' F.1.sources, [], K.1⟩ :: outer) p.2).rex⟩ : Named V)) (starExprs b (enum F.1.sources)) ++
        (selectItems (⟨.select, gr, enum' F.1.sources, [], K.1⟩ :: outer) gr 0 b.select).results).Perm
      (List.map (fun p : Label × Expr V => (⟨p.1, (analyze (⟨.select, gr, enum' F.1.sources, [], K.1⟩ :: outer) p.2).ty,
      (analyze (⟨.select, gr, enum' F.1.sources, [], K.1⟩ :: outer) p.2).rex⟩ : Named V)) (starExprs b (enum' F.1.sources)) ++
        (selectItems (⟨.select, gr, enum' F.1.sources, [], K.1⟩ :: outer) gr 0 b.select).results) :=
    (hpS.map _).append_right _
  have e6 := orderItems_order (hc .orderBy gr _ _ K.1 hres) gr b.orderBy hs.orderBy
  rw [e6]
  refine ⟨rfl, rfl, rfl, hres, ?_, rfl, ?_, ?_⟩
  · intro hst
    simp [starExprs, hst]
  · simp only [any_perm hpS, any_perm hss]
  · simp only [any_perm hpS]

end Mutable.Sema
