import Verif.Greedy.Lin
/-! The loop over the roots, the linearization and the plan of IK/KBZ. -/
namespace Mutable
open SB
namespace PE
variable {C D : Type} [LinearOrder C] {E : Env C D} {est : SB → D} {base : Nat → C} {W : Type} {X : LinEnv C D W}

theorem chain_sub {S : SB} {xs : List Nat} : ∀ q ∈ chain S xs, Sub S q.1 := by
  induction xs generalizing S with
  | nil => simp [chain]
  | cons x xs ih =>
    intro q hq
    rcases List.mem_cons.1 hq with rfl | hq
    · exact Sub.refl _
    · exact (sub_left _ _).trans (ih q hq)

theorem chain_snd {S : SB} {xs : List Nat} : ∀ q ∈ chain S xs, ∃ x, q.2 = SB.singleton x := by
  induction xs generalizing S with
  | nil => simp [chain]
  | cons x xs ih =>
    intro q hq
    rcases List.mem_cons.1 hq with rfl | hq
    · exact ⟨x, rfl⟩
    · exact ih q hq

theorem joinAll_avail {S : SB} {xs : List Nat} (h : xs ≠ []) : ∃ q ∈ chain S xs, q.1 ||| q.2 = joinAll S xs := by
  induction xs generalizing S with
  | nil => exact absurd rfl h
  | cons x xs ih =>
    by_cases hx : xs = []
    · subst hx; exact ⟨(S, SB.singleton x), by simp [chain], rfl⟩
    · obtain ⟨q, a, b⟩ := ih (S := S ||| SB.singleton x) hx
      exact ⟨q, by simp [chain, a], b⟩

theorem mem_joinAll {xs : List Nat} (hx : ∀ x ∈ xs, x < 64) {S : SB} (i : Nat) : Mem (joinAll S xs) i ↔ Mem S i ∨ i ∈ xs := by
  induction xs generalizing S with
  | nil => simp [joinAll]
  | cons x xs ih =>
    rw [joinAll, ih (fun y hy => hx y (by simp [hy])), mem_or, mem_singleton, List.mem_cons]
    have := hx x (by simp)
    constructor
    · rintro ((h | h) | h)
      exacts [Or.inl h, Or.inr (Or.inl h.2), Or.inr (Or.inr h)]
    · rintro (h | h | h)
      exacts [Or.inl (Or.inl h), Or.inl (Or.inr ⟨by omega, h⟩), Or.inr h]

theorem set_eq_or {S : SB} {x : Nat} (hx : x < 64) : set S x true = S ||| SB.singleton x := by
  refine SB.ext fun j => ?_
  rw [mem_setOp S x hx, mem_or, mem_singleton]
  by_cases hj : j = x
  · subst hj; simp [hx]
  · simp [hj]

theorem union_ne {A B : SB} (hd : A &&& B = 0#64) (hB : B ≠ 0#64) {S : SB} (hS : Sub S A) : A ||| B ≠ S := by
  intro h
  obtain ⟨i, hi⟩ := (ne_zero_iff _).1 hB
  have : Mem S i := by rw [← h]; exact sub_right _ _ i hi
  exact (disj_iff _ _).1 hd i (hS i this) hi

omit [LinearOrder C] in
theorem clearPrefixes_spec (inf : C) (xs : List Nat) : ∀ (S : SB) (T : PT C D),
    (∀ q ∈ chain S xs, q.1 &&& q.2 = 0#64 ∧ q.1 ≠ 0#64 ∧ q.2 ≠ 0#64 ∧ (T (q.1 ||| q.2)).model.isSome ∧ (T (q.1 ||| q.2)).left ≠ 0#64 ∧
      (T (q.1 ||| q.2)).right ≠ 0#64) →
    ∃ T', clearPrefixes inf S xs T = some T' ∧ (∀ q ∈ chain S xs, T' (q.1 ||| q.2) = emptyEntry inf) ∧
      ∀ Y, (∀ q ∈ chain S xs, q.1 ||| q.2 ≠ Y) → T' Y = T Y := by
  induction xs with
  | nil => intro S T _; exact ⟨T, rfl, by simp [chain], fun Y _ => rfl⟩
  | cons x xs ih =>
    intro S T h
    obtain ⟨h1, h2, h3, h4, h5, h6⟩ := h _ (List.mem_cons_self ..)
    simp only at h1 h2 h3 h4 h5 h6
    have hx : x < 64 := by
      obtain ⟨i, hi⟩ := (ne_zero_iff _).1 h3
      obtain ⟨a, b⟩ := (mem_singleton _ _).1 hi
      omega
    have hne : ∀ q ∈ chain (S ||| SB.singleton x) xs, q.1 ||| q.2 ≠ S ||| SB.singleton x := by
      intro q hq
      obtain ⟨a, b, c, _⟩ := h q (List.mem_cons_of_mem _ hq)
      exact union_ne a c (chain_sub q hq)
    obtain ⟨T', r1, r2, r3⟩ := ih (S ||| SB.singleton x) (setEntry T (S ||| SB.singleton x) (emptyEntry inf)) (by
      intro q hq
      have := h q (List.mem_cons_of_mem _ hq)
      simp only [setEntry, hne q hq, if_false]
      exact this)
    refine ⟨T', ?_, ?_, ?_⟩
    · have g : get S x = false := by
        by_contra hc
        rw [Bool.not_eq_false, get_iff] at hc
        exact (disj_iff _ _).1 h1 x hc ((mem_singleton _ _).2 ⟨hx, rfl⟩)
      have g2 : isSingleton (S ||| SB.singleton x) = false := by
        by_contra hc
        rw [Bool.not_eq_false, isSingleton_iff] at hc
        obtain ⟨n, a, b⟩ := hc
        exact size_union_ne_one h1 h2 h3 (by rw [b]; exact size_singleton a)
      have g3 : (T (S ||| SB.singleton x)).model.isNone = false := by
        cases hm : (T (S ||| SB.singleton x)).model with
        | none => rw [hm] at h4; simp at h4
        | some m => rfl
      have g4 : ∀ Y : SB, Y ≠ 0#64 → isEmpty Y = false := by
        intro Y hY; simpa [isEmpty] using hY
      rw [clearPrefixes]
      simp only [g, set_eq_or hx, g2, g3, g4 _ h5, g4 _ h6, Bool.or_self, Bool.false_eq_true, if_false]
      exact r1
    · intro q hq
      rcases List.mem_cons.1 hq with rfl | hq
      · rw [r3 _ hne]; simp [setEntry]
      · exact r2 q hq
    · intro Y hY
      rw [r3 Y fun q hq => hY q (List.mem_cons_of_mem _ hq)]
      have := hY _ (List.mem_cons_self ..)
      simp only [setEntry]
      rw [if_neg (fun hc => this hc.symm)]

/-- After clearing, the table is as before. -/
theorem clear_init {n : Nat} (hn64 : E.n ≤ 64) (hn : n = E.n) {may : SB → SB → Prop} {S : SB} {xs : List Nat} {T : PT C D}
    (h : RunInv E est base may (chain S xs) T) (inf : C) :
    ∃ T', clearPrefixes inf S xs T = some T' ∧ Init est base n T' := by
  subst hn
  obtain ⟨T', r1, r2, r3⟩ := clearPrefixes_spec inf xs S T (by
    intro q hq
    have hok := h.ok q hq
    have hp := h.has q hq
    have hs := size_union_ne_one hok.dis hok.ne1 hok.ne2
    obtain ⟨A, B, a, b, c, d, e, f, g⟩ := h.dp.split _ hs hp
    have hAB : A ≠ 0#64 ∧ B ≠ 0#64 := by
      rcases a with a | a
      · exact ⟨(h.ok _ a).ne1, (h.ok _ a).ne2⟩
      · exact ⟨(h.ok _ a).ne2, (h.ok _ a).ne1⟩
    exact ⟨hok.dis, hok.ne1, hok.ne2, by rw [h.dp.models.some _ (sub_all_union hok.sub1 hok.sub2) hp]; rfl, by rw [b]; exact hAB.1,
      by rw [c]; exact hAB.2⟩)
  refine ⟨T', r1, ⟨fun i hi => ?_, fun Y hY => ?_, fun Y d hd => ?_⟩⟩
  · have hs : size (SB.singleton i) = 1 := size_singleton (by omega)
    have : T' (SB.singleton i) = T (SB.singleton i) := r3 _ fun q hq hc => by
      have hok := h.ok q hq
      exact size_union_ne_one hok.dis hok.ne1 hok.ne2 (by rw [hc]; exact hs)
    rw [this]
    exact ⟨h.dp.models.some _ (fun j hj => by rw [((mem_singleton _ _).1 hj).2, mem_all hn64]; exact hi) (h.avail (Or.inl hs)), h.dp.base i hi⟩
  · by_cases hc : ∃ q ∈ chain S xs, q.1 ||| q.2 = Y
    · obtain ⟨q, a, b⟩ := hc
      rw [← b, r2 q a]; rfl
    · push Not at hc
      rw [r3 Y hc]
      by_contra hl
      obtain ⟨q, a, b⟩ := h.only Y hY (by simp [hasPlan, isEmpty, hl])
      exact hc q a b
  · by_cases hc : ∃ q ∈ chain S xs, q.1 ||| q.2 = Y
    · obtain ⟨q, a, b⟩ := hc
      rw [← b, r2 q a] at hd; cases hd
    · push Not at hc
      rw [r3 Y hc] at hd
      exact h.dp.models.ok Y d hd

/-- The spanning tree connects all relations. -/
def TreeConn (n : Nat) (F : AdjMat) : Prop := ∀ a b, a < n → b < n → Relation.ReflTransGen F.Edge a b

theorem RankLin.closed {F : AdjMat} {better : W → W → Prop} {rank : Nat → Nat → W} {S : SB} {xs : List Nat}
    (h : RankLin F better rank S xs) : ∀ p y, Mem (joinAll S xs) p → F.Edge p y → Mem (joinAll S xs) y := by
  induction h with
  | done h => intro p y a b; exact h p y a (by rw [AdjMat.adj_eq]; exact b)
  | step _ _ _ _ _ ih => exact ih

theorem RankLin.all {F : AdjMat} {n : Nat} (hn : n ≤ 64) (hlt : ∀ a b, F.Edge a b → a < n ∧ b < n) (hcn : TreeConn n F) {better : W → W → Prop}
    {rank : Nat → Nat → W} {S : SB} {xs : List Nat} (h : RankLin F better rank S xs) {r : Nat} (hr : r < n) (hS : Mem S r)
    (hsub : Sub S (all n)) : joinAll S xs = SB.all n := by
  have hcl := h.closed
  have hsub' : ∀ i, Mem (joinAll S xs) i → i < n := by
    clear hS hcl
    induction h with
    | done h => intro i hi; exact (mem_all hn i).1 (hsub i hi)
    | step hp hx he _ _ ih =>
      rw [AdjMat.adj_eq] at he
      refine ih (fun i hi => ?_)
      rw [mem_or] at hi
      rcases hi with hi | hi
      · exact hsub i hi
      · rw [((mem_singleton _ _).1 hi).2, mem_all hn]; exact (hlt _ _ he).2
  have hin : Mem (joinAll S xs) r := by
    clear hcl hsub' hsub
    induction h with
    | done => exact hS
    | step _ _ _ _ _ ih => exact ih (sub_left _ _ r hS)
  refine SB.ext fun i => ?_
  rw [mem_all hn]
  refine ⟨hsub' i, fun hi => ?_⟩
  have hp := hcn r i hr hi
  induction hp with
  | refl => exact hin
  | tail _ e ih =>
    exact hcl _ _ (ih ((hlt _ _ e).1)) e

/-- What is known of the linearization of a root. -/
structure RootLin (E : Env C D) (est : SB → D) (X : LinEnv C D W) (F : AdjMat) (better : W → W → Prop) (r : Nat) (xs : List Nat) : Prop where
  root : r < E.n
  rank : RankLin F better (rankF est X) (SB.singleton r) xs
  ok : ∀ q ∈ chain (SB.singleton r) xs, PairOK E.n (Adjacent E.M) q
  all : joinAll (SB.singleton r) xs = SB.all E.n

theorem linRoot_spec (hE : Sane E est) (hn : E.n ≤ 64) {F : AdjMat} (hF : TreeOK E.M E.n F) (hcn : TreeConn E.n F) {better : W → W → Prop}
    (hp : PickR better X.pickR) {T : PT C D} (hT : Init est base E.n T) (best : List Nat × C) {r : Nat} (hr : r < E.n) :
    ∃ T' xs, linRoot E X F (T, best) r = some (T', if linCost E est base (base r) (SB.singleton r) xs < best.2 then
        (r :: xs, linCost E est base (base r) (SB.singleton r) xs) else best) ∧
      Init est base E.n T' ∧ RootLin E est X F better r xs := by
  have mr : Mem (SB.singleton r) r := (mem_singleton _ _).2 ⟨by omega, rfl⟩
  have hsubr : Sub (SB.singleton r) (SB.all E.n) := fun j hj => by rw [((mem_singleton _ _).1 hj).2, mem_all hn]; exact hr
  obtain ⟨T1, a1, a2⟩ := pushRanked_spec (X := X) hE hn hF r hT.model (fun i hi => (hT.single i hi).1)
    (members (F.neighbors (SB.singleton r))) (fun y hy => by
      rw [AdjMat.mem_members, AdjMat.mem_neighbors] at hy
      obtain ⟨a, q, b, c⟩ := hy
      rw [((mem_singleton _ _).1 b).2] at c
      exact ⟨c, fun hc => a (by rw [hc]; exact mr)⟩) T [] (Filled.refl T)
  have hR := (RunInv.init (E := E) (may := Adjacent E.M) hn hT).models a2.same a2.mod
  obtain ⟨T2, ys, b1, b2, b3, b4⟩ := linLoop_spec (base := base) hE hn hF hp 64 _ (SB.singleton r) [r] T1 [] (QInv.init hn hr)
    ((ne_zero_iff _).2 ⟨r, mr⟩) hsubr hR (Or.inl (size_singleton (by omega))) (by simp) (by omega)
  rw [List.nil_append] at b2
  obtain ⟨T3, c1, c2⟩ := clear_init hn rfl b2 X.inf
  have hall := b3.all hn hF.lt hcn hr mr hsubr
  have hc1 : (T1 (SB.singleton r)).cost = base r := by rw [(a2.same _).2.2]; exact (hT.single r hr).2
  refine ⟨T3, ys, ?_, c2, hr, b3, b2.ok, hall⟩
  rw [linRoot]
  rw [List.nil_append] at a1
  simp only [a1, b1, List.singleton_append, List.tail_cons, c1, b4, hc1]
  split <;> rfl

theorem linRoots_spec (hE : Sane E est) (hn : E.n ≤ 64) {F : AdjMat} (hF : TreeOK E.M E.n F) (hcn : TreeConn E.n F) {better : W → W → Prop}
    (hp : PickR better X.pickR) (hfin : ∀ r xs, RootLin E est X F better r xs → linCost E est base (base r) (SB.singleton r) xs < X.inf)
    (rs : List Nat) (hrs : ∀ r ∈ rs, r < E.n) :
    ∀ {T : PT C D}, Init est base E.n T → ∃ T' lin c, rs.foldlM (linRoot E X F) (T, [], X.inf) = some (T', lin, c) ∧ Init est base E.n T' ∧
      (∀ r ∈ rs, ∃ xs, RootLin E est X F better r xs ∧ c ≤ linCost E est base (base r) (SB.singleton r) xs) ∧
      ((rs = [] ∧ lin = [] ∧ c = X.inf) ∨ ∃ r xs, lin = r :: xs ∧ RootLin E est X F better r xs ∧ c = linCost E est base (base r) (SB.singleton r) xs) := by
  induction rs using List.reverseRecOn with
  | nil => intro T hT; exact ⟨T, [], X.inf, rfl, hT, by simp, Or.inl ⟨rfl, rfl, rfl⟩⟩
  | append_singleton rs r ih =>
    intro T hT
    obtain ⟨T1, lin, c, a1, a2, a3, a4⟩ := ih (fun q hq => hrs q (by simp [hq])) hT
    obtain ⟨T2, xs, b1, b2, b3⟩ := linRoot_spec hE hn hF hcn hp a2 (lin, c) (hrs r (by simp))
    by_cases hlt : linCost E est base (base r) (SB.singleton r) xs < c
    · refine ⟨T2, r :: xs, linCost E est base (base r) (SB.singleton r) xs, ?_, b2, ?_, Or.inr ⟨r, xs, rfl, b3, rfl⟩⟩
      · rw [List.foldlM_append, a1]; simp [b1, hlt]
      · intro q hq
        rcases List.mem_append.1 hq with hq | hq
        · obtain ⟨ys, h1, h2⟩ := a3 q hq
          exact ⟨ys, h1, hlt.le.trans h2⟩
        · rw [List.mem_singleton] at hq; subst hq; exact ⟨xs, b3, le_refl _⟩
    · refine ⟨T2, lin, c, ?_, b2, ?_, ?_⟩
      · rw [List.foldlM_append, a1]; simp [b1, hlt]
      · intro q hq
        rcases List.mem_append.1 hq with hq | hq
        · exact a3 q hq
        · rw [List.mem_singleton] at hq; subst hq; exact ⟨xs, b3, not_lt.1 hlt⟩
      · rcases a4 with ⟨h1, h2, h3⟩ | h
        · exact absurd (h3 ▸ hfin r xs b3) hlt
        · exact Or.inr h

theorem selModels_spec (hE : Sane E est) {T : PT C D} (hT : Init est base E.n T) :
    ∃ T', selModels E T = some T' ∧ Filled est T T' := by
  have key : ∀ (l : List (Nat × Nat)), (∀ e ∈ l, e.1 < e.2 ∧ e.2 < E.n) → ∀ T1, Filled est T T1 →
      ∃ T', l.foldlM (fun T e => ensureModel E T (SB.singleton e.1) (SB.singleton e.2)) T1 = some T' ∧ Filled est T T' := by
    intro l
    induction l with
    | nil => intro _ T1 h; exact ⟨T1, rfl, h⟩
    | cons e l ih =>
      intro hl T1 h
      obtain ⟨h1, h2⟩ := hl e (by simp)
      obtain ⟨T2, a1, _, a3, a4⟩ := ensureModel_spec hE (single_disj (i := e.1) (j := e.2) (by omega)) (h.ok hT.model)
        (h.model (hT.single e.1 (by omega)).1) (h.model (hT.single e.2 h2).1)
      obtain ⟨T3, b1, b2⟩ := ih (fun e he => hl e (by simp [he])) T2 (h.trans ⟨a3, a4⟩)
      exact ⟨T3, by rw [List.foldlM_cons, a1]; exact b1, b2⟩
  refine key _ ?_ T (Filled.refl T)
  intro e he
  simp only [edgeList, List.mem_flatMap, List.mem_map, List.mem_filter, List.mem_range, Bool.and_eq_true, decide_eq_true_eq] at he
  obtain ⟨u, h1, v, ⟨h2, h3, _⟩, rfl⟩ := he
  exact ⟨h3, h2⟩

omit [LinearOrder C] in
theorem Init.filled {n : Nat} {T T' : PT C D} (h : Init est base n T) (hf : Filled est T T') : Init est base n T' :=
  ⟨fun i hi => ⟨hf.model (h.single i hi).1, by rw [(hf.same _).2.2]; exact (h.single i hi).2⟩, fun S hS => by rw [(hf.same S).1]; exact h.noplan S hS,
    hf.ok h.model⟩

/-- The spanning tree used by the linearization. -/
theorem tree_ok (hW : E.M.WF) (hS : E.M.Symm) (hMn : E.M.n = E.n) (hn : E.n ≤ 64) (hc : E.M.ConnSet (all E.n)) (hp : AdjMat.PickAny X.pick) (w : Nat → Nat → W) :
    TreeOK E.M E.n (AdjMat.msf X.pick E.M w) ∧ TreeConn E.n (AdjMat.msf X.pick E.M w) := by
  obtain ⟨h1, h2, h3, h4, h5⟩ := AdjMat.msf_any hW hS w hp
  have hlt : ∀ a b, (AdjMat.msf X.pick E.M w).Edge a b → a < E.n ∧ b < E.n := fun a b h => by
    rw [← hMn]; exact hW.row _ _ (h3 a b h)
  refine ⟨⟨h2, h3, h4, hlt⟩, fun a b ha hb => ?_⟩
  have := hc a b ((mem_all hn a).2 ha) ((mem_all hn b).2 hb)
  induction this with
  | refl => exact .refl
  | tail _ e ih => exact (ih ((mem_all hn _).1 e.2.1)).trans (h5 _ _ e.1)

theorem linearize_spec (hE : Sane E est) (hn : E.n ≤ 64) (h0 : 1 ≤ E.n) (hW : E.M.WF) (hS : E.M.Symm) (hMn : E.M.n = E.n) (hc : E.M.ConnSet (all E.n))
    (hpk : AdjMat.PickAny X.pick) {better : W → W → Prop} (hp : PickR better X.pickR) (dflt : D) {T : PT C D} (hT : Init est base E.n T) {F : AdjMat}
    (hF : F = AdjMat.msf X.pick E.M (selectivity E X T dflt))
    (hfin : ∀ r xs, RootLin E est X F better r xs → linCost E est base (base r) (SB.singleton r) xs < X.inf) :
    ∃ T' r xs, linearize E X dflt T = some (T', r :: xs) ∧ Init est base E.n T' ∧ RootLin E est X F better r xs ∧
      ∀ r' , r' < E.n → ∃ xs', RootLin E est X F better r' xs' ∧
        linCost E est base (base r) (SB.singleton r) xs ≤ linCost E est base (base r') (SB.singleton r') xs' := by
  obtain ⟨k1, k2⟩ := tree_ok (X := X) hW hS hMn hn hc hpk (selectivity E X T dflt)
  rw [← hF] at k1 k2
  obtain ⟨T1, a1, a2⟩ := selModels_spec hE hT
  obtain ⟨T2, lin, c, b1, b2, b3, b4⟩ := linRoots_spec (X := X) hE hn k1 k2 hp hfin (List.range E.n) (fun r hr => List.mem_range.1 hr) (hT.filled a2)
  rcases b4 with ⟨h, _⟩ | ⟨r, xs, h1, h2, h3⟩
  · rw [List.range_eq_nil] at h; omega
  · refine ⟨T2, r, xs, ?_, b2, h2, fun r' hr' => ?_⟩
    · rw [linearize]; subst hF; simp only [a1, b1, h1, Option.map_some]
    · obtain ⟨xs', g1, g2⟩ := b3 r' (List.mem_range.2 hr')
      exact ⟨xs', g1, h3 ▸ g2⟩

/-- Number of relations of a linearization. -/
theorem size_joinAll {n : Nat} {may : SB → SB → Prop} {S : SB} {xs : List Nat} (h : ∀ q ∈ chain S xs, PairOK n may q) :
    size (joinAll S xs) = size S + xs.length := by
  induction xs generalizing S with
  | nil => rfl
  | cons x xs ih =>
    have hq := h _ (List.mem_cons_self ..)
    have hx : x < 64 := by
      obtain ⟨i, hi⟩ := (ne_zero_iff _).1 hq.ne2
      obtain ⟨a, b⟩ := (mem_singleton _ _).1 hi
      omega
    rw [joinAll, ih fun q hq => h q (List.mem_cons_of_mem _ hq), HS.size_union_disj (A := S) hq.dis, size_singleton hx, List.length_cons]; omega

theorem RootLin.length {F : AdjMat} {better : W → W → Prop} (hn : E.n ≤ 64) {r : Nat} {xs : List Nat} (h : RootLin E est X F better r xs) :
    (r :: xs).length = E.n := by
  have := size_joinAll h.ok
  have hr := h.root
  rw [h.all, size_all hn, size_singleton (by omega)] at this
  rw [List.length_cons]; omega

/-- One side is a single relation. -/
def LinMay (M : AdjMat) (A B : SB) : Prop := Adjacent M A B ∧ (size A = 1 ∨ size B = 1)

theorem LinMay.linear {M : AdjMat} {n : Nat} (hn : n ≤ 64) {t : Tree} {S : SB} (h : IsPlan n (LinMay M) t S) : IsPlan n (Adjacent M) t S ∧ Linear t := by
  have single : ∀ {t : Tree} {S : SB}, IsPlan n (LinMay M) t S → size S = 1 → ∃ i, t = .leaf i := by
    intro t S h hs
    cases h with
    | leaf i hi => exact ⟨i, rfl⟩
    | node hl hr hd hm => exact absurd hs (size_union_ne_one hd (isPlan_ne hn hl) (isPlan_ne hn hr))
  induction h with
  | leaf i hi => exact ⟨.leaf i hi, .leaf i⟩
  | node hl hr hd hm ihl ihr =>
    refine ⟨.node ihl.1 ihr.1 hd hm.1, ?_⟩
    rcases hm.2 with h | h
    · obtain ⟨i, rfl⟩ := single hl h; exact .left i ihr.2
    · obtain ⟨i, rfl⟩ := single hr h; exact .right i ihl.2

theorem linJoin_spec (hE : Sane E est) (hM : E.M.Symm) (hn : E.n ≤ 64) (xs : List Nat) : ∀ (S : SB) (T : PT C D) (done : List (SB × SB)),
    RunInv E est base (LinMay E.M) done T → Avail done S → (∀ q ∈ done, Sub (q.1 ||| q.2) S) →
    (∀ q ∈ chain S xs, PairOK E.n (Adjacent E.M) q) →
    ∃ T' done', linJoin E S xs T = some T' ∧ RunInv E est base (LinMay E.M) done' T' ∧ Avail done' (joinAll S xs) ∧
      (T' (joinAll S xs)).cost = linCost E est base (T S).cost S xs := by
  induction xs with
  | nil => intro S T done hR hav _ _; exact ⟨T, done, rfl, hR, hav, rfl⟩
  | cons x xs ih =>
    intro S T done hR hav hle hch
    have hq := hch _ (List.mem_cons_self ..)
    obtain ⟨n1, n2, hd, s1, s2, hadj⟩ := hq
    simp only at n1 n2 hd s1 s2 hadj
    obtain ⟨i, hi⟩ := (ne_zero_iff _).1 n2
    obtain ⟨hi64, rfl⟩ := (mem_singleton _ _).1 hi
    have hnS : ¬ Mem S i := fun hc => (disj_iff _ _).1 hd i hc hi
    have hbef : ∀ q ∈ done, Before q (SB.singleton i, S) := by
      intro q hq
      have := hle q hq
      constructor
      · intro hc; simp only at hc
        exact hnS (this i (sub_left _ _ i (hc ▸ sub_left _ _ i hi)))
      · intro hc; simp only at hc
        exact hnS (this i (sub_right _ _ i (hc ▸ sub_left _ _ i hi)))
    have hd' := HS.disj_comm hd
    have hno : hasPlan T (SB.singleton i ||| S) = false := by
      by_contra hc
      obtain ⟨q, q1, q2⟩ := hR.only _ (size_union_ne_one hd' n2 n1) (by simpa using hc)
      exact hnS (hle q q1 i (q2 ▸ sub_left _ _ i hi))
    obtain ⟨T1, u1, u2, u3, u4⟩ := hR.step hE hn (A := SB.singleton i) (B := S)
      ⟨n2, n1, hd', s2, s1, adjacent_symm' hM _ _ hadj, Or.inl (size_singleton hi64)⟩ hbef (Or.inl (size_singleton hi64)) hav
    have hcomm : SB.singleton i ||| S = S ||| SB.singleton i := BitVec.or_comm _ _
    obtain ⟨T2, done', r1, r2, r3, r4⟩ := ih (S ||| SB.singleton i) T1 (done ++ [(SB.singleton i, S)]) u2
      (Or.inr ⟨(SB.singleton i, S), by simp, hcomm⟩) (by
        intro q hq
        rcases List.mem_append.1 hq with hq | hq
        · exact fun j hj => sub_left _ _ j (hle q hq j hj)
        · rw [List.mem_singleton] at hq; subst hq; rw [hcomm]; exact fun j hj => hj) (fun q hq => hch q (List.mem_cons_of_mem _ hq))
    refine ⟨T2, done', ?_, r2, r3, ?_⟩
    · rw [linJoin, u1]; simp only [hcomm]; exact r1
    · have hin : i < E.n := (mem_all hn i).1 (s2 i hi)
      rw [joinAll, r4, linCost, ← hcomm, u4 hno, hR.dp.base i hin, min_comm]

theorem ikkbz_spec (hE : Sane E est) (hn : E.n ≤ 64) (h0 : 1 ≤ E.n) (hW : E.M.WF) (hS : E.M.Symm) (hMn : E.M.n = E.n) (hc : E.M.ConnSet (all E.n))
    (hpk : AdjMat.PickAny X.pick) {better : W → W → Prop} (hp : PickR better X.pickR) (dflt : D) {T : PT C D} (hT : Init est base E.n T) {F : AdjMat}
    (hF : F = AdjMat.msf X.pick E.M (selectivity E X T dflt))
    (hfin : ∀ r xs, RootLin E est X F better r xs → linCost E est base (base r) (SB.singleton r) xs < X.inf) :
    ∃ T' t r xs, ikkbz E X dflt T = some T' ∧ (∃ T1, linearize E X dflt T = some (T1, r :: xs)) ∧ RootLin E est X F better r xs ∧
      Recorded T' (all E.n) t ∧ IsPlan E.n (Adjacent E.M) t (all E.n) ∧
      Linear t ∧ t.cost E est base = (T' (all E.n)).cost ∧ t.cost E est base = linCost E est base (base r) (SB.singleton r) xs ∧
      ∀ r' , r' < E.n → ∃ xs', RootLin E est X F better r' xs' ∧
        t.cost E est base ≤ linCost E est base (base r') (SB.singleton r') xs' := by
  obtain ⟨T1, r, xs, a1, a2, a3, a4⟩ := linearize_spec hE hn h0 hW hS hMn hc hpk hp dflt hT hF hfin
  have hr := a3.root
  obtain ⟨T2, done', b1, b2, b3, b4⟩ := linJoin_spec hE hS hn xs (SB.singleton r) T1 [] (RunInv.init hn a2) (Or.inl (size_singleton (by omega)))
    (by simp) a3.ok
  rw [a3.all] at b3 b4
  obtain ⟨t, c1, c2, c3⟩ := b2.tree (fun A B h => ⟨adjacent_symm' hS _ _ h.1, h.2.symm⟩) hn (Sub.refl _) b3
  obtain ⟨d1, d2⟩ := LinMay.linear hn c2
  rw [(a2.single r hr).2] at b4
  refine ⟨T2, t, r, xs, ?_, ⟨T1, a1⟩, a3, c1, d1, d2, c3, c3.trans b4, fun r' hr' => ?_⟩
  · rw [ikkbz, a1]
    simp only [a3.length hn, ne_eq, not_true_eq_false, if_false]
    exact b1
  · obtain ⟨xs', g1, g2⟩ := a4 r' hr'
    exact ⟨xs', g1, by rw [c3, b4]; exact g2⟩

end PE
end Mutable
