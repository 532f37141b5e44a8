import Verif.SumProd.History
import Mathlib.Algebra.Order.Field.Basic
import Mathlib.Tactic.Positivity
import Mathlib.Data.Finset.Card
import Mathlib.Data.Finset.Dedup
import Mathlib.Data.List.Nodup
/-
Networks represent tables.
-/
namespace Mutable.SumProd

/-- The number of rows whose attribute `a` meets a condition. -/
def cnt (rows : List Row) (a : Nat) (op : Op) (v : ℚ) : ℚ := (rows.countP fun r => sat op v (r a) : Nat)

theorem frac_cnt (rows : List Row) (a : Nat) (op : Op) (v : ℚ) : frac rows a op v = cnt rows a op v / rows.length := by
  unfold frac fracCol cnt
  rw [List.countP_map, List.length_map]
  rfl

theorem cnt_append (l m : List Row) (a : Nat) (op : Op) (v : ℚ) : cnt (l ++ m) a op v = cnt l a op v + cnt m a op v := by
  unfold cnt
  rw [List.countP_append]
  push_cast
  rfl

theorem cnt_perm {l m : List Row} (h : l.Perm m) (a : Nat) (op : Op) (v : ℚ) : cnt l a op v = cnt m a op v := by
  unfold cnt
  rw [h.countP_eq]

theorem cnt_le (l : List Row) (a : Nat) (op : Op) (v : ℚ) : cnt l a op v ≤ l.length := by
  unfold cnt
  exact_mod_cast List.countP_le_length

theorem cnt_nonneg (l : List Row) (a : Nat) (op : Op) (v : ℚ) : 0 ≤ cnt l a op v := by
  unfold cnt
  exact Nat.cast_nonneg _

theorem childCond_single (a : Nat) (c : Op × ℚ) (vs : List Nat) : childCond [(a, c)] vs = if a ∈ vs then some a else none := by
  unfold childCond
  by_cases h : a ∈ vs <;> simp [h]

theorem len_pos {rows : List Row} (h : rows ≠ []) : (0 : ℚ) < rows.length := by
  exact_mod_cast List.length_pos_iff.mpr h

/-! ### One condition -/

mutual
theorem shape_exact (op : Op) (v : ℚ) (a : Nat) : ∀ (s : Shape) (vars : List Nat) (rows : List Row), s.Valid vars rows → a ∈ vars → rows ≠ [] →
    (s.learn vars rows).eval [(a, (op, v))] a = frac rows a op v
  | .leaf, vars, rows, h, ha, hr => by
    obtain ⟨b, rfl⟩ := h
    rw [List.mem_singleton] at ha
    subst ha
    rw [Shape.learn, frac]
    exact learn_ask (by simpa using hr) op v _ _ (by simp [findCond])
  | .sum cs, vars, rows, h, ha, hr => by
    obtain ⟨h1, h2⟩ := h
    rw [Shape.learn, Node.eval, sum_exact op v a cs vars rows.length h1 ha (len_pos hr).ne', cnt_perm h2, frac_cnt]
  | .prod cs, vars, rows, h, ha, hr => by
    obtain ⟨h1, h2, h3⟩ := h
    rw [Shape.learn, Node.eval, prod_exact op v a cs rows h1 (h2.nodup_iff.mpr h3) hr, if_pos (h2.mem_iff.mpr ha)]
theorem sum_exact (op : Op) (v : ℚ) (a : Nat) : ∀ (cs : SumShape) (vars : List Nat) (total : Nat), cs.Valid vars → a ∈ vars → (total : ℚ) ≠ 0 →
    (cs.learn vars total).eval [(a, (op, v))] a = cnt cs.rows a op v / total
  | .nil, vars, total, _, _, _ => by simp [SumShape.learn, SumCs.eval, SumShape.rows, cnt]
  | .cons part s cs, vars, total, h, ha, ht => by
    obtain ⟨h1, h2, h3⟩ := h
    rw [SumShape.learn, SumCs.eval, shape_exact op v a s vars part h2 ha h1, sum_exact op v a cs vars total h3 ha ht, SumShape.rows, cnt_append, frac_cnt]
    have := (len_pos h1).ne'
    field_simp
theorem prod_exact (op : Op) (v : ℚ) (a : Nat) : ∀ (cs : ProdShape) (rows : List Row), cs.Valid rows → cs.vars.Nodup → rows ≠ [] →
    (cs.learn rows).eval [(a, (op, v))] = if a ∈ cs.vars then frac rows a op v else 1
  | .nil, rows, _, _, _ => by simp [ProdShape.learn, ProdCs.eval, ProdShape.vars]
  | .cons vs s cs, rows, h, hn, hr => by
    obtain ⟨h1, h2⟩ := h
    rw [ProdShape.vars, List.nodup_append] at hn
    obtain ⟨_, n2, n3⟩ := hn
    rw [ProdShape.learn, ProdCs.eval, childCond_single, prod_exact op v a cs rows h2 n2 hr, ProdShape.vars]
    by_cases ha : a ∈ vs
    · have : a ∉ cs.vars := fun hc => n3 a ha a hc rfl
      simp only [ha, if_true, this, if_false, mul_one, List.mem_append, true_or]
      exact shape_exact op v a s vs rows h1 ha hr
    · simp only [ha, if_false, List.mem_append, false_or]
end

/-! ### Several conditions -/

theorem findCond_mem {f : Filter} (hf : (f.map (·.1)).Nodup) {e : Nat × (Op × ℚ)} (he : e ∈ f) : findCond f e.1 = some e.2 := by
  unfold findCond
  induction f with
  | nil => simp at he
  | cons x f ih =>
    rw [List.map_cons, List.nodup_cons] at hf
    rw [List.find?_cons]
    rcases List.mem_cons.mp he with rfl | he
    · simp
    · have : x.1 ≠ e.1 := fun h => hf.1 (h ▸ List.mem_map_of_mem he)
      simp only [this, decide_false]
      exact ih hf.2 he

theorem childCond_some {f : Filter} {vs : List Nat} {a : Nat} (h : childCond f vs = some a) : a ∈ vs ∧ ∃ c, (a, c) ∈ f := by
  unfold childCond at h
  rw [Option.map_eq_some_iff] at h
  obtain ⟨e, he, rfl⟩ := h
  have := List.find?_some he
  exact ⟨by simpa using this, e.2, List.mem_of_find?_eq_some he⟩

theorem childCond_none {f : Filter} {vs : List Nat} (h : childCond f vs = none) : ∀ e ∈ f, e.1 ∉ vs := by
  unfold childCond at h
  rw [Option.map_eq_none_iff, List.find?_eq_none] at h
  intro e he
  simpa using h e he

mutual
theorem shape_bound (f : Filter) (hf : (f.map (·.1)).Nodup) : ∀ (s : Shape) (vars : List Nat) (rows : List Row) (a : Nat), s.Valid vars rows → rows ≠ [] →
    a ∈ vars → (∃ c, (a, c) ∈ f) → 0 ≤ (s.learn vars rows).eval f a ∧ (s.learn vars rows).eval f a ≤ 1 ∧
      ∀ e ∈ f, e.1 ∈ vars → (s.learn vars rows).eval f a ≤ frac rows e.1 e.2.1 e.2.2
  | .leaf, vars, rows, a, h, hr, ha, ⟨c, hc⟩ => by
    obtain ⟨b, rfl⟩ := h
    rw [List.mem_singleton] at ha
    subst ha
    have hv : (Shape.leaf.learn [a] rows).eval f a = frac rows a c.1 c.2 := by
      rw [Shape.learn, frac]
      exact learn_ask (by simpa using hr) c.1 c.2 _ _ (findCond_mem hf hc)
    rw [hv]
    refine ⟨?_, ?_, fun e he hev => ?_⟩
    · rw [frac_cnt]; exact div_nonneg (cnt_nonneg ..) (len_pos hr).le
    · rw [frac_cnt]; exact div_le_one_of_le₀ (cnt_le ..) (len_pos hr).le
    · rw [List.mem_singleton] at hev
      have h1 := findCond_mem hf hc
      have h2 := findCond_mem hf he
      rw [hev] at h2
      rw [h1] at h2
      obtain rfl := Option.some.inj h2
      rw [hev]
  | .sum cs, vars, rows, a, h, hr, ha, hc => by
    obtain ⟨h1, h2⟩ := h
    obtain ⟨b1, b2, b3⟩ := sum_bound f hf cs vars rows.length a h1 ha hc (len_pos hr)
    rw [Shape.learn, Node.eval]
    refine ⟨b1, ?_, fun e he hev => ?_⟩
    · rw [h2.length_eq, div_self (len_pos hr).ne'] at b2
      exact b2
    · have := b3 e he hev
      rw [cnt_perm h2, ← frac_cnt] at this
      exact this
  | .prod cs, vars, rows, a, h, hr, ha, hc => by
    obtain ⟨h1, h2, h3⟩ := h
    obtain ⟨b1, b2, b3⟩ := prod_bound f hf cs rows h1 hr
    rw [Shape.learn, Node.eval]
    exact ⟨b1, b2, fun e he hev => b3 e he (h2.mem_iff.mpr hev)⟩
theorem sum_bound (f : Filter) (hf : (f.map (·.1)).Nodup) : ∀ (cs : SumShape) (vars : List Nat) (total : Nat) (a : Nat), cs.Valid vars →
    a ∈ vars → (∃ c, (a, c) ∈ f) → (0 : ℚ) < total → 0 ≤ (cs.learn vars total).eval f a ∧ (cs.learn vars total).eval f a ≤ cs.rows.length / total ∧
      ∀ e ∈ f, e.1 ∈ vars → (cs.learn vars total).eval f a ≤ cnt cs.rows e.1 e.2.1 e.2.2 / total
  | .nil, vars, total, a, _, _, _, _ => by simp [SumShape.learn, SumCs.eval, SumShape.rows, cnt]
  | .cons part s cs, vars, total, a, h, ha, hc, ht => by
    obtain ⟨h1, h2, h3⟩ := h
    obtain ⟨a1, a2, a3⟩ := shape_bound f hf s vars part a h2 h1 ha hc
    obtain ⟨b1, b2, b3⟩ := sum_bound f hf cs vars total a h3 ha hc ht
    have hp := len_pos h1
    have hw : (0 : ℚ) < part.length / total := div_pos hp ht
    rw [SumShape.learn, SumCs.eval, SumShape.rows]
    refine ⟨add_nonneg (mul_nonneg hw.le a1) b1, ?_, fun e he hev => ?_⟩
    · rw [List.length_append]
      push_cast
      rw [add_div]
      have := mul_le_mul_of_nonneg_left a2 hw.le
      linarith
    · rw [cnt_append, add_div]
      have := mul_le_mul_of_nonneg_left (a3 e he hev) hw.le
      rw [frac_cnt] at this
      have e1 : (part.length : ℚ) / total * (cnt part e.1 e.2.1 e.2.2 / part.length) = cnt part e.1 e.2.1 e.2.2 / total := by field_simp
      rw [e1] at this
      have := b3 e he hev
      linarith
theorem prod_bound (f : Filter) (hf : (f.map (·.1)).Nodup) : ∀ (cs : ProdShape) (rows : List Row), cs.Valid rows → rows ≠ [] →
    0 ≤ (cs.learn rows).eval f ∧ (cs.learn rows).eval f ≤ 1 ∧ ∀ e ∈ f, e.1 ∈ cs.vars → (cs.learn rows).eval f ≤ frac rows e.1 e.2.1 e.2.2
  | .nil, rows, _, _ => by simp [ProdShape.learn, ProdCs.eval, ProdShape.vars]
  | .cons vs s cs, rows, h, hr => by
    obtain ⟨h1, h2⟩ := h
    obtain ⟨b1, b2, b3⟩ := prod_bound f hf cs rows h2 hr
    rw [ProdShape.learn, ProdCs.eval, ProdShape.vars]
    cases hc : childCond f vs with
    | none =>
      simp only
      refine ⟨b1, b2, fun e he hev => ?_⟩
      rcases List.mem_append.mp hev with hev | hev
      · exact absurd hev (childCond_none hc e he)
      · exact b3 e he hev
    | some a =>
      simp only
      obtain ⟨hav, hex⟩ := childCond_some hc
      obtain ⟨a1, a2, a3⟩ := shape_bound f hf s vs rows a h1 hr hav hex
      refine ⟨mul_nonneg a1 b1, ?_, fun e he hev => ?_⟩
      · exact mul_le_one₀ a2 b1 b2
      · rcases List.mem_append.mp hev with hev | hev
        · exact le_trans (mul_le_of_le_one_right a1 b2) (a3 e he hev)
        · exact le_trans (mul_le_of_le_one_left b1 a2) (b3 e he hev)
end

/-! ### Networks for one variable -/

mutual
theorem shape_single : ∀ (s : Shape) (x : Nat) (rows : List Row), s.Valid [x] rows → rows ≠ [] → ∀ (f : Filter), (f.map (·.1)).Nodup → ∀ (e : Op × ℚ),
    (x, e) ∈ f → (s.learn [x] rows).eval f x = frac rows x e.1 e.2
  | .leaf, x, rows, _, hr, f, hf, e, he => by
    rw [Shape.learn, frac]
    exact learn_ask (by simpa using hr) e.1 e.2 _ _ (findCond_mem hf he)
  | .sum cs, x, rows, h, hr, f, hf, e, he => by
    rw [Shape.learn, Node.eval, sum_single cs x rows.length h.1 f hf e he (len_pos hr).ne', cnt_perm h.2, frac_cnt]
  | .prod cs, x, rows, h, hr, f, hf, e, he => by
    have hv : cs.vars = [x] := List.perm_singleton.mp h.2.1
    rw [Shape.learn, Node.eval, prod_single cs rows h.1 hr f hf x e he (.inl hv), if_pos (by rw [hv]; simp)]
theorem sum_single : ∀ (cs : SumShape) (x : Nat) (total : Nat), cs.Valid [x] → ∀ (f : Filter), (f.map (·.1)).Nodup → ∀ (e : Op × ℚ),
    (x, e) ∈ f → (total : ℚ) ≠ 0 → (cs.learn [x] total).eval f x = cnt cs.rows x e.1 e.2 / total
  | .nil, x, total, _, f, _, e, _, _ => by simp [SumShape.learn, SumCs.eval, SumShape.rows, cnt]
  | .cons part s cs, x, total, h, f, hf, e, he, ht => by
    rw [SumShape.learn, SumCs.eval, shape_single s x part h.2.1 h.1 f hf e he, sum_single cs x total h.2.2 f hf e he ht, SumShape.rows, cnt_append, frac_cnt]
    have := (len_pos h.1).ne'
    field_simp
theorem prod_single : ∀ (cs : ProdShape) (rows : List Row), cs.Valid rows → rows ≠ [] → ∀ (f : Filter), (f.map (·.1)).Nodup → ∀ (x : Nat) (e : Op × ℚ),
    (x, e) ∈ f → (cs.vars = [x] ∨ cs.vars = []) → (cs.learn rows).eval f = if x ∈ cs.vars then frac rows x e.1 e.2 else 1
  | .nil, rows, _, _, f, _, x, e, _, _ => by simp [ProdShape.learn, ProdCs.eval, ProdShape.vars]
  | .cons vs s cs, rows, h, hr, f, hf, x, e, he, hv => by
    have hc : vs = [x] ∧ cs.vars = [] ∨ vs = [] ∧ (cs.vars = [x] ∨ cs.vars = []) := by
      rw [ProdShape.vars] at hv
      rcases hv with hv | hv
      · rcases List.append_eq_singleton_iff.mp hv with h | h
        · exact .inr ⟨h.1, .inl h.2⟩
        · exact .inl h
      · rw [List.append_eq_nil_iff] at hv
        exact .inr ⟨hv.1, .inr hv.2⟩
    rw [ProdShape.learn, ProdCs.eval, ProdShape.vars]
    rcases hc with ⟨rfl, h2⟩ | ⟨rfl, h2⟩
    · have hcc : childCond f [x] = some x := by
        cases hq : childCond f [x] with
        | none => exact absurd (List.mem_singleton.mpr rfl) (childCond_none hq _ he)
        | some a => rw [List.mem_singleton.mp (childCond_some hq).1]
      rw [hcc]
      simp only
      rw [shape_single s x rows h.1 hr f hf e he, prod_single cs rows h.2 hr f hf x e he (.inr h2), h2]
      simp
    · have hcc : childCond f [] = none := by
        cases hq : childCond f [] with
        | none => rfl
        | some a => exact absurd (childCond_some hq).1 (by simp)
      rw [hcc]
      simp only
      rw [prod_single cs rows h.2 hr f hf x e he h2]
      simp
end

/-! ### Distinct values -/

/-- The set of values of an attribute. -/
def vset (rows : List Row) (a : Nat) : Finset ℚ := (rows.filterMap fun r => r a).toFinset

theorem values_length (rows : List Row) (a : Nat) : (values rows a).length = (vset rows a).card := by
  unfold values vset
  rw [List.card_toFinset]

theorem insBin_keeps {v x : ℚ} {bs : List Bin} (h : (∃ b ∈ bs, b.value = x) ∨ x = v) : ∃ b ∈ insBin v bs, b.value = x := by
  induction bs with
  | nil =>
    rcases h with ⟨b, hb, _⟩ | rfl
    · simp at hb
    · exact ⟨_, List.mem_singleton.mpr rfl, rfl⟩
  | cons c bs ih =>
    rw [insBin]
    split
    · rcases h with ⟨b, hb, e⟩ | rfl
      · rcases List.mem_cons.mp hb with rfl | hb
        · exact ⟨_, List.mem_cons_self, e⟩
        · obtain ⟨d, hd, e⟩ := ih (.inl ⟨b, hb, e⟩)
          exact ⟨d, List.mem_cons_of_mem _ hd, e⟩
      · obtain ⟨d, hd, e⟩ := ih (.inr rfl)
        exact ⟨d, List.mem_cons_of_mem _ hd, e⟩
    · split
      · rename_i he
        rcases h with ⟨b, hb, e⟩ | rfl
        · rcases List.mem_cons.mp hb with rfl | hb
          · exact ⟨_, List.mem_cons_self, e⟩
          · exact ⟨b, List.mem_cons_of_mem _ hb, e⟩
        · exact ⟨_, List.mem_cons_self, he⟩
      · rcases h with ⟨b, hb, e⟩ | rfl
        · exact ⟨b, List.mem_cons_of_mem _ hb, e⟩
        · exact ⟨_, List.mem_cons_self, rfl⟩

theorem countBins_values (vals : List ℚ) (x : ℚ) : (∃ b ∈ countBins vals, b.value = x) ↔ x ∈ vals := by
  have : ∀ (l : List ℚ) (bs : List Bin), (∃ b ∈ l.foldl (fun bs v => insBin v bs) bs, b.value = x) ↔ (∃ b ∈ bs, b.value = x) ∨ x ∈ l := by
    intro l
    induction l with
    | nil => intro bs; simp
    | cons v l ih =>
      intro bs
      rw [List.foldl_cons, ih, List.mem_cons]
      constructor
      · rintro (⟨b, hb, e⟩ | h)
        · rcases mem_insBin hb with h | ⟨c, hc, e'⟩
          · exact .inr (.inl (e ▸ h))
          · exact .inl ⟨c, hc, e'.trans e⟩
        · exact .inr (.inr h)
      · rintro (h | h | h)
        · exact .inl (insBin_keeps (.inl h))
        · exact .inl (insBin_keeps (.inr h))
        · exact .inr h
  have := this vals []
  unfold countBins
  simpa using this

theorem countBins_length (vals : List ℚ) : (countBins vals).length = vals.toFinset.card := by
  have hs := (counts_countBins vals).1
  have hn : ((countBins vals).map (·.value)).Nodup := by
    have : ((countBins vals).map (·.value)).Pairwise (· < ·) := by rw [List.pairwise_map]; exact hs
    exact this.imp fun h => ne_of_lt h
  have e : ((countBins vals).map (·.value)).toFinset = vals.toFinset := by
    ext x
    rw [List.mem_toFinset, List.mem_toFinset, ← countBins_values vals x, List.mem_map]
  rw [← e, List.toFinset_card_of_nodup hn, List.length_map]

theorem leaf_distincts (col : List (Option ℚ)) (a : Nat) : (learnLeaf col).distincts a = (col.filterMap id).toFinset.card := by
  unfold learnLeaf
  split
  · rename_i h
    have : col.filterMap id = [] := by
      rw [List.filterMap_eq_nil_iff]
      intro x hx
      have := List.all_eq_true.mp h x hx
      simpa using this
    rw [this]; rfl
  · rw [Node.distincts, cumul_length, countBins_length]

theorem vset_append (l m : List Row) (a : Nat) : (vset (l ++ m) a).card ≤ (vset l a).card + (vset m a).card := by
  unfold vset
  rw [List.filterMap_append, List.toFinset_append]
  exact Finset.card_union_le _ _

theorem vset_perm {l m : List Row} (h : l.Perm m) (a : Nat) : vset l a = vset m a := by
  unfold vset
  exact List.toFinset_eq_of_perm _ _ (h.filterMap _)

theorem vset_le (l : List Row) (a : Nat) : (vset l a).card ≤ l.length := by
  unfold vset
  exact le_trans (List.toFinset_card_le _) (List.length_filterMap_le _ _)

mutual
theorem shape_distincts (a : Nat) : ∀ (s : Shape) (vars : List Nat) (rows : List Row), s.Valid vars rows → a ∈ vars →
    (vset rows a).card ≤ (s.learn vars rows).distincts a ∧ (s.learn vars rows).distincts a ≤ rows.length
  | .leaf, vars, rows, h, ha => by
    obtain ⟨b, rfl⟩ := h
    rw [List.mem_singleton] at ha
    subst ha
    rw [Shape.learn, leaf_distincts, List.filterMap_map]
    exact ⟨le_refl _, vset_le rows a⟩
  | .sum cs, vars, rows, h, ha => by
    obtain ⟨h1, h2⟩ := h
    rw [Shape.learn, Node.distincts]
    refine ⟨le_min ?_ (vset_le rows a), min_le_right _ _⟩
    rw [← vset_perm h2]
    exact sum_distincts a cs vars rows.length h1 ha
  | .prod cs, vars, rows, h, ha => by
    obtain ⟨h1, h2, h3⟩ := h
    rw [Shape.learn, Node.distincts]
    exact prod_distincts a cs rows h1 (h2.mem_iff.mpr ha)
theorem sum_distincts (a : Nat) : ∀ (cs : SumShape) (vars : List Nat) (total : Nat), cs.Valid vars → a ∈ vars →
    (vset cs.rows a).card ≤ (cs.learn vars total).distincts a
  | .nil, vars, total, _, _ => by simp [SumShape.rows, vset]
  | .cons part s cs, vars, total, h, ha => by
    obtain ⟨h1, h2, h3⟩ := h
    have a1 := (shape_distincts a s vars part h2 ha).1
    have a2 := sum_distincts a cs vars total h3 ha
    rw [SumShape.learn, SumCs.distincts, SumShape.rows]
    exact le_trans (vset_append _ _ _) (add_le_add a1 a2)
theorem prod_distincts (a : Nat) : ∀ (cs : ProdShape) (rows : List Row), cs.Valid rows → a ∈ cs.vars →
    (vset rows a).card ≤ (cs.learn rows).distincts a ∧ (cs.learn rows).distincts a ≤ rows.length
  | .nil, rows, _, ha => by simp [ProdShape.vars] at ha
  | .cons vs s cs, rows, h, ha => by
    obtain ⟨h1, h2⟩ := h
    rw [ProdShape.learn, ProdCs.distincts]
    split
    · rename_i hv; exact shape_distincts a s vs rows h1 hv
    · rename_i hv
      rw [ProdShape.vars] at ha
      exact prod_distincts a cs rows h2 ((List.mem_append.mp ha).resolve_left hv)
end

/-! ### Insertions into networks without sums -/

mutual
/-- A node of this shape represents the rows. -/
def RepT (vars : List Nat) (rows : List Row) : Shape → Node → Prop
  | .leaf, x => (∃ a, vars = [a]) ∧ Rep x (rows.map fun r => r (vars.headD 0))
  | .sum _, _ => False
  | .prod cs, .prod xs _ => RepP rows cs xs ∧ cs.vars.Perm vars ∧ vars.Nodup
  | .prod _, .leaf _ _ _ => False
  | .prod _, .sum _ _ => False
/-- Children of products. -/
def RepP (rows : List Row) : ProdShape → ProdCs → Prop
  | .nil, .nil => True
  | .cons vs s cs, .cons ws x xs => vs = ws ∧ RepT vs rows s x ∧ RepP rows cs xs
  | .nil, .cons _ _ _ => False
  | .cons _ _ _, .nil => False
end

mutual
theorem repT_learn : ∀ (s : Shape) (vars : List Nat) (rows : List Row), s.Valid vars rows → s.NoSum → RepT vars rows s (s.learn vars rows)
  | .leaf, vars, rows, h, _ => by
    rw [RepT, Shape.learn]
    exact ⟨h, rep_learn _⟩
  | .sum _, _, _, _, h => h.elim
  | .prod cs, vars, rows, h, hn => by
    rw [Shape.learn, RepT]
    exact ⟨repP_learn cs rows h.1 hn, h.2⟩
theorem repP_learn : ∀ (cs : ProdShape) (rows : List Row), cs.Valid rows → cs.NoSum → RepP rows cs (cs.learn rows)
  | .nil, _, _, _ => by rw [ProdShape.learn, RepP]; trivial
  | .cons vs s cs, rows, h, hn => by
    rw [ProdShape.learn, RepP]
    exact ⟨rfl, repT_learn s vs rows h.1 hn.1, repP_learn cs rows h.2 hn.2⟩
end

mutual
theorem repT_insert (near : SumCs → Nat) (row : Nat → ℚ) : ∀ (s : Shape) (vars : List Nat) (rows : List Row) (x : Node), RepT vars rows s x →
    RepT vars (rows ++ [full row]) s (x.update false near row vars 0)
  | .leaf, vars, rows, x, h => by
    rw [RepT] at h ⊢
    refine ⟨h.1, ?_⟩
    have := rep_ins h.2 (row (vars.headD 0))
    rw [List.map_append]
    obtain ⟨bs, np, e, _⟩ := h.2
    subst e
    simpa [Node.update, full] using this
  | .sum _, _, _, _, h => by rw [RepT] at h; exact h.elim
  | .prod cs, vars, rows, .prod xs n, h => by
    rw [RepT] at h
    rw [Node.update, RepT]
    exact ⟨repP_insert near row cs rows xs h.1, h.2⟩
  | .prod _, _, _, .leaf _ _ _, h => by rw [RepT] at h; exact h.elim
  | .prod _, _, _, .sum _ _, h => by rw [RepT] at h; exact h.elim
theorem repP_insert (near : SumCs → Nat) (row : Nat → ℚ) : ∀ (cs : ProdShape) (rows : List Row) (xs : ProdCs), RepP rows cs xs →
    RepP (rows ++ [full row]) cs (xs.update false near row)
  | .nil, _, .nil, _ => by rw [ProdCs.update, RepP]; trivial
  | .cons vs s cs, rows, .cons ws x xs, h => by
    rw [RepP] at h
    obtain ⟨rfl, h1, h2⟩ := h
    rw [ProdCs.update, RepP]
    exact ⟨rfl, repT_insert near row s vs rows x h1, repP_insert near row cs rows xs h2⟩
  | .nil, _, .cons _ _ _, h => by rw [RepP] at h; exact h.elim
  | .cons _ _ _, _, .nil, h => by rw [RepP] at h; exact h.elim
end

mutual
theorem repT_exact {op : Op} (hop : op ≠ .isNull) (v : ℚ) (a : Nat) : ∀ (s : Shape) (vars : List Nat) (rows : List Row) (x : Node), RepT vars rows s x →
    a ∈ vars → x.eval [(a, (op, v))] a = frac rows a op v
  | .leaf, vars, rows, x, h, ha => by
    rw [RepT] at h
    obtain ⟨⟨b, rfl⟩, h⟩ := h
    rw [List.mem_singleton] at ha
    subst ha
    exact rep_ask h hop v _ _ (by simp [findCond])
  | .sum _, _, _, _, h, _ => by rw [RepT] at h; exact h.elim
  | .prod cs, vars, rows, .prod xs n, h, ha => by
    rw [RepT] at h
    obtain ⟨h1, h2, h3⟩ := h
    rw [Node.eval, repP_exact hop v a cs rows xs h1 (h2.nodup_iff.mpr h3), if_pos (h2.mem_iff.mpr ha)]
  | .prod _, _, _, .leaf _ _ _, h, _ => by rw [RepT] at h; exact h.elim
  | .prod _, _, _, .sum _ _, h, _ => by rw [RepT] at h; exact h.elim
theorem repP_exact {op : Op} (hop : op ≠ .isNull) (v : ℚ) (a : Nat) : ∀ (cs : ProdShape) (rows : List Row) (xs : ProdCs), RepP rows cs xs → cs.vars.Nodup →
    xs.eval [(a, (op, v))] = if a ∈ cs.vars then frac rows a op v else 1
  | .nil, _, .nil, _, _ => by simp [ProdCs.eval, ProdShape.vars]
  | .cons vs s cs, rows, .cons ws x xs, h, hn => by
    rw [RepP] at h
    obtain ⟨rfl, h1, h2⟩ := h
    rw [ProdShape.vars, List.nodup_append] at hn
    obtain ⟨_, n2, n3⟩ := hn
    rw [ProdCs.eval, childCond_single, repP_exact hop v a cs rows xs h2 n2, ProdShape.vars]
    by_cases ha : a ∈ vs
    · have : a ∉ cs.vars := fun hc => n3 a ha a hc rfl
      simp only [ha, if_true, this, if_false, mul_one, List.mem_append, true_or]
      exact repT_exact hop v a s vs rows x h1 ha
    · simp only [ha, if_false, List.mem_append, false_or]
  | .nil, _, .cons _ _ _, h, _ => by rw [RepP] at h; exact h.elim
  | .cons _ _ _, _, .nil, h, _ => by rw [RepP] at h; exact h.elim
end

end Mutable.SumProd
