import Verif.Constraints.Inv

namespace Mutable.Constraints

variable {I V : Type} [DecidableEq I] [DecidableEq V] [Truth V]

/-- The operator on top of the plan passes on all columns it has. -/
def TopOk : Plan I V → Prop
  | .filter S _ _ c => ∀ i ∈ ids (schema c), i ∈ ids S
  | .sort S _ _ c => ∀ i ∈ ids (schema c), i ∈ ids S
  | .join S _ _ l r => ∀ i, i ∈ ids (schema l) ∨ i ∈ ids (schema r) → i ∈ ids S
  | .limit _ _ c => TopOk c
  | .scan _ _ => True
  | .proj S items _ => ∀ x ∈ items, x.1 ∈ ids S
  | .group S _ aggs _ => ∀ x ∈ aggs, x.1 ∈ ids S
  | .agg S aggs _ => ∀ x ∈ aggs, x.1 ∈ ids S

/-- What minimization preserves. -/
structure Step (top : Bool) (req : List (Ent I)) (p p' : Plan I V) : Prop where
  good : Good p'
  le : top = false → Le req (schema p')
  ids_eq : top = true → ids (schema p') = ids (schema p)
  topOk : top = true → TopOk p'
  sub : ∀ i ∈ ids (schema p'), i ∈ ids (schema p)
  rows : rowsOf p' = rowsOf p

/-- The schema an operator like a filter starts from. -/
theorem base {top : Bool} {req S : List (Ent I)} (hr : (ids req).Nodup) (hS : (ids S).Nodup) (hl : top = false → Le req S) :
    (ids (if top then S else req)).Nodup ∧ Le (if top then S else req) S ∧
    (top = false → Le req (if top then S else req)) ∧ (top = true → ids (if top then S else req) = ids S) := by
  cases top with
  | true => exact ⟨hS, Le.refl _, (fun h => by cases h), fun _ => rfl⟩
  | false => exact ⟨hr, hl rfl, fun _ => Le.refl _, (fun h => by cases h)⟩

/-- What is required from the child of a filter or sort. -/
theorem below {top : Bool} {req S T : List (Ent I)} {is : List I} (hr : (ids req).Nodup) (hS : (ids S).Nodup)
    (hl : top = false → Le req S) (hST : Le S T) (ht : top = true → ∀ i ∈ ids T, i ∈ ids S) (hi : ∀ i ∈ is, i ∈ ids T) :
    (ids (if top then S else union req (plain is))).Nodup ∧ Le (if top then S else union req (plain is)) T ∧
    Le (if top then S else req) (if top then S else union req (plain is)) ∧
    (∀ i ∈ is, i ∈ ids (if top then S else union req (plain is))) := by
  cases top with
  | true => exact ⟨hS, hST, Le.refl _, fun i h => ht rfl i (hi i h)⟩
  | false =>
    obtain ⟨h1, h2, h3, _⟩ := union_spec (plain is) req hr
    refine ⟨h1, union_plain_le hr ((hl rfl).trans hST) hi, fun e he => ⟨e, h3 e he, rfl, id, id⟩, fun i hi => ?_⟩
    simp only [Bool.false_eq_true, if_false]
    rw [h2, ids_plain]
    exact Or.inr hi

omit [DecidableEq I] in
theorem filter_ids {S : List (Ent I)} {f : I → Bool} {i : I} :
    i ∈ ids (S.filter fun e => f e.id) ↔ i ∈ ids S ∧ f i = true := by
  simp only [ids, List.mem_map, List.mem_filter]
  constructor
  · rintro ⟨e, ⟨h1, h2⟩, rfl⟩; exact ⟨⟨e, h1, rfl⟩, h2⟩
  · rintro ⟨⟨e, h1, rfl⟩, h2⟩; exact ⟨e, ⟨h1, h2⟩, rfl⟩

omit [DecidableEq I] in
theorem filter_nodup {S : List (Ent I)} (f : Ent I → Bool) (h : (ids S).Nodup) : (ids (S.filter f)).Nodup :=
  h.sublist (List.filter_sublist.map _)

/-- Requirements from the child of an operator that computes its columns. -/
theorem below_items {T : List (Ent I)} {is : List I} (hi : ∀ i ∈ is, i ∈ ids T) :
    (ids (union [] (plain is))).Nodup ∧ Le (union [] (plain is)) T ∧ ∀ i ∈ is, i ∈ ids (union [] (plain is)) := by
  obtain ⟨h1, h2, _, _⟩ := union_spec (plain is) ([] : List (Ent I)) List.nodup_nil
  refine ⟨h1, union_plain_le List.nodup_nil (fun e he => by cases he) hi, fun i hi => ?_⟩
  rw [h2, ids_plain]
  exact Or.inr hi

/-- Dropping entries that are not required. -/
theorem kept_le {top : Bool} {req S : List (Ent I)} (hl : top = false → Le req S) :
    top = false → Le req (S.filter fun e => top || decide (e.id ∈ ids req)) := by
  rintro rfl e he
  obtain ⟨t, ht, h1, h2⟩ := hl rfl e he
  refine ⟨t, List.mem_filter.mpr ⟨ht, ?_⟩, h1, h2⟩
  simp only [Bool.false_or, decide_eq_true_eq]
  rw [h1]
  exact List.mem_map_of_mem he

omit [DecidableEq V] [Truth V] [DecidableEq I] in
theorem sound_filter {S : List (Ent I)} {rows : List (Row I V)} (f : Ent I → Bool) (h : Sound S rows) : Sound (S.filter f) rows :=
  fun e he => h e (List.mem_filter.mp he).1


/-- An entry of a join. -/
def JE (l r : List (Ent I)) (e : Ent I) : Prop :=
  e.uq = false ∧ ((∃ t ∈ l, t.id = e.id ∧ (e.nn = true → t.nn = true)) ∨ ∃ t ∈ r, t.id = e.id ∧ (e.nn = true → t.nn = true))

theorem join_ents {S l r : List (Ent I)} {L : List I} (hl : (ids l).Nodup) (hr : (ids r).Nodup)
    (hL : ∀ i ∈ ids l, i ∈ L) (hR : ∀ i ∈ ids r, i ∉ L)
    (h : ∀ e ∈ S, JE l r e) : ∀ e ∈ addC false (addC false S l) r, JE l r e := by
  intro e he
  obtain ⟨s, hs, hi, h1⟩ := mem_addC he
  obtain ⟨s', hs', hi', h2⟩ := mem_addC hs
  obtain ⟨hu, h3⟩ := h s' hs'
  have hsu : s.uq = false := by
    rcases h2 with ⟨_, rfl⟩ | ⟨t, _, _, rfl⟩
    · exact hu
    · simp [merge, hu]
  have heu : e.uq = false := by
    rcases h1 with ⟨_, rfl⟩ | ⟨t, _, _, rfl⟩
    · exact hsu
    · simp [merge, hsu]
  refine ⟨heu, ?_⟩
  rcases h3 with ⟨t, ht, hti, htn⟩ | ⟨t, ht, hti, htn⟩
  · left
    have hm : t.id ∈ ids l := List.mem_map_of_mem ht
    refine ⟨t, ht, hti.trans (hi'.symm.trans hi.symm), fun x => ?_⟩
    rcases h1 with ⟨_, rfl⟩ | ⟨u, hu', hui, rfl⟩
    · rcases h2 with ⟨_, rfl⟩ | ⟨w, hw, hwi, rfl⟩
      · exact htn x
      · obtain rfl := eq_of_id hl hw ht (hwi.trans hti.symm)
        simp only [merge, Bool.or_eq_true] at x
        exact x.elim htn id
    · exact absurd (hL _ hm) (by rw [hti, ← hi', ← hui]; exact hR _ (List.mem_map_of_mem hu'))
  · right
    have hm : t.id ∈ ids r := List.mem_map_of_mem ht
    refine ⟨t, ht, hti.trans (hi'.symm.trans hi.symm), fun x => ?_⟩
    have hss : s = s' := by
      rcases h2 with ⟨_, rfl⟩ | ⟨w, hw, hwi, rfl⟩
      · rfl
      · exact absurd (hL _ (List.mem_map_of_mem hw)) (by rw [hwi, ← hti]; exact hR _ hm)
    subst hss
    rcases h1 with ⟨_, rfl⟩ | ⟨u, hu', hui, rfl⟩
    · exact htn x
    · obtain rfl := eq_of_id hr hu' ht (hui.trans hti.symm)
      simp only [merge, Bool.or_eq_true] at x
      exact x.elim htn id

theorem mini_step (p : Plan I V) : Good p → ∀ (top : Bool) (req : List (Ent I)), (ids req).Nodup →
    (top = false → Le req (schema p)) → (top = true → TopOk p) → Step top req p (mini top req p) := by
  induction p with
  | scan S rows =>
    intro h top req hr hl _
    cases top with
    | true => exact ⟨h, (fun h => by cases h), fun _ => rfl, fun _ => trivial, fun _ hi => hi, rfl⟩
    | false =>
      have hl := hl rfl
      have hle : Le (inter req S) S := inter_le h.1 fun a ha _ => hl a ha
      have hn : (ids (inter req S)).Nodup := by rw [inter_ids]; exact hr.filter _
      exact ⟨⟨hn, hle.sound h.2⟩, fun _ => le_inter fun a ha => hl.ids (List.mem_map_of_mem ha), (fun h => by cases h),
        fun _ => trivial, fun i hi => hle.ids hi, rfl⟩
  | filter S preq f c ih =>
    intro h top req hr hl ht
    obtain ⟨hc, hS, hST, hp⟩ := h
    obtain ⟨a1, a2, a3, a4⟩ := base hr hS hl
    obtain ⟨b1, b2, b3, b4⟩ := below hr hS hl hST ht hp
    have st := ih hc false _ b1 (fun _ => b2) (fun h => by cases h)
    have hle := st.le rfl
    simp only [mini]
    refine ⟨⟨st.good, by rw [ids_addC]; exact a1, addC_le (b3.trans hle) st.good.nodup, fun i hi => hle.ids (b4 i hi)⟩,
      ?_, ?_, ?_, ?_, ?_⟩
    · exact fun ht => (a3 ht).trans (le_addC _ _ _)
    · intro ht
      simp only [schema, ids_addC]
      exact a4 ht
    · rintro rfl i hi
      rw [ids_addC]
      exact ht rfl i (st.sub i hi)
    · intro i hi
      simp only [schema, ids_addC] at hi
      exact a2.ids hi
    · simp only [rowsOf, st.rows]
  | sort S preq ord c ih =>
    intro h top req hr hl ht
    obtain ⟨hc, hS, hST, hp, ho⟩ := h
    obtain ⟨a1, a2, a3, a4⟩ := base hr hS hl
    obtain ⟨b1, b2, b3, b4⟩ := below hr hS hl hST ht hp
    have st := ih hc false _ b1 (fun _ => b2) (fun h => by cases h)
    have hle := st.le rfl
    simp only [mini]
    refine ⟨⟨st.good, by rw [ids_addC]; exact a1, addC_le (b3.trans hle) st.good.nodup, fun i hi => hle.ids (b4 i hi), ho⟩,
      ?_, ?_, ?_, ?_, ?_⟩
    · exact fun ht => (a3 ht).trans (le_addC _ _ _)
    · intro ht
      simp only [schema, ids_addC]
      exact a4 ht
    · rintro rfl i hi
      rw [ids_addC]
      exact ht rfl i (st.sub i hi)
    · intro i hi
      simp only [schema, ids_addC] at hi
      exact a2.ids hi
    · simp only [rowsOf, st.rows]
  | limit off lim c ih =>
    intro h top req hr hl ht
    have st := ih h top req hr hl ht
    exact ⟨st.good, st.le, st.ids_eq, st.topOk, st.sub, by simp only [mini, rowsOf, st.rows]⟩
  | join S L p l r ihl ihr =>
    intro h top req hr hl ht
    obtain ⟨gl, gr, hS, hE, hL, hR, hp⟩ := h
    obtain ⟨a1, a2, a3, a4⟩ := base hr hS hl
    have hE' : ∀ e ∈ (if top then S else req), JE (schema l) (schema r) e := by
      intro e he
      obtain ⟨t, ht, hti, htn, htu⟩ := a2 e he
      obtain ⟨hu, hx⟩ := hE t ht
      refine ⟨?_, ?_⟩
      · cases h : e.uq with
        | false => rfl
        | true => rw [htu h] at hu; cases hu
      · rw [← hti]
        exact hx.imp (fun ⟨u, h1, h2, h3⟩ => ⟨u, h1, h2, fun x => h3 (htn x)⟩)
          (fun ⟨u, h1, h2, h3⟩ => ⟨u, h1, h2, fun x => h3 (htn x)⟩)
    have hbel : (ids (if top then S else union req (plain p.req))).Nodup ∧
        (∀ e ∈ (if top then S else union req (plain p.req)), e ∈ (if top then S else req) ∨ (e.nn = false ∧ e.uq = false)) ∧
        (∀ i ∈ ids (if top then S else req), i ∈ ids (if top then S else union req (plain p.req))) ∧
        (∀ e ∈ (if top then S else req), e ∈ (if top then S else union req (plain p.req))) ∧
        (∀ i ∈ p.req, i ∈ ids (if top then S else union req (plain p.req))) := by
      cases top with
      | true => exact ⟨hS, fun e he => Or.inl he, fun i hi => hi, fun e he => he, fun i hi => ht rfl i (JP.req_of_sides hp i hi)⟩
      | false =>
        obtain ⟨h1, h2, h3, h4⟩ := union_spec (plain p.req) req hr
        refine ⟨h1, fun e he => ?_, fun i hi => (h2 i).mpr (Or.inl hi), h3, fun i hi => (h2 i).mpr (Or.inr ?_)⟩
        · rcases h4 e he with h | h
          · exact Or.inl h
          · obtain ⟨i, _, rfl⟩ := List.mem_map.mp h
            exact Or.inr ⟨rfl, rfl⟩
        · rw [ids_plain]; exact hi
    generalize hb : (if top then S else union req (plain p.req)) = bel at hbel
    generalize hs : (if top then S else req) = S0 at *
    obtain ⟨c1, c2, c3, c3', c4⟩ := hbel
    have hll : Le (inter bel (schema l)) (schema l) := by
      refine inter_le gl.nodup fun a ha hai => ?_
      obtain ⟨t, ht, hti⟩ := List.mem_map.mp hai
      rcases c2 a ha with h | ⟨h, h'⟩
      · obtain ⟨hu, ⟨u, h1, h2, h3⟩ | ⟨u, h1, h2, h3⟩⟩ := hE' a h
        · exact ⟨u, h1, h2, h3, fun x => by rw [hu] at x; cases x⟩
        · exact absurd (hL _ hai) (by rw [← h2]; exact hR _ (List.mem_map_of_mem h1))
      · exact ⟨t, ht, hti, (fun x => by rw [h] at x; cases x), (fun x => by rw [h'] at x; cases x)⟩
    have hlr : Le (inter bel (schema r)) (schema r) := by
      refine inter_le gr.nodup fun a ha hai => ?_
      obtain ⟨t, ht, hti⟩ := List.mem_map.mp hai
      rcases c2 a ha with h | ⟨h, h'⟩
      · obtain ⟨hu, ⟨u, h1, h2, h3⟩ | ⟨u, h1, h2, h3⟩⟩ := hE' a h
        · exact absurd (hL _ (List.mem_map_of_mem h1)) (by rw [h2]; exact hR _ hai)
        · exact ⟨u, h1, h2, h3, fun x => by rw [hu] at x; cases x⟩
      · exact ⟨t, ht, hti, (fun x => by rw [h] at x; cases x), (fun x => by rw [h'] at x; cases x)⟩
    have sl := ihl gl false (inter bel (schema l)) (by rw [inter_ids]; exact c1.filter _) (fun _ => hll) (fun h => by cases h)
    have sr := ihr gr false (inter bel (schema r)) (by rw [inter_ids]; exact c1.filter _) (fun _ => hlr) (fun h => by cases h)
    have hml : ∀ i ∈ ids bel, i ∈ ids (schema l) → i ∈ ids (schema (mini false (inter bel (schema l)) l)) := by
      intro i h1 h2
      refine (sl.le rfl).ids ?_
      rw [inter_ids]
      exact List.mem_filter.mpr ⟨h1, by simpa using h2⟩
    have hmr : ∀ i ∈ ids bel, i ∈ ids (schema r) → i ∈ ids (schema (mini false (inter bel (schema r)) r)) := by
      intro i h1 h2
      refine (sr.le rfl).ids ?_
      rw [inter_ids]
      exact List.mem_filter.mpr ⟨h1, by simpa using h2⟩
    simp only [mini, hb, hs]
    refine ⟨⟨sl.good, sr.good, by rw [ids_addC, ids_addC]; exact a1, ?_, fun i hi => hL i (sl.sub i hi),
      fun i hi => hR i (sr.sub i hi), ?_⟩, ?_, ?_, ?_, ?_, ?_⟩
    · refine join_ents (L := L) sl.good.nodup sr.good.nodup (fun i hi => hL i (sl.sub i hi)) (fun i hi => hR i (sr.sub i hi)) ?_
      intro e he
      obtain ⟨hu, h⟩ := hE' e he
      have heb := c3' e he
      refine ⟨hu, h.imp ?_ ?_⟩
      · rintro ⟨t, h1, h2, h3⟩
        have : ∃ x ∈ inter bel (schema l), x.id = e.id ∧ (e.nn = true → x.nn = true) := by
          refine ⟨merge true e t, List.mem_filterMap.mpr ⟨e, heb, ?_⟩, rfl, fun x => by simp [merge, x]⟩
          rw [← h2, find_mem gl.nodup h1]; rfl
        obtain ⟨x, hx, h4, h5⟩ := this
        obtain ⟨y, hy, h6, h7, _⟩ := sl.le rfl x hx
        exact ⟨y, hy, h6.trans h4, fun z => h7 (h5 z)⟩
      · rintro ⟨t, h1, h2, h3⟩
        have : ∃ x ∈ inter bel (schema r), x.id = e.id ∧ (e.nn = true → x.nn = true) := by
          refine ⟨merge true e t, List.mem_filterMap.mpr ⟨e, heb, ?_⟩, rfl, fun x => by simp [merge, x]⟩
          rw [← h2, find_mem gr.nodup h1]; rfl
        obtain ⟨x, hx, h4, h5⟩ := this
        obtain ⟨y, hy, h6, h7, _⟩ := sr.le rfl x hx
        exact ⟨y, hy, h6.trans h4, fun z => h7 (h5 z)⟩
    · exact JP.sides_mono hp (fun i hi => hml i (c4 i hi)) (fun i hi => hmr i (c4 i hi))
    · exact fun ht => ((a3 ht).trans (le_addC _ _ _)).trans (le_addC _ _ _)
    · intro ht
      simp only [schema, ids_addC]
      exact a4 ht
    · rintro rfl i hi
      rw [ids_addC, ids_addC, a4 rfl]
      exact ht rfl i (hi.imp (sl.sub i) (sr.sub i))
    · intro i hi
      simp only [schema, ids_addC] at hi
      exact a2.ids hi
    · simp only [rowsOf, sl.rows, sr.rows]
  | proj S items c ih =>
    intro h top req hr hl ht
    obtain ⟨hc, hS, hs, hn, hi, hcl, hq⟩ := h
    have hkept : ∀ x ∈ items, (top || decide (x.1 ∈ ids req)) = true → x.1 ∈ ids S := by
      intro x hx hk
      cases top with
      | true => exact ht rfl x hx
      | false => exact (hl rfl).ids (by simpa using hk)
    obtain ⟨b1, b2, b3⟩ := below_items (T := schema c) (is := (items.filter fun (x : I × E I V) => top || decide (x.1 ∈ ids req)).flatMap fun x => x.2.req)
      (by
        intro i hi
        obtain ⟨x, hx, hi⟩ := List.mem_flatMap.mp hi
        obtain ⟨hx, hk⟩ := List.mem_filter.mp hx
        exact hq x hx (hkept x hx hk) i hi)
    have st := ih hc false _ b1 (fun _ => b2) (fun h => by cases h)
    have hle := st.le rfl
    simp only [mini]
    refine ⟨⟨st.good, by rw [ids_addC]; exact filter_nodup _ hS, ?_, hn, ?_, ?_, ?_⟩, ?_, ?_, ?_, ?_, ?_⟩
    · rw [st.rows]
      refine sound_addC (sound_filter _ hs) ?_
      intro s hs t ht hti
      obtain ⟨x, hx, hxi⟩ := List.mem_map.mp (hi s.id (List.mem_map_of_mem (List.mem_filter.mp hs).1))
      have hd := hcl x hx (by rw [hxi, ← hti]; exact st.sub _ (List.mem_map_of_mem ht))
      have := st.good.sound t ht
      rw [st.rows] at this
      exact Ok.map this (fun r _ => by rw [hti, ← hxi, project_item hn hx, E.column_ev hd]) id id
    · intro i hi'
      rw [ids_addC, filter_ids (f := fun i => top || decide (i ∈ ids req))] at hi'
      exact hi i hi'.1
    · exact fun x hx hxi => hcl x hx (st.sub _ hxi)
    · intro x hx hxi i hi'
      rw [ids_addC, filter_ids (f := fun i => top || decide (i ∈ ids req))] at hxi
      exact hle.ids (b3 i (List.mem_flatMap.mpr ⟨x, List.mem_filter.mpr ⟨hx, hxi.2⟩, hi'⟩))
    · exact fun ht => (kept_le hl ht).trans (le_addC _ _ _)
    · rintro rfl
      simp [schema, ids_addC]
    · rintro rfl x hx
      rw [ids_addC]
      simpa using ht rfl x hx
    · intro i hi'
      simp only [schema] at hi'
      rw [ids_addC, filter_ids (f := fun i => top || decide (i ∈ ids req))] at hi'
      exact hi'.1
    · simp only [rowsOf, st.rows]
  | agg S aggs c ih =>
    intro h top req hr hl ht
    obtain ⟨hc, hS, hs, hq⟩ := h
    have hkept : ∀ x ∈ aggs, (top || decide (x.1 ∈ ids req)) = true → x.1 ∈ ids S := by
      intro x hx hk
      cases top with
      | true => exact ht rfl x hx
      | false => exact (hl rfl).ids (by simpa using hk)
    obtain ⟨b1, b2, b3⟩ := below_items (T := schema c) (is := (aggs.filter fun (x : I × Ag I V) => top || decide (x.1 ∈ ids req)).flatMap fun x => x.2.req)
      (by
        intro i hi
        obtain ⟨x, hx, hi⟩ := List.mem_flatMap.mp hi
        obtain ⟨hx, hk⟩ := List.mem_filter.mp hx
        exact hq x hx (hkept x hx hk) i hi)
    have st := ih hc false _ b1 (fun _ => b2) (fun h => by cases h)
    have hle := st.le rfl
    simp only [mini]
    refine ⟨⟨st.good, filter_nodup _ hS, ?_, ?_⟩, kept_le hl, ?_, ?_, ?_, ?_⟩
    · refine sound_filter _ ?_
      simp only [rowsOf, st.rows] at hs ⊢
      exact hs
    · intro x hx hxi i hi'
      rw [filter_ids (f := fun i => top || decide (i ∈ ids req))] at hxi
      exact hle.ids (b3 i (List.mem_flatMap.mpr ⟨x, List.mem_filter.mpr ⟨hx, hxi.2⟩, hi'⟩))
    · rintro rfl
      simp [schema]
    · rintro rfl x hx
      simpa using ht rfl x hx
    · intro i hi'
      simp only [schema] at hi'
      rw [filter_ids (f := fun i => top || decide (i ∈ ids req))] at hi'
      exact hi'.1
    · simp only [rowsOf, st.rows]
  | group S keys aggs c ih =>
    intro h top req hr hl ht
    have hnd := h.nodup
    obtain ⟨hc, hn, hs, hk1, hd1, hd2, hcl, hqk, hqa⟩ := h
    have hkept : ∀ x ∈ aggs, (top || decide (x.1 ∈ ids req)) = true → x.1 ∈ ids S := by
      intro x hx hk
      cases top with
      | true => exact ht rfl x hx
      | false => exact (hl rfl).ids (by simpa using hk)
    obtain ⟨b1, b2, b3⟩ := below_items (T := schema c) (is := keys.flatMap (fun x => x.2.req) ++
        (aggs.filter fun x => top || decide (x.1 ∈ ids req)).flatMap fun x => x.2.req)
      (by
        intro i hi
        rcases List.mem_append.mp hi with hi | hi
        · obtain ⟨x, hx, hi⟩ := List.mem_flatMap.mp hi
          exact hqk x hx i hi
        · obtain ⟨x, hx, hi⟩ := List.mem_flatMap.mp hi
          obtain ⟨hx, hk⟩ := List.mem_filter.mp hx
          exact hqa x hx (hkept x hx hk) i hi)
    have st := ih hc false _ b1 (fun _ => b2) (fun h => by cases h)
    have hle := st.le rfl
    simp only [mini]
    generalize hbel : (union [] (plain (keys.flatMap (fun x => x.2.req) ++
        (aggs.filter fun x => top || decide (x.1 ∈ ids req)).flatMap fun x => x.2.req))) = bel at *
    have hkl : (addC true (S.take keys.length) (schema (mini false bel c))).length = keys.length := by
      have := congrArg List.length hk1
      simp only [ids, List.length_map] at this
      simp only [addC, List.length_map, this]
    have htk : ∀ X : List (Ent I), (addC true (S.take keys.length) (schema (mini false bel c)) ++ X).take keys.length =
        addC true (S.take keys.length) (schema (mini false bel c)) := by
      intro X
      rw [List.take_append_of_le_length (Nat.le_of_eq hkl.symm), List.take_of_length_le (Nat.le_of_eq hkl)]
    have hdr : ∀ X : List (Ent I), (addC true (S.take keys.length) (schema (mini false bel c)) ++ X).drop keys.length = X := by
      intro X
      rw [List.drop_append_of_le_length (Nat.le_of_eq hkl.symm), List.drop_of_length_le (Nat.le_of_eq hkl), List.nil_append]
    have happ : ∀ A B : List (Ent I), ids (A ++ B) = ids A ++ ids B := fun A B => by simp [ids]
    have hSe : ids S = keys.map Prod.fst ++ ids (S.drop keys.length) := by
      rw [← hk1, ← happ, List.take_append_drop]
    have hids : ∀ i, i ∈ ids (addC true (S.take keys.length) (schema (mini false bel c)) ++
        (S.drop keys.length).filter fun e => top || decide (e.id ∈ ids req)) ↔
        i ∈ keys.map Prod.fst ∨ (i ∈ ids (S.drop keys.length) ∧ (top || decide (i ∈ ids req)) = true) := by
      intro i
      rw [happ, List.mem_append, ids_addC, hk1, filter_ids (f := fun i => top || decide (i ∈ ids req))]
    refine ⟨⟨st.good, hn, ?_, ?_, ?_, ?_, ?_, ?_, ?_⟩, ?_, ?_, ?_, ?_, ?_⟩
    · have hs' : Sound S (rowsOf (.group S keys aggs (mini false bel c))) := by
        simp only [rowsOf, st.rows] at hs ⊢
        exact hs
      intro e he
      rcases List.mem_append.mp he with he | he
      · refine sound_addC (rows := rowsOf (.group S keys aggs (mini false bel c)))
          (fun e he => hs' e (List.mem_of_mem_take he)) ?_ e he
        intro s hs t ht hti
        have : s.id ∈ keys.map Prod.fst := by rw [← hk1]; exact List.mem_map_of_mem hs
        obtain ⟨x, hx, hxi⟩ := List.mem_map.mp this
        have hd := hcl x hx (by rw [hxi, ← hti]; exact st.sub _ (List.mem_map_of_mem ht))
        exact group_key_ok (List.nodup_append.mp hn).1 hx (E.column_ev hd) (by rw [hti, hxi]) (by rw [hti, hxi]) (st.good.sound t ht) id id
      · exact hs' e (List.mem_of_mem_drop (List.mem_filter.mp he).1)
    · rw [htk, ids_addC, hk1]
    · rw [hdr]
      exact filter_nodup _ hd1
    · rw [hdr]
      intro i hi
      rw [filter_ids (f := fun i => top || decide (i ∈ ids req))] at hi
      exact hd2 i hi.1
    · exact fun x hx hxi => hcl x hx (st.sub _ hxi)
    · intro x hx i hi
      exact hle.ids (b3 i (List.mem_append_left _ (List.mem_flatMap.mpr ⟨x, hx, hi⟩)))
    · intro x hx hxi i hi
      rw [hids] at hxi
      rcases hxi with h | h
      · exact absurd rfl ((List.nodup_append.mp hn).2.2 x.1 h x.1 (List.mem_map_of_mem hx))
      · exact hle.ids (b3 i (List.mem_append_right _ (List.mem_flatMap.mpr ⟨x, List.mem_filter.mpr ⟨hx, h.2⟩, hi⟩)))
    · rintro rfl e he
      obtain ⟨t, ht, h1, h2⟩ := hl rfl e he
      simp only [schema] at ht ⊢
      rw [← List.take_append_drop keys.length S] at ht
      rcases List.mem_append.mp ht with ht | ht
      · obtain ⟨u, hu, k1, k2, k3⟩ := le_addC true (S.take keys.length) (schema (mini false bel c)) t ht
        exact ⟨u, List.mem_append_left _ hu, k1.trans h1, fun x => k2 (h2.1 x), fun x => k3 (h2.2 x)⟩
      · refine ⟨t, List.mem_append_right _ (List.mem_filter.mpr ⟨ht, ?_⟩), h1, h2⟩
        simp only [Bool.false_or, decide_eq_true_eq]
        rw [h1]
        exact List.mem_map_of_mem he
    · rintro rfl
      simp only [schema, Bool.true_or, List.filter_true]
      rw [happ, ids_addC, hk1, hSe]
    · rintro rfl x hx
      rw [hids]
      have := ht rfl x hx
      rw [hSe] at this
      exact (List.mem_append.mp this).imp id fun h => ⟨h, rfl⟩
    · intro i hi
      simp only [schema] at hi ⊢
      rw [hids] at hi
      rw [hSe]
      exact List.mem_append.mpr (hi.imp id And.left)
    · simp only [rowsOf, st.rows]

end Mutable.Constraints
