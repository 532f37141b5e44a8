import Verif.Constraints.Lemmas

namespace Mutable.Constraints

variable {I V : Type} [DecidableEq I] [DecidableEq V] [Truth V]

/-- The invariant of plans under minimization. -/
def Good : Plan I V → Prop
  | .scan S rows => (ids S).Nodup ∧ Sound S rows
  | .filter S req _ c => Good c ∧ (ids S).Nodup ∧ Le S (schema c) ∧ ∀ i ∈ req, i ∈ ids (schema c)
  | .join S L p l r => Good l ∧ Good r ∧ (ids S).Nodup ∧
      (∀ e ∈ S, e.uq = false ∧ ((∃ t ∈ schema l, t.id = e.id ∧ (e.nn = true → t.nn = true)) ∨
        ∃ t ∈ schema r, t.id = e.id ∧ (e.nn = true → t.nn = true))) ∧
      (∀ i ∈ ids (schema l), i ∈ L) ∧ (∀ i ∈ ids (schema r), i ∉ L) ∧
      p.Sides (ids (schema l)) (ids (schema r))
  | .proj S items c => Good c ∧ (ids S).Nodup ∧ Sound S ((rowsOf c).map (project items)) ∧ (items.map Prod.fst).Nodup ∧
      (∀ i ∈ ids S, i ∈ items.map Prod.fst) ∧
      (∀ x ∈ items, x.1 ∈ ids (schema c) → x.2.column? = some x.1) ∧
      ∀ x ∈ items, x.1 ∈ ids S → ∀ i ∈ x.2.req, i ∈ ids (schema c)
  | .limit _ _ c => Good c
  | .group S keys aggs c => Good c ∧ (keys.map Prod.fst ++ aggs.map Prod.fst).Nodup ∧ Sound S (rowsOf (.group S keys aggs c)) ∧
      ids (S.take keys.length) = keys.map Prod.fst ∧ (ids (S.drop keys.length)).Nodup ∧
      (∀ i ∈ ids (S.drop keys.length), i ∈ aggs.map Prod.fst) ∧
      (∀ x ∈ keys, x.1 ∈ ids (schema c) → x.2.column? = some x.1) ∧
      (∀ x ∈ keys, ∀ i ∈ x.2.req, i ∈ ids (schema c)) ∧
      ∀ x ∈ aggs, x.1 ∈ ids S → ∀ i ∈ x.2.req, i ∈ ids (schema c)
  | .agg S aggs c => Good c ∧ (ids S).Nodup ∧ Sound S (rowsOf (.agg S aggs c)) ∧
      ∀ x ∈ aggs, x.1 ∈ ids S → ∀ i ∈ x.2.req, i ∈ ids (schema c)
  | .sort S req ord c => Good c ∧ (ids S).Nodup ∧ Le S (schema c) ∧ (∀ i ∈ req, i ∈ ids (schema c)) ∧ ∀ l, (ord l).Perm l

omit [Truth V] in
theorem join_ok {L : List I} {p : JP I V} {ls rs : List (Row I V)} {e t : Ent I} (hu : e.uq = false) (hi : t.id = e.id)
    (hnn : e.nn = true → t.nn = true) (h : (t.id ∈ L ∧ Ok ls t) ∨ (t.id ∉ L ∧ Ok rs t)) :
    Ok (rs.flatMap fun b => (ls.filter fun a => p.holds (both L a b) a b).map fun a => both L a b) e := by
  refine ⟨fun x r hr => ?_, fun x => by rw [hu] at x; cases x⟩
  obtain ⟨b, hb, hr⟩ := List.mem_flatMap.mp hr
  obtain ⟨a, ha, rfl⟩ := List.mem_map.mp hr
  have ha := (List.mem_filter.mp ha).1
  rw [← hi]
  rcases h with ⟨h1, h2⟩ | ⟨h1, h2⟩
  · simp only [both, h1, if_true]
    exact h2.1 (hnn x) a ha
  · simp only [both, h1, if_false]
    exact h2.1 (hnn x) b hb

theorem Good.sound {p : Plan I V} (h : Good p) : Sound (schema p) (rowsOf p) := by
  induction p with
  | scan S rows => exact h.2
  | filter S req f c ih =>
    obtain ⟨hc, _, hle, _⟩ := h
    exact fun e he => Ok.sublist (hle.sound (ih hc) e he) List.filter_sublist
  | join S L p l r ihl ihr =>
    obtain ⟨hl, hr, _, hS, hL, hR, _⟩ := h
    intro e he
    obtain ⟨hu, ⟨t, ht, hi, hnn⟩ | ⟨t, ht, hi, hnn⟩⟩ := hS e he
    · exact join_ok hu hi hnn (Or.inl ⟨hL _ (List.mem_map_of_mem ht), ihl hl t ht⟩)
    · exact join_ok hu hi hnn (Or.inr ⟨hR _ (List.mem_map_of_mem ht), ihr hr t ht⟩)
  | proj S items c _ => exact h.2.2.1
  | limit off lim c ih =>
    exact fun e he => Ok.sublist (ih h e he) ((List.take_sublist _ _).trans (List.drop_sublist _ _))
  | group S keys aggs c _ => exact h.2.2.1
  | agg S aggs c _ => exact h.2.2.1
  | sort S req ord c ih =>
    obtain ⟨hc, _, hle, _, hp⟩ := h
    exact fun e he => Ok.perm (hle.sound (ih hc) e he) (hp _)

theorem Good.allSound {p : Plan I V} (h : Good p) : AllSound p := by
  induction p with
  | scan S rows => exact h.2
  | filter S req f c ih => exact ⟨h.sound, ih h.1⟩
  | join S L p l r ihl ihr => exact ⟨h.sound, ihl h.1, ihr h.2.1⟩
  | proj S items c ih => exact ⟨h.sound, ih h.1⟩
  | limit off lim c ih => exact ⟨h.sound (p := .limit off lim c), ih h⟩
  | group S keys aggs c ih => exact ⟨h.sound, ih h.1⟩
  | agg S aggs c ih => exact ⟨h.sound, ih h.1⟩
  | sort S req ord c ih => exact ⟨h.sound, ih h.1⟩

theorem Good.nodup {p : Plan I V} (h : Good p) : (ids (schema p)).Nodup := by
  induction p with
  | scan => exact h.1
  | filter => exact h.2.1
  | join => exact h.2.2.1
  | proj => exact h.2.1
  | limit _ _ c ih => exact ih h
  | group S keys aggs c _ =>
    obtain ⟨_, h1, _, h2, h3, h4, _⟩ := h
    have e : ids S = ids (S.take keys.length) ++ ids (S.drop keys.length) := by
      rw [ids, ids, ids, ← List.map_append, List.take_append_drop]
    simp only [schema]
    rw [e, h2]
    rw [List.nodup_append] at h1 ⊢
    exact ⟨h1.1, h3, fun a ha b hb => h1.2.2 a ha b (h4 b hb)⟩
  | agg => exact h.2.1
  | sort => exact h.2.1

theorem Good.closed {p : Plan I V} (h : Good p) : Closed p := by
  induction p with
  | scan => trivial
  | filter S req f c ih => exact ⟨ih h.1, h.2.2.2, fun i hi => h.2.2.1.ids hi⟩
  | join S L p l r ihl ihr =>
    refine ⟨ihl h.1, ihr h.2.1, h.2.2.2.2.2.2, fun i hi => ?_⟩
    obtain ⟨e, he, rfl⟩ := List.mem_map.mp hi
    exact (h.2.2.2.1 e he).2.imp (fun ⟨t, ht, h1, _⟩ => List.mem_map.mpr ⟨t, ht, h1⟩)
      (fun ⟨t, ht, h1, _⟩ => List.mem_map.mpr ⟨t, ht, h1⟩)
  | proj S items c ih => exact ⟨ih h.1, fun x hx hi => E.reads_of_req (h.2.2.2.2.2.2 x hx hi)⟩
  | limit off lim c ih => exact ih h
  | group S keys aggs c ih =>
    obtain ⟨h0, _, _, _, _, _, _, h1, h2⟩ := h
    exact ⟨ih h0, fun x hx => E.reads_of_req (h1 x hx), fun x hx hi => Ag.reads_of_req (h2 x hx hi)⟩
  | agg S aggs c ih => exact ⟨ih h.1, fun x hx hi => Ag.reads_of_req (h.2.2.2 x hx hi)⟩
  | sort S req f c ih => exact ⟨ih h.1, h.2.2.2.1, fun i hi => h.2.2.1.ids hi⟩

/-- A key that is a designator of the child. -/
theorem group_key_ok {keys : List (I × E I V)} {aggs : List (I × Ag I V)} {rows : List (Row I V)}
    (hn : (keys.map Prod.fst).Nodup) {x : I × E I V} (hx : x ∈ keys) {j : I} (hd : ∀ r : Row I V, x.2.ev r = r j) {e t : Ent I}
    (he : e.id = x.1) (hj : t.id = j) (ht : Ok rows t) (h1 : e.nn = true → t.nn = true) (h2 : e.uq = true → t.uq = true) :
    Ok ((distinct (rows.map (keyOf keys))).map fun k => groupRow keys aggs k (rows.filter fun r => decide (keyOf keys r = k)))
      e := by
  refine ⟨fun y r hr => ?_, fun y => ?_⟩
  · obtain ⟨k, hk, rfl⟩ := List.mem_map.mp hr
    obtain ⟨r', hr', rfl⟩ := group_rows hk
    rw [he, groupRow_key hn hx, hd, ← hj]
    exact ht.1 (h1 y) r' hr'
  · rw [List.pairwise_map]
    refine List.Pairwise.imp_of_mem ?_ (distinct_nodup _)
    intro k k' hk hk' hne v hv
    obtain ⟨r, hr, rfl⟩ := group_rows hk
    obtain ⟨r', hr', rfl⟩ := group_rows hk'
    rw [he, groupRow_key hn hx, groupRow_key hn hx, hd, hd, ← hj] at hv
    have hp := ht.2 (h2 y)
    have hrr : r ≠ r' := by rintro rfl; exact hne rfl
    have : Std.Symm fun (r r' : Row I V) => ∀ v, ¬ (r t.id = some v ∧ r' t.id = some v) :=
      ⟨fun a b hab v hv => hab v ⟨hv.2, hv.1⟩⟩
    exact hp.forall hr hr' hrr v hv

/-- A grouping key that cannot be NULL. -/
theorem group_key_nn {keys : List (I × E I V)} {aggs : List (I × Ag I V)} {rows : List (Row I V)}
    (hn : (keys.map Prod.fst).Nodup) {x : I × E I V} (hx : x ∈ keys) {T : List (Ent I)} (hT : Sound T rows)
    (hr : x.2.Resolved T) {e : Ent I} (he : e.id = x.1) (h1 : e.nn = true → x.2.canBeNull = false) (h2 : e.uq = false) :
    Ok ((distinct (rows.map (keyOf keys))).map fun k => groupRow keys aggs k (rows.filter fun r => decide (keyOf keys r = k)))
      e := by
  refine ⟨fun y r hr' => ?_, fun y => by rw [h2] at y; cases y⟩
  obtain ⟨k, hk, rfl⟩ := List.mem_map.mp hr'
  obtain ⟨r, hrr, rfl⟩ := group_rows hk
  rw [he, groupRow_key hn hx]
  exact E.not_null hT hrr _ hr (h1 y)

/-- An aggregate that cannot be NULL: groups are not empty. -/
theorem group_agg_ok {keys : List (I × E I V)} {aggs : List (I × Ag I V)} {rows : List (Row I V)}
    (hn : (keys.map Prod.fst ++ aggs.map Prod.fst).Nodup) {x : I × Ag I V} (hx : x ∈ aggs) {T : List (Ent I)}
    (hT : Sound T rows) (hr : x.2.Resolved T) :
    Ok ((distinct (rows.map (keyOf keys))).map fun k => groupRow keys aggs k (rows.filter fun r => decide (keyOf keys r = k)))
      (groupAggEnt x) := by
  refine ⟨fun y r hr' => ?_, fun y => by cases y⟩
  obtain ⟨k, hk, rfl⟩ := List.mem_map.mp hr'
  obtain ⟨r, hrr, rfl⟩ := group_rows hk
  simp only [groupAggEnt] at y ⊢
  rw [groupRow_agg hn hx]
  obtain ⟨i, a⟩ := x
  cases a with
  | cnt f req => simp [Ag.ev]
  | oth f arg =>
    have hne : (rows.filter fun r' => decide (keyOf keys r' = keyOf keys r)).filterMap (fun r => arg.ev r) ≠ [] := by
      have hm : r ∈ rows.filter fun r' => decide (keyOf keys r' = keyOf keys r) := List.mem_filter.mpr ⟨hrr, by simp⟩
      have := E.not_null hT hrr arg hr (by simpa [Ag.canBeNull] using y)
      obtain ⟨v, hv⟩ := Option.ne_none_iff_exists'.mp this
      exact List.ne_nil_of_mem (List.mem_filterMap.mpr ⟨r, hm, hv⟩)
    simp only [Ag.ev, hne, if_false]
    simp

omit [DecidableEq V] [Truth V] in
theorem one_row_ok {r : Row I V} {e : Ent I} (h : e.nn = true → r e.id ≠ none) : Ok [r] e :=
  ⟨fun x r' hr => by simp only [List.mem_singleton] at hr; subst hr; exact h x, fun _ => List.pairwise_singleton _ _⟩

/-! ### Plans as constructed -/

theorem good_of_WF {p : Plan I V} (h : WF p) (hc : NoClash p) : Good p := by
  induction p with
  | scan S rows => exact h
  | filter S req f c ih =>
    obtain ⟨h1, rfl, h2⟩ := h
    have g := ih h1 hc
    exact ⟨g, g.nodup, Le.refl _, h2⟩
  | join S L p l r ihl ihr =>
    obtain ⟨h1, h2, rfl, rfl, hn, hp⟩ := h
    have gl := ihl h1 hc.1
    have gr := ihr h2 hc.2
    have e : ids ((schema l ++ schema r).map joinEnt) = ids (schema l) ++ ids (schema r) := by
      simp [ids, joinEnt, Function.comp_def]
    refine ⟨gl, gr, hn, ?_, fun i hi => hi, ?_, hp⟩
    · intro e he
      obtain ⟨t, ht, rfl⟩ := List.mem_map.mp he
      refine ⟨rfl, ?_⟩
      rcases List.mem_append.mp ht with ht | ht
      · exact Or.inl ⟨t, ht, rfl, id⟩
      · exact Or.inr ⟨t, ht, rfl, id⟩
    · intro i hi hj
      rw [e, List.nodup_append] at hn
      exact hn.2.2 i hj i hi rfl
  | proj S items c ih =>
    obtain ⟨h1, hn, hr, rfl⟩ := h
    have g := ih h1 hc.1
    have e : ids (items.map (itemEnt (schema c))) = items.map Prod.fst := by
      simp only [ids, List.map_map]
      apply List.map_congr_left
      intro x _
      simp only [Function.comp, itemEnt]
      split <;> rfl
    refine ⟨g, by rw [e]; exact hn, ?_, hn, by rw [e]; exact fun _ h => h, hc.2, fun x hx _ => E.req_resolved (hr x hx)⟩
    rw [sound_iff]
    intro en hen
    obtain ⟨x, hx, rfl⟩ := List.mem_map.mp hen
    have base : Ok ((rowsOf c).map (project items)) (⟨x.1, !x.2.canBeNull, false⟩ : Ent I) := by
      refine ⟨fun y r hr' => ?_, fun y => by cases y⟩
      obtain ⟨r', hr'', rfl⟩ := List.mem_map.mp hr'
      simp only
      rw [project_item hn hx]
      exact E.not_null g.sound hr'' _ (hr x hx) (by simpa using y)
    simp only [itemEnt]
    split
    · exact base
    · rename_i t ht
      obtain ⟨j, hj, ht⟩ := Option.bind_eq_some_iff.mp ht
      obtain ⟨htm, hti⟩ := find_some ht
      have okt : Ok ((rowsOf c).map (project items)) (⟨x.1, t.nn, t.uq⟩ : Ent I) :=
        Ok.map (g.sound t htm) (fun r _ => by simp only; rw [project_item hn hx, E.designator_ev hj, hti]) id id
      exact Ok.merge true base (t := ⟨x.1, t.nn, t.uq⟩) rfl okt
  | limit off lim c ih => exact ih h hc
  | group S keys aggs c ih =>
    obtain ⟨h1, hn, hk, ha, rfl⟩ := h
    have g := ih h1 hc.1
    have e : ids (keys.map (keyEnt (schema c))) = keys.map Prod.fst := by
      simp only [ids, List.map_map]
      apply List.map_congr_left
      intro x _
      simp only [Function.comp, keyEnt]
      split <;> rfl
    have e' : ids (aggs.map (groupAggEnt (I := I) (V := V))) = aggs.map Prod.fst := by
      simp [ids, groupAggEnt, Function.comp_def]
    have hn1 := hn
    rw [List.nodup_append] at hn1
    have et : (keys.map (keyEnt (schema c)) ++ aggs.map groupAggEnt).take keys.length = keys.map (keyEnt (schema c)) := by
      rw [List.take_append_of_le_length (by simp), List.take_of_length_le (by simp)]
    have ed : (keys.map (keyEnt (schema c)) ++ aggs.map groupAggEnt).drop keys.length = aggs.map groupAggEnt := by
      rw [List.drop_append_of_le_length (by simp), List.drop_of_length_le (by simp), List.nil_append]
    refine ⟨g, hn, ?_, ?_, ?_, ?_, hc.2, fun x hx => E.req_resolved (hk x hx), fun x hx _ => Ag.req_resolved (ha x hx)⟩
    · rw [sound_iff]
      intro en hen
      rcases List.mem_append.mp hen with hen | hen
      · obtain ⟨x, hx, rfl⟩ := List.mem_map.mp hen
        have base : Ok (rowsOf (.group (keys.map (keyEnt (schema c)) ++ aggs.map groupAggEnt) keys aggs c))
            (⟨x.1, !x.2.canBeNull, false⟩ : Ent I) :=
          group_key_nn hn1.1 hx g.sound (hk x hx) rfl (by simp) rfl
        simp only [keyEnt]
        split
        · exact base
        · rename_i t ht
          obtain ⟨j, hj, ht⟩ := Option.bind_eq_some_iff.mp ht
          obtain ⟨htm, hti⟩ := find_some ht
          have okt : Ok (rowsOf (.group (keys.map (keyEnt (schema c)) ++ aggs.map groupAggEnt) keys aggs c))
              (⟨x.1, t.nn, t.uq⟩ : Ent I) :=
            group_key_ok hn1.1 hx (E.designator_ev hj) rfl hti (g.sound t htm) id id
          exact Ok.merge true base (t := ⟨x.1, t.nn, t.uq⟩) rfl okt
      · obtain ⟨x, hx, rfl⟩ := List.mem_map.mp hen
        exact group_agg_ok hn hx g.sound (ha x hx)
    · rw [et, e]
    · rw [ed, e']; exact hn1.2.1
    · rw [ed, e']; exact fun _ h => h
  | agg S aggs c ih =>
    obtain ⟨h1, hn, ha, rfl⟩ := h
    have g := ih h1 hc
    have e' : ids (aggs.map (aggEnt (I := I) (V := V))) = aggs.map Prod.fst := by
      simp [ids, aggEnt, Function.comp_def]
    refine ⟨g, by rw [e']; exact hn, ?_, fun x hx _ => Ag.req_resolved (ha x hx)⟩
    rw [sound_iff]
    intro en hen
    obtain ⟨x, hx, rfl⟩ := List.mem_map.mp hen
    refine one_row_ok fun y => ?_
    simp only [aggEnt] at y ⊢
    rw [groupRow_agg (keys := []) (by simpa using hn) hx]
    obtain ⟨i, a⟩ := x
    cases a with
    | cnt f req => simp [Ag.ev]
    | oth f arg => simp [Ag.isCount] at y
  | sort S req ord c ih =>
    obtain ⟨h1, rfl, h2, h3⟩ := h
    have g := ih h1 hc
    exact ⟨g, g.nodup, Le.refl _, h2, h3⟩

end Mutable.Constraints
