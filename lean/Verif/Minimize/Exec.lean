import Verif.Minimize.Lemmas

/-! One step of execution: an operator of the minimized plan, given what is known of its children. -/
namespace Mutable.Minimize

variable {I C : Type} [DecidableEq I]

/-- The tuples of `p'` are the rows of `p`, in the layout of `p'`. -/
def Rows (cl : C → C) (junk : C) (p p' : Plan I C) : Prop :=
  (run cl junk p').rows = (rowsOf cl junk p).map fun r => (layout p').map r

/-- The rows of `p'` agree with those of `p` on the schema of `p'`. -/
def Named (junk : C) (p p' : Plan I C) : Prop :=
  List.Forall₂ (fun r r' => ∀ i ∈ schema p', r i = r' i) (runW junk p') (rowsOf id junk p)

section Positional
variable (cl : C → C) (junk : C)

theorem rows_filter {S S' : List I} {p : Ex I C Bool} {c c' : Plan I C} (h : Rows cl junk c c')
    (hp : ∀ i ∈ p.req, i ∈ layout c') : Rows cl junk (.filter S p c) (.filter S' p c') := by
  unfold Rows at *
  simp only [run, rowsOf, layout, h, run_layout]
  rw [List.filter_map]
  congr 1
  apply List.filter_congr
  intro r _
  exact p.loc _ _ fun i hi => look_map junk (hp i hi) r

theorem rows_limit {off lim : Nat} {c c' : Plan I C} (h : Rows cl junk c c') :
    Rows cl junk (.limit off lim c) (.limit off lim c') := by
  unfold Rows at *
  simp only [run, rowsOf, layout, h]
  rw [← List.map_drop, ← List.map_take]

theorem rows_sort {S S' : List I} {o : Ord I C} {c c' : Plan I C} (h : Rows cl junk c c')
    (hp : ∀ i ∈ o.req, i ∈ layout c') : Rows cl junk (.sort S o c) (.sort S' o c') := by
  unfold Rows at *
  simp only [run, rowsOf, layout, h, run_layout]
  have he : ((rowsOf cl junk c).map fun r => (layout c').map r).map (cloneAs cl (layout c').length) =
      ((rowsOf cl junk c).map fun r i => cl (r i)).map fun r => (layout c').map r := by
    rw [List.map_map, List.map_map]
    apply List.map_congr_left
    intro r _
    exact cloneAs_all cl (layout c') r
  rw [he, pick_map]
  congr 2
  apply o.loc
  rw [List.map_map, List.map_map]
  apply F2.self
  intro r _ i hi
  simp only [Function.comp]
  rw [look_map junk (hp i hi)]

theorem rows_proj {items items' : List (I × Ex I C C)} {c c' : Plan I C} (h : Rows cl junk c c')
    (hn : (items.map Prod.fst).Nodup) (hs : items'.Sublist items)
    (hp : ∀ x ∈ items', ∀ i ∈ x.2.req, i ∈ layout c') : Rows cl junk (.proj items c) (.proj items' c') := by
  unfold Rows at *
  simp only [run, rowsOf, layout, h, run_layout]
  rw [List.map_map, List.map_map]
  apply List.map_congr_left
  intro r _
  simp only [Function.comp]
  rw [List.map_map]
  apply List.map_congr_left
  intro x hx
  simp only [Function.comp]
  rw [x.2.loc _ r fun i hi => look_map junk (hp x hx i hi) r]
  unfold mkRow look
  obtain ⟨k, hk, rfl⟩ := List.mem_iff_getElem.mp (hs.subset hx)
  have : (items.map Prod.fst).idxOf (items[k]).1 = k := by
    have := List.Nodup.idxOf_getElem hn k (by simpa using hk)
    rwa [List.getElem_map] at this
  rw [this, List.getD_eq_getElem?_getD, List.getElem?_map, List.getElem?_eq_getElem hk]
  rfl

theorem rows_proj0 {items items' : List (I × Ex I C C)}
    (hn : (items.map Prod.fst).Nodup) (hs : items'.Sublist items) :
    Rows cl junk (.proj0 items) (.proj0 items') := by
  unfold Rows at *
  simp only [run, rowsOf, layout, List.map_cons, List.map_nil]
  congr 1
  rw [List.map_map]
  apply List.map_congr_left
  intro x hx
  simp only [Function.comp]
  unfold mkRow look
  obtain ⟨k, hk, rfl⟩ := List.mem_iff_getElem.mp (hs.subset hx)
  have : (items.map Prod.fst).idxOf (items[k]).1 = k := by
    have := List.Nodup.idxOf_getElem hn k (by simpa using hk)
    rwa [List.getElem_map] at this
  rw [this, List.getD_eq_getElem?_getD, List.getElem?_map, List.getElem?_eq_getElem hk]
  rfl

omit [DecidableEq I] in
theorem length_addGroup {T : Type} (eqk : List C → List C → Bool) (n : Nat) (k : List C) (hk : k.length = n) (t : T)
    (gs : List (List C × List T)) (h : ∀ g ∈ gs, g.1.length = n) : ∀ g ∈ addGroup eqk k t gs, g.1.length = n := by
  induction gs with
  | nil => intro g hg; simp only [addGroup, List.mem_singleton] at hg; rw [hg]; exact hk
  | cons G gs ih =>
    intro g hg
    simp only [addGroup] at hg
    split at hg
    · rw [List.mem_cons] at hg
      rcases hg with rfl | hg
      · exact h G (by simp)
      · exact h g (by simp [hg])
    · rw [List.mem_cons] at hg
      rcases hg with rfl | hg
      · exact h g (by simp)
      · exact ih (fun g hg => h g (by simp [hg])) g hg

omit [DecidableEq I] in
theorem length_groupBy {T : Type} (eqk : List C → List C → Bool) (n : Nat) (key : T → List C) (hk : ∀ t, (key t).length = n)
    (ts : List T) : ∀ g ∈ groupBy eqk key ts, g.1.length = n := by
  unfold groupBy
  have : ∀ (gs : List (List C × List T)), (∀ g ∈ gs, g.1.length = n) →
      ∀ g ∈ ts.foldl (fun gs t => addGroup eqk (key t) t gs) gs, g.1.length = n := by
    induction ts with
    | nil => intro gs h; exact h
    | cons t ts ih => intro gs h; exact ih _ (length_addGroup eqk n _ (hk t) t gs h)
  exact this [] (by simp)

omit [DecidableEq I] in
theorem mem_pick {α : Type} {ix : List Nat} {l : List α} {a : α} (h : a ∈ pick ix l) : a ∈ l := by
  unfold pick at h
  rw [List.mem_filterMap] at h
  obtain ⟨i, _, h⟩ := h
  exact List.mem_of_getElem? h

/-- The row of a group, seen through the identifiers kept. -/
theorem groupRow {β : Type} {keys : List (I × β)} {γ : Type} {aggs aggs' : List (I × γ)} (f : γ → C)
    (hn : (keys.map Prod.fst ++ aggs.map Prod.fst).Nodup) (hs : aggs'.Sublist aggs) (k : List C)
    (hk : k.length = keys.length) :
    (keys.map Prod.fst ++ aggs'.map Prod.fst).map
      (mkRow junk (keys.map Prod.fst ++ aggs.map Prod.fst) (k ++ aggs.map fun x => f x.2)) =
    k ++ aggs'.map fun x => f x.2 := by
  rw [List.map_append]
  congr 1
  · apply List.ext_getElem
    · simp [hk]
    intro j h1 h2
    rw [List.getElem_map]
    unfold mkRow look
    have hj : j < (keys.map Prod.fst ++ aggs.map Prod.fst).length := by
      rw [List.length_append, List.length_map]; omega
    have := List.Nodup.idxOf_getElem hn j hj
    rw [List.getElem_append_left (by simpa [hk] using h2)] at this
    rw [this, List.getD_eq_getElem?_getD, List.getElem?_append_left h2, List.getElem?_eq_getElem h2]
    rfl
  · rw [List.map_map]
    apply List.map_congr_left
    intro x hx
    simp only [Function.comp]
    unfold mkRow look
    obtain ⟨j, hj, rfl⟩ := List.mem_iff_getElem.mp (hs.subset hx)
    have hl : keys.length + j < (keys.map Prod.fst ++ aggs.map Prod.fst).length := by simp [hj]
    have := List.Nodup.idxOf_getElem hn (keys.length + j) hl
    rw [List.getElem_append_right (by simp)] at this
    simp only [List.length_map, Nat.add_sub_cancel_left, List.getElem_map] at this
    rw [this, List.getD_eq_getElem?_getD, List.getElem?_append_right (by omega), hk, Nat.add_sub_cancel_left,
      List.getElem?_map, List.getElem?_eq_getElem hj]
    rfl

theorem rows_group {keys : List (I × Ex I C C)} {eqk : List C → List C → Bool} {aggs aggs' : List (I × Agg I C)}
    {enum : Nat → List Nat} {c c' : Plan I C} (h : Rows cl junk c c') (ha : schema c' <+: layout c')
    (hn : (keys.map Prod.fst ++ aggs.map Prod.fst).Nodup) (hs : aggs'.Sublist aggs)
    (hk : ∀ x ∈ keys, ∀ i ∈ x.2.req, i ∈ schema c') (hp : ∀ x ∈ aggs', ∀ i ∈ x.2.req, i ∈ schema c') :
    Rows cl junk (.group keys eqk aggs enum c) (.group keys eqk aggs' enum c') := by
  unfold Rows at *
  simp only [run, rowsOf, layout, h]
  rw [groupBy_map, groupBy_congr eqk _ (fun r => keys.map fun x => x.2.ev r)]
  rotate_left
  · intro r _
    apply List.map_congr_left
    intro x hx
    exact x.2.loc _ r fun i hi => look_prefix junk ha (hk x hx i hi) r
  rw [List.length_map, pick_map, List.map_map, List.map_map]
  apply List.map_congr_left
  intro g hg
  simp only [Function.comp]
  have hl := length_groupBy eqk keys.length (fun r => keys.map fun x => x.2.ev r) (by simp) _ g (mem_pick hg)
  rw [groupRow junk (fun x => x.ev g.2) hn hs g.1 hl]
  congr 1
  apply List.map_congr_left
  intro x hx
  apply x.2.loc
  rw [List.map_map]
  conv => rhs; rw [← List.map_id g.2]
  apply F2.self
  intro r _ i hi
  exact look_prefix junk ha (hp x hx i hi) r

theorem rows_agg {aggs aggs' : List (I × Agg I C)} {c c' : Plan I C} (h : Rows cl junk c c')
    (ha : schema c' <+: layout c') (hn : (aggs.map Prod.fst).Nodup) (hs : aggs'.Sublist aggs)
    (hp : ∀ x ∈ aggs', ∀ i ∈ x.2.req, i ∈ schema c') : Rows cl junk (.agg aggs c) (.agg aggs' c') := by
  unfold Rows at *
  simp only [run, rowsOf, layout, h, List.map_cons, List.map_nil]
  congr 1
  have := groupRow junk (keys := ([] : List (I × Unit))) (fun x : Agg I C => x.ev (rowsOf cl junk c)) (by simpa using hn) hs
    [] rfl
  simp only [List.map_nil, List.nil_append] at this
  rw [this]
  apply List.map_congr_left
  intro x hx
  apply x.2.loc
  rw [List.map_map]
  conv => rhs; rw [← List.map_id (rowsOf cl junk c)]
  apply F2.self
  intro r _ i hi
  exact look_prefix junk ha (hp x hx i hi) r

theorem rows_join {S S' : List I} {p : JPred I C} {enum : Nat → Nat → List (Nat × Nat)} {l l' r r' : Plan I C}
    (hl : Rows cl junk l l') (hr : Rows cl junk r r') (ha : schema l' <+: layout l')
    (hd : ∀ i ∈ schema l, i ∉ schema r) (hll : ∀ i ∈ layout l', i ∈ schema l) (hlr : ∀ i ∈ layout r', i ∈ schema r)
    (hS : ∀ i ∈ S', i ∈ schema l' ∨ i ∈ layout r')
    (hp : p.Over (schema l') (layout r')) : Rows cl junk (.join S p enum l r) (.join S' p enum l' r') := by
  have hdl : ∀ i ∈ schema l', i ∈ layout l' := fun i hi => ha.subset hi
  unfold Rows at *
  simp only [run, rowsOf, layout, hl, hr, run_layout, List.length_map]
  rw [pickPairs_map, map_pickPairs]
  congr 1
  funext a b
  have hm : pairMatches cl junk p (layout l') (layout r') ((layout l').map a)
      (cloneAs cl (schema l').length ((layout l').map a)) ((layout r').map b) =
      namedMatches cl p a (fun i => if i ∈ schema l then cl (a i) else b i) b := by
    cases p with
    | theta p =>
      simp only [pairMatches, namedMatches]
      apply p.loc
      intro i hi
      rcases hp i hi with h | h
      · rw [if_pos (hdl i h), if_pos (hll i (hdl i h)), look_clone junk cl ha h]
      · have h' : i ∉ schema l := fun hh => hd i hh (hlr i h)
        rw [if_neg (fun hh => h' (hll i hh)), if_neg h', look_map junk h]
    | equi keys eqk =>
      simp only [pairMatches, namedMatches]
      congr 1
      · apply List.map_congr_left
        intro k hk
        rw [k.1.loc _ a fun i hi => look_map junk (hdl i ((hp k hk).1 i hi)) a]
      · apply List.map_congr_left
        intro k hk
        exact k.2.loc _ b fun i hi => look_map junk ((hp k hk).2 i hi) b
  rw [hm]
  split
  · simp only [Option.map_some]
    congr 1
    unfold loadAttrs
    apply List.map_congr_left
    intro i hi
    rcases hS i hi with h | h
    · have h1 := hll i (hdl i h)
      rw [if_neg (fun hh => hd i h1 (hlr i hh)), if_pos (hdl i h), if_pos h1, look_clone junk cl ha h]
    · rw [if_pos h, if_neg (fun hh => hd i hh (hlr i h)), look_map junk h]
  · rfl

end Positional

/-! ### Compiled code -/

section Compiled
variable (junk : C)

theorem named_filter {S S' : List I} {p : Ex I C Bool} {c c' : Plan I C} (h : Named junk c c')
    (hp : ∀ i ∈ p.req, i ∈ schema c') (hS : ∀ i ∈ S', i ∈ schema c') :
    Named junk (.filter S p c) (.filter S' p c') := by
  unfold Named at *
  simp only [runW, rowsOf, schema]
  exact (F2.filter h fun a b hab => p.loc _ _ fun i hi => hab i (hp i hi)).imp
    fun a b hab i hi => hab i (hS i hi)

theorem named_limit {off lim : Nat} {c c' : Plan I C} (h : Named junk c c') :
    Named junk (.limit off lim c) (.limit off lim c') := by
  unfold Named at *
  simp only [runW, rowsOf, schema]
  exact F2.take (F2.drop h off) lim

theorem named_sort {S S' : List I} {o : Ord I C} {c c' : Plan I C} (h : Named junk c c')
    (hp : ∀ i ∈ o.req, i ∈ schema c') (hS : ∀ i ∈ S', i ∈ schema c') :
    Named junk (.sort S o c) (.sort S' o c') := by
  unfold Named at *
  simp only [runW, rowsOf, schema]
  have h1 : List.Forall₂ (fun r r' => ∀ i ∈ schema c', r i = r' i)
      ((runW junk c').map (restrict junk (schema c'))) ((rowsOf id junk c).map fun r i => id (r i)) :=
    F2.map h fun a b hab i hi => by simp only [restrict, hi, if_true, id]; exact hab i hi
  rw [o.loc _ _ (h1.imp fun a b hab i hi => hab i (hp i hi))]
  conv => arg 3; rw [← List.map_id (pick _ _)]
  exact F2.map (F2.pick h1 _) fun a b hab i hi => by
    simp only [restrict, hi, if_true, id]; exact hab i (hS i hi)

theorem named_proj {items items' : List (I × Ex I C C)} {c c' : Plan I C} (h : Named junk c c')
    (hn : (items.map Prod.fst).Nodup) (hs : items'.Sublist items)
    (hp : ∀ x ∈ items', ∀ i ∈ x.2.req, i ∈ schema c') : Named junk (.proj items c) (.proj items' c') := by
  unfold Named at *
  simp only [runW, rowsOf, schema]
  refine F2.map h fun a b hab => ?_
  have hn' : (items'.map Prod.fst).Nodup := hn.sublist (hs.map _)
  have e := groupRow junk (keys := ([] : List (I × Unit))) (fun x : Ex I C C => x.ev b) (by simpa using hn) hs [] rfl
  have e' := map_mkRow junk hn' (items'.map fun x => x.2.ev a) (by simp)
  simp only [List.map_nil, List.nil_append] at e
  have : (items'.map fun x => x.2.ev a) = items'.map fun x => x.2.ev b := by
    apply List.map_congr_left
    intro x hx
    exact x.2.loc _ _ fun i hi => hab i (hp x hx i hi)
  rw [← this, ← e'] at e
  intro i hi
  exact (List.map_inj_left.mp e i hi).symm

theorem named_proj0 {items items' : List (I × Ex I C C)}
    (hn : (items.map Prod.fst).Nodup) (hs : items'.Sublist items) : Named junk (.proj0 items) (.proj0 items') := by
  unfold Named at *
  simp only [runW, rowsOf, schema]
  refine List.Forall₂.cons ?_ List.Forall₂.nil
  have hn' : (items'.map Prod.fst).Nodup := hn.sublist (hs.map _)
  have e := groupRow junk (keys := ([] : List (I × Unit))) (fun x : Ex I C C => x.ev fun _ => junk) (by simpa using hn) hs
    [] rfl
  have e' := map_mkRow junk hn' (items'.map fun x => x.2.ev fun _ => junk) (by simp)
  simp only [List.map_nil, List.nil_append] at e
  rw [← e'] at e
  intro i hi
  exact (List.map_inj_left.mp e i hi).symm

theorem named_group {keys : List (I × Ex I C C)} {eqk : List C → List C → Bool} {aggs aggs' : List (I × Agg I C)}
    {enum : Nat → List Nat} {c c' : Plan I C} (h : Named junk c c')
    (hn : (keys.map Prod.fst ++ aggs.map Prod.fst).Nodup) (hs : aggs'.Sublist aggs)
    (hk : ∀ x ∈ keys, ∀ i ∈ x.2.req, i ∈ schema c') (hp : ∀ x ∈ aggs', ∀ i ∈ x.2.req, i ∈ schema c') :
    Named junk (.group keys eqk aggs enum c) (.group keys eqk aggs' enum c') := by
  unfold Named at *
  simp only [runW, rowsOf, schema]
  have hg := F2.groupBy (eqk := eqk) (key := fun r : I → C => keys.map fun x => x.2.ev r)
    (key' := fun r => keys.map fun x => x.2.ev r) (by
      intro a b hab
      apply List.map_congr_left
      intro x hx
      exact x.2.loc _ _ fun i hi => hab i (hk x hx i hi)) h
  rw [hg.length_eq]
  have hlen := length_groupBy eqk keys.length (fun r : I → C => keys.map fun x => x.2.ev r) (by simp) (rowsOf id junk c)
  generalize groupBy eqk (fun r : I → C => keys.map fun x => x.2.ev r) (rowsOf id junk c) = gs' at *
  generalize groupBy eqk (fun r : I → C => keys.map fun x => x.2.ev r) (runW junk c') = gs at *
  have hg' : List.Forall₂ (fun (g : List C × List (I → C)) (g' : List C × List (I → C)) =>
      (g.1 = g'.1 ∧ List.Forall₂ (fun r r' => ∀ i ∈ schema c', r i = r' i) g.2 g'.2) ∧ g'.1.length = keys.length) gs gs' := by
    clear h
    induction hg with
    | nil => exact List.Forall₂.nil
    | cons hab _ ih =>
      exact List.Forall₂.cons ⟨hab, hlen _ (by simp)⟩ (ih fun g hg => hlen g (by simp [hg]))
  refine F2.map (F2.pick hg' _) fun g g' hgg => ?_
  obtain ⟨⟨h1, h2⟩, h3⟩ := hgg
  have hn' : (keys.map Prod.fst ++ aggs'.map Prod.fst).Nodup := hn.sublist ((hs.map _).append_left _)
  have e := groupRow junk (fun x : Agg I C => x.ev g'.2) hn hs g'.1 h3
  have e' := map_mkRow junk hn' (g.1 ++ aggs'.map fun x => x.2.ev g.2) (by simp [h1, h3])
  have : (aggs'.map fun x => x.2.ev g.2) = aggs'.map fun x => x.2.ev g'.2 := by
    apply List.map_congr_left
    intro x hx
    exact x.2.loc _ _ (h2.imp fun a b hab i hi => hab i (hp x hx i hi))
  rw [← this, ← h1, ← e'] at e
  intro i hi
  rw [h1] at *
  exact (List.map_inj_left.mp e i hi).symm

theorem named_agg {aggs aggs' : List (I × Agg I C)} {c c' : Plan I C} (h : Named junk c c')
    (hn : (aggs.map Prod.fst).Nodup) (hs : aggs'.Sublist aggs)
    (hp : ∀ x ∈ aggs', ∀ i ∈ x.2.req, i ∈ schema c') : Named junk (.agg aggs c) (.agg aggs' c') := by
  unfold Named at *
  simp only [runW, rowsOf, schema]
  refine List.Forall₂.cons ?_ List.Forall₂.nil
  have hn' : (aggs'.map Prod.fst).Nodup := hn.sublist (hs.map _)
  have e := groupRow junk (keys := ([] : List (I × Unit))) (fun x : Agg I C => x.ev (rowsOf id junk c)) (by simpa using hn)
    hs [] rfl
  have e' := map_mkRow junk hn' (aggs'.map fun x => x.2.ev (runW junk c')) (by simp)
  simp only [List.map_nil, List.nil_append] at e
  have : (aggs'.map fun x => x.2.ev (runW junk c')) = aggs'.map fun x => x.2.ev (rowsOf id junk c) := by
    apply List.map_congr_left
    intro x hx
    exact x.2.loc _ _ (h.imp fun a b hab i hi => hab i (hp x hx i hi))
  rw [← this, ← e'] at e
  intro i hi
  exact (List.map_inj_left.mp e i hi).symm

theorem named_join {S S' : List I} {p : JPred I C} {enum : Nat → Nat → List (Nat × Nat)} {l l' r r' : Plan I C}
    (hl : Named junk l l') (hr : Named junk r r')
    (hd : ∀ i ∈ schema l, i ∉ schema r) (hll : ∀ i ∈ schema l', i ∈ schema l) (hlr : ∀ i ∈ schema r', i ∈ schema r)
    (hS : ∀ i ∈ S', i ∈ schema l' ∨ i ∈ schema r')
    (hp : p.Over (schema l') (schema r')) : Named junk (.join S p enum l r) (.join S' p enum l' r') := by
  unfold Named at *
  simp only [runW, rowsOf, schema, List.length_map]
  rw [hl.length_eq, hr.length_eq]
  have h1 : List.Forall₂ (fun r r' => ∀ i ∈ schema l', r i = r' i) ((runW junk l').map (restrict junk (schema l')))
      (rowsOf id junk l) := by
    conv => arg 3; rw [← List.map_id (rowsOf id junk l)]
    exact F2.map hl fun a b hab i hi => by simp only [restrict, hi, if_true, id]; exact hab i hi
  have h2 : List.Forall₂ (fun x y => ∀ i ∈ schema r', x i = y i) ((runW junk r').map (restrict junk (schema r')))
      (rowsOf id junk r) := by
    conv => arg 3; rw [← List.map_id (rowsOf id junk r)]
    exact F2.map hr fun a b hab i hi => by simp only [restrict, hi, if_true, id]; exact hab i hi
  refine F2.pickPairs h1 h2 _ _ ?_ _
  intro a b a' b' hab hab'
  have hboth : ∀ i, i ∈ schema l' ∨ i ∈ schema r' →
      (if i ∈ schema l' then a i else a' i) = (if i ∈ schema l then id (b i) else b' i) := by
    intro i hi
    rcases hi with h | h
    · rw [if_pos h, if_pos (hll i h)]; exact hab i h
    · have : i ∉ schema l := fun hh => hd i hh (hlr i h)
      rw [if_neg (fun hh => this (hll i hh)), if_neg this]; exact hab' i h
  have hm : namedMatches id p a (fun i => if i ∈ schema l' then a i else a' i) a' =
      namedMatches id p b (fun i => if i ∈ schema l then id (b i) else b' i) b' := by
    cases p with
    | theta p => exact p.loc _ _ fun i hi => hboth i (hp i hi)
    | equi keys eqk =>
      simp only [namedMatches]
      congr 1
      · apply List.map_congr_left
        intro k hk
        rw [k.1.loc a b fun i hi => hab i ((hp k hk).1 i hi)]
      · apply List.map_congr_left
        intro k hk
        exact k.2.loc _ _ fun i hi => hab' i ((hp k hk).2 i hi)
  simp only [hm]
  split
  · right
    exact ⟨_, _, rfl, rfl, fun i hi => hboth i (hS i hi)⟩
  · left
    exact ⟨rfl, rfl⟩

end Compiled

end Mutable.Minimize
