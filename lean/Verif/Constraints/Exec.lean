import Verif.Constraints.Mini

namespace Mutable.Constraints

variable {I V : Type} [DecidableEq I] [DecidableEq V] [Truth V]

omit [DecidableEq V] [Truth V] in
theorem store_sound {S : List (Ent I)} {rows : List (Row I V)} (junk : V) (h : Sound S rows) {r : Row I V} (hr : r ∈ rows) :
    store junk S r = r := by
  funext i
  unfold store
  cases hf : find S i with
  | none => rfl
  | some e =>
    obtain ⟨he, rfl⟩ := find_some hf
    simp only
    split
    · rename_i hnn
      obtain ⟨v, hv⟩ := Option.ne_none_iff_exists'.mp ((h e he).1 hnn r hr)
      rw [hv]; rfl
    · rfl

omit [DecidableEq V] [Truth V] in
theorem map_store {S : List (Ent I)} {rows : List (Row I V)} (junk : V) (h : Sound S rows) : rows.map (store junk S) = rows := by
  conv => rhs; rw [← List.map_id rows]
  exact List.map_congr_left fun r hr => store_sound junk h hr

theorem find_filter {α : Type} {f : α → Bool} {l : List α} (h : l.Pairwise fun a b => ¬ (f a = true ∧ f b = true)) :
    (l.find? f).toList = l.filter f := by
  induction l with
  | nil => rfl
  | cons a l ih =>
    rw [List.pairwise_cons] at h
    cases hf : f a with
    | false => rw [List.find?_cons_of_neg (by simp [hf]), List.filter_cons_of_neg (by simp [hf]), ih h.2]
    | true =>
      rw [List.find?_cons_of_pos hf, List.filter_cons_of_pos hf, Option.toList_some]
      congr 1
      symm
      rw [List.filter_eq_nil_iff]
      intro b hb hfb
      exact h.1 b hb ⟨hf, hfb⟩

omit [Truth V] in
/-- A unique build key: at most one partner. -/
theorem unique_partner {T : List (Ent I)} {rows : List (Row I V)} (h : Sound T rows) {p : JP I V} (hu : uniqueBuild p T = true)
    (L : List I) (b : Row I V) :
    rows.Pairwise fun a a' => ¬ (p.holds (both L a b) a b = true ∧ p.holds (both L a' b) a' b = true) := by
  cases p with
  | theta req f => simp [uniqueBuild] at hu
  | equi keys =>
    cases keys with
    | nil => simp [uniqueBuild] at hu
    | cons k keys =>
      simp only [uniqueBuild, List.isEmpty_cons, Bool.not_false, Bool.true_and, List.all_cons, Bool.and_eq_true,
        Option.any_eq_true] at hu
      obtain ⟨⟨e, he, heu⟩, _⟩ := hu
      obtain ⟨hm, hi⟩ := find_some he
      refine ((h e hm).2 heu).imp ?_
      intro a a' hv ⟨h1, h2⟩
      simp only [JP.holds, List.all_cons, Bool.and_eq_true, decide_eq_true_eq] at h1 h2
      obtain ⟨v, hx⟩ := Option.isSome_iff_exists.mp h1.1.1
      rw [hi] at hv
      exact hv v ⟨hx, by rw [h2.1.2, ← h1.1.2, hx]⟩

/-- If all schemas keep their promises, relying on them is correct. -/
theorem exec_sound (junk : V) {p : Plan I V} (h : AllSound p) : exec junk p = rowsOf p := by
  have hself : ∀ p : Plan I V, AllSound p → Sound (schema p) (rowsOf p) := by
    intro p h
    cases p with
    | scan => exact h
    | _ => exact h.1
  induction p with
  | scan => rfl
  | filter S req f c ih => simp only [exec, rowsOf, ih h.2]
  | join S L p l r ihl ihr =>
    simp only [exec, rowsOf, ihl h.2.1, ihr h.2.2, map_store junk (hself l h.2.1)]
    split
    · rename_i hu
      congr 1
      funext b
      rw [← find_filter (unique_partner (hself l h.2.1) hu L b)]
      cases List.find? (fun a => p.holds (both L a b) a b) (rowsOf l) <;> rfl
    · rfl
  | proj S items c ih => simp only [exec, rowsOf, ih h.2]
  | limit off lim c ih => simp only [exec, rowsOf, ih h.2]
  | group S keys aggs c ih => simp only [exec, rowsOf, ih h.2]
  | agg S aggs c ih => simp only [exec, rowsOf, ih h.2]
  | sort S req ord c ih => simp only [exec, rowsOf, ih h.2, map_store junk (hself c h.2)]

theorem allSound_self {p : Plan I V} (h : AllSound p) : Sound (schema p) (rowsOf p) := by
  cases p with
  | scan => exact h
  | _ => exact h.1

theorem shown_sound (junk : V) {p : Plan I V} (h : AllSound p) : shown junk p = answer p := by
  unfold shown answer
  rw [exec_sound junk h]
  apply List.map_congr_left
  intro r hr
  rw [store_sound junk (allSound_self h) hr]

theorem topOk_of_WF {p : Plan I V} (h : WF p) : TopOk p := by
  induction p with
  | scan => trivial
  | filter S req f c _ => obtain ⟨_, rfl, _⟩ := h; exact fun i hi => hi
  | sort S req f c _ => obtain ⟨_, rfl, _⟩ := h; exact fun i hi => hi
  | join S L p l r _ _ =>
    obtain ⟨_, _, rfl, _⟩ := h
    intro i hi
    have : i ∈ ids (schema l) ++ ids (schema r) := List.mem_append.mpr hi
    simpa [ids, joinEnt, Function.comp_def] using this
  | proj S items c _ =>
    obtain ⟨_, _, _, rfl⟩ := h
    intro x hx
    refine List.mem_map.mpr ⟨itemEnt (schema c) x, List.mem_map_of_mem hx, ?_⟩
    simp only [itemEnt]
    split <;> rfl
  | limit off lim c ih => exact ih h
  | group S keys aggs c _ =>
    obtain ⟨_, _, _, _, rfl⟩ := h
    intro x hx
    exact List.mem_map.mpr ⟨groupAggEnt x, List.mem_append_right _ (List.mem_map_of_mem hx), rfl⟩
  | agg S aggs c _ =>
    obtain ⟨_, _, _, rfl⟩ := h
    intro x hx
    exact List.mem_map.mpr ⟨aggEnt x, List.mem_map_of_mem hx, rfl⟩

/-- Any number of minimizations. -/
theorem minimize_iter {p : Plan I V} (h : WF p) (hc : NoClash p) (n : Nat) :
    Good (Nat.repeat minimize n p) ∧ TopOk (Nat.repeat minimize n p) ∧ rowsOf (Nat.repeat minimize n p) = rowsOf p ∧
    ids (schema (Nat.repeat minimize n p)) = ids (schema p) := by
  induction n with
  | zero => exact ⟨good_of_WF h hc, topOk_of_WF h, rfl, rfl⟩
  | succ n ih =>
    obtain ⟨g, t, hr, hi⟩ := ih
    have st := mini_step _ g true [] List.nodup_nil (fun h => by cases h) (fun _ => t)
    exact ⟨st.good, st.topOk rfl, st.rows.trans hr, (st.ids_eq rfl).trans hi⟩

end Mutable.Constraints
