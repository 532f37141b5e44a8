import Verif.Constraints.Spec
import Mathlib.Data.List.Pairwise
import Mathlib.Data.List.Perm.Basic

namespace Mutable.Constraints

variable {I V : Type} [DecidableEq I] [DecidableEq V] [Truth V]

/-- The promise of one entry. -/
def Ok (rows : List (Row I V)) (e : Ent I) : Prop :=
  (e.nn = true → ∀ r ∈ rows, r e.id ≠ none) ∧
  (e.uq = true → rows.Pairwise fun r r' => ∀ v, ¬ (r e.id = some v ∧ r' e.id = some v))

omit [DecidableEq I] [DecidableEq V] [Truth V] in
theorem sound_iff {S : List (Ent I)} {rows : List (Row I V)} : Sound S rows ↔ ∀ e ∈ S, Ok rows e := Iff.rfl

/-- `S` promises no more than `T`. -/
def Le (S T : List (Ent I)) : Prop :=
  ∀ e ∈ S, ∃ t ∈ T, t.id = e.id ∧ (e.nn = true → t.nn = true) ∧ (e.uq = true → t.uq = true)

omit [DecidableEq I] in
theorem Le.refl (S : List (Ent I)) : Le S S := fun e he => ⟨e, he, rfl, id, id⟩

omit [DecidableEq I] in
theorem Le.trans {S T U : List (Ent I)} (h : Le S T) (k : Le T U) : Le S U := by
  intro e he
  obtain ⟨t, ht, h1, h2, h3⟩ := h e he
  obtain ⟨u, hu, k1, k2, k3⟩ := k t ht
  exact ⟨u, hu, k1.trans h1, fun x => k2 (h2 x), fun x => k3 (h3 x)⟩

omit [DecidableEq I] in
theorem Le.ids {S T : List (Ent I)} (h : Le S T) {i : I} (hi : i ∈ ids S) : i ∈ Constraints.ids T := by
  obtain ⟨e, he, rfl⟩ := List.mem_map.mp hi
  obtain ⟨t, ht, h1, _⟩ := h e he
  exact List.mem_map.mpr ⟨t, ht, h1⟩

omit [DecidableEq I] [DecidableEq V] [Truth V] in
theorem Ok.le {rows : List (Row I V)} {e t : Ent I} (hi : t.id = e.id) (h1 : e.nn = true → t.nn = true)
    (h2 : e.uq = true → t.uq = true) (h : Ok rows t) : Ok rows e := by
  obtain ⟨a, b⟩ := h
  rw [hi] at a b
  exact ⟨fun x => a (h1 x), fun x => b (h2 x)⟩

omit [DecidableEq I] [DecidableEq V] [Truth V] in
theorem Le.sound {S T : List (Ent I)} {rows : List (Row I V)} (h : Le S T) (hs : Sound T rows) : Sound S rows := by
  rw [sound_iff] at *
  intro e he
  obtain ⟨t, ht, h1, h2, h3⟩ := h e he
  exact Ok.le h1 h2 h3 (hs t ht)

omit [DecidableEq I] [DecidableEq V] [Truth V] in
theorem Ok.sublist {rows rows' : List (Row I V)} {e : Ent I} (h : Ok rows e) (hs : rows'.Sublist rows) : Ok rows' e :=
  ⟨fun x r hr => h.1 x r (hs.subset hr), fun x => (h.2 x).sublist hs⟩

omit [DecidableEq I] [DecidableEq V] [Truth V] in
theorem Ok.perm {rows rows' : List (Row I V)} {e : Ent I} (h : Ok rows e) (hs : rows'.Perm rows) : Ok rows' e := by
  refine ⟨fun x r hr => h.1 x r (hs.subset hr), fun x => ?_⟩
  refine (hs.pairwise_iff ?_).mpr (h.2 x)
  intro a b hab v hv
  exact hab v ⟨hv.2, hv.1⟩

omit [DecidableEq I] [DecidableEq V] [Truth V] in
theorem Ok.merge {rows : List (Row I V)} {e t : Ent I} (b : Bool) (he : Ok rows e) (hi : t.id = e.id) (ht : Ok rows t) :
    Ok rows (merge b e t) := by
  obtain ⟨t1, t2⟩ := ht
  rw [hi] at t1 t2
  refine ⟨fun x => ?_, fun x => ?_⟩
  · simp only [Constraints.merge, Bool.or_eq_true] at x ⊢
    exact x.elim he.1 t1
  · simp only [Constraints.merge, Bool.or_eq_true, Bool.and_eq_true] at x ⊢
    exact x.elim he.2 fun h => t2 h.2

/-- Values of a column that are those of another one, row by row. -/
theorem Ok.map {rows : List (Row I V)} {e t : Ent I} {f : Row I V → Row I V} (h : Ok rows t)
    (hf : ∀ r ∈ rows, f r e.id = r t.id) (h1 : e.nn = true → t.nn = true) (h2 : e.uq = true → t.uq = true) :
    Ok (rows.map f) e := by
  refine ⟨fun x r hr => ?_, fun x => ?_⟩
  · obtain ⟨r', hr', rfl⟩ := List.mem_map.mp hr
    rw [hf r' hr']
    exact h.1 (h1 x) r' hr'
  · rw [List.pairwise_map]
    refine List.Pairwise.imp_of_mem ?_ (h.2 (h2 x))
    intro a b ha hb hab v hv
    rw [hf a ha, hf b hb] at hv
    exact hab v hv

/-! ### Schemas -/

section Schemas

theorem find_some {T : List (Ent I)} {i : I} {t : Ent I} (h : find T i = some t) : t ∈ T ∧ t.id = i := by
  unfold find at h
  exact ⟨List.mem_of_find?_eq_some h, by simpa using List.find?_some h⟩

theorem find_none {T : List (Ent I)} {i : I} : find T i = none ↔ i ∉ ids T := by
  unfold find
  rw [List.find?_eq_none]
  simp [ids]

theorem find_mem {T : List (Ent I)} (hn : (ids T).Nodup) {t : Ent I} (h : t ∈ T) : find T t.id = some t := by
  induction T with
  | nil => cases h
  | cons a T ih =>
    simp only [ids, List.map_cons, List.nodup_cons] at hn
    unfold find
    rcases List.mem_cons.mp h with rfl | h
    · simp
    · have : a.id ≠ t.id := by
        intro e
        exact hn.1 (e ▸ List.mem_map_of_mem h)
      rw [List.find?_cons_of_neg (by simpa using this)]
      exact ih hn.2 h

theorem find_of_ids {T : List (Ent I)} {i : I} (h : i ∈ ids T) : ∃ t, find T i = some t := by
  cases hf : find T i with
  | none => exact absurd h (find_none.mp hf)
  | some t => exact ⟨t, rfl⟩

omit [DecidableEq I] in
theorem eq_of_id {T : List (Ent I)} (hn : (ids T).Nodup) {s t : Ent I} (hs : s ∈ T) (ht : t ∈ T) (h : s.id = t.id) : s = t := by
  classical
  have := find_mem hn hs
  rw [h, find_mem hn ht] at this
  exact (Option.some.inj this).symm

theorem ids_addC (b : Bool) (S T : List (Ent I)) : ids (addC b S T) = ids S := by
  unfold ids addC
  rw [List.map_map]
  apply List.map_congr_left
  intro e _
  simp only [Function.comp]
  split <;> rfl

theorem mem_addC {b : Bool} {S T : List (Ent I)} {e : Ent I} (h : e ∈ addC b S T) :
    ∃ s ∈ S, e.id = s.id ∧ ((s.id ∉ ids T ∧ e = s) ∨ ∃ t ∈ T, t.id = s.id ∧ e = merge b s t) := by
  obtain ⟨s, hs, rfl⟩ := List.mem_map.mp h
  refine ⟨s, hs, ?_⟩
  cases hf : find T s.id with
  | none => exact ⟨rfl, Or.inl ⟨find_none.mp hf, rfl⟩⟩
  | some t => exact ⟨rfl, Or.inr ⟨t, (find_some hf).1, (find_some hf).2, rfl⟩⟩

theorem le_addC (b : Bool) (S T : List (Ent I)) : Le S (addC b S T) := by
  intro e he
  refine ⟨_, List.mem_map_of_mem he, ?_⟩
  split
  · exact ⟨rfl, id, id⟩
  · exact ⟨rfl, fun x => by simp [merge, x], fun x => by simp [merge, x]⟩

theorem addC_le {S T : List (Ent I)} (h : Le S T) (hn : (ids T).Nodup) : Le (addC true S T) T := by
  intro e he
  obtain ⟨s, hs, hi, h1 | ⟨t, ht, hti, rfl⟩⟩ := mem_addC he
  · obtain ⟨t, ht, h2, _⟩ := h s hs
    exact absurd (List.mem_map.mpr ⟨t, ht, h2⟩) h1.1
  · obtain ⟨t', ht', h2, h3, h4⟩ := h s hs
    obtain rfl := eq_of_id hn ht ht' (hti.trans h2.symm)
    refine ⟨t, ht, hti, ?_, ?_⟩
    · simp only [merge, Bool.or_eq_true]
      exact fun x => x.elim h3 id
    · simp only [merge, Bool.or_eq_true, Bool.and_eq_true]
      exact fun x => x.elim h4 And.right

omit [DecidableEq V] [Truth V] in
theorem sound_addC {b : Bool} {S T : List (Ent I)} {rows : List (Row I V)} (h : Sound S rows)
    (ht : ∀ s ∈ S, ∀ t ∈ T, t.id = s.id → Ok rows t) : Sound (addC b S T) rows := by
  rw [sound_iff] at *
  intro e he
  obtain ⟨s, hs, _, ⟨_, rfl⟩ | ⟨t, ht', hti, rfl⟩⟩ := mem_addC he
  · exact h _ hs
  · exact (h s hs).merge b hti (ht s hs t ht' hti)

theorem mem_inter {A B : List (Ent I)} {e : Ent I} (h : e ∈ inter A B) :
    ∃ s ∈ A, ∃ t ∈ B, t.id = s.id ∧ e = merge true s t := by
  obtain ⟨s, hs, h⟩ := List.mem_filterMap.mp h
  cases hf : find B s.id with
  | none => rw [hf] at h; cases h
  | some t =>
    rw [hf] at h
    exact ⟨s, hs, t, (find_some hf).1, (find_some hf).2, (Option.some.inj h).symm⟩

theorem inter_ids (A B : List (Ent I)) : ids (inter A B) = (ids A).filter fun i => decide (i ∈ ids B) := by
  induction A with
  | nil => rfl
  | cons a A ih =>
    cases hf : find B a.id with
    | none =>
      rw [show inter (a :: A) B = inter A B from by simp [inter, hf], ih]
      rw [show ids (a :: A) = a.id :: ids A from rfl, List.filter_cons_of_neg]
      simpa using find_none.mp hf
    | some t =>
      rw [show inter (a :: A) B = merge true a t :: inter A B from by simp [inter, hf]]
      have hm : a.id ∈ ids B := by
        rw [← (find_some hf).2]
        exact List.mem_map_of_mem (find_some hf).1
      rw [show ids (a :: A) = a.id :: ids A from rfl, List.filter_cons_of_pos (by simpa using hm), ← ih]
      rfl

/-- If the entries of `A` that are in `B` promise no more than those of `B`. -/
theorem inter_le {A B : List (Ent I)} (hn : (ids B).Nodup)
    (h : ∀ a ∈ A, a.id ∈ ids B → ∃ t ∈ B, t.id = a.id ∧ (a.nn = true → t.nn = true) ∧ (a.uq = true → t.uq = true)) :
    Le (inter A B) B := by
  intro e he
  obtain ⟨s, hs, t, ht, hti, rfl⟩ := mem_inter he
  obtain ⟨t', ht', h2, h3, h4⟩ := h s hs (hti ▸ List.mem_map_of_mem ht)
  obtain rfl := eq_of_id hn ht ht' (hti.trans h2.symm)
  refine ⟨t, ht, hti, ?_, ?_⟩
  · simp only [merge, Bool.or_eq_true]
    exact fun x => x.elim h3 id
  · simp only [merge, Bool.or_eq_true, Bool.and_eq_true]
    exact fun x => x.elim h4 And.right

theorem le_inter {A B : List (Ent I)} (h : ∀ a ∈ A, a.id ∈ ids B) : Le A (inter A B) := by
  intro a ha
  obtain ⟨t, ht⟩ := find_of_ids (h a ha)
  refine ⟨merge true a t, List.mem_filterMap.mpr ⟨a, ha, by rw [ht]; rfl⟩, rfl, ?_, ?_⟩
  · simp only [merge]; exact fun x => by simp [x]
  · simp only [merge]; exact fun x => by simp [x]

theorem union_spec (B : List (Ent I)) : ∀ A : List (Ent I), (ids A).Nodup →
    (ids (union A B)).Nodup ∧ (∀ i, i ∈ ids (union A B) ↔ i ∈ ids A ∨ i ∈ ids B) ∧ (∀ a ∈ A, a ∈ union A B) ∧
    (∀ e ∈ union A B, e ∈ A ∨ e ∈ B) := by
  induction B with
  | nil => intro A hA; exact ⟨hA, fun i => by simp [union, ids], fun a h => h, fun e h => Or.inl h⟩
  | cons b B ih =>
    intro A hA
    have e : union A (b :: B) = union (addEnt A b) B := rfl
    by_cases hb : b.id ∈ ids A
    · have e2 : addEnt A b = A := by simp [addEnt, hb]
      rw [e, e2]
      obtain ⟨h1, h2, h3, h4⟩ := ih A hA
      refine ⟨h1, fun i => ?_, h3, fun e he => (h4 e he).imp id (List.mem_cons_of_mem _)⟩
      rw [h2]
      simp only [ids, List.map_cons, List.mem_cons]
      constructor
      · exact fun h => h.imp id Or.inr
      · rintro (h | rfl | h)
        · exact Or.inl h
        · exact Or.inl hb
        · exact Or.inr h
    · have e2 : addEnt A b = A ++ [b] := by simp [addEnt, hb]
      rw [e, e2]
      have hA' : (ids (A ++ [b])).Nodup := by
        simp only [ids, List.map_append, List.map_cons, List.map_nil]
        rw [List.nodup_append]
        exact ⟨hA, by simp, fun a ha c hc => by simp only [List.mem_singleton] at hc; rintro rfl; exact hb (hc ▸ ha)⟩
      obtain ⟨h1, h2, h3, h4⟩ := ih _ hA'
      refine ⟨h1, fun i => ?_, fun a ha => h3 a (List.mem_append_left _ ha), fun e he => ?_⟩
      · rw [h2]; simp [ids, or_assoc, eq_comm]
      · rcases h4 e he with h | h
        · rcases List.mem_append.mp h with h | h
          · exact Or.inl h
          · simp only [List.mem_singleton] at h; exact Or.inr (h ▸ List.mem_cons_self)
        · exact Or.inr (List.mem_cons_of_mem _ h)

omit [DecidableEq I] in
theorem ids_plain (is : List I) : ids (plain is) = is := by
  simp [ids, plain, Function.comp_def]

/-- Adding plain requirements. -/
theorem union_plain_le {A T : List (Ent I)} {is : List I} (hA : (ids A).Nodup) (h : Le A T) (hi : ∀ i ∈ is, i ∈ ids T) :
    Le (union A (plain is)) T := by
  intro e he
  rcases (union_spec (plain is) A hA).2.2.2 e he with h' | h'
  · exact h e h'
  · obtain ⟨i, hi', rfl⟩ := List.mem_map.mp h'
    obtain ⟨t, ht, h1⟩ := List.mem_map.mp (hi i hi')
    exact ⟨t, ht, h1, fun x => absurd x (by simp), fun x => absurd x (by simp)⟩

end Schemas

/-! ### Expressions -/

theorem E.dominates_ev {c : Bool} {e : E I V} (h : e.dominates c = true) (r : Row I V) : e.ev r = some (Truth.ofBool (!c)) := by
  cases e with
  | const v => simpa [E.dominates, E.ev] using h
  | _ => simp [E.dominates] at h

theorem E.not_null {T : List (Ent I)} {rows : List (Row I V)} (hs : Sound T rows) {r : Row I V} (hr : r ∈ rows) (e : E I V)
    (h : e.Resolved T) (hc : e.canBeNull = false) : e.ev r ≠ none := by
  induction e with
  | const v =>
    cases v with
    | none => simp [E.canBeNull] at hc
    | some v => simp [E.ev]
  | attr i nn =>
    obtain ⟨t, ht, rfl, h2⟩ := h
    exact (hs t ht).1 (h2 (by simpa [E.canBeNull] using hc)) r hr
  | named i e _ =>
    obtain ⟨t, ht, rfl, h2⟩ := h
    exact (hs t ht).1 (h2 hc) r hr
  | free i => simp [E.canBeNull] at hc
  | un f e ih =>
    have := ih h hc
    simpa [E.ev] using this
  | bin f a b iha ihb =>
    simp only [E.canBeNull, Bool.or_eq_false_iff] at hc
    have h1 := iha h.1 hc.1
    have h2 := ihb h.2 hc.2
    obtain ⟨x, hx⟩ := Option.ne_none_iff_exists'.mp h1
    obtain ⟨y, hy⟩ := Option.ne_none_iff_exists'.mp h2
    simp [E.ev, hx, hy]
  | logic c a b iha ihb =>
    simp only [E.ev]
    split
    · simp
    · rename_i hn
      have ha : a.dominates c = false := by
        cases hd : a.dominates c with
        | false => rfl
        | true => exact absurd (Or.inl (E.dominates_ev hd r)) hn
      have hb : b.dominates c = false := by
        cases hd : b.dominates c with
        | false => rfl
        | true => exact absurd (Or.inr (E.dominates_ev hd r)) hn
      simp only [E.canBeNull, ha, hb, Bool.not_false, Bool.true_and, Bool.or_eq_false_iff] at hc
      obtain ⟨x, hx⟩ := Option.ne_none_iff_exists'.mp (iha h.1 hc.1)
      obtain ⟨y, hy⟩ := Option.ne_none_iff_exists'.mp (ihb h.2 hc.2)
      simp [hx, hy]
  | isNull e _ => simp [E.ev]
  | cnt i =>
    obtain ⟨t, ht, rfl, h2⟩ := h
    exact (hs t ht).1 h2 r hr
  | oth i arg _ =>
    obtain ⟨t, ht, rfl, h2⟩ := h
    exact (hs t ht).1 (h2 hc) r hr

omit [DecidableEq I] in
theorem E.designator_ev {e : E I V} {i : I} (h : e.designator? = some i) (r : Row I V) : e.ev r = r i := by
  cases e <;> simp [E.designator?] at h <;> subst h <;> rfl

theorem E.column_ev {e : E I V} {i : I} (h : e.column? = some i) (r : Row I V) : e.ev r = r i := by
  cases e <;> simp [E.column?] at h <;> subst h <;> rfl

theorem E.req_resolved {T : List (Ent I)} {e : E I V} (h : e.Resolved T) : ∀ i ∈ e.req, i ∈ ids T := by
  have hm : ∀ {i : I} {P : Ent I → Prop}, (∃ t ∈ T, t.id = i ∧ P t) → i ∈ ids T :=
    fun ⟨t, ht, h1, _⟩ => List.mem_map.mpr ⟨t, ht, h1⟩
  induction e with
  | const => intro i hi; cases hi
  | attr j nn => intro i hi; simp only [E.req, List.mem_singleton] at hi; subst hi; exact hm h
  | named j e _ => intro i hi; simp only [E.req, List.mem_singleton] at hi; subst hi; exact hm h
  | free j =>
    intro i hi; simp only [E.req, List.mem_singleton] at hi; subst hi
    obtain ⟨t, ht, h1⟩ := h
    exact List.mem_map.mpr ⟨t, ht, h1⟩
  | un f e ih => exact ih h
  | bin f a b iha ihb => exact fun i hi => (List.mem_append.mp hi).elim (iha h.1 i) (ihb h.2 i)
  | logic c a b iha ihb => exact fun i hi => (List.mem_append.mp hi).elim (iha h.1 i) (ihb h.2 i)
  | isNull e ih => exact ih h
  | cnt j => intro i hi; simp only [E.req, List.mem_singleton] at hi; subst hi; exact hm h
  | oth j arg _ => intro i hi; simp only [E.req, List.mem_singleton] at hi; subst hi; exact hm h

theorem Ag.req_resolved {T : List (Ent I)} {a : Ag I V} (h : a.Resolved T) : ∀ i ∈ a.req, i ∈ ids T := by
  cases a with
  | cnt f req => exact h
  | oth f arg => exact E.req_resolved h

theorem E.reads_of_req {T : List I} {e : E I V} (h : ∀ i ∈ e.req, i ∈ T) : e.Reads T := by
  induction e with
  | const => trivial
  | attr j nn => exact h j (List.mem_singleton.mpr rfl)
  | named j e _ => exact h j (List.mem_singleton.mpr rfl)
  | free j => exact h j (List.mem_singleton.mpr rfl)
  | un f e ih => exact ih h
  | bin f a b iha ihb => exact ⟨iha fun i hi => h i (List.mem_append_left _ hi), ihb fun i hi => h i (List.mem_append_right _ hi)⟩
  | logic f a b iha ihb => exact ⟨iha fun i hi => h i (List.mem_append_left _ hi), ihb fun i hi => h i (List.mem_append_right _ hi)⟩
  | isNull e ih => exact ih h
  | cnt j => exact h j (List.mem_singleton.mpr rfl)
  | oth j e _ => exact h j (List.mem_singleton.mpr rfl)

theorem Ag.reads_of_req {T : List I} {a : Ag I V} (h : ∀ i ∈ a.req, i ∈ T) : a.Reads T := by
  cases a with
  | cnt f req => exact h
  | oth f arg => exact E.reads_of_req h

omit [DecidableEq I] [DecidableEq V] [Truth V] in
theorem JP.req_of_sides {l r : List I} {p : JP I V} (h : p.Sides l r) : ∀ i ∈ p.req, i ∈ l ∨ i ∈ r := by
  cases p with
  | theta req f => exact h
  | equi keys =>
    intro i hi
    obtain ⟨k, hk, hi⟩ := List.mem_flatMap.mp hi
    simp only [List.mem_cons, List.not_mem_nil, or_false] at hi
    rcases hi with rfl | rfl
    · exact Or.inl (h k hk).1
    · exact Or.inr (h k hk).2

omit [DecidableEq I] [DecidableEq V] [Truth V] in
theorem JP.sides_mono {l r l' r' : List I} {p : JP I V} (h : p.Sides l r) (hl : ∀ i ∈ p.req, i ∈ l → i ∈ l')
    (hr : ∀ i ∈ p.req, i ∈ r → i ∈ r') : p.Sides l' r' := by
  cases p with
  | theta req f => exact fun i hi => (h i hi).imp (hl i hi) (hr i hi)
  | equi keys =>
    intro k hk
    have h1 : k.1 ∈ (JP.equi keys : JP I V).req := List.mem_flatMap.mpr ⟨k, hk, by simp⟩
    have h2 : k.2 ∈ (JP.equi keys : JP I V).req := List.mem_flatMap.mpr ⟨k, hk, by simp⟩
    exact ⟨hl _ h1 (h k hk).1, hr _ h2 (h k hk).2⟩

/-! ### Rows -/

theorem project_item {items : List (I × E I V)} (hn : (items.map Prod.fst).Nodup) {x : I × E I V} (hx : x ∈ items) (r : Row I V) :
    project items r x.1 = x.2.ev r := by
  unfold project
  have : (items.find? fun y => decide (y.1 = x.1)) = some x := by
    induction items with
    | nil => cases hx
    | cons a items ih =>
      simp only [List.map_cons, List.nodup_cons] at hn
      rcases List.mem_cons.mp hx with rfl | hx
      · simp
      · have : a.1 ≠ x.1 := fun e => hn.1 (e ▸ List.mem_map_of_mem hx)
        rw [List.find?_cons_of_neg (by simpa using this)]
        exact ih hn.2 hx
  rw [this]; rfl

theorem find_zip {β : Type} : ∀ (ks : List I) (g : I → β) (vs : List β), ks.Nodup → vs = ks.map g → ∀ i ∈ ks,
    ((ks.zip vs).find? fun x => decide (x.1 = i)) = some (i, g i) := by
  intro ks g
  induction ks with
  | nil => intro vs _ _ i hi; cases hi
  | cons k ks ih =>
    intro vs hn hv i hi
    subst hv
    simp only [List.map_cons, List.zip_cons_cons]
    rcases List.mem_cons.mp hi with rfl | hi
    · simp
    · have : k ≠ i := by rintro rfl; exact (List.nodup_cons.mp hn).1 hi
      rw [List.find?_cons_of_neg (by simpa using this)]
      exact ih _ (List.nodup_cons.mp hn).2 rfl i hi

theorem groupRow_key {keys : List (I × E I V)} {aggs : List (I × Ag I V)} (hn : (keys.map Prod.fst).Nodup) {x : I × E I V}
    (hx : x ∈ keys) (r : Row I V) (rs : List (Row I V)) : groupRow keys aggs (keyOf keys r) rs x.1 = x.2.ev r := by
  have hz : (((keys.map Prod.fst).zip (keyOf keys r)).find? fun y => decide (y.1 = x.1)) = some (x.1, x.2.ev r) := by
    unfold keyOf
    clear aggs rs
    induction keys with
    | nil => cases hx
    | cons k keys ih =>
      simp only [List.map_cons, List.nodup_cons] at hn
      simp only [List.map_cons, List.zip_cons_cons]
      rcases List.mem_cons.mp hx with rfl | hx
      · simp
      · have : k.1 ≠ x.1 := fun e => hn.1 (e ▸ List.mem_map_of_mem hx)
        rw [List.find?_cons_of_neg (by simpa using this)]
        exact ih hn.2 hx
  unfold groupRow
  rw [hz]

theorem groupRow_agg {keys : List (I × E I V)} {aggs : List (I × Ag I V)}
    (hn : (keys.map Prod.fst ++ aggs.map Prod.fst).Nodup) {x : I × Ag I V} (hx : x ∈ aggs) (k : List (Option V))
    (rs : List (Row I V)) : groupRow keys aggs k rs x.1 = x.2.ev rs := by
  rw [List.nodup_append] at hn
  have hz : (((keys.map Prod.fst).zip k).find? fun y => decide (y.1 = x.1)) = none := by
    rw [List.find?_eq_none]
    intro y hy
    have := (List.of_mem_zip hy).1
    simpa using hn.2.2 y.1 this x.1 (List.mem_map_of_mem hx)
  have hf : (aggs.find? fun y => decide (y.1 = x.1)) = some x := by
    have h2 := hn.2.1
    clear hn hz
    induction aggs with
    | nil => cases hx
    | cons a aggs ih =>
      simp only [List.map_cons, List.nodup_cons] at h2
      rcases List.mem_cons.mp hx with rfl | hx
      · simp
      · have : a.1 ≠ x.1 := fun e => h2.1 (e ▸ List.mem_map_of_mem hx)
        rw [List.find?_cons_of_neg (by simpa using this)]
        exact ih hx h2.2
  unfold groupRow
  rw [hz, hf]; rfl

theorem mem_distinct {α : Type} [DecidableEq α] {l : List α} {a : α} : a ∈ distinct l ↔ a ∈ l := by
  induction l with
  | nil => simp [distinct]
  | cons b l ih =>
    simp only [distinct, List.mem_cons, List.mem_filter, ih, decide_eq_true_eq]
    by_cases h : a = b <;> simp [h]

theorem distinct_nodup {α : Type} [DecidableEq α] (l : List α) : (distinct l).Nodup := by
  induction l with
  | nil => simp [distinct]
  | cons b l ih =>
    simp only [distinct, List.nodup_cons]
    exact ⟨by simp, ih.filter _⟩

/-- The rows of a group are not empty, and have the key of the group. -/
theorem group_rows {keys : List (I × E I V)} {rows : List (Row I V)} {k : List (Option V)}
    (hk : k ∈ distinct (rows.map (keyOf keys))) : ∃ r ∈ rows, keyOf keys r = k :=
  List.mem_map.mp (mem_distinct.mp hk)

end Mutable.Constraints
