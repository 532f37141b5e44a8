import Verif.Schema.Model
import Mathlib.Data.List.Nodup
import Mathlib.Data.List.Sublists
/-!
# C41: schemas
-/
namespace Mutable.Schema

/-! ### Specification -/

/-- The identifiers of a schema, in order. -/
def ids (S : Sch) : List Ident := S.map Entry.id

/-- No identifier occurs twice. -/
def Unique (S : Sch) : Prop := (ids S).Nodup

/-- `e` is the first entry of `S` with its identifier. -/
def IsFirst (S : Sch) (e : Entry) : Prop := ∃ a b, S = a ++ e :: b ∧ e.id ∉ ids a

/-! ### `find` -/

theorem findFrom_spec (p : Entry → Bool) (S : Sch) :
    (∃ a e b, S = a ++ e :: b ∧ p e = true ∧ (∀ x ∈ a, p x = false) ∧ findFrom p S = a.length) ∨
    ((∀ x ∈ S, p x = false) ∧ findFrom p S = S.length) := by
  induction S with
  | nil => right; simp [findFrom]
  | cons e l ih =>
    unfold findFrom
    by_cases he : p e = true
    · left; exact ⟨[], e, l, rfl, he, by simp, by simp [he]⟩
    · simp only [he]
      rcases ih with ⟨a, x, b, rfl, h1, h2, h3⟩ | ⟨h1, h2⟩
      · left
        refine ⟨e :: a, x, b, rfl, h1, ?_, by simp [h3]⟩
        intro y hy
        rcases List.mem_cons.1 hy with rfl | hy
        · simpa using he
        · exact h2 y hy
      · right
        refine ⟨?_, by simp [h2]⟩
        intro y hy
        rcases List.mem_cons.1 hy with rfl | hy
        · simpa using he
        · exact h1 y hy

/-- `find` fails exactly if the identifier occurs more than once; otherwise it finds the only entry with the identifier or,
if there is none, the end. -/
theorem find_cases (S : Sch) (id : Ident) :
    (id ∉ ids S ∧ find S id = .ok S.length) ∨
    (∃ a e b, S = a ++ e :: b ∧ e.id = id ∧ id ∉ ids a ∧ id ∉ ids b ∧ find S id = .ok a.length) ∨
    (1 < (ids S).count id ∧ find S id = .error .ambiguous) := by
  have hp : ∀ e : Entry, (decide (e.id = id) = true) ↔ e.id = id := by simp
  have hall : ∀ l : Sch, (∀ x ∈ l, decide (x.id = id) = false) ↔ id ∉ ids l := by
    intro l; simp [ids]
  rcases findFrom_spec (fun e => decide (e.id = id)) S with ⟨a, e, b, rfl, h1, h2, h3⟩ | ⟨h1, h2⟩
  · rw [hall] at h2
    simp only [decide_eq_true_eq] at h1
    have hd : (a ++ e :: b).drop (a.length + 1) = b := by simp
    rcases findFrom_spec (fun e => decide (e.id = id)) b with ⟨c, f, d, rfl, g1, g2, g3⟩ | ⟨g1, g2⟩
    · right; right
      simp only [decide_eq_true_eq] at g1
      refine ⟨?_, ?_⟩
      · simp [ids, List.count_append, List.count_cons, h1, g1]; omega
      · unfold find; simp only [h3, hd, g3]
        rw [if_pos (by simp)]
    · right; left
      rw [hall] at g1
      refine ⟨a, e, b, rfl, h1, h2, g1, ?_⟩
      unfold find; simp only [h3, hd, g2]
      rw [if_neg (by simp)]
  · left
    rw [hall] at h1
    refine ⟨h1, ?_⟩
    unfold find; simp only [h2]
    rw [if_neg (by simp)]

theorem count_of_split {a b : Sch} {e : Entry} (ha : e.id ∉ ids a) (hb : e.id ∉ ids b) : (ids (a ++ e :: b)).count e.id = 1 := by
  simp only [ids, List.map_append, List.map_cons] at *
  rw [List.count_append, List.count_cons_self, List.count_eq_zero_of_not_mem ha, List.count_eq_zero_of_not_mem hb]

theorem C41_find (S : Sch) (id : Ident) :
    (find S id = .error .ambiguous ↔ 1 < (ids S).count id) ∧
    (find S id = .ok S.length ↔ id ∉ ids S) ∧
    (∀ i, i < S.length → (find S id = .ok i ↔ (ids S).count id = 1 ∧ (ids S)[i]? = some id)) := by
  rcases find_cases S id with ⟨h1, h2⟩ | ⟨a, e, b, rfl, rfl, h1, h2, h3⟩ | ⟨h1, h2⟩
  · rw [h2, List.count_eq_zero_of_not_mem h1]
    refine ⟨by simp, by simp [h1], ?_⟩
    intro i hi
    simp only [Except.ok.injEq]
    exact ⟨fun h => by omega, fun h => by omega⟩
  · rw [h3, count_of_split h1 h2]
    refine ⟨by simp, ?_, ?_⟩
    · simp [ids]
    · intro i hi
      simp only [Except.ok.injEq, true_and]
      constructor
      · rintro rfl
        simp [ids]
      · intro h
        simp only [ids, List.map_append, List.map_cons] at h h1 h2
        by_contra hne
        rcases Nat.lt_or_gt_of_ne hne with hlt | hlt
        · rw [List.getElem?_append_right (by simp; omega)] at h
          obtain ⟨k, hk⟩ : ∃ k, i - (List.map Entry.id a).length = k + 1 := ⟨i - a.length - 1, by simp; omega⟩
          rw [hk, List.getElem?_cons_succ] at h
          exact h2 (List.mem_of_getElem? h)
        · rw [List.getElem?_append_left (by simpa using hlt)] at h
          exact h1 (List.mem_of_getElem? h)
  · rw [h2]
    refine ⟨by simp [h1], ?_, ?_⟩
    · simp only [reduceCtorEq, false_iff, not_not]
      exact List.count_pos_iff.1 (by omega)
    · intro i _
      simp only [reduceCtorEq, false_iff]
      omega

theorem unique_count {S : Sch} (h : Unique S) (id : Ident) : (ids S).count id ≤ 1 := List.nodup_iff_count_le_one.1 h id

theorem has_unique {S : Sch} (h : Unique S) (id : Ident) : has S id = .ok (decide (id ∈ ids S)) := by
  unfold has
  rcases find_cases S id with ⟨h1, h2⟩ | ⟨a, e, b, rfl, rfl, h1, h2, h3⟩ | ⟨h1, h2⟩
  · rw [h2]; simp only [bind, Except.bind, pure, Except.pure]; simp [h1]
  · rw [h3]; simp only [bind, Except.bind, pure, Except.pure]; simp [ids]
  · have := unique_count h id; omega

/-- `has` tells whether the identifier occurs, and fails exactly if it occurs more than once. -/
theorem C41_has (S : Sch) (id : Ident) :
    (has S id = .ok true ↔ (ids S).count id = 1) ∧ (has S id = .ok false ↔ id ∉ ids S) ∧
    (has S id = .error .ambiguous ↔ 1 < (ids S).count id) := by
  unfold has
  rcases find_cases S id with ⟨h1, h2⟩ | ⟨a, e, b, rfl, rfl, h1, h2, h3⟩ | ⟨h1, h2⟩
  · rw [h2, List.count_eq_zero_of_not_mem h1]; simp [bind, Except.bind, pure, Except.pure, h1]
  · rw [h3, count_of_split h1 h2]; simp [bind, Except.bind, pure, Except.pure, ids]
  · rw [h2]; simp [bind, Except.bind, h1]
    exact ⟨by omega, List.count_pos_iff.1 (by omega)⟩

/-- `at`: the only entry with the identifier and its index. -/
theorem C41_at (S : Sch) (id : Ident) (i : Nat) (e : Entry) :
    atId S id = .ok (i, e) ↔ S[i]? = some e ∧ e.id = id ∧ (ids S).count id = 1 := by
  unfold atId
  rcases find_cases S id with ⟨h1, h2⟩ | ⟨a, f, b, rfl, rfl, h1, h2, h3⟩ | ⟨h1, h2⟩
  · rw [h2, List.count_eq_zero_of_not_mem h1]; simp [bind, Except.bind]
  · rw [h3, count_of_split h1 h2]
    simp only [bind, Except.bind, List.getElem?_append_right (Nat.le_refl _), Nat.sub_self, List.getElem?_cons_zero, Except.ok.injEq, Prod.mk.injEq, and_true]
    constructor
    · rintro ⟨rfl, rfl⟩; simp
    · rintro ⟨g1, g2⟩
      have hi : i < (a ++ f :: b).length := (List.getElem?_eq_some_iff.1 g1).1
      have := ((C41_find (a ++ f :: b) f.id).2.2 i hi).2 ⟨count_of_split h1 h2, by
        simp only [ids, List.getElem?_map, g1, Option.map_some, g2]⟩
      rw [h3] at this
      simp only [Except.ok.injEq] at this
      subst this
      simp at g1
      exact ⟨rfl, g1⟩
  · rw [h2]; simp [bind, Except.bind]; intros; omega

/-! ### Sets -/

/-- The entries of `T` that are the first ones with their identifier and whose identifier is not in `seen`. -/
def fresh (seen : List Ident) : Sch → Sch
  | [] => []
  | e :: l => if e.id ∈ seen then fresh seen l else e :: fresh (seen ++ [e.id]) l

theorem unique_snoc {S : Sch} {e : Entry} (h : Unique S) (he : e.id ∉ ids S) : Unique (S ++ [e]) := by
  unfold Unique ids at *
  rw [List.map_append]
  refine List.nodup_append.2 ⟨h, by simp, ?_⟩
  intro a ha b hb hab
  simp at hb
  exact he (by rw [← hb, ← hab]; exact ha)

theorem fresh_congr {s1 s2 : List Ident} (h : ∀ x, x ∈ s1 ↔ x ∈ s2) (T : Sch) : fresh s1 T = fresh s2 T := by
  induction T generalizing s1 s2 with
  | nil => rfl
  | cons e l ih =>
    unfold fresh
    by_cases he : e.id ∈ s1
    · rw [if_pos he, if_pos ((h _).1 he), ih h]
    · rw [if_neg he, if_neg (fun hh => he ((h _).2 hh)), ih (s2 := s2 ++ [e.id])]
      intro x; simp [h x]

theorem union_eq {S : Sch} (h : Unique S) (T : Sch) : union S T = .ok (S ++ fresh (ids S) T) ∧ Unique (S ++ fresh (ids S) T) := by
  induction T generalizing S with
  | nil => simp [union, fresh, h]
  | cons e l ih =>
    unfold union fresh
    rw [has_unique h]
    simp only [bind, Except.bind]
    by_cases he : e.id ∈ ids S
    · simp only [he, decide_true, if_true]
      exact ih h
    · simp only [he, decide_false, if_false, Bool.false_eq_true]
      have := ih (unique_snoc h he)
      simpa [ids] using this

theorem dedupLoop_eq (S : Sch) (res : Sch) : dedupLoop S res = union res S := by
  induction S generalizing res with
  | nil => rfl
  | cons e l ih =>
    unfold dedupLoop union
    cases has res e.id with
    | error _ => rfl
    | ok b => simp only [bind, Except.bind]; exact ih _

theorem fresh_sublist (seen : List Ident) (T : Sch) : (fresh seen T).Sublist T := by
  induction T generalizing seen with
  | nil => exact .slnil
  | cons e l ih =>
    unfold fresh
    split
    · exact (ih seen).cons _
    · exact (ih _).cons_cons _

theorem mem_fresh (seen : List Ident) (T : Sch) (e : Entry) : e ∈ fresh seen T ↔ e.id ∉ seen ∧ IsFirst T e := by
  induction T generalizing seen with
  | nil => simp [fresh, IsFirst]
  | cons f l ih =>
    have hfirst : IsFirst (f :: l) e ↔ e = f ∨ (e.id ≠ f.id ∧ IsFirst l e) := by
      constructor
      · rintro ⟨a, b, h, hn⟩
        cases a with
        | nil => simp only [List.nil_append, List.cons.injEq] at h; exact Or.inl h.1.symm
        | cons x a =>
          simp only [List.cons_append, List.cons.injEq] at h
          obtain ⟨rfl, rfl⟩ := h
          right
          simp only [ids, List.map_cons, List.mem_cons, not_or] at hn
          exact ⟨hn.1, a, b, rfl, hn.2⟩
      · rintro (rfl | ⟨h1, a, b, rfl, h2⟩)
        · exact ⟨[], l, rfl, by simp [ids]⟩
        · refine ⟨f :: a, b, rfl, ?_⟩
          simp only [ids, List.map_cons, List.mem_cons, not_or]
          exact ⟨h1, h2⟩
    unfold fresh
    by_cases hf : f.id ∈ seen
    · rw [if_pos hf, ih, hfirst]
      constructor
      · rintro ⟨h1, h2⟩
        exact ⟨h1, Or.inr ⟨fun h => h1 (h ▸ hf), h2⟩⟩
      · rintro ⟨h1, rfl | ⟨h2, h3⟩⟩
        · exact absurd hf h1
        · exact ⟨h1, h3⟩
    · rw [if_neg hf, List.mem_cons, ih, hfirst]
      simp only [List.mem_append, List.mem_singleton, not_or]
      constructor
      · rintro (rfl | ⟨⟨h1, h2⟩, h3⟩)
        · exact ⟨hf, Or.inl rfl⟩
        · exact ⟨h1, Or.inr ⟨h2, h3⟩⟩
      · rintro ⟨h1, rfl | ⟨h2, h3⟩⟩
        · exact Or.inl rfl
        · exact Or.inr ⟨⟨h1, h2⟩, h3⟩

theorem exists_first {S : Sch} {id : Ident} (h : id ∈ ids S) : ∃ e, IsFirst S e ∧ e.id = id := by
  rcases findFrom_spec (fun e => decide (e.id = id)) S with ⟨a, e, b, rfl, h1, h2, -⟩ | ⟨h1, -⟩
  · simp only [decide_eq_true_eq] at h1
    exact ⟨e, ⟨a, b, rfl, by subst h1; simpa [ids] using h2⟩, h1⟩
  · obtain ⟨e, he, rfl⟩ := List.mem_map.1 h
    simpa using h1 e he

theorem IsFirst.mem {S : Sch} {e : Entry} (h : IsFirst S e) : e ∈ S := by
  obtain ⟨a, b, rfl, -⟩ := h; simp

/-- `deduplicate` never fails; the result contains, in the same order, the first entry for every identifier and no other
entry. -/
theorem C41_deduplicate (S : Sch) : ∃ R, deduplicate S = .ok R ∧ Unique R ∧ R.Sublist S ∧ (∀ id, id ∈ ids R ↔ id ∈ ids S) ∧
    ∀ e, e ∈ R ↔ IsFirst S e := by
  have h := union_eq (S := []) (by simp [Unique, ids]) S
  simp only [List.nil_append] at h
  have hm : ∀ e, e ∈ fresh (ids []) S ↔ IsFirst S e := fun e => by rw [mem_fresh]; simp [ids]
  refine ⟨_, by unfold deduplicate; rw [dedupLoop_eq]; exact h.1, h.2, fresh_sublist _ _, ?_, hm⟩
  intro id
  constructor
  · intro hid
    obtain ⟨e, he, rfl⟩ := List.mem_map.1 hid
    exact List.mem_map.2 ⟨e, (fresh_sublist _ _).subset he, rfl⟩
  · intro hid
    obtain ⟨e, he, rfl⟩ := exists_first hid
    exact List.mem_map.2 ⟨e, (hm e).2 he, rfl⟩

/-- `drop_constants` removes exactly the constants and keeps the order. -/
theorem C41_drop_constants (S : Sch) : (dropConstants S).Sublist S ∧ ∀ e, e ∈ dropConstants S ↔ e ∈ S ∧ e.id ≠ ⟨none, "$const"⟩ := by
  refine ⟨List.filter_sublist, fun e => ?_⟩
  rw [dropConstants, List.mem_filter, decide_eq_true_eq]
  rfl

/-- `operator|=` on a schema without duplicates computes the set union: the entries of the left schema stay, followed by
the first entry of the right schema for every identifier that is not in the left one. -/
theorem C41_union {S : Sch} (h : Unique S) (T : Sch) : ∃ R, union S T = .ok (S ++ R) ∧ Unique (S ++ R) ∧ R.Sublist T ∧
    (∀ id, id ∈ ids (S ++ R) ↔ id ∈ ids S ∨ id ∈ ids T) ∧ ∀ e, e ∈ R ↔ e.id ∉ ids S ∧ IsFirst T e := by
  have h1 := union_eq h T
  refine ⟨_, h1.1, h1.2, fresh_sublist _ _, ?_, fun e => mem_fresh _ _ e⟩
  intro id
  simp only [ids, List.map_append, List.mem_append]
  constructor
  · rintro (h | h)
    · exact Or.inl h
    · obtain ⟨e, he, rfl⟩ := List.mem_map.1 h
      exact Or.inr (List.mem_map.2 ⟨e, (fresh_sublist _ _).subset he, rfl⟩)
  · rintro (h | h)
    · exact Or.inl h
    · by_cases hs : id ∈ ids S
      · exact Or.inl hs
      · obtain ⟨e, he, rfl⟩ := exists_first h
        exact Or.inr (List.mem_map.2 ⟨e, (mem_fresh _ _ e).2 ⟨hs, he⟩, rfl⟩)

/-- If the left schema has a duplicate that also occurs in the right schema, `operator|=` fails. -/
theorem C41_union_ambiguous {S T : Sch} {id : Ident} (h : 1 < (ids S).count id) (hT : id ∈ ids T) : union S T = .error .ambiguous := by
  induction T generalizing S with
  | nil => simp [ids] at hT
  | cons e l ih =>
    unfold union
    by_cases he : e.id = id
    · have := (C41_has S e.id).2.2.2 (he ▸ h)
      rw [this]; rfl
    · have hl : id ∈ ids l := by
        simp only [ids, List.map_cons, List.mem_cons] at hT
        rcases hT with hT | hT
        · exact absurd hT.symm he
        · exact hT
      have hb : ∀ b : Bool, union (if b then S else S ++ [e]) l = .error .ambiguous := by
        intro b
        apply ih _ hl
        cases b
        · simp only [Bool.false_eq_true, if_false, ids, List.map_append, List.count_append]
          simp only [ids] at h
          omega
        · simpa using h
      rcases find_cases S e.id with ⟨-, h2⟩ | ⟨a, f, b, -, -, -, -, h2⟩ | ⟨-, h2⟩
      · unfold has; rw [h2]; exact hb _
      · unfold has; rw [h2]; exact hb _
      · unfold has; rw [h2]; rfl

theorem allHas_unique {S : Sch} (h : Unique S) (T : Sch) : allHas S T = .ok (decide (∀ id ∈ ids T, id ∈ ids S)) := by
  induction T with
  | nil => simp [allHas, ids]
  | cons e l ih =>
    unfold allHas
    rw [has_unique h, ih]
    simp only [bind, Except.bind, pure, Except.pure]
    have hids : ids (e :: l) = e.id :: ids l := rfl
    rw [hids]
    simp only [List.forall_mem_cons]
    by_cases he : e.id ∈ ids S
    · simp only [he, decide_true, if_true, true_and]
    · simp only [he, decide_false, Bool.false_eq_true, if_false, false_and]

/-- For schemas without duplicates, `operator==` is equality of the sets of identifiers. -/
theorem C41_eq {S T : Sch} (hS : Unique S) (hT : Unique T) : ∃ b, eq S T = .ok b ∧ (b = true ↔ ∀ id, id ∈ ids S ↔ id ∈ ids T) := by
  unfold eq
  rw [allHas_unique hT, allHas_unique hS]
  simp only [bind, Except.bind, pure, Except.pure]
  by_cases h1 : ∀ id ∈ ids S, id ∈ ids T
  · refine ⟨decide (∀ id ∈ ids T, id ∈ ids S), by simp only [decide_eq_true h1, if_true], ?_⟩
    rw [decide_eq_true_eq]
    exact ⟨fun h id => ⟨h1 id, h id⟩, fun h id => (h id).2⟩
  · refine ⟨false, by simp only [decide_eq_false h1, Bool.false_eq_true, if_false], ?_⟩
    constructor
    · intro h; exact absurd h (by simp)
    · intro h; exact absurd (fun id => (h id).1) h1

/-- The constraints that the intersection records for a left entry. -/
def merged (T : Sch) (e : Entry) : Option Entry :=
  (T.find? fun f => decide (f.id = e.id)).map fun f => ⟨e.id, e.type, e.constraints ||| f.constraints⟩

theorem find_find? {T : Sch} (h : Unique T) (id : Ident) : ∃ i, find T id = .ok i ∧ T[i]? = T.find? fun f => decide (f.id = id) := by
  rcases find_cases T id with ⟨h1, h2⟩ | ⟨a, e, b, rfl, rfl, h1, h2, h3⟩ | ⟨h1, h2⟩
  · refine ⟨_, h2, ?_⟩
    rw [List.getElem?_eq_none (Nat.le_refl _), eq_comm, List.find?_eq_none]
    intro x hx
    simp only [decide_eq_true_eq]
    rintro rfl
    exact h1 (List.mem_map.2 ⟨x, hx, rfl⟩)
  · refine ⟨_, h3, ?_⟩
    rw [List.getElem?_append_right (Nat.le_refl _), Nat.sub_self, List.getElem?_cons_zero, eq_comm, List.find?_eq_some_iff_append]
    refine ⟨by simp, a, b, rfl, ?_⟩
    intro x hx
    simp only [Bool.not_eq_true', decide_eq_false_iff_not]
    intro hxe
    exact h1 (List.mem_map.2 ⟨x, hx, hxe⟩)
  · have := unique_count h id; omega

/-- `operator&` with a right schema without duplicates: the entries of the left schema whose identifiers occur in the right
schema, in the same order, with the constraints of both; it fails exactly if the types of a common identifier differ. -/
theorem C41_intersection (S : Sch) {T : Sch} (hT : Unique T) :
    (inter S T = .error .typeMismatch ↔ ∃ e ∈ S, ∃ f ∈ T, f.id = e.id ∧ e.type ≠ f.type) ∧
    (∀ R, inter S T = .ok R → R = S.filterMap (merged T)) ∧
    ((∀ e ∈ S, ∀ f ∈ T, f.id = e.id → e.type = f.type) → inter S T = .ok (S.filterMap (merged T))) := by
  have main : (∃ e ∈ S, ∃ f ∈ T, f.id = e.id ∧ e.type ≠ f.type) ∧ inter S T = .error .typeMismatch ∨
      (∀ e ∈ S, ∀ f ∈ T, f.id = e.id → e.type = f.type) ∧ inter S T = .ok (S.filterMap (merged T)) := by
    induction S with
    | nil => right; simp [inter]
    | cons e l ih =>
      obtain ⟨i, h1, h2⟩ := find_find? hT e.id
      unfold inter
      rw [h1]
      simp only [bind, Except.bind, h2]
      cases hf : T.find? fun f => decide (f.id = e.id) with
      | none =>
        have hn : ∀ f ∈ T, f.id ≠ e.id := by simpa using hf
        simp only [List.filterMap_cons, merged, hf, Option.map_none]
        rcases ih with ⟨⟨x, hx, y⟩, g⟩ | ⟨g1, g2⟩
        · exact Or.inl ⟨⟨x, by simp [hx], y⟩, g⟩
        · refine Or.inr ⟨?_, g2⟩
          intro x hx f hf' he
          rcases List.mem_cons.1 hx with rfl | hx
          · exact absurd he (hn f hf')
          · exact g1 x hx f hf' he
      | some f =>
        have hfm := List.mem_of_find?_eq_some hf
        have hfe : f.id = e.id := by simpa using List.find?_some hf
        simp only
        by_cases ht : e.type = f.type
        · rw [if_neg (by simpa using ht)]
          rcases ih with ⟨⟨x, hx, y⟩, g⟩ | ⟨g1, g2⟩
          · left; rw [g]; exact ⟨⟨x, by simp [hx], y⟩, rfl⟩
          · right
            rw [g2]
            refine ⟨?_, ?_⟩
            · intro x hx f' hf' he
              rcases List.mem_cons.1 hx with rfl | hx
              · have : f' = f := List.inj_on_of_nodup_map hT hf' hfm (he.trans hfe.symm)
                rw [this]; exact ht
              · exact g1 x hx f' hf' he
            · simp only [pure, Except.pure, List.filterMap_cons, merged, hf, Option.map_some]
        · left
          rw [if_pos (by simpa using ht)]
          exact ⟨⟨e, by simp, f, hfm, hfe, ht⟩, rfl⟩
  rcases main with ⟨⟨e, he, f, hf, h1, h2⟩, h⟩ | ⟨h1, h2⟩
  · refine ⟨⟨fun _ => ⟨e, he, f, hf, h1, h2⟩, fun _ => h⟩, ?_, fun hh => absurd (hh e he f hf h1) h2⟩
    intro R hR; rw [h] at hR; exact absurd hR (by simp)
  · refine ⟨⟨fun hh => ?_, fun hh => ?_⟩, ?_, fun _ => h2⟩
    · rw [h2] at hh; exact absurd hh (by simp)
    · obtain ⟨e, he, f, hf, g1, g2⟩ := hh; exact absurd (h1 e he f hf g1) g2
    · intro R hR; rw [h2] at hR; exact (Except.ok.inj hR).symm

/-! ### Non-vacuity -/

/-- `R(a, b)` and `S(b, c)`, where `b` of the second has the same name and prefix. -/
def exR : Sch := [⟨⟨some "R", "a"⟩, 1, 1⟩, ⟨⟨some "R", "b"⟩, 2, 2⟩]
def exS : Sch := [⟨⟨some "R", "b"⟩, 2, 4⟩, ⟨⟨some "S", "c"⟩, 3, 0⟩, ⟨⟨none, "$const"⟩, 0, 0⟩]

example : Unique exR ∧ Unique exS := by constructor <;> (unfold Unique; decide +kernel)
example : union exR exS = .ok (exR ++ exS.drop 1) := by decide +kernel
example : inter exR exS = .ok [⟨⟨some "R", "b"⟩, 2, 6⟩] := by decide +kernel
example : eq exR exR.reverse = .ok true ∧ eq exR exS = .ok false := by decide +kernel
example : deduplicate (exR ++ exS) = .ok (exR ++ exS.drop 1) := by decide +kernel
example : find (exR ++ exS) ⟨some "R", "b"⟩ = .error .ambiguous ∧ find exS ⟨some "R", "b"⟩ = .ok 0 := by decide +kernel
example : union (exR ++ exS) exS = .error .ambiguous :=
  C41_union_ambiguous (id := ⟨some "R", "b"⟩) (by decide +kernel) (by decide +kernel)
example : inter exR [⟨⟨some "R", "b"⟩, 5, 4⟩] = .error .typeMismatch := by decide +kernel

/-! ### Construction, constraints, concatenation -/

/-- An identifier can have any prefix but the empty one; two identifiers are equal iff prefix and name are. -/
theorem C41_identifier (pre : Option String) (name : String) :
    (Ident.mk? pre name = .error .emptyPrefix ↔ pre = some "") ∧
    (∀ i, Ident.mk? pre name = .ok i → i.pre = pre ∧ i.name = name) ∧ (pre ≠ some "" → ∃ i, Ident.mk? pre name = .ok i) := by
  unfold Ident.mk?
  split
  · simp_all
  · refine ⟨by simp_all, ?_, fun _ => ⟨_, rfl⟩⟩
    rintro i hi
    obtain rfl : _ = i := Except.ok.inj hi
    exact ⟨rfl, rfl⟩

/-- The constraints are independent flags: 1 forbids NULL, 2 is unique, 4 references a unique attribute. -/
theorem C41_constraints (id : Ident) (ty : Nat) (nn u r : Bool) :
    let e : Entry := ⟨id, ty, (if nn then 1 else 0) ||| (if u then 2 else 0) ||| (if r then 4 else 0)⟩
    e.nullable = !nn ∧ e.unique = u ∧ e.referencesUnique = r := by
  simp only [Entry.nullable, Entry.unique, Entry.referencesUnique]
  cases nn <;> cases u <;> cases r <;> decide

/-- `+` concatenates: the entries of the left operand keep their positions, those of the right operand follow; so an identifier
of both is ambiguous afterwards. -/
theorem C41_concatenation (S T : Sch) :
    (∀ i < S.length, (plus S T)[i]? = S[i]?) ∧ (∀ i, (plus S T)[S.length + i]? = T[i]?) ∧
    ∀ id ∈ ids S, id ∈ ids T → find (plus S T) id = .error .ambiguous := by
  refine ⟨fun i hi => by simp [plus, List.getElem?_append_left hi], fun i => by simp [plus, List.getElem?_append_right], ?_⟩
  intro id h1 h2
  rw [(C41_find _ id).1]
  have e1 := List.count_pos_iff.2 h1
  have e2 := List.count_pos_iff.2 h2
  simp only [plus, ids, List.map_append, List.count_append] at *
  omega

example : ∃ e : Entry, e ∈ plus [⟨⟨some "t", "a"⟩, 0, 0⟩] [⟨⟨none, "b"⟩, 1, 2⟩] ∧ e.unique = true := ⟨⟨⟨none, "b"⟩, 1, 2⟩, by decide⟩

end Mutable.Schema
