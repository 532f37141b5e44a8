import Verif.SortCond.Spec
import Mathlib.Data.List.Forall2
import Mathlib.Order.Basic

namespace Mutable.SortCond

variable {I V : Type} [LinearOrder V]

/-! ## Lexicographic order -/

theorem LexLe.refl : ∀ (b : List (I × Bool)) (r : Row I V), LexLe b r r
  | [], _ => trivial
  | (_, _) :: t, r => .inr ⟨rfl, LexLe.refl t r⟩

theorem LexLe.of_eq : ∀ {b : List (I × Bool)} {r s : Row I V}, (∀ p ∈ b, r p.1 = s p.1) → LexLe b r s
  | [], _, _, _ => trivial
  | p :: t, r, s, h => .inr ⟨h p List.mem_cons_self, LexLe.of_eq fun q hq => h q (List.mem_cons_of_mem _ hq)⟩

theorem LexLe.append_of_eq : ∀ {a b : List (I × Bool)} {r s : Row I V}, (∀ p ∈ a, r p.1 = s p.1) → LexLe b r s →
    LexLe (a ++ b) r s
  | [], _, _, _, _, h => h
  | p :: t, _, _, _, he, h =>
    .inr ⟨he p List.mem_cons_self, LexLe.append_of_eq (fun q hq => he q (List.mem_cons_of_mem _ hq)) h⟩

/-- strictly before -/
def LexLt : List (I × Bool) → Row I V → Row I V → Prop
  | [], _, _ => False
  | (i, asc) :: t, r, s => (if asc then r i < s i else s i < r i) ∨ (r i = s i ∧ LexLt t r s)

theorem LexLt.append : ∀ {a : List (I × Bool)} (b : List (I × Bool)) {r s : Row I V}, LexLt a r s → LexLe (a ++ b) r s
  | [], _, _, _, h => h.elim
  | (_, _) :: _, b, _, _, h => by
    rcases h with h | ⟨h1, h2⟩
    · exact .inl h
    · exact .inr ⟨h1, LexLt.append b h2⟩

theorem LexLe.append_iff : ∀ {a b : List (I × Bool)} {r s : Row I V}, LexLe (a ++ b) r s → LexLe a r s
  | [], _, _, _, _ => trivial
  | (_, _) :: _, _, _, _, h => by
    rcases h with h | ⟨h1, h2⟩
    · exact .inl h
    · exact .inr ⟨h1, LexLe.append_iff h2⟩

theorem LexLe.cases : ∀ {b : List (I × Bool)} {r s : Row I V}, LexLe b r s → LexLt b r s ∨ ∀ p ∈ b, r p.1 = s p.1
  | [], _, _, _ => .inr (by simp)
  | (i, asc) :: t, r, s, h => by
    rcases h with h | ⟨h1, h2⟩
    · exact .inl (.inl h)
    · rcases LexLe.cases h2 with h | h
      · exact .inl (.inr ⟨h1, h⟩)
      · refine .inr fun p hp => ?_
        rcases List.mem_cons.mp hp with rfl | hp
        · exact h1
        · exact h p hp

theorem LexLe.antisymm : ∀ {b : List (I × Bool)} {r s : Row I V}, LexLe b r s → LexLe b s r → ∀ p ∈ b, r p.1 = s p.1
  | [], _, _, _, _ => by simp
  | (i, asc) :: t, r, s, h, h' => by
    rcases h with h | ⟨h1, h2⟩
    · exfalso
      rcases h' with h' | ⟨h1', _⟩
      · cases asc
        · exact lt_asymm (by simpa using h) (by simpa using h')
        · exact lt_asymm (by simpa using h) (by simpa using h')
      · rw [h1'] at h; cases asc <;> exact absurd h (by simp)
    · rcases h' with h' | ⟨_, h2'⟩
      · rw [h1] at h'; cases asc <;> exact absurd h' (by simp)
      · intro p hp
        rcases List.mem_cons.mp hp with rfl | hp
        · exact h1
        · exact LexLe.antisymm h2 h2' p hp

theorem LexLe.trans : ∀ {b : List (I × Bool)} {r s t : Row I V}, LexLe b r s → LexLe b s t → LexLe b r t
  | [], _, _, _, _, _ => trivial
  | (i, asc) :: u, r, s, t, h, h' => by
    rcases h with h | ⟨h1, h2⟩
    · rcases h' with h' | ⟨h1', _⟩
      · left
        cases asc
        · simp at h h' ⊢; exact lt_trans h' h
        · simp at h h' ⊢; exact lt_trans h h'
      · left; rw [← h1']; exact h
    · rcases h' with h' | ⟨h1', h2'⟩
      · left; rw [h1]; exact h'
      · exact .inr ⟨h1.trans h1', LexLe.trans h2 h2'⟩

/-- only the values of the sort keys matter -/
theorem LexLe.map {J : Type} : ∀ {b : List (I × Bool)} {b' : List (J × Bool)} {r s : Row I V} {r' s' : Row J V},
    List.Forall₂ (fun p q => p.2 = q.2 ∧ r' q.1 = r p.1 ∧ s' q.1 = s p.1) b b' → LexLe b r s → LexLe b' r' s' := by
  intro b b' r s r' s' h
  induction h with
  | nil => intro _; trivial
  | @cons p q b b' h1 h2 ih =>
    obtain ⟨i, asc⟩ := p
    obtain ⟨j, asc'⟩ := q
    obtain ⟨rfl, e1, e2⟩ := h1
    simp only at e1 e2
    intro h
    rcases h with h | ⟨h, h'⟩
    · left; rw [e1, e2]; exact h
    · right; exact ⟨by rw [e1, e2]; exact h, ih h'⟩

section
variable [DecidableEq I]

theorem LexLe.of_nub : ∀ {b : List (I × Bool)} {seen : List I} {r s : Row I V}, (∀ i ∈ seen, r i = s i) →
    LexLe (nub seen b) r s → LexLe b r s
  | [], _, _, _, _, _ => trivial
  | (i, asc) :: t, seen, r, s, hs, h => by
    unfold nub at h
    split at h
    · rename_i hi
      exact .inr ⟨hs i hi, LexLe.of_nub hs h⟩
    · rcases h with h | ⟨h1, h2⟩
      · exact .inl h
      · refine .inr ⟨h1, LexLe.of_nub (seen := i :: seen) (fun j hj => ?_) h2⟩
        rcases List.mem_cons.mp hj with rfl | hj
        · exact h1
        · exact hs j hj

theorem LexLe.to_nub : ∀ {b : List (I × Bool)} {seen : List I} {r s : Row I V}, (∀ i ∈ seen, r i = s i) →
    LexLe b r s → LexLe (nub seen b) r s
  | [], _, _, _, _, _ => trivial
  | (i, asc) :: t, seen, r, s, hs, h => by
    unfold nub
    split
    · rename_i hi
      rcases h with h | ⟨_, h2⟩
      · rw [hs i hi] at h; cases asc <;> exact absurd h (by simp)
      · exact LexLe.to_nub hs h2
    · rcases h with h | ⟨h1, h2⟩
      · exact .inl h
      · refine .inr ⟨h1, LexLe.to_nub (seen := i :: seen) (fun j hj => ?_) h2⟩
        rcases List.mem_cons.mp hj with rfl | hj
        · exact h1
        · exact hs j hj

theorem nub_congr : ∀ {b : List (I × Bool)} {s s' : List I}, (∀ i, i ∈ s ↔ i ∈ s') → nub s b = nub s' b
  | [], _, _, _ => rfl
  | (i, x) :: t, s, s', h => by
    unfold nub
    rw [nub_congr (b := t) h, nub_congr (b := t) (s := i :: s) (s' := i :: s') (by intro j; simp [h])]
    by_cases hi : i ∈ s
    · rw [if_pos hi, if_pos ((h i).mp hi)]
    · rw [if_neg hi, if_neg (fun h' => hi ((h i).mpr h'))]

theorem nub_mem : ∀ {b : List (I × Bool)} {seen : List I} {p}, p ∈ b → p.1 ∈ seen ∨ ∃ q ∈ nub seen b, q.1 = p.1
  | [], _, _, h => by cases h
  | (i, x) :: t, seen, p, h => by
    unfold nub
    by_cases hi : i ∈ seen
    · rw [if_pos hi]
      rcases List.mem_cons.mp h with rfl | h
      · exact .inl hi
      · exact nub_mem h
    · rw [if_neg hi]
      rcases List.mem_cons.mp h with rfl | h
      · exact .inr ⟨_, List.mem_cons_self, rfl⟩
      · rcases nub_mem (seen := i :: seen) h with h | ⟨q, hq, he⟩
        · rcases List.mem_cons.mp h with h | h
          · exact .inr ⟨_, List.mem_cons_self, h.symm⟩
          · exact .inl h
        · exact .inr ⟨q, List.mem_cons_of_mem _ hq, he⟩
end

/-! ## Sorted lists -/

theorem Sorted.sublist {b : List (I × Bool)} {l l' : List (Row I V)} (h : Sorted b l) (hs : l'.Sublist l) : Sorted b l' :=
  List.Pairwise.sublist hs h

theorem Sorted.imp {b b' : List (I × Bool)} {l : List (Row I V)} (h : Sorted b l)
    (hi : ∀ r ∈ l, ∀ s ∈ l, LexLe b r s → LexLe b' r s) : Sorted b' l :=
  List.Pairwise.imp_of_mem (fun hr hs h => hi _ hr _ hs h) h

theorem Sorted.prefix {b b' : List (I × Bool)} {l : List (Row I V)} (h : Sorted b l) (hp : b' <+: b) : Sorted b' l := by
  obtain ⟨t, rfl⟩ := hp
  exact h.imp fun _ _ _ _ h => h.append_iff

theorem Holds.sublist {o : Orders I} {l l' : List (Row I V)} (h : Holds o l) (hs : l'.Sublist l) : Holds o l' :=
  ⟨h.1.sublist hs, fun i hi r hr s hs' => h.2 i hi r (hs.subset hr) s (hs.subset hs')⟩

theorem dirs_mem : ∀ {o : Orders I} {p : I × Bool}, p ∈ dirs o → ∃ x, (p.1, x) ∈ o ∧ x = dir p.2 := by
  intro o
  induction o with
  | nil => intro p h; cases h
  | cons q t ih =>
    intro p h
    obtain ⟨i, x⟩ := q
    cases x <;> simp only [dirs, List.mem_cons] at h
    · rcases h with rfl | h
      · exact ⟨_, List.mem_cons_self, rfl⟩
      · obtain ⟨x, h1, h2⟩ := ih h; exact ⟨x, List.mem_cons_of_mem _ h1, h2⟩
    · rcases h with rfl | h
      · exact ⟨_, List.mem_cons_self, rfl⟩
      · obtain ⟨x, h1, h2⟩ := ih h; exact ⟨x, List.mem_cons_of_mem _ h1, h2⟩
    · obtain ⟨x, h1, h2⟩ := ih h; exact ⟨x, List.mem_cons_of_mem _ h1, h2⟩

theorem dirs_append (a b : Orders I) : dirs (a ++ b) = dirs a ++ dirs b := by
  induction a with
  | nil => rfl
  | cons q t ih =>
    obtain ⟨i, x⟩ := q
    cases x <;> simp [dirs, ih]

theorem dirs_undef {o : Orders I} (h : ∀ p ∈ o, p.2 = Order.undef) : dirs o = [] := by
  induction o with
  | nil => rfl
  | cons q t ih =>
    obtain ⟨i, x⟩ := q
    have : x = .undef := h _ List.mem_cons_self
    subst this
    exact ih fun p hp => h p (List.mem_cons_of_mem _ hp)

/-- a condition that holds determines `LexLe` for all its attributes -/
theorem dirs_dir (b : List (I × Bool)) : dirs (b.map fun p => (p.1, dir p.2)) = b := by
  induction b with
  | nil => rfl
  | cons p t ih =>
    obtain ⟨i, x⟩ := p
    cases x <;> simp [dirs, dir] <;> exact ih

theorem dirs_ascKeys (ks : List I) : dirs (ascKeys ks) = ks.map fun k => (k, true) := by
  induction ks with
  | nil => rfl
  | cons k t ih =>
    have : dirs (ascKeys (k :: t)) = (k, true) :: dirs (ascKeys t) := rfl
    rw [this, ih]; rfl

/-! ## find, addAll -/

section
variable [DecidableEq I]

theorem find_none : ∀ {o : Orders I} {id n}, find o id n = none ↔ ∀ p ∈ o, p.1 ≠ id
  | [], _, _ => by simp [find]
  | (j, x) :: t, id, n => by
    unfold find
    by_cases h : j = id
    · simp [h]
    · rw [if_neg h, find_none (o := t)]
      simp [h]

theorem find_some : ∀ {o : Orders I} {id n m x}, find o id n = some (m, x) →
    n ≤ m ∧ o[m - n]? = some (id, x)
  | [], _, _, _, _, h => by simp [find] at h
  | (j, y) :: t, id, n, m, x, h => by
    unfold find at h
    by_cases hj : j = id
    · rw [if_pos hj] at h
      injection h with h
      injection h with h1 h2
      subst h1; subst h2; subst hj
      simp
    · rw [if_neg hj] at h
      obtain ⟨h1, h2⟩ := find_some h
      refine ⟨by omega, ?_⟩
      have : m - n = (m - (n + 1)) + 1 := by omega
      rw [this, List.getElem?_cons_succ]
      exact h2

theorem find_mem {o : Orders I} {id m x} (h : find o id 0 = some (m, x)) : (id, x) ∈ o :=
  List.mem_of_getElem? (find_some h).2

/-- `addAll` in closed form -/
def nubO (seen : List I) : Orders I → Orders I
  | [] => []
  | (i, x) :: t => if i ∈ seen then nubO seen t else (i, x) :: nubO (i :: seen) t

theorem nubO_congr : ∀ {b : Orders I} {s s' : List I}, (∀ i, i ∈ s ↔ i ∈ s') → nubO s b = nubO s' b
  | [], _, _, _ => rfl
  | (i, x) :: t, s, s', h => by
    unfold nubO
    rw [nubO_congr (b := t) h, nubO_congr (b := t) (s := i :: s) (s' := i :: s') (by intro j; simp [h])]
    by_cases hi : i ∈ s
    · rw [if_pos hi, if_pos ((h i).mp hi)]
    · rw [if_neg hi, if_neg (fun h' => hi ((h i).mpr h'))]

theorem find_isSome {o : Orders I} {id n} : (find o id n).isSome = true ↔ id ∈ o.map (·.1) := by
  cases h : find o id n with
  | none =>
    have := find_none.mp h
    simp only [Option.isSome_none, Bool.false_eq_true, List.mem_map, false_iff]
    rintro ⟨p, hp, rfl⟩
    exact this p hp rfl
  | some q =>
    obtain ⟨m, x⟩ := q
    simp only [Option.isSome_some, true_iff]
    exact List.mem_map.mpr ⟨_, List.mem_of_getElem? (find_some h).2, rfl⟩

theorem addAll_eq : ∀ (l acc : Orders I), addAll acc l = acc ++ nubO (acc.map (·.1)) l
  | [], acc => by simp [addAll, nubO]
  | (i, x) :: t, acc => by
    unfold addAll nubO
    by_cases h : i ∈ acc.map (·.1)
    · rw [if_pos (find_isSome.mpr h), if_pos h, addAll_eq t acc]
    · rw [if_neg (fun hh => h (find_isSome.mp hh)), if_neg h, addAll_eq t]
      rw [nubO_congr (s := (acc ++ [(i, x)]).map (·.1)) (s' := i :: acc.map (·.1)) (by intro j; simp [or_comm])]
      simp

theorem nubO_dir : ∀ (b : List (I × Bool)) (s : List I),
    nubO s (b.map fun p => (p.1, dir p.2)) = (nub s b).map fun p => (p.1, dir p.2)
  | [], _ => rfl
  | (i, x) :: t, s => by
    simp only [List.map_cons, nubO, nub]
    split
    · exact nubO_dir t s
    · simp [nubO_dir t]

theorem orderBy_eq (b : List (I × Bool)) : orderBy b = (nub [] b).map fun p => (p.1, dir p.2) := by
  unfold orderBy
  rw [addAll_eq, nubO_dir]; simp

theorem dirs_orderBy (b : List (I × Bool)) : dirs (orderBy b) = nub [] b := by
  rw [orderBy_eq, dirs_dir]

theorem orderBy_undef (b : List (I × Bool)) : ∀ i, (i, Order.undef) ∉ orderBy b := by
  intro i h
  rw [orderBy_eq] at h
  obtain ⟨p, _, he⟩ := List.mem_map.mp h
  injection he with _ h2
  unfold dir at h2
  split at h2 <;> cases h2

theorem ascKeys_eq (ks : List I) : ascKeys ks = (ks.map fun k => (k, true)).map fun p => (p.1, dir p.2) := by
  unfold ascKeys
  rw [List.map_map]
  rfl

theorem addAll_asc (ks : List I) (acc : Orders I) :
    dirs (addAll acc (ascKeys ks)) = dirs acc ++ nub (acc.map (·.1)) (ks.map fun k => (k, true)) := by
  rw [addAll_eq, dirs_append, ascKeys_eq, nubO_dir, dirs_dir]

theorem nubO_mem : ∀ {l : Orders I} {s : List I} {p}, p ∈ nubO s l → p ∈ l
  | [], _, _, h => h
  | (i, x) :: t, s, p, h => by
    unfold nubO at h
    split at h
    · exact List.mem_cons_of_mem _ (nubO_mem h)
    · rcases List.mem_cons.mp h with rfl | h
      · exact List.mem_cons_self
      · exact List.mem_cons_of_mem _ (nubO_mem h)

theorem nubO_id : ∀ {l : Orders I} {s : List I} {p}, p ∈ l → p.1 ∈ s ∨ p.1 ∈ (nubO s l).map (·.1)
  | [], _, _, h => by cases h
  | (i, x) :: t, s, p, h => by
    unfold nubO
    by_cases hi : i ∈ s
    · rw [if_pos hi]
      rcases List.mem_cons.mp h with rfl | h
      · exact .inl hi
      · exact nubO_id h
    · rw [if_neg hi]
      rcases List.mem_cons.mp h with rfl | h
      · right; simp
      · rcases nubO_id (s := i :: s) h with h | h
        · rcases List.mem_cons.mp h with h | h
          · right; simp [h]
          · exact .inl h
        · right; exact List.mem_cons_of_mem _ h

/-! ## implied_by -/

/-- every required attribute exists -/
theorem impliedBy_found {o : Orders I} : ∀ {r : Orders I} {n}, impliedBy o n r = true → ∀ p ∈ r,
    ∃ m y, find o p.1 0 = some (m, y)
  | [], _, _, p, hp => by cases hp
  | (id, x) :: t, n, h, p, hp => by
    unfold impliedBy at h
    cases hf : find o id 0 with
    | none => rw [hf] at h; cases h
    | some q =>
      obtain ⟨m, y⟩ := q
      rw [hf] at h
      rcases List.mem_cons.mp hp with rfl | hp
      · exact ⟨m, y, hf⟩
      · have : impliedBy o (n + 1) t = true := by
          simp only at h
          split at h
          · exact h
          · split at h
            · cases h
            · split at h
              · cases h
              · exact h
        exact impliedBy_found this p hp

/-- without "undefined" the required orders are a prefix -/
theorem impliedBy_prefix {o : Orders I} (ho : ∀ p ∈ o, p.2 ≠ Order.undef) : ∀ {r : Orders I} {n},
    impliedBy o n r = true → (∀ p ∈ r, p.2 ≠ Order.undef) → r <+: o.drop n
  | [], _, _, _ => List.nil_prefix
  | (id, x) :: t, n, h, hr => by
    unfold impliedBy at h
    cases hf : find o id 0 with
    | none => rw [hf] at h; cases h
    | some q =>
      obtain ⟨m, y⟩ := q
      rw [hf] at h
      simp only at h
      have hm := (find_some hf).2
      rw [if_neg (by
        rintro (hy | hx)
        · exact ho _ (List.mem_of_getElem? hm) hy
        · exact hr _ List.mem_cons_self hx)] at h
      by_cases hn : n = m
      · rw [if_neg (by simpa using hn)] at h
        by_cases hxy : x = y
        · rw [if_neg (by simpa using hxy)] at h
          have ih := impliedBy_prefix ho h fun p hp => hr p (List.mem_cons_of_mem _ hp)
          subst hn; subst hxy
          rw [Nat.sub_zero] at hm
          obtain ⟨hlt, he⟩ := List.getElem?_eq_some_iff.mp hm
          rw [List.drop_eq_getElem_cons hlt, he]
          exact List.cons_prefix_cons.mpr ⟨rfl, ih⟩
        · rw [if_pos (by simpa using hxy)] at h; cases h
      · rw [if_pos (by simpa using hn)] at h; cases h

theorem dirs_prefix {r o : Orders I} (h : r <+: o) : dirs r <+: dirs o := by
  obtain ⟨t, rfl⟩ := h
  rw [dirs_append]
  exact ⟨_, rfl⟩

/-- a required order that is implied by a uniform true condition is true -/
theorem impliedBy_sound {o r : Orders I} {rows : List (Row I V)} (hu : Uniform o) (hh : Holds o rows)
    (hr : ∀ p ∈ r, p.2 ≠ Order.undef) (h : impliedBy o 0 r = true) :
    Sorted (dirs r) rows ∧ (dirs r <+: dirs o ∨ (dirs o = [] ∧ ∀ p ∈ r, ∀ a ∈ rows, ∀ b ∈ rows, a p.1 = b p.1)) := by
  rcases hu with hu | hu
  · have hp := dirs_prefix (by simpa using impliedBy_prefix hu h hr)
    exact ⟨hh.1.prefix hp, .inl hp⟩
  · have hc : ∀ p ∈ r, ∀ a ∈ rows, ∀ b ∈ rows, a p.1 = b p.1 := by
      intro p hp
      obtain ⟨m, y, hf⟩ := impliedBy_found h p hp
      have hm := find_mem hf
      have : y = .undef := hu _ hm
      subst this
      exact hh.2 _ hm
    refine ⟨?_, .inr ⟨dirs_undef hu, hc⟩⟩
    refine List.pairwise_of_forall_mem_list ?_
    intro a ha b hb
    refine LexLe.of_eq fun p hp => ?_
    obtain ⟨x, hx, _⟩ := dirs_mem hp
    exact hc _ hx a ha b hb
end

end Mutable.SortCond
