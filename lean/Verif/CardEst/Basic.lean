import Verif.CardEst.Spec
import Mathlib.Data.List.Nodup
import Mathlib.Algebra.BigOperators.Group.List.Basic
/-
Sets of sources as bit masks, names, identifiers.
-/
namespace Mutable.CardEst

theorem mem_elems {S i : Nat} : i ∈ elems S ↔ i < 64 ∧ S.testBit i = true := by simp [elems]

theorem nodup_elems (S : Nat) : (elems S).Nodup := List.filter_sublist.nodup List.nodup_range

theorem elems_or {L R : Nat} (h : L &&& R = 0) : (elems (L ||| R)).Perm (elems L ++ elems R) := by
  have hd : ∀ i, L.testBit i = true → R.testBit i = true → False := by
    intro i h1 h2
    have := congrArg (·.testBit i) h
    simp [Nat.testBit_and, h1, h2] at this
  refine (List.perm_ext_iff_of_nodup (nodup_elems _) ?_).mpr ?_
  · rw [List.nodup_append]
    refine ⟨nodup_elems _, nodup_elems _, ?_⟩
    intro a ha b hb hab
    subst hab
    exact hd a (mem_elems.mp ha).2 (mem_elems.mp hb).2
  · intro i
    simp only [mem_elems, List.mem_append, Nat.testBit_or, Bool.or_eq_true]
    tauto

theorem product_or {L R : Nat} (card : Nat → Nat) (h : L &&& R = 0) : product card (L ||| R) = product card L * product card R := by
  unfold product
  rw [((elems_or h).map card).prod_eq, List.map_append, List.prod_append]

theorem elems_singleton {i : Nat} (h : i < 64) : elems (1 <<< i) = [i] := by
  have : (elems (1 <<< i)).Perm [i] := by
    refine (List.perm_ext_iff_of_nodup (nodup_elems _) (List.nodup_singleton i)).mpr ?_
    intro j
    simp only [mem_elems, Nat.one_shiftLeft, Nat.testBit_two_pow, List.mem_singleton, decide_eq_true_eq]
    omega
  exact List.perm_singleton.mp this

theorem product_singleton {i : Nat} (card : Nat → Nat) (h : i < 64) : product card (1 <<< i) = card i := by
  simp [product, elems_singleton h]

/-! ### The order of names -/

theorem leName_total (a b : Name) : leName a b = true ∨ leName b a = true := by
  induction a generalizing b with
  | nil => simp [leName]
  | cons x a ih => cases b with
    | nil => simp [leName]
    | cons y b =>
      simp only [leName]
      rcases Nat.lt_trichotomy x y with h | h | h
      · simp [h]
      · subst h; simpa using ih b
      · simp [h, Nat.not_lt.mpr (Nat.le_of_lt h)]

theorem leName_antisymm {a b : Name} (h1 : leName a b = true) (h2 : leName b a = true) : a = b := by
  induction a generalizing b with
  | nil => cases b with
    | nil => rfl
    | cons y b => simp [leName] at h2
  | cons x a ih => cases b with
    | nil => simp [leName] at h1
    | cons y b =>
      simp only [leName] at h1 h2
      rcases Nat.lt_trichotomy x y with h | h | h
      · simp [h, Nat.not_lt.mpr (Nat.le_of_lt h)] at h2
      · subst h; simp at h1 h2; rw [ih h1 h2]
      · simp [h, Nat.not_lt.mpr (Nat.le_of_lt h)] at h1

theorem leName_trans {a b c : Name} (h1 : leName a b = true) (h2 : leName b c = true) : leName a c = true := by
  induction a generalizing b c with
  | nil => simp [leName]
  | cons x a ih => cases b with
    | nil => simp [leName] at h1
    | cons y b => cases c with
      | nil => simp [leName] at h2
      | cons z c =>
        simp only [leName] at h1 h2 ⊢
        rcases Nat.lt_trichotomy x y with h | h | h
        · rcases Nat.lt_trichotomy y z with k | k | k
          · simp [Nat.lt_trans h k]
          · subst k; simp [h]
          · simp [k, Nat.not_lt.mpr (Nat.le_of_lt k)] at h2
        · subst h
          rcases Nat.lt_trichotomy x z with k | k | k
          · simp [k]
          · subst k; simp at h1 h2 ⊢; exact ih h1 h2
          · simp [k, Nat.not_lt.mpr (Nat.le_of_lt k)] at h2
        · simp [h, Nat.not_lt.mpr (Nat.le_of_lt h)] at h1

theorem insertName_perm (n : Name) (l : List Name) : (insertName n l).Perm (n :: l) := by
  induction l with
  | nil => exact .refl _
  | cons m l ih =>
    rw [insertName]
    split
    · exact .refl _
    · exact (ih.cons m).trans (.swap n m l)

theorem sortNames_perm (l : List Name) : (sortNames l).Perm l := by
  induction l with
  | nil => exact .refl _
  | cons n l ih => exact (insertName_perm _ _).trans (ih.cons n)

theorem insertName_sorted {n : Name} {l : List Name} (h : l.Pairwise fun a b => leName a b = true) :
    (insertName n l).Pairwise fun a b => leName a b = true := by
  induction l with
  | nil => simp [insertName]
  | cons m l ih =>
    rw [insertName]
    obtain ⟨h1, h2⟩ := List.pairwise_cons.mp h
    split
    · rename_i hc
      exact List.pairwise_cons.mpr ⟨fun x hx => by
        rcases List.mem_cons.mp hx with rfl | hx
        · exact hc
        · exact leName_trans hc (h1 _ hx), h⟩
    · rename_i hc
      refine List.pairwise_cons.mpr ⟨fun x hx => ?_, ih h2⟩
      rcases List.mem_cons.mp ((insertName_perm n l).mem_iff.mp hx) with rfl | hx
      · exact (leName_total _ _).resolve_left hc
      · exact h1 _ hx

theorem sortNames_sorted (l : List Name) : (sortNames l).Pairwise fun a b => leName a b = true := by
  induction l with
  | nil => exact .nil
  | cons n l ih => exact insertName_sorted ih

theorem sorted_perm_eq {l m : List Name} (h : l.Perm m) (hl : l.Pairwise fun a b => leName a b = true)
    (hm : m.Pairwise fun a b => leName a b = true) : l = m := by
  induction l generalizing m with
  | nil => exact h.nil_eq
  | cons a l ih => cases m with
    | nil => exact absurd h.symm.nil_eq (by simp)
    | cons b m =>
      obtain ⟨h1, h2⟩ := List.pairwise_cons.mp hl
      obtain ⟨k1, k2⟩ := List.pairwise_cons.mp hm
      have hab : a = b := by
        rcases List.mem_cons.mp (h.mem_iff.mp List.mem_cons_self) with e | ha
        · exact e
        rcases List.mem_cons.mp (h.mem_iff.mpr List.mem_cons_self) with e | hb
        · exact e.symm
        exact leName_antisymm (h1 _ hb) (k1 _ ha)
      subst hab
      rw [ih (List.perm_cons a |>.mp h) h2 k2]

theorem sortNames_eq_iff {l m : List Name} : sortNames l = sortNames m ↔ l.Perm m := by
  constructor
  · intro h
    exact (sortNames_perm l).symm.trans (h ▸ sortNames_perm m)
  · intro h
    exact sorted_perm_eq ((sortNames_perm l).trans (h.trans (sortNames_perm m).symm)) (sortNames_sorted _) (sortNames_sorted _)

/-! ### Identifiers -/

theorem append_dollar {a b c d : Name} (ha : Plain a) (hb : Plain b) (h : a ++ 36 :: c = b ++ 36 :: d) : a = b ∧ c = d := by
  unfold Plain at ha hb
  induction a generalizing b with
  | nil => cases b with
    | nil => simpa using h
    | cons y b => simp at h; exact absurd (h.1 ▸ List.mem_cons_self) hb
  | cons x a ih => cases b with
    | nil => simp at h; exact absurd (h.1 ▸ List.mem_cons_self) ha
    | cons y b =>
      simp only [List.cons_append, List.cons.injEq] at h
      obtain ⟨e1, e2⟩ := ih (fun k => ha (List.mem_cons_of_mem _ k)) (fun k => hb (List.mem_cons_of_mem _ k)) h.2
      exact ⟨by rw [h.1, e1], e2⟩

theorem joinDollar_inj {l m : List Name} (hl : ∀ n ∈ l, Plain n) (hm : ∀ n ∈ m, Plain n) (hl0 : l ≠ []) (hm0 : m ≠ [])
    (h : joinDollar l = joinDollar m) : l = m := by
  induction l generalizing m with
  | nil => exact absurd rfl hl0
  | cons a l ih => cases m with
    | nil => exact absurd rfl hm0
    | cons b m =>
      have ha := hl a List.mem_cons_self
      have hb := hm b List.mem_cons_self
      cases l with
      | nil => cases m with
        | nil => simpa [joinDollar] using h
        | cons c m =>
          simp only [joinDollar] at h
          exact absurd (by rw [h]; simp) ha
      | cons c l => cases m with
        | nil =>
          simp only [joinDollar] at h
          exact absurd (by rw [← h]; simp) hb
        | cons d m =>
          simp only [joinDollar] at h
          obtain ⟨e1, e2⟩ := append_dollar ha hb h
          have := ih (fun n hn => hl n (List.mem_cons_of_mem _ hn)) (fun n hn => hm n (List.mem_cons_of_mem _ hn)) (by simp) (by simp) e2
          rw [e1, this]

theorem id_eq_iff {l m : List Name} (hl : ∀ n ∈ l, Plain n) (hm : ∀ n ∈ m, Plain n) (hl0 : l ≠ []) (hm0 : m ≠ []) :
    joinDollar (sortNames l) = joinDollar (sortNames m) ↔ l.Perm m := by
  have key : ∀ k : List Name, k ≠ [] → sortNames k ≠ [] := by
    intro k hk h0
    have := (sortNames_perm k).length_eq
    rw [h0] at this
    exact hk (List.length_eq_zero_iff.mp this.symm)
  constructor
  · intro h
    refine sortNames_eq_iff.mp (joinDollar_inj ?_ ?_ (key _ hl0) (key _ hm0) h)
    · intro n hn; exact hl n ((sortNames_perm l).mem_iff.mp hn)
    · intro n hn; exact hm n ((sortNames_perm m).mem_iff.mp hn)
  · intro h
    rw [sortNames_eq_iff.mpr h]

/-! ### Reading the file -/

theorem readEntries_lookup {file : List (Option (List Name × Nat))} : ∀ {tbl : Table},
    (∀ rels v, some (rels, v) ∈ file → rels ≠ [] ∧ ∀ n ∈ rels, Plain n) → NoDup file →
    (∀ rels v, some (rels, v) ∈ file → lookup tbl (joinDollar (sortNames rels)) = none) →
    ∃ t, readEntries tbl file = some t ∧ (∀ rels v, some (rels, v) ∈ file → lookup t (joinDollar (sortNames rels)) = some v) ∧
      ∀ n, (∀ rels v, some (rels, v) ∈ file → joinDollar (sortNames rels) ≠ n) → lookup t n = lookup tbl n := by
  induction file with
  | nil => intro tbl _ _ _; exact ⟨tbl, rfl, by simp, by simp⟩
  | cons e file ih =>
    intro tbl hp hn hl
    obtain ⟨hn1, hn2⟩ := List.pairwise_cons.mp hn
    have hp' : ∀ rels v, some (rels, v) ∈ file → rels ≠ [] ∧ ∀ n ∈ rels, Plain n := fun r v h => hp r v (List.mem_cons_of_mem _ h)
    cases e with
    | none =>
      obtain ⟨t, h1, h2, h3⟩ := ih hp' hn2 fun r v h => hl r v (List.mem_cons_of_mem _ h)
      refine ⟨t, by simpa [readEntries, readEntry] using h1, ?_, ?_⟩
      · intro r v h
        rcases List.mem_cons.mp h with h | h
        · simp at h
        · exact h2 r v h
      · intro n h
        exact h3 n fun r v hh => h r v (List.mem_cons_of_mem _ hh)
    | some x =>
      obtain ⟨rels, v⟩ := x
      have h0 := hl rels v List.mem_cons_self
      have hpr := hp rels v List.mem_cons_self
      have hne : ∀ r w, some (r, w) ∈ file → joinDollar (sortNames rels) ≠ joinDollar (sortNames r) := by
        intro r w hr he
        have := (id_eq_iff hpr.2 (hp' r w hr).2 hpr.1 (hp' r w hr).1).mp he
        exact hn1 _ hr _ _ rfl rfl this
      obtain ⟨t, h1, h2, h3⟩ := ih (tbl := (joinDollar (sortNames rels), v) :: tbl) hp' hn2 (by
        intro r w hr
        rw [lookup, if_neg (hne r w hr)]
        exact hl r w (List.mem_cons_of_mem _ hr))
      refine ⟨t, by simp only [readEntries, readEntry, h0, Option.bind_some]; exact h1, ?_, ?_⟩
      · intro r w h
        rcases List.mem_cons.mp h with h | h
        · simp only [Option.some.injEq, Prod.mk.injEq] at h
          obtain ⟨rfl, rfl⟩ := h
          rw [h3 _ fun r' w' hr' => (hne r' w' hr').symm, lookup, if_pos rfl]
        · exact h2 r w h
      · intro n h
        rw [h3 n fun r w hr => h r w (List.mem_cons_of_mem _ hr), lookup, if_neg (h rels v List.mem_cons_self)]

end Mutable.CardEst
