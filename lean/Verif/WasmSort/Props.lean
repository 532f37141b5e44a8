import Verif.WasmSort.Compare
/-!
# Property C43: `ORDER BY` of the WebAssembly backend

Specification: `Before`, `Same`, `RowBefore` (`Verif.WasmSort.Compare`) say when a tuple comes strictly before another one by the
ordering expressions: NULL first, ascending or descending, the first expression in which the tuples differ decides.

* For all buffers, comparisons and options the emitted quicksort ends and returns a permutation of the tuples.
* With the branching comparison the result is ordered, unless a nullable column of strings contains NULL.
* With the predicated comparison the result is ordered, if moreover the ordering expressions take at most 31 bits (one for an
  expression that cannot be NULL, two for one that can) and all NULLs have the same value part.
* Each of these three restrictions is necessary: without it the result may be out of order.
-/
namespace Mutable.WSort
variable {V : Type} [LinearOrder V] {R : Type}

/-- The tuple has no NULL in a column of strings which can be NULL. -/
def NoNullString (cols : List Col) (r : Row V) : Prop :=
  ∀ p ∈ cols.zip r, p.1.str = true → p.1.nullable = true → p.2.null = false

omit [LinearOrder V] in
theorem adaptRow_good : ∀ (cols : List Col) (x y : Row V), NoNullString cols x → NoNullString cols y → adaptRow cols x y = y
  | [], _, _, _, _ => by simp [adaptRow]
  | _ :: _, [], _, _, _ => by simp [adaptRow]
  | _ :: _, _ :: _, [], _, _ => by simp [adaptRow]
  | col :: cols, x :: xs, y :: ys, hx, hy => by
    have ih := adaptRow_good cols xs ys (fun p hp => hx p (by simp [hp])) (fun p hp => hy p (by simp [hp]))
    rw [adaptRow, ih]
    congr 1
    unfold adaptCell
    have h1 := hx (col, x) (by simp)
    have h2 := hy (col, y) (by simp)
    cases hs : col.str <;> cases hn : col.nullable <;> simp_all

/-- The sorted buffer, from the specification of the function on the memory. -/
theorem sortBuffer_spec (c : Cfg R) (d : R) (l : List R) :
    ∃ out, (∀ fuel, 2 * l.length + 2 ≤ fuel → sortBuffer c fuel d l = some out) ∧ out.Perm l ∧
      ∀ (P : R → Prop) (le : R → R → Prop), Good c P → Preord c P le → (∀ r ∈ l, P r) → out.Pairwise le := by
  obtain ⟨a', h1, h2, h3⟩ := qsort_spec c l.length (fun i => l.getD i d) 0 l.length (by omega)
  have e : (List.range l.length).map (fun i => l.getD i d) = l := by
    apply List.ext_getElem
    · simp
    · intro i h1 h2
      simp [List.getD_eq_getElem?_getD, h2]
  refine ⟨(List.range l.length).map a', fun fuel hf => ?_, ?_, ?_⟩
  · unfold sortBuffer
    rw [h1 fuel hf]
    rfl
  · have := h2.list
    rwa [e] at this
  · intro P le hG hle hP
    have hs := h3 P le hG hle (fun i _ hi => by
      have : l.getD i d = l[i] := by simp [List.getD_eq_getElem?_getD, hi]
      rw [this]; exact hP _ (List.getElem_mem hi))
    rw [List.pairwise_iff_getElem]
    intro i j hi hj hij
    simp only [List.length_map, List.length_range] at hi hj
    simp only [List.getElem_map, List.getElem_range]
    exact hs i j (Nat.zero_le _) (le_of_lt hij) hj

/-- For every comparison whatsoever (even one which is not an order), every buffer and all options: the sort ends, and the buffer
holds the same tuples as before, each as often. -/
theorem C43_ends_permutation (c : Cfg R) (d : R) (l : List R) :
    ∃ out, (∀ fuel, 2 * l.length + 2 ≤ fuel → sortBuffer c fuel d l = some out) ∧ out.Perm l := by
  obtain ⟨out, h1, h2, -⟩ := sortBuffer_spec c d l
  exact ⟨out, h1, h2⟩

/-- `ORDER BY` with the branching comparison: no tuple of the result comes strictly before an earlier one. -/
theorem C43_order_by_partial (cols : List Col) (ks : List (Key (Row V) V)) (hard two : Bool) (d : Row V) (l : List (Row V))
    (ht : ∀ r ∈ l, Typed ks r) (hs : ∀ r ∈ l, NoNullString cols r) :
    ∃ out, (∀ fuel, 2 * l.length + 2 ≤ fuel → sortBuffer (cfg cols ks false hard two) fuel d l = some out) ∧
      out.Perm l ∧ out.Pairwise (fun x y => ¬ RowBefore ks y x) := by
  obtain ⟨out, h1, h2, h3⟩ := sortBuffer_spec (cfg cols ks false hard two) d l
  refine ⟨out, h1, h2, h3 (fun r => Typed ks r ∧ NoNullString cols r) (rowLe ks) ?_ ?_ (fun r hr => ⟨ht r hr, hs r hr⟩)⟩
  · intro x y hx hy
    exact adaptRow_good cols x y hx.2 hy.2
  · refine ⟨?_, ?_, rowLe_refl ks, rowLe_trans ks⟩
    all_goals
      intro x y hx hy
      have hc : (cfg cols ks false hard two).cmp x y = cmpBranch ks x y := rfl
      rw [hc]
      rcases cmpBranch_spec ks x y hx.1 hy.1 with ⟨e, h⟩ | ⟨e, h, h'⟩ | ⟨e, h⟩ <;> rw [e] <;> simp [rowLe, h]
    · exact rowBefore_le h
    · exact h'
    · exact rowBefore_le h

/-- `ORDER BY` with the predicated comparison. -/
theorem C43_order_by_predicated_partial (cols : List Col) (ks : List (Key (Row V) V)) (hard two : Bool) (d : Row V) (l : List (Row V))
    (ht : ∀ r ∈ l, Typed ks r) (hs : ∀ r ∈ l, NoNullString cols r) (hb : bits ks ≤ 31)
    (hn : ∀ x ∈ l, ∀ y ∈ l, SameNull ks x y) :
    ∃ out, (∀ fuel, 2 * l.length + 2 ≤ fuel → sortBuffer (cfg cols ks true hard two) fuel d l = some out) ∧
      out.Perm l ∧ out.Pairwise (fun x y => ¬ RowBefore ks y x) := by
  obtain ⟨out, h1, h2, h3⟩ := sortBuffer_spec (cfg cols ks true hard two) d l
  refine ⟨out, h1, h2, h3 (fun r => r ∈ l) (rowLe ks) ?_ ?_ (fun r hr => hr)⟩
  · intro x y hx hy
    exact adaptRow_good cols x y (hs x hx) (hs y hy)
  · refine ⟨?_, ?_, rowLe_refl ks, rowLe_trans ks⟩
    all_goals
      intro x y hx hy
      have hc : (cfg cols ks true hard two).cmp x y = cmpPred ks x y := rfl
      rw [hc, cmpPred_eq ks x y hb]
      rcases foldI_spec x y ks (ht x hx) (ht y hy) (hn x hx y hy) with ⟨e, h⟩ | ⟨e, h, h'⟩ | ⟨e, h⟩
    · exact iff_of_true (by omega) (rowBefore_le h)
    · exact iff_of_true (by omega) h'
    · exact iff_of_false (by omega) (fun h' => h' h)
    · exact iff_of_false (by omega) (fun h' => h' h)
    · exact iff_of_true (by omega) h
    · exact iff_of_true (by omega) (rowBefore_le h)

/-! ### The comparisons by themselves -/

/-- The branching comparison returns -1, 0 or 1 as the left tuple comes before, with, or after the right one. -/
theorem C43_compare_branching (ks : List (Key R V)) (l r : R) (hl : Typed ks l) (hr : Typed ks r) :
    (cmpBranch ks l r = -1 ↔ RowBefore ks l r) ∧ (cmpBranch ks l r = 1 ↔ RowBefore ks r l) ∧
      (cmpBranch ks l r = 0 ↔ ∀ k ∈ ks, Same (k.eval l) (k.eval r)) := by
  have h0 : ∀ (ks : List (Key R V)), (∀ k ∈ ks, Same (k.eval l) (k.eval r)) ↔ ¬ RowBefore ks l r ∧ ¬ RowBefore ks r l := by
    intro ks
    induction ks with
    | nil => simp [rowBefore_nil]
    | cons k ks ih =>
      rw [List.forall_mem_cons, ih, rowBefore_cons, rowBefore_cons]
      constructor
      · rintro ⟨h, h1, h2⟩
        refine ⟨?_, ?_⟩ <;> rintro (h3 | ⟨h3, h4⟩)
        · exact h3.not_same h
        · exact h1 h4
        · exact h3.not_same h.symm
        · exact h2 h4
      · rintro ⟨h1, h2⟩
        push Not at h1 h2
        rcases tri k.asc (k.eval l) (k.eval r) with h | h | h
        · exact absurd h h1.1
        · exact ⟨h, h1.2 h, h2.2 h.symm⟩
        · exact absurd h h2.1
  rw [h0]
  have as : ∀ l r, RowBefore ks l r → ¬ RowBefore ks r l := fun l r h => rowBefore_le h
  rcases cmpBranch_spec ks l r hl hr with ⟨e, h⟩ | ⟨e, h, h'⟩ | ⟨e, h⟩ <;> rw [e]
  · simp [h, as l r h]
  · simp [h, h']
  · simp [h, as r l h]

/-- Within 31 bits the predicated comparison has the sign of the branching one. -/
theorem C43_compare_agree (ks : List (Key R V)) (l r : R) (hl : Typed ks l) (hr : Typed ks r) (hb : bits ks ≤ 31) (hn : SameNull ks l r) :
    Int.sign (cmpPred ks l r) = cmpBranch ks l r := by
  rw [cmpPred_eq ks l r hb]
  have as : ∀ l r, RowBefore ks l r → ¬ RowBefore ks r l := fun l r h => rowBefore_le h
  rcases foldI_spec l r ks hl hr hn with ⟨e, h⟩ | ⟨e, h, h'⟩ | ⟨e, h⟩ <;>
    rcases cmpBranch_spec ks l r hl hr with ⟨e2, h2⟩ | ⟨e2, h2, h2'⟩ | ⟨e2, h2⟩ <;>
    first
    | (rw [e2, Int.sign_eq_neg_one_of_neg (by omega)]; done)
    | (rw [e2, Int.sign_eq_one_of_pos (by omega)]; done)
    | (rw [e2, e]; rfl)
    | (exfalso; first | exact as _ _ h h2 | exact h2 h | exact h2' h | exact h h2 | exact h' h2)

/-! ### Witnesses and counterexamples -/

/-- Column `i` as an ordering expression. -/
def colKey (i : Nat) (asc nullable str : Bool) : Key (Row Nat) Nat := ⟨fun r => r.getD i ⟨true, 0⟩, asc, nullable, str⟩

def exCols : List Col := [⟨false, true⟩, ⟨true, false⟩]
def exKeys : List (Key (Row Nat) Nat) := [colKey 0 false true false, colKey 1 true false true]
def exRows : List (Row Nat) :=
  [[⟨false, 1⟩, ⟨false, 9⟩], [⟨true, 0⟩, ⟨false, 4⟩], [⟨false, 7⟩, ⟨false, 2⟩], [⟨false, 7⟩, ⟨false, 1⟩], [⟨true, 0⟩, ⟨false, 3⟩]]

/-- The hypotheses are met by tuples with NULLs, strings, and both directions. -/
example : (∀ r ∈ exRows, Typed exKeys r) ∧ (∀ r ∈ exRows, NoNullString exCols r) ∧ bits exKeys ≤ 31 ∧
    (∀ x ∈ exRows, ∀ y ∈ exRows, SameNull exKeys x y) := by
  refine ⟨?_, ?_, by decide, ?_⟩
  · unfold Typed; decide
  · unfold NoNullString; decide
  · unfold SameNull; decide

/-- And the sort gives the expected order, for both comparisons and all options. -/
example : ∀ p h t, sortBuffer (cfg exCols exKeys p h t) 20 [] exRows = some
    [[⟨true, 0⟩, ⟨false, 3⟩], [⟨true, 0⟩, ⟨false, 4⟩], [⟨false, 7⟩, ⟨false, 1⟩], [⟨false, 7⟩, ⟨false, 2⟩], [⟨false, 1⟩, ⟨false, 9⟩]] := by
  decide +kernel

/-- The stated number of rounds suffices, so the result is the one found with it. -/
theorem sortBuffer_of (c : Cfg R) (d : R) (l out : List R) (h : sortBuffer c (2 * l.length + 2) d l = some out) :
    ∀ fuel, 2 * l.length + 2 ≤ fuel → sortBuffer c fuel d l = some out := by
  obtain ⟨o, h1, -⟩ := C43_ends_permutation c d l
  have := h1 _ le_rfl
  rw [h] at this
  intro fuel hf
  rw [h1 fuel hf, this]

/-- Without the restriction on strings: `ORDER BY` a nullable column of strings, with the three values 2, 1 and NULL, leaves the tuples
as they are, in descending order, although it should return NULL, 1, 2. -/
theorem C43_null_string_misplaced :
    ∃ (cols : List Col) (ks : List (Key (Row Nat) Nat)) (l out : List (Row Nat)), (∀ r ∈ l, Typed ks r) ∧
      (∀ fuel, 2 * l.length + 2 ≤ fuel → sortBuffer (cfg cols ks false false true) fuel [] l = some out) ∧
      ∃ x y, out = [y, [⟨false, 1⟩], x] ∧ RowBefore ks x y := by
  refine ⟨[⟨true, true⟩], [colKey 0 true true true], [[⟨false, 2⟩], [⟨false, 1⟩], [⟨true, 0⟩]], [[⟨false, 2⟩], [⟨false, 1⟩], [⟨true, 0⟩]], ?_,
    sortBuffer_of _ _ _ _ (by decide +kernel), [⟨true, 0⟩], [⟨false, 2⟩], rfl, [], colKey 0 true true true, [], rfl, by simp, ?_⟩
  · unfold Typed; decide
  · unfold Before; decide

/-- Without the restriction to 31 bits: with 32 ordering expressions, none of which can be NULL, the predicated comparison takes a
tuple which comes strictly after another one for the smaller one. -/
theorem C43_predicated_overflow :
    ∃ (ks : List (Key (Row Nat) Nat)) (l r : Row Nat), bits ks = 32 ∧ Typed ks l ∧ Typed ks r ∧ SameNull ks l r ∧
      RowBefore ks l r ∧ cmpPred ks r l < 0 := by
  refine ⟨(List.range 32).map (fun i => colKey i true false false), List.replicate 32 ⟨false, 0⟩, ⟨false, 1⟩ :: List.replicate 31 ⟨false, 0⟩,
    by decide +kernel, ?_, ?_, ?_, ?_, by decide +kernel⟩
  · unfold Typed; decide +kernel
  · unfold Typed; decide +kernel
  · unfold SameNull; decide +kernel
  · refine ⟨[], colKey 0 true false false, (List.range' 1 31).map (fun i => colKey i true false false), rfl, by simp, ?_⟩
    unfold Before; decide +kernel

/-- Without the restriction on the value parts of NULLs: two tuples with NULL in the first expression are not ordered by the second
one, as they should, but by what happens to be stored below the NULLs. -/
theorem C43_predicated_null_garbage :
    ∃ (ks : List (Key (Row Nat) Nat)) (l r : Row Nat), bits ks ≤ 31 ∧ Typed ks l ∧ Typed ks r ∧
      (∀ k ∈ ks, k.nullable = true → (k.eval l).null = true ∧ (k.eval r).null = true) ∧ RowBefore ks l r ∧ 0 < cmpPred ks l r := by
  refine ⟨[colKey 0 true true false, colKey 1 true false false], [⟨true, 5⟩, ⟨false, 1⟩], [⟨true, 3⟩, ⟨false, 2⟩], by decide, ?_, ?_, by decide +kernel, ?_, by decide +kernel⟩
  · unfold Typed; decide
  · unfold Typed; decide
  · refine ⟨[colKey 0 true true false], colKey 1 true false false, [], rfl, ?_, ?_⟩
    · unfold Same; decide
    · unfold Before; decide

end Mutable.WSort
