import Verif.PartialPlan.Json
/-
C66: the complete partial plans of a query plan, and the JSON file with them.
-/
namespace Mutable.PartialPlan

theorem not_singleton {n : Nat} (h : 2 ≤ n) : isSingleton (2 ^ n - 1) = false := by
  obtain ⟨m, rfl⟩ : ∃ m, n = m + 2 := ⟨n - 2, by omega⟩
  cases hs : isSingleton (2 ^ (m + 2) - 1) with
  | false => rfl
  | true =>
    have h1 := singleton_pow hs
    have h2 : (2 ^ (m + 2) - 1).testBit 0 = true := by rw [Nat.testBit_two_pow_sub_one]; simp
    have h3 : (2 ^ (m + 2) - 1).testBit 1 = true := by rw [Nat.testBit_two_pow_sub_one]; simp
    rw [h1, Nat.testBit_two_pow] at h2 h3
    simp at h2 h3
    omega

/-- **C66.**  A plan table with a plan for all `n ≥ 2` relations of the query: the enumeration terminates without a failed assertion, each
of its calls gets a complete partial plan of the final plan, and each complete partial plan is passed to exactly one call, up to the order of its
plans. -/
theorem C66_enumerates_each_once (pt : PT) (n : Nat) (hn : 2 ≤ n) (h : HasPlan pt (2 ^ n - 1)) :
    ∃ k out, (∀ fuel, k ≤ fuel → forEach pt n fuel = some out) ∧ (∀ p ∈ out, Complete pt (2 ^ n - 1) p) ∧
      ∀ p, Complete pt (2 ^ n - 1) p → out.countP (fun q => decide (q.Perm p)) = 1 := by
  have hu : (pt (2 ^ n - 1)).1 ||| (pt (2 ^ n - 1)).2 = 2 ^ n - 1 := by
    cases h with
    | relation _ hs => rw [not_singleton hn] at hs; cases hs
    | join _ _ _ _ _ hu => exact hu
  obtain ⟨t, ht, hr⟩ := h.tree
  have hT : ∀ u ∈ [t], u.Rep pt := fun u hu => by rw [List.mem_singleton.mp hu]; exact ht
  have hD : Disjoint [t] := ⟨by simp, trivial⟩
  have cf : ∀ p, CompleteF [t] p ↔ Complete pt (2 ^ n - 1) p := by
    intro p
    unfold CompleteF Complete Covers
    rw [← hr]
    simp only [List.mem_singleton, exists_eq_left]
    constructor
    · rintro ⟨a, b⟩
      exact ⟨fun s hs => (ht.sub_iff s).mpr (a s hs), b⟩
    · rintro ⟨a, b⟩
      exact ⟨fun s hs => (ht.sub_iff s).mp (a s hs), b⟩
  obtain ⟨k, hk⟩ := run_outer [t] hT [] []
  refine ⟨k, (cuts [t]).map List.reverse, fun fuel hf => ?_, ?_, ?_⟩
  · have e := hk (fuel + 1 - k)
    rw [show k + (fuel + 1 - k) = fuel + 1 by omega, show fuel + 1 - k = (fuel - k) + 1 by omega, run, run] at e
    simp only [List.map_cons, List.map_nil, hr, Option.map_some, List.append_nil] at e
    unfold forEach
    rw [if_neg (by omega), if_neg (by omega)]
    simp only [hu]
    exact e
  · intro p hp
    obtain ⟨q, hq, rfl⟩ := List.mem_map.mp hp
    obtain ⟨a, b⟩ := (cf q).mp (cuts_sound [t] hT hD q hq)
    refine ⟨fun s hs => a s (List.mem_reverse.mp hs), fun i hi => ?_⟩
    rw [List.countP_reverse]
    exact b i hi
  · intro p hp
    rw [List.countP_map]
    have e : ((fun q : List Nat => decide (q.Perm p)) ∘ List.reverse) = fun q => decide (q.Perm p) := by
      funext q
      exact decide_eq_decide.mpr ⟨fun h => (List.reverse_perm q).symm.trans h, fun h => (List.reverse_perm q).trans h⟩
    rw [e]
    exact cuts_unique [t] hT hD p ((cf p).mpr hp)

/-- **C66.**  Without relations there is no call, with one relation there is one call, with that relation. -/
theorem C66_small_queries (pt : PT) (fuel : Nat) : forEach pt 0 fuel = some [] ∧ forEach pt 1 fuel = some [[1]] ∧
    Complete pt 1 [1] := by
  refine ⟨rfl, rfl, ?_, fun i hi => ?_⟩
  · intro s hs
    rw [List.mem_singleton.mp hs]
    exact .root
  · simp [hi]

/-- **C66.**  A plan is written in prefix notation, which reads back as the plan in the plan table, provided that names contain no space and
none is `@`. -/
theorem C66_prefix_notation (pt : PT) (name : Nat → List Char) (hs : ∀ i, ∀ c ∈ name i, c ≠ ' ') (hn : ∀ i, name i ≠ ['@']) (s : Nat)
    (h : HasPlan pt s) : ∃ T d0, IsPlan pt name s T ∧ ∀ d, d0 ≤ d → readTerm d (writeTree pt name d s) = some (T, []) := by
  obtain ⟨T, d0, h1, h2⟩ := tree_reads hs hn h
  exact ⟨T, d0, h1, fun d hd => by simpa using h2 d hd [] (Or.inl rfl)⟩

/-- **C66, partial.**  The file of the first query of a process is a JSON document, and it contains the partial plans in the order of the calls,
each with its plans in order, provided that the names of the relations contain no quotes, backslashes and control characters.  Missing: the files of
later queries, see `C66_bug_later_files`. -/
theorem C66_json_partial (pt : PT) (name : Nat → List Char) (hc : ∀ i, Clean (name i)) (d : Nat) (ps : List (List Nat)) (qs : List (List (List Nat))) :
    ∃ file, (writeFiles (writeTree pt name d) true (ps :: qs))[0]? = some file ∧
      parseJSON file = some (ps.map (fun p => p.map (writeTree pt name d))) :=
  ⟨_, rfl, json_first (tree_clean hc d) ps⟩

/-- **C66, violated.**  After a query with a plan, no file of a query with a plan is a JSON document: it starts with `[,`.  The variable that
suppresses the comma before the first plan is static. -/
theorem C66_bug_later_files (w : Nat → List Char) (q : List (List Nat)) (qs : List (List (List Nat))) (hq : q ≠ []) (i : Nat) (q' : List (List Nat))
    (hi : qs[i]? = some q') (hq' : q' ≠ []) :
    ∃ file, (writeFiles w true (q :: qs))[i + 1]? = some file ∧ parseJSON file = none ∧ ∃ rest, file = '[' :: ',' :: rest := by
  refine ⟨(writeJSON w false q').1, ?_, json_second hq', ?_⟩
  · have : (writeJSON w true q).2 = false := writePlans_flag w q true (Or.inl hq)
    simp only [writeFiles, this, List.getElem?_cons_succ]
    rw [files_false, hi]
    rfl
  · obtain ⟨p, ps, rfl⟩ := List.exists_cons_of_ne_nil hq'
    exact ⟨_, by simp only [writeJSON, List.singleton_append, writePlans_cons, Bool.false_eq_true, if_false, List.cons_append]; rfl⟩

/-! ### Examples -/

/-- Relations A, B, C: the plan (A B) C. -/
def exPT : PT := fun s => if s = 7 then (3, 4) else if s = 3 then (1, 2) else (0, 0)

def exName : Nat → List Char := fun i => ["A".toList, "B".toList, "C".toList].getD i "D".toList

theorem exPT_hasPlan : HasPlan exPT 7 :=
  .join 7 (by decide) (.join 3 (by decide) (.relation 1 (by decide)) (.relation 2 (by decide)) (by decide) (by decide))
    (.relation 4 (by decide)) (by decide) (by decide)

example : forEach exPT 3 100 = some [[7], [4, 3], [4, 2, 1]] := by decide +kernel

example : (forEach exPT 3 100).map (fun ps => String.ofList (writeJSON (writeTree exPT exName 5) true ps).1) =
    some "[\n    [ \"@ @ A B C\" ],\n    [ \"C\", \"@ A B\" ],\n    [ \"C\", \"B\", \"A\" ]\n]\n" := by decide +kernel

example : parseJSON (writeJSON (writeTree exPT exName 5) true [[7], [4, 3]]).1 = some [["@ @ A B C".toList], ["C".toList, "@ A B".toList]] := by
  decide +kernel

example : (writeFiles (writeTree exPT exName 5) true [[[1]], [[1]]]).map String.ofList =
    ["[\n    [ \"A\" ]\n]\n", "[,\n    [ \"A\" ]\n]\n"] := by decide +kernel

example : ∀ i, Clean (exName i) := by
  intro i c hc
  have : c = 'A' ∨ c = 'B' ∨ c = 'C' ∨ c = 'D' := by
    match i with
    | 0 => left; simpa [exName] using hc
    | 1 => right; left; simpa [exName] using hc
    | 2 => right; right; left; simpa [exName] using hc
    | i + 3 => right; right; right; simpa [exName] using hc
  rcases this with rfl | rfl | rfl | rfl <;> decide

example : readTerm 5 (writeTree exPT exName 5 7) = some (.join (.join (.rel ['A']) (.rel ['B'])) (.rel ['C']), []) := by decide +kernel

end Mutable.PartialPlan
