import Verif.Constraints.Exec

/-!
C57: the constraints `NOT NULL` and `UNIQUE` that schemas of operators carry are kept by the rows of the operators, before and
after schema minimization, so that compiled code, which stores no NULL bits for entries marked `NOT NULL` and looks for one
partner only if build keys are marked `UNIQUE`, computes the rows of the plan.
-/
namespace Mutable.Constraints

section Theorems
variable {I V : Type} [DecidableEq I] [DecidableEq V] [Truth V]

/-- The constraints in the schemas of all operators are kept by the rows of these operators: of the plan as it was
constructed (`n = 0`), of the minimized plan (`n = 1`), and of a plan minimized again and again. -/
theorem C57_constraints_partial {p : Plan I V} (h : WF p) (hc : NoClash p) (n : Nat) : AllSound (Nat.repeat minimize n p) :=
  (minimize_iter h hc n).1.allSound

/-- Minimization leaves every column that is still needed in the schemas below. -/
theorem C57_closed {p : Plan I V} (h : WF p) (hc : NoClash p) (n : Nat) : Closed (Nat.repeat minimize n p) :=
  (minimize_iter h hc n).1.closed

/-- Minimization keeps the rows and the columns of the result, and takes no constraint of the result away. -/
theorem C57_minimize_result {p : Plan I V} (h : WF p) (hc : NoClash p) : rowsOf (minimize p) = rowsOf p ∧
    ids (schema (minimize p)) = ids (schema p) ∧
    ∀ e ∈ schema p, ∃ e' ∈ schema (minimize p), e'.id = e.id ∧ (e.nn = true → e'.nn = true) ∧ (e.uq = true → e'.uq = true) := by
  have st := minimize_iter h hc 1
  refine ⟨st.2.2.1, st.2.2.2, ?_⟩
  have : ∀ q : Plan I V, Good q → Le (schema q) (schema (minimize q)) := by
    intro q
    induction q with
    | scan => exact fun _ => Le.refl _
    | filter => exact fun _ => le_addC _ _ _
    | join => exact fun _ => (le_addC _ _ _).trans (le_addC _ _ _)
    | proj S items c _ =>
      intro _
      simp only [minimize, mini, schema, Bool.true_or, List.filter_true]
      exact le_addC _ _ _
    | limit off lim c ih => exact ih
    | group S keys aggs c _ =>
      intro _
      simp only [minimize, mini, schema, Bool.true_or, List.filter_true]
      intro e he
      rw [← List.take_append_drop keys.length S] at he
      rcases List.mem_append.mp he with he | he
      · obtain ⟨u, hu, k⟩ := le_addC true _ _ e he
        exact ⟨u, List.mem_append_left _ hu, k⟩
      · exact ⟨e, List.mem_append_right _ he, rfl, id, id⟩
    | agg S aggs c _ =>
      intro _
      simp only [minimize, mini, schema, Bool.true_or, List.filter_true]
      exact Le.refl _
    | sort => exact fun _ => le_addC _ _ _
  exact this p (good_of_WF h hc)

/-- Compiled code that relies on the constraints computes the rows of the plan and shows its result, whatever is read where
a NULL was stored without NULL bit. -/
theorem C57_execution_partial {p : Plan I V} (h : WF p) (hc : NoClash p) (n : Nat) (junk : V) :
    exec junk (Nat.repeat minimize n p) = rowsOf p ∧ shown junk (Nat.repeat minimize n p) = answer p := by
  obtain ⟨g, _, hr, hi⟩ := minimize_iter h hc n
  refine ⟨(exec_sound junk g.allSound).trans hr, (shown_sound junk g.allSound).trans ?_⟩
  unfold answer
  rw [hr, hi]

/-- Relying on the constraints is correct for every plan whose schemas keep their promises. -/
theorem C57_rely {p : Plan I V} (h : AllSound p) (junk : V) : exec junk p = rowsOf p ∧ shown junk p = answer p :=
  ⟨exec_sound junk h, shown_sound junk h⟩

/-- An expression that `can_be_null` says cannot be NULL is not NULL on any row that keeps the promises of the schema. -/
theorem C57_can_be_null_partial {T : List (Ent I)} {rows : List (Row I V)} (hs : Sound T rows) {e : E I V} (h : e.Resolved T)
    (hc : e.canBeNull = false) : ∀ r ∈ rows, e.ev r ≠ none :=
  fun _ hr => E.not_null hs hr e h hc

/-- Aggregates of a grouping, and `COUNT` without grouping, are resolved: the assumption about applications of aggregate
functions in `WF` is met by all plans whose aggregates come from a grouping. -/
theorem C57_group_resolves {S : List (Ent I)} {keys : List (I × E I V)} {aggs : List (I × Ag I V)} {c : Plan I V}
    (h : WF (.group S keys aggs c)) : (∀ i f arg, (i, Ag.oth f arg) ∈ aggs → (E.oth i arg : E I V).Resolved S) ∧
    ∀ i f q, (i, Ag.cnt f q) ∈ aggs → (E.cnt i : E I V).Resolved S := by
  obtain ⟨_, _, _, _, rfl⟩ := h
  constructor
  · intro i f arg hm
    refine ⟨_, List.mem_append_right _ (List.mem_map_of_mem hm), rfl, fun x => ?_⟩
    simpa [groupAggEnt, Ag.canBeNull] using x
  · intro i f q hm
    exact ⟨_, List.mem_append_right _ (List.mem_map_of_mem hm), rfl, rfl⟩

theorem C57_agg_resolves {S : List (Ent I)} {aggs : List (I × Ag I V)} {c : Plan I V}
    (h : WF (.agg S aggs c)) : (∀ i f arg, (i, Ag.oth f arg) ∈ aggs → arg.canBeNull = true → (E.oth i arg : E I V).Resolved S) ∧
    ∀ i f q, (i, Ag.cnt f q) ∈ aggs → (E.cnt i : E I V).Resolved S := by
  obtain ⟨_, _, _, rfl⟩ := h
  constructor
  · intro i f arg hm ha
    exact ⟨_, List.mem_map_of_mem hm, rfl, fun x => by rw [ha] at x; cases x⟩
  · intro i f q hm
    exact ⟨_, List.mem_map_of_mem hm, rfl, rfl⟩

end Theorems

/-! ### Examples and counterexamples -/

instance : Truth Nat := ⟨fun b => if b then 1 else 0⟩

/-- The row with the given columns. -/
def row (l : List (Nat × Nat)) : Row Nat Nat := fun i => (l.find? fun x => decide (x.1 = i)).map Prod.snd

/-- Table T: column 0 `T.k` (NOT NULL, UNIQUE), column 1 `T.v`. -/
def tabT : Plan Nat Nat := .scan [⟨0, true, true⟩, ⟨1, false, false⟩] [row [(0, 1), (1, 5)], row [(0, 2), (1, 5)], row [(0, 3)]]

/-- Table S: column 2 `S.x`, column 3 `S.y` (NOT NULL). -/
def tabS : Plan Nat Nat := .scan [⟨2, false, false⟩, ⟨3, true, false⟩] [row [(2, 1), (3, 7)], row [(2, 5), (3, 8)], row [(2, 1), (3, 9)]]

def joinTS : Plan Nat Nat :=
  .join [⟨0, true, false⟩, ⟨1, false, false⟩, ⟨2, false, false⟩, ⟨3, true, false⟩] [0, 1] (.equi [(0, 2)]) tabT tabS

/-- `SELECT k, SUM(y) FROM T, S WHERE k = x GROUP BY k ORDER BY SUM(y)`; column 4 is `k`, column 5 is `SUM(y)`. -/
def query : Plan Nat Nat :=
  .proj [⟨4, true, false⟩, ⟨5, true, false⟩] [(4, .named 4 (.attr 0 true)), (5, .oth 5 (.attr 3 true))]
    (.sort [⟨4, true, false⟩, ⟨5, true, false⟩] [5] id
      (.group [⟨4, true, false⟩, ⟨5, true, false⟩] [(4, .attr 0 true)] [(5, .oth List.sum (.attr 3 true))] joinTS))

theorem wf_tabT : WF tabT := by
  refine ⟨by decide, ?_⟩
  intro e he
  simp only [List.mem_cons, List.not_mem_nil, or_false] at he
  rcases he with rfl | rfl
  · refine ⟨fun _ r hr => ?_, fun _ => ?_⟩
    · simp only [List.mem_cons, List.not_mem_nil, or_false] at hr
      rcases hr with rfl | rfl | rfl <;> decide
    · simp only [List.pairwise_cons, List.mem_cons, List.not_mem_nil, or_false, forall_eq_or_imp, forall_eq]
      refine ⟨⟨?_, ?_⟩, ?_, ?_⟩
      · rintro v ⟨h1, h2⟩; rw [← h2] at h1; revert h1; decide
      · rintro v ⟨h1, h2⟩; rw [← h2] at h1; revert h1; decide
      · rintro v ⟨h1, h2⟩; rw [← h2] at h1; revert h1; decide
      · exact ⟨by simp, List.Pairwise.nil⟩
  · exact ⟨by simp, by simp⟩

theorem wf_tabS : WF tabS := by
  refine ⟨by decide, ?_⟩
  intro e he
  simp only [List.mem_cons, List.not_mem_nil, or_false] at he
  rcases he with rfl | rfl
  · exact ⟨by simp, by simp⟩
  · refine ⟨fun _ r hr => ?_, by simp⟩
    simp only [List.mem_cons, List.not_mem_nil, or_false] at hr
    rcases hr with rfl | rfl | rfl <;> decide

theorem wf_query : WF query ∧ NoClash query := by
  have hj : WF joinTS := ⟨wf_tabT, wf_tabS, rfl, rfl, by decide, by unfold JP.Sides; decide⟩
  have hg : WF (.group [⟨4, true, false⟩, ⟨5, true, false⟩] [(4, .attr 0 true)] [(5, .oth List.sum (.attr 3 true))] joinTS) := by
    refine ⟨hj, by decide, ?_, ?_, rfl⟩
    · intro x hx
      simp only [List.mem_singleton] at hx
      subst hx
      exact ⟨⟨0, true, false⟩, by decide, rfl, fun _ => rfl⟩
    · intro x hx
      simp only [List.mem_singleton] at hx
      subst hx
      exact ⟨⟨3, true, false⟩, by decide, rfl, fun _ => rfl⟩
  refine ⟨⟨⟨hg, rfl, by decide, fun l => List.Perm.refl _⟩, by decide, ?_, rfl⟩, ?_, ?_⟩
  · intro x hx
    simp only [List.mem_cons, List.not_mem_nil, or_false] at hx
    rcases hx with rfl | rfl
    · exact ⟨⟨4, true, false⟩, by decide, rfl, fun _ => rfl⟩
    · exact ⟨⟨5, true, false⟩, by decide, rfl, fun _ => rfl⟩
  · refine ⟨⟨trivial, trivial⟩, ?_⟩
    intro x hx
    simp only [List.mem_singleton] at hx
    subst hx
    intro h
    revert h; decide
  · intro x hx
    simp only [List.mem_cons, List.not_mem_nil, or_false] at hx
    rcases hx with rfl | rfl <;> intro h
    · rfl
    · rfl

example (n junk : Nat) : shown junk (Nat.repeat minimize n query) = [[some 1, some 16]] :=
  (C57_execution_partial wf_query.1 wf_query.2 n junk).2.trans (by decide +kernel)

/-- The minimized join looks for one partner only. -/
example : uniqueBuild (.equi [(0, 2)] : JP Nat Nat) (schema (mini false [⟨0, true, false⟩] tabT)) = true := by decide

/-- `SELECT SUM(y) FROM S'`, for an empty table S' with `y NOT NULL`: column 5 is `SUM(y)`. -/
def sumEmpty : Plan Nat Nat :=
  .proj [⟨5, true, false⟩] [(5, .oth 5 (.attr 3 true))] (.agg [⟨5, false, true⟩] [(5, .oth List.sum (.attr 3 true))]
    (.scan [⟨3, true, false⟩] []))

/-- `can_be_null` of an aggregate looks at its argument only: a projection above an aggregation promises that `SUM` of a NOT
NULL column is not NULL, which is wrong if there are no rows; the NULL is shown as any value.  (Before the first
minimization and after it.)  The schemas are those of the constructors, the children are well-formed. -/
theorem C57_sum_counterexample : WF (.agg [⟨5, false, true⟩] [(5, .oth List.sum (.attr 3 true))]
      (.scan [⟨3, true, false⟩] []) : Plan Nat Nat) ∧ NoClash sumEmpty ∧
    schema sumEmpty = [(5, (.oth 5 (.attr 3 true) : E Nat Nat))].map (itemEnt [⟨5, false, true⟩]) ∧
    answer sumEmpty = [[none]] ∧ ∀ junk, shown junk (minimize sumEmpty) = [[some junk]] := by
  refine ⟨⟨⟨by decide, ?_⟩, by decide, ?_, rfl⟩, ⟨trivial, ?_⟩, rfl, by decide +kernel, fun junk => rfl⟩
  · intro e _
    exact ⟨fun _ r hr => by (cases hr), fun _ => List.Pairwise.nil⟩
  · intro x hx
    simp only [List.mem_singleton] at hx
    subst hx
    exact ⟨⟨3, true, false⟩, by decide, rfl, fun _ => rfl⟩
  · intro x hx
    simp only [List.mem_singleton] at hx
    subst hx
    exact fun _ => rfl

/-- `SELECT MAX(v) AS k FROM T GROUP BY k`: column 4 is `k`, column 6 is `MAX(v)`. -/
def maxAsKey : Plan Nat Nat :=
  .proj [⟨4, false, false⟩] [(4, .oth 6 (.attr 1 false))]
    (.group [⟨4, true, true⟩, ⟨6, false, false⟩] [(4, .attr 0 true)] [(6, .oth (List.foldr max 0) (.attr 1 false))] tabT)

theorem wf_maxAsKey : WF maxAsKey := by
  refine ⟨⟨wf_tabT, by decide, ?_, ?_, rfl⟩, by decide, ?_, rfl⟩
  · intro x hx
    simp only [List.mem_singleton] at hx
    subst hx
    exact ⟨⟨0, true, true⟩, by decide, rfl, fun _ => rfl⟩
  · intro x hx
    simp only [List.mem_singleton] at hx
    subst hx
    exact ⟨⟨1, false, false⟩, by decide, rfl, (fun h => by cases h)⟩
  · intro x hx
    simp only [List.mem_singleton] at hx
    subst hx
    exact ⟨⟨6, false, false⟩, by decide, rfl, (fun h => by cases h)⟩

/-- The full statement, without `NoClash`, is false: minimization adds the constraints of an input column with the same name
as an item.  Here the maximum of NULLs is shown as any value because the item has the name of the grouping key. -/
theorem C57_alias_counterexample : WF maxAsKey ∧ AllSound maxAsKey ∧ answer maxAsKey = [[some 5], [some 5], [none]] ∧
    ∀ junk, shown junk maxAsKey = [[some 5], [some 5], [none]] ∧
      shown junk (minimize maxAsKey) = [[some 5], [some 5], [some junk]] := by
  have ha : AllSound maxAsKey := by
    have g : Good (.group [⟨4, true, true⟩, ⟨6, false, false⟩] [(4, .attr 0 true)]
        [(6, .oth (List.foldr max 0) (.attr 1 false))] tabT : Plan Nat Nat) := by
      refine good_of_WF wf_maxAsKey.1 ⟨trivial, ?_⟩
      intro x hx
      simp only [List.mem_singleton] at hx
      subst hx
      intro h
      revert h; decide
    refine ⟨?_, g.allSound⟩
    intro e he
    simp only [List.mem_singleton] at he
    subst he
    exact ⟨(fun h => by cases h), (fun h => by cases h)⟩
  have hw : answer maxAsKey = [[some 5], [some 5], [none]] := by decide +kernel
  exact ⟨wf_maxAsKey, ha, hw, fun junk => ⟨(shown_sound junk ha).trans hw, rfl⟩⟩

/-- Table T with the first two rows only. -/
def tabT2 : Plan Nat Nat := .scan [⟨0, true, true⟩, ⟨1, false, false⟩] [row [(0, 1), (1, 5)], row [(0, 2), (1, 5)]]

theorem wf_tabT2 : WF tabT2 :=
  ⟨wf_tabT.1, fun e he => Ok.sublist (wf_tabT.2 e he) (by
    have := List.take_sublist 2 [row [(0, 1), (1, 5)], row [(0, 2), (1, 5)], row [(0, 3)]]
    exact this)⟩

/-- `SELECT T.j, S.y FROM (SELECT v AS k, k AS j FROM T) AS T, S WHERE T.k = S.x`: the columns of the derived table are
0 `T.k` (which is `v`) and 7 `T.j` (which is `k`). -/
def swapped : Plan Nat Nat :=
  .proj [⟨7, true, false⟩, ⟨3, true, false⟩] [(7, .named 7 (.attr 0 true)), (3, .attr 3 true)]
    (.join [⟨0, false, false⟩, ⟨7, true, false⟩, ⟨2, false, false⟩, ⟨3, true, false⟩] [0, 7] (.equi [(0, 2)])
      (.proj [⟨0, false, false⟩, ⟨7, true, true⟩] [(0, .attr 1 false), (7, .attr 0 true)] tabT2) tabS)

theorem wf_swapped : WF swapped := by
  have hp : WF (.proj [⟨0, false, false⟩, ⟨7, true, true⟩] [(0, .attr 1 false), (7, .attr 0 true)] tabT2 : Plan Nat Nat) := by
    refine ⟨wf_tabT2, by decide, ?_, rfl⟩
    intro x hx
    simp only [List.mem_cons, List.not_mem_nil, or_false] at hx
    rcases hx with rfl | rfl
    · exact ⟨⟨1, false, false⟩, by decide, rfl, (fun h => by cases h)⟩
    · exact ⟨⟨0, true, true⟩, by decide, rfl, fun _ => rfl⟩
  refine ⟨⟨hp, wf_tabS, rfl, rfl, by decide, by unfold JP.Sides; decide⟩, by decide, ?_, rfl⟩
  intro x hx
  simp only [List.mem_cons, List.not_mem_nil, or_false] at hx
  rcases hx with rfl | rfl
  · exact ⟨⟨7, true, false⟩, by decide, rfl, fun _ => rfl⟩
  · exact ⟨⟨3, true, false⟩, by decide, rfl, fun _ => rfl⟩

/-- A derived table with the name of its base table and a column with the name of another one of the base table: the join
of the minimized plan takes `v` for unique and finds one of two partners. -/
theorem C57_derived_counterexample : WF swapped ∧ answer swapped = [[some 1, some 8], [some 2, some 8]] ∧
    ∀ junk, shown junk (minimize swapped) = [[some 1, some 8]] := by
  exact ⟨wf_swapped, by decide +kernel, fun junk => rfl⟩

/-- A missed optimization: a grouping by one key is marked `UNIQUE` only if the key is a column marked `UNIQUE`, although no two
groups have the same key.  The number of keys is asked after the vector was moved. -/
theorem C57_single_key {I V : Type} [DecidableEq I] [DecidableEq V] [Truth V] {S : List (Ent I)} {x : I × E I V}
    {aggs : List (I × Ag I V)} {c : Plan I V} (h : WF (.group S [x] aggs c)) :
    ((rowsOf (.group S [x] aggs c)).Pairwise fun r r' => ∀ v, ¬ (r x.1 = some v ∧ r' x.1 = some v)) ∧
    ∃ e ∈ S, e.id = x.1 ∧ (e.uq = true ↔ ∃ t ∈ schema c, x.2.designator? = some t.id ∧ find (schema c) t.id = some t ∧ t.uq = true) := by
  obtain ⟨_, _, _, _, rfl⟩ := h
  constructor
  · simp only [rowsOf]
    rw [List.pairwise_map]
    refine List.Pairwise.imp_of_mem ?_ (distinct_nodup _)
    intro k k' hk hk' hne v hv
    obtain ⟨r, hr, rfl⟩ := group_rows hk
    obtain ⟨r', hr', rfl⟩ := group_rows hk'
    have hn : ([x].map Prod.fst).Nodup := by simp
    rw [groupRow_key hn (List.mem_singleton.mpr rfl), groupRow_key hn (List.mem_singleton.mpr rfl)] at hv
    exact hne (by simp [keyOf, hv.1, hv.2])
  · refine ⟨keyEnt (schema c) x, by simp, ?_, ?_⟩
    · unfold keyEnt
      simp only
      split <;> rfl
    · unfold keyEnt
      simp only
      split
      · rename_i hb
        simp only [List.length_nil]
        constructor
        · intro h; simp at h
        · rintro ⟨t, ht, h1, h2, h3⟩
          rw [h1, Option.bind_some, h2] at hb
          cases hb
      · rename_i t hb
        obtain ⟨j, hj, hf⟩ := Option.bind_eq_some_iff.mp hb
        obtain ⟨hm, rfl⟩ := find_some hf
        simp only [merge, List.length_nil]
        constructor
        · intro h
          exact ⟨t, hm, hj, hf, by simpa using h⟩
        · rintro ⟨t', ht', h1, h2, h3⟩
          rw [hj] at h1
          rw [← Option.some.inj h1, hf] at h2
          obtain rfl := Option.some.inj h2
          simp [h3]

/-- A grouping by a column that is not unique. -/
example : WF (.group [⟨4, false, false⟩] [(4, .attr 1 false)] [] tabT : Plan Nat Nat) := by
  refine ⟨wf_tabT, by decide, ?_, by simp, rfl⟩
  intro x hx
  simp only [List.mem_singleton] at hx
  subst hx
  exact ⟨⟨1, false, false⟩, by decide, rfl, (fun h => by cases h)⟩

end Mutable.Constraints
