import Verif.Minimize.Inv

/-!
C56: schema minimization does not change the result of a query.

`minimize` is the pass that runs on every plan before execution, `run` the interpreter on the minimized plan, `runW` the
compiled back end on it; `answer` (Spec.lean) is the result of the plan as it was before minimization, with attributes
addressed by name.  `WF` are the plans as the optimizer constructs them (without duplicate identifiers).
-/
namespace Mutable.Minimize

variable {I C : Type} [DecidableEq I]

/-- Minimization throws no exception and violates no assertion; the columns of the result keep their names and order. -/
theorem C56_no_exception (p : Plan I C) (h : WF p) : ∃ p', minimize p = some p' ∧ schema p' = schema p := by
  obtain ⟨p', t⟩ := top p h
  exact ⟨p', t.mini [] List.nodup_nil, t.sch⟩

theorem minimize_top {p p' : Plan I C} (h : WF p) (hm : minimize p = some p') : Top p p' := by
  obtain ⟨q, t⟩ := top p h
  have : some q = some p' := (t.mini [] List.nodup_nil).symm.trans hm
  cases this
  exact t

/-- The pass runs a second time, after physical optimization: if every aggregation has an aggregate that is needed, this
changes nothing. -/
theorem C56_twice_partial (p p' : Plan I C) (h : WF p) (ha : AggsLive (· ∈ schema p) p) (hm : minimize p = some p') :
    minimize p' = some p' :=
  (minimize_top h hm).idem ha [] List.nodup_nil

/-- The interpreter computes the result of a plan that was not minimized. -/
theorem C56_unminimized (p : Plan I C) (h : WF p) (cl : C → C) (junk : C) :
    (run cl junk p).layout = schema p ∧ (run cl junk p).rows = answer cl junk p := by
  obtain ⟨h1, h2⟩ := unminimized cl junk p h
  refine ⟨by rw [← h1, run_layout], ?_⟩
  unfold Rows at h2
  rw [h2, h1]
  rfl

/-- The interpreter computes the result of the original plan on the minimized plan, in the same order, if no filter or sort
directly above a projection, grouping or aggregation is an input of a grouping, an aggregation, or the left input of a
join. -/
theorem C56_interpreter_partial (p p' : Plan I C) (h : WF p) (hh : Harmless p) (hm : minimize p = some p')
    (cl : C → C) (junk : C) :
    (run cl junk p').layout = schema p ∧ (run cl junk p').rows = answer cl junk p := by
  have t := minimize_top h hm
  refine ⟨by rw [run_layout, t.lay], ?_⟩
  have := t.rows cl junk hh
  unfold Rows at this
  rw [this, t.lay]
  rfl

/-- … hence minimization does not change what the interpreter returns. -/
theorem C56_interpreter_agrees_partial (p p' : Plan I C) (h : WF p) (hh : Harmless p) (hm : minimize p = some p')
    (cl : C → C) (junk : C) : (run cl junk p').rows = (run cl junk p).rows := by
  rw [(C56_interpreter_partial p p' h hh hm cl junk).2, (C56_unminimized p h cl junk).2]

/-- Compiled code computes the result of the original plan on the minimized plan. -/
theorem C56_compiled (p p' : Plan I C) (h : WF p) (hm : minimize p = some p') (junk : C) :
    (runW junk p').map (fun r => (schema p').map r) = answer id junk p := by
  have t := minimize_top h hm
  have := t.named junk
  unfold Named at this
  unfold answer
  rw [t.sch] at *
  generalize runW junk p' = rs, rowsOf id junk p = rs' at *
  induction this with
  | nil => rfl
  | cons h1 _ ih =>
    simp only [List.map_cons]
    rw [ih]
    congr 1
    exact List.map_congr_left h1

/-- The scans of the minimized plan read exactly the attributes that are needed. -/
theorem C56_scans (p p' : Plan I C) (h : WF p) (hm : minimize p = some p') (i : I) :
    i ∈ scanned p' ↔ Live (· ∈ schema p) p i :=
  (minimize_top h hm).scans i

/-! ### Examples -/

section Examples

def col (i : Nat) : Ex Nat Int Int := ⟨[i], fun r => r i, fun _ _ h => h i (by simp)⟩
def pos (i : Nat) : Ex Nat Int Bool := ⟨[i], fun r => decide (0 < r i), fun _ _ h => by rw [h i (by simp)]⟩
def one : Ex Nat Int Int := ⟨[], fun _ => 1, fun _ _ _ => rfl⟩
def count : Agg Nat Int := ⟨[], fun rs => rs.length, fun _ _ h => by rw [h.length_eq]⟩
def sum (i : Nat) : Agg Nat Int :=
  ⟨[i], fun rs => (rs.map fun r => r i).sum, fun rs rs' h => by
    induction h with
    | nil => rfl
    | cons h1 _ ih => simp only [List.map_cons, List.sum_cons]; rw [ih, h1 i (by simp)]⟩
/-- Reverse order of the input (an order that depends on the number of rows only). -/
def rev : Ord Nat Int :=
  ⟨[], fun rs => (List.range rs.length).reverse, fun _ _ h => by rw [h.length_eq]⟩
def eqKeys (k l : List Int) : Bool := k == l
def allPairs (m n : Nat) : List (Nat × Nat) := (List.range m).flatMap fun i => (List.range n).map fun j => (i, j)

/-- `T(x, y, z)`, attributes 0, 1, 2. -/
def tabT : Plan Nat Int := .scan [0, 1, 2] [fun i => [1, 5, 7].getD i 0, fun i => [2, 5, 8].getD i 0, fun i => [3, 6, 9].getD i 0]
/-- `S(u, v)`, attributes 10, 11. -/
def tabS : Plan Nat Int := .scan [10, 11] [fun i => if i = 10 then 5 else 3, fun i => if i = 10 then 5 else 4]

/-- `SELECT y, SUM(v) FROM T, S WHERE x > 0 AND y = u GROUP BY y`. -/
def good : Plan Nat Int :=
  .proj [(1, col 1), (20, col 20)] <| .group [(1, col 1)] eqKeys [(20, sum 11)] List.range <|
    .join [0, 1, 2, 10, 11] (.equi [(col 1, col 10)] eqKeys) allPairs (.filter [0, 1, 2] (pos 0) tabT) tabS

/-- The hypotheses are met, columns `x` and `z` are dropped, and the results agree. -/
example : WF good ∧ Harmless good ∧ AggsLive (· ∈ schema good) good := by
  refine ⟨?_, ?_, ?_⟩
  · simp [good, WF, tabT, tabS, schema, col, pos, sum, JPred.Over]
  · simp [good, Harmless, Aligned, Exact, tabT, tabS]
  · simp [good, AggsLive, tabT, tabS]

example : (minimize good).map (fun p => ((run id 0 p).rows, scanned p)) = some ([[5, 14]], [1, 0, 11, 10]) ∧
    answer id 0 good = [[5, 14]] := by
  decide +kernel

/-! ### Where minimization changes results -/

/-- `SELECT A.y, COUNT(*) FROM (SELECT x, y FROM T) AS A WHERE A.x > 0 GROUP BY A.y`; `A.x` is 30, `A.y` is 31. -/
def filteredGroup : Plan Nat Int :=
  .proj [(31, col 31), (20, col 20)] <| .group [(31, col 31)] eqKeys [(20, count)] List.range <|
    .filter [30, 31] (pos 30) <| .proj [(30, col 0), (31, col 1)] tabT

/-- Interpreter: after minimization the filter's schema is `[A.y]`, but its tuples are `(A.x, A.y)`; the grouping, compiled
against the schema, groups by `A.x`. -/
theorem C56_group_counterexample :
    WF filteredGroup ∧ answer id 0 filteredGroup = [[5, 2], [6, 1]] ∧
    (minimize filteredGroup).map (fun p => (run id 0 p).rows) = some [[1, 1], [2, 1], [3, 1]] := by
  refine ⟨?_, ?_, ?_⟩
  · simp [filteredGroup, WF, tabT, schema, col, pos, count]
  · decide +kernel
  · decide +kernel

/-- `SELECT A.y FROM (SELECT x, y FROM T) AS A, S WHERE A.x > 0 AND A.y = S.u`. -/
def filteredJoin : Plan Nat Int :=
  .proj [(31, col 31)] <| .join [30, 31, 10, 11] (.equi [(col 31, col 10)] eqKeys) allPairs
    (.filter [30, 31] (pos 30) <| .proj [(30, col 0), (31, col 1)] tabT) tabS

/-- Interpreter: the join copies as many entries of a tuple as the filter's schema `[A.y]` has, i.e. `A.x`, and then reads
`A.y` behind the end of the copy: whatever is in memory there is returned. -/
theorem C56_join_counterexample :
    WF filteredJoin ∧ (∀ junk, answer id junk filteredJoin = [[5], [5], [5], [5]]) ∧
    ∀ junk, (minimize filteredJoin).map (fun p => (run id junk p).rows) = some [[junk], [junk], [junk], [junk]] := by
  refine ⟨?_, fun _ => rfl, fun _ => rfl⟩
  simp [filteredJoin, WF, tabT, tabS, schema, col, pos, JPred.Over]

/-- `SELECT y, y FROM T ORDER BY y`, with the identifier twice in the schema of the sorting operator: an exception. -/
theorem C56_duplicate_counterexample :
    ∀ o : Ord Nat Int, (minimize (.sort [1, 1] o (.proj [(1, col 1), (1, col 1)] tabT))).isNone := fun _ => rfl

/-- `SELECT 1 FROM (SELECT COUNT(*) AS n FROM T) AS A`. -/
def unusedCount : Plan Nat Int := .proj [(50, one)] <| .proj [(40, col 20)] <| .agg [(20, count)] tabT

/-- The first run of the pass removes the only aggregate; in the second one the assertion that there is one fails. -/
theorem C56_twice_counterexample :
    WF unusedCount ∧ (minimize unusedCount).isSome ∧ ((minimize unusedCount).bind minimize).isNone := by
  refine ⟨?_, by decide +kernel, by decide +kernel⟩
  simp [unusedCount, WF, tabT, schema, col, one, count]

end Examples

end Mutable.Minimize
