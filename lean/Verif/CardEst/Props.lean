import Verif.CardEst.Joins
import Verif.CardEst.SpnLemmas
/-
C69: estimated cardinalities.
-/
namespace Mutable.CardEst

/-! ## Cartesian products -/

/-- The estimate of the `CartesianProductEstimator` is an upper bound of the number of rows that the plan produces. -/
theorem C69_cartesian_upper_bound_partial (p : Plan) (h : PlanOk p) : (exec p).length ≤ cpPlan p := by
  induction p with
  | single => exact h.elim
  | scan rows => exact Nat.le_refl _
  | filter p c ih => exact Nat.le_trans (List.length_filter_le _ _) (ih h)
  | join p l r ihl ihr =>
    obtain ⟨h1, h2, h3⟩ := h
    have hlen : ((exec l).flatMap fun a => (exec r).map fun b => a ++ b).length = (exec l).length * (exec r).length := by
      induction exec l with
      | nil => simp
      | cons a l ih => simp only [List.flatMap_cons, List.length_append, List.length_map, ih, List.length_cons, Nat.add_mul]; omega
    refine Nat.le_trans (List.length_filter_le _ _) ?_
    rw [hlen, cpPlan, cpJoin, mul64, Nat.mod_eq_of_lt h3]
    exact Nat.mul_le_mul (ihl h1) (ihr h2)
  | group key out c ih =>
    rw [exec, List.length_map]
    refine Nat.le_trans (distinct_length _) ?_
    rw [List.length_map]
    exact ih h
  | aggregate out c ih =>
    rw [exec, cpPlan, cpGroup, List.length_singleton]
    have := h.2
    omega
  | project f c ih => rw [exec, List.length_map]; exact ih h
  | sort s c ih => rw [exec, h.2]; exact ih h.1
  | limit n off c ih =>
    have := ih h
    rw [exec, List.length_take, List.length_drop, cpPlan, cpLimit, remaining]
    split <;> omega

example : PlanOk (.limit 5 1 (.group (fun r => r.take 1) (fun k rs => k ++ [(rs.length : Int)]) (.join (fun r => r[0]? == r[1]?) (.filter (fun r => r != [3])
    (.scan [[1], [2], [3]])) (.scan [[1], [1], [2]])))) := ⟨trivial, trivial, by decide⟩

/-- Whatever updates a plan enumerator makes in whatever order, the estimate for every set of sources is the product of the cardinalities of the sources
(modulo 2^64), and so is the estimate of the join of all of them at once. -/
theorem C69_cartesian_plan_independent (n : Nat) (hn : n ≤ 64) (rows : Nat → Nat) (hrows : ∀ i, i < n → rows i < 2 ^ 64) (us : List (Nat × Nat))
    (hus : Enumeration n (singles n) us) :
    ∃ pt, updates cpJoin (initPT n fun i => cpScan (rows i)) us = some pt ∧ (∀ u ∈ us, (pt (u.1 ||| u.2)).isSome) ∧
      ∀ S m, pt S = some m → m = product rows S % 2 ^ 64 ∧ m = cpJoinAll rows S := by
  obtain ⟨pt, h1, h2, _, h4⟩ := run_inv (join := cpJoin) (Good := fun S m => m = product rows S % 2 ^ 64) (n := n) (leaf := fun i => cpScan (rows i))
    (by intro L R l r _ _ _ _ hd hl hr; rw [hl, hr]; exact cp_join_good hd)
    (by intro i hi; rw [product_singleton rows (by omega), cpScan, Nat.mod_eq_of_lt (hrows i hi)]) hus
  refine ⟨pt, h1, h4, fun S m hS => ?_⟩
  obtain ⟨_, _, h⟩ := h2 S m hS
  exact ⟨h, by rw [cp_joinAll]; exact h⟩

example : Enumeration 3 (singles 3) [(1, 2), (2, 4), (1, 6), (3, 4)] := by decide

/-- The sources of a set are the bits of the mask. -/
theorem C69_sources (S i : Nat) : i ∈ elems S ↔ i < 64 ∧ S.testBit i = true := mem_elems

/-- **Deviation**: products wrap around: the join of two tables of 2^32 rows each is estimated to be empty. -/
theorem C69_bug_overflow : cpJoin (2 ^ 32) (2 ^ 32) = 0 := by decide

/-- **Deviation**: an aggregation without grouping over an empty table has one row; the estimate is 0. -/
theorem C69_bug_aggregate : ∃ p, (exec p).length = 1 ∧ cpPlan p = 0 := ⟨.aggregate (fun rs => [rs.length]) (.scan []), by decide, by decide⟩

/-- **Deviation**: a query without sources, used as a nested query, has one row; the estimate is 0, and it makes the estimate of every join with it 0. -/
theorem C69_bug_no_sources : ∃ p, (exec p).length = 2 ∧ cpPlan p = 0 :=
  ⟨.join (fun _ => true) (.scan [[1], [2]]) (.project (fun _ => [7]) .single), by decide, by decide⟩

/-! ## Injected cardinalities -/

/-- With a file that lists every set of sources, consistently, the estimate for every set of sources is the one in the file, whatever updates the plan
enumerator makes in whatever order, and in whatever order the file lists entries and relations. -/
theorem C69_injected_exact_partial (n : Nat) (hn : n ≤ 64) (names : Nat → Name) (rows card : Nat → Nat) (file : List (Option (List Name × Nat)))
    (hp : ∀ rels v, some (rels, v) ∈ file → rels ≠ [] ∧ ∀ x ∈ rels, Plain x) (hd : NoDup file) (hc : Complete n names card file)
    (hcons : Consistent n card) (us : List (Nat × Nat)) (hus : Enumeration n (singles n) us) :
    ∃ tbl pt, readEntries [] file = some tbl ∧ updates (injJoin names tbl) (initPT n (injScan names rows tbl)) us = some pt ∧
      (∀ u ∈ us, (pt (u.1 ||| u.2)).isSome) ∧ ∀ S m, pt S = some m → m.size = card S := by
  obtain ⟨tbl, h1, h2⟩ := complete_lookup hp hd hc
  obtain ⟨pt, k1, k2, _, k4⟩ := run_inv (join := injJoin names tbl) (Good := fun S m => m = ⟨S, card S⟩) (n := n) (leaf := injScan names rows tbl)
    (by intro L R l r hL hR hL' hR' hdj hl hr; rw [hl, hr]; exact inj_join_good h2 hcons hL hR hL' hR' hdj)
    (by intro i hi; exact inj_scan_good hn h2 hi) hus
  exact ⟨tbl, pt, h1, k1, k4, fun S m hS => by rw [(k2 S m hS).2.2]⟩

/-- So is the estimate of the join of all of them at once, from the estimates for the sources. -/
theorem C69_injected_join_all_partial (n : Nat) (hn : n ≤ 64) (names : Nat → Name) (rows card : Nat → Nat) (file : List (Option (List Name × Nat)))
    (hp : ∀ rels v, some (rels, v) ∈ file → rels ≠ [] ∧ ∀ x ∈ rels, Plain x) (hd : NoDup file) (hc : Complete n names card file)
    (S : Nat) (h0 : S ≠ 0) (hS : S < 2 ^ n) (hle : card S ≤ product (fun i => card (1 <<< i)) S) (hlt : product (fun i => card (1 <<< i)) S < 2 ^ 64) :
    ∃ tbl, readEntries [] file = some tbl ∧ (injJoinAll names tbl (injScan names rows tbl) S).size = card S := by
  obtain ⟨tbl, h1, h2⟩ := complete_lookup hp hd hc
  refine ⟨tbl, h1, ?_⟩
  have he : (elems S).map (fun i => (injScan names rows tbl i).size) = (elems S).map fun i => card (1 <<< i) := by
    apply List.map_congr_left
    intro i hi
    rw [inj_scan_good hn h2 (elems_lt hS hi)]
  unfold injJoinAll
  rw [h2 S h0 hS]
  simp only [clamp]
  rw [foldl_mul64 _ _ _ (by decide), Nat.one_mul, he]
  unfold product at hle hlt
  rw [Nat.mod_eq_of_lt hlt, Nat.min_eq_left hle]

/-- Three tables, `a`, `b` and `c`. -/
def wNames : Nat → Name
  | 0 => [97]
  | 1 => [98]
  | _ => [99]

/-- Their cardinalities and those of their joins. -/
def wCard : Nat → Nat
  | 1 => 5
  | 2 => 6
  | 3 => 5
  | 4 => 2
  | 5 => 10
  | 6 => 3
  | _ => 2

/-- A file that lists them. -/
def wFile : List (Option (List Name × Nat)) :=
  [some ([[97]], 5), none, some ([[98], [97]], 5), some ([[98]], 6), some ([[99]], 2), some ([[99], [97]], 10), some ([[98], [99]], 3),
    some ([[99], [97], [98]], 2)]

theorem wFile_noDup : NoDup wFile := by
  have h : (wFile.filterMap id).Pairwise fun x y => ¬ x.1.Perm y.1 := by decide +kernel
  rw [List.pairwise_filterMap] at h
  exact h.imp fun h x y hx hy => h x hx y hy

theorem wFile_complete : Complete 3 wNames wCard wFile := by
  intro S h0 hS
  have : ∀ S < 8, S ≠ 0 → ∃ e ∈ wFile, ∃ x, e = some x ∧ x.1.Perm ((elems S).map wNames) ∧ x.2 = wCard S := by
    intro S hS h0
    have : S = 1 ∨ S = 2 ∨ S = 3 ∨ S = 4 ∨ S = 5 ∨ S = 6 ∨ S = 7 := by omega
    rcases this with rfl | rfl | rfl | rfl | rfl | rfl | rfl
    · exact ⟨some ([[97]], 5), by decide, _, rfl, by decide, rfl⟩
    · exact ⟨some ([[98]], 6), by decide, _, rfl, by decide, rfl⟩
    · exact ⟨some ([[98], [97]], 5), by decide, _, rfl, by decide, rfl⟩
    · exact ⟨some ([[99]], 2), by decide, _, rfl, by decide, rfl⟩
    · exact ⟨some ([[99], [97]], 10), by decide, _, rfl, by decide, rfl⟩
    · exact ⟨some ([[98], [99]], 3), by decide, _, rfl, by decide, rfl⟩
    · exact ⟨some ([[99], [97], [98]], 2), by decide, _, rfl, by decide, rfl⟩
  obtain ⟨e, he, x, rfl, h1, h2⟩ := this S hS h0
  exact ⟨x.1, h1, by rw [← h2]; exact he⟩

theorem wCard_consistent : Consistent 3 wCard := by
  have : ∀ L R : Fin 8, L.val ≠ 0 → R.val ≠ 0 → L.val &&& R.val = 0 → wCard (L.val ||| R.val) ≤ wCard L.val * wCard R.val ∧ wCard L.val * wCard R.val < 2 ^ 64 := by decide +kernel
  intro L R h1 h2 h3 h4 h5
  exact this ⟨L, h3⟩ ⟨R, h4⟩ h1 h2 h5

example : ∀ S < 8, S ≠ 0 → wCard S ≤ product (fun i => wCard (1 <<< i)) S ∧ product (fun i => wCard (1 <<< i)) S < 2 ^ 64 := by decide +kernel

/-- The identifiers of two sets of sources are equal only if the sets have the same names. -/
theorem C69_identifiers (names : Nat → Name) (S T : Nat) (hp : ∀ i, Plain (names i)) (hS : elems S ≠ []) (hT : elems T ≠ []) :
    makeId names S = makeId names T ↔ ((elems S).map names).Perm ((elems T).map names) := by
  refine id_eq_iff ?_ ?_ (by simpa using hS) (by simpa using hT)
  all_goals
    intro n hn
    obtain ⟨i, _, rfl⟩ := List.mem_map.mp hn
    exact hp i

/-- Whatever the file says, the estimate of a join is at most the product of the estimates of its sides, and that of a grouping with keys at most the
estimate of its input. -/
theorem C69_injected_clamped (names : Nat → Name) (tbl : Table) (l r : InjModel) (keys : List Name) (hk : keys ≠ []) :
    (injJoin names tbl l r).size ≤ l.size * r.size ∧ (injGroup tbl l keys).size ≤ l.size := by
  constructor
  · unfold injJoin clamp cpJoin mul64
    simp only
    split
    · exact Nat.le_trans (Nat.min_le_right _ _) (Nat.mod_le _ _)
    · exact Nat.mod_le _ _
  · unfold injGroup clamp
    rw [if_neg hk]
    simp only
    split
    · exact Nat.min_le_right _ _
    · exact Nat.le_refl _

/-- The cardinality of a grouping that the file lists under `g` and the keys is the estimate, if the input is at least as large; without keys the estimate
is one row. -/
theorem C69_injected_grouping (tbl : Table) (d : InjModel) (keys : List Name) (v : Nat) :
    (injGroup tbl d []).size = 1 ∧
      (keys ≠ [] → lookup tbl (groupId keys) = some v → v ≤ d.size → (injGroup tbl d keys).size = v) ∧
      (keys ≠ [] → lookup tbl (groupId keys) = none → (injGroup tbl d keys).size = d.size) := by
  refine ⟨rfl, fun hk h1 h2 => ?_, fun hk h1 => ?_⟩
  · simp [injGroup, hk, clamp, h1, h2]
  · simp [injGroup, hk, clamp, h1]

/-- **Deviation**: without an entry, the estimate for the join of all sources at once counts the first source twice. -/
theorem C69_bug_join_all_first_twice (names : Nat → Name) (pt : Nat → InjModel) (S i : Nat) (rest : List Nat) (h : elems S = i :: rest)
    (hi : (pt i).size < 2 ^ 64) : (injJoinAll names [] pt S).size = (pt i).size * product (fun i => (pt i).size) S % 2 ^ 64 := by
  unfold injJoinAll
  simp only [lookup, clamp, h, injFirst]
  rw [foldl_mul64 _ (fun i => (pt i).size) _ hi, product, h]

example : (injJoinAll wNames [] (fun i => ⟨1 <<< i, i + 3⟩) 3).size = 36 ∧ cpJoinAll (fun i => i + 3) 3 = 12 := by decide +kernel

/-- **Deviation**: if the file does not list some set, then the estimates depend on which plan the enumerator considers first. -/
theorem C69_bug_incomplete_file : ∃ (tbl : Table) (rows : Nat → Nat) (us us' : List (Nat × Nat)) (x y : Nat),
    Enumeration 3 (singles 3) us ∧ Enumeration 3 (singles 3) us' ∧ x ≠ y ∧
      ((updates (injJoin wNames tbl) (initPT 3 (injScan wNames rows tbl)) us).bind fun pt => pt 7).map (·.size) = some x ∧
      ((updates (injJoin wNames tbl) (initPT 3 (injScan wNames rows tbl)) us').bind fun pt => pt 7).map (·.size) = some y :=
  ⟨[([97, 36, 98], 2)], fun _ => 10, [(1, 2), (3, 4)], [(2, 4), (1, 6)], 20, 1000,
    by decide, by decide, by decide, by decide +kernel, by decide +kernel⟩

/-- **Deviation**: a table named `a$b` gets the cardinality of the join of `a` and `b`. -/
theorem C69_bug_dollar : joinDollar (sortNames [[97], [98]]) = joinDollar (sortNames [[97, 36, 98]]) := by decide

/-- **Deviation**: grouping by the attributes `a` and `b` has the same identifier as grouping by one key with the alias `a#b`. -/
theorem C69_bug_hash : groupId [[97], [98]] = groupId [[97, 35, 98]] := by decide

/-- **Deviation**: a file with two entries for the same relations, in whatever order they name them, fails an assertion. -/
theorem C69_bug_duplicate_entry (r1 r2 : List Name) (v1 v2 : Nat) (h : r1.Perm r2) : readEntries [] [some (r1, v1), some (r2, v2)] = none := by
  simp [readEntries, readEntry, lookup, sortNames_eq_iff.mpr h]

/-! ## Sum-product networks -/

/-- If the numbers of distinct values are right and the values of both columns are uniformly distributed, one column containing all values of the other,
then the estimate of the join is its size; sides and condition may be swapped. -/
theorem C69_spn_join_exact_partial (t1 t2 a1 a2 : Name) (s1 s2 : Spn) (l r : List Int) (a b : Nat) (ht : t1 ≠ t2) (h1 : Knows s1 a1 l) (h2 : Knows s2 a2 r)
    (ha : Uniform a l) (hb : Uniform b r) (hl : l ≠ []) (hr : r ≠ []) (ha' : a < 2 ^ 31) (hb' : b < 2 ^ 31)
    (h : (∀ x ∈ l, x ∈ r) ∨ ∀ x ∈ r, x ∈ l) (hlt : joinSize l r < 2 ^ 64) :
    (∃ m, spnJoin (spnScan t1 s1) (spnScan t2 s2) ⟨t1, a1, t2, a2⟩ = some m ∧ m.numRows = joinSize l r) ∧
      (∃ m, spnJoin (spnScan t1 s1) (spnScan t2 s2) ⟨t2, a2, t1, a1⟩ = some m ∧ m.numRows = joinSize l r) ∧
      ∃ m, spnJoin (spnScan t2 s2) (spnScan t1 s1) ⟨t1, a1, t2, a2⟩ = some m ∧ m.numRows = joinSize l r := by
  refine ⟨spnJoin_scans h1 h2 ha hb hl hr ha' hb' h hlt (by simp [pickAttr]) (by simp [pickAttr, Ne.symm ht]),
    spnJoin_scans h1 h2 ha hb hl hr ha' hb' h hlt (by simp [pickAttr, ht]) (by simp [pickAttr]), ?_⟩
  obtain ⟨m, e1, e2⟩ := spnJoin_scans (t1 := t2) (t2 := t1) (j := ⟨t1, a1, t2, a2⟩) h2 h1 hb ha hr hl hb' ha' h.symm (by rw [joinSize_comm]; exact hlt)
    (by simp [pickAttr, Ne.symm ht]) (by simp [pickAttr])
  exact ⟨m, e1, by rw [e2, joinSize_comm]⟩

/-- A foreign key, every value twice, and a primary key. -/
example : ∃ m, spnJoin (spnScan [97] ⟨[([120], 3)], 6⟩) (spnScan [98] ⟨[], 4⟩) ⟨[97], [120], [98], [105]⟩ = some m ∧ m.numRows = 6 :=
  (C69_spn_join_exact_partial [97] [98] [120] [105] ⟨[([120], 3)], 6⟩ ⟨[], 4⟩ [1, 2, 3, 1, 2, 3] [1, 2, 3, 4] 2 1 (by decide) (by unfold Knows Uniform; decide)
    (by unfold Knows Uniform; decide) (by unfold Uniform; decide) (by unfold Uniform; decide) (by decide) (by decide) (by decide) (by decide)
    (by decide) (by decide)).1

/-- The same holds for the estimate of the join of both at once. -/
theorem C69_spn_join_all_exact_partial (t1 t2 a1 a2 : Name) (s1 s2 : Spn) (l r : List Int) (a b : Nat) (ht : t1 ≠ t2) (h1 : Knows s1 a1 l) (h2 : Knows s2 a2 r)
    (ha : Uniform a l) (hb : Uniform b r) (hl : l ≠ []) (hr : r ≠ []) (ha' : a < 2 ^ 31) (h : (∀ x ∈ l, x ∈ r) ∨ ∀ x ∈ r, x ∈ l)
    (hlt : joinSize l r < 2 ^ 64) :
    ∃ m, spnJoinAll [spnScan t1 s1, spnScan t2 s2] [⟨t1, a1, t2, a2⟩] = some m ∧ m.numRows = joinSize l r :=
  joinAll_two ht h1 h2 ha hb hl hr ha' h hlt

/-- Without conditions, the estimate of any number of sources is the product. -/
theorem C69_spn_cross (ds : List SpnModel) (l r : SpnModel) :
    (spnCross l r).numRows = l.numRows * r.numRows % 2 ^ 64 ∧
      ∃ m, spnJoinAll ds [] = some m ∧ m.numRows = (ds.map (·.numRows)).prod % 2 ^ 64 := by
  refine ⟨rfl, _, rfl, ?_⟩
  show ds.foldl (fun acc d => mul64 acc d.numRows) 1 = _
  have := foldl_mul64 (ds.map (·.numRows)) id 1 (by decide)
  rw [List.foldl_map, List.map_id, Nat.one_mul] at this
  exact this

/-- The estimate of a grouping of a table is an upper bound of the number of groups, if the numbers of distinct values are right; for a single key it is
exact. -/
theorem C69_spn_grouping_partial (t : Name) (s : Spn) (rows : List (Name → Int)) (keys : List Name) (hk : ∀ a ∈ keys, Knows s a (rows.map fun r => r a))
    (hlt : (keys.map fun a => (distinct (rows.map fun r => r a)).length).prod < 2 ^ 64) :
    ∃ m, spnGroup (spnScan t s) (keys.map fun a => (t, a)) = some m ∧ (distinct (rows.map fun r => keys.map r)).length ≤ m.numRows ∧
      ∀ a, keys = [a] → m.numRows = (distinct (rows.map fun r => r a)).length := by
  have h := groupRows_prod (d := spnScan t s) (f := fun k => (distinct (rows.map fun r => r k.2)).length) (keys.map fun a => (t, a)) 1 (by decide) (by
    intro k hk'
    obtain ⟨a, ha, rfl⟩ := List.mem_map.mp hk'
    exact knows_factor (hk a ha))
  rw [Nat.one_mul, List.map_map] at h
  have e : (keys.map ((fun k : Name × Name => (distinct (rows.map fun r => r k.2)).length) ∘ fun a => (t, a))) =
      keys.map fun a => (distinct (rows.map fun r => r a)).length := rfl
  rw [e, Nat.mod_eq_of_lt hlt] at h
  refine ⟨_, by unfold spnGroup; rw [h]; rfl, distinct_keys rows (fun r a => r a) keys, ?_⟩
  rintro a rfl
  simp

example : ∀ a ∈ ([[120], [121]] : List Name), Knows ⟨[([120], 2)], 3⟩ a ([fun n => if n = [120] then 1 else 1, fun n => if n = [120] then 1 else 2,
    fun n => if n = [120] then 2 else 3].map fun r : Name → Int => r a) := by unfold Knows Uniform; decide

/-- A limit is an upper bound; the offset is not subtracted. -/
theorem C69_spn_limit (d : SpnModel) (n off : Nat) : (spnLimit d n off).numRows ≤ n ∧ (spnLimit d n off).numRows ≤ d.numRows ∧
    min n (d.numRows - off) ≤ (spnLimit d n off).numRows := by
  unfold spnLimit
  simp only
  omega

/-- Whatever is estimated for a join is at most the product of the estimates of its sides. -/
theorem C69_spn_join_bounded (l r m : SpnModel) (j : JCond) (h : spnJoin l r j = some m) : m.numRows ≤ l.numRows * r.numRows := by
  unfold spnJoin at h
  obtain ⟨ml, _, h⟩ := Option.bind_eq_some_iff.mp h
  obtain ⟨mr, _, h⟩ := Option.bind_eq_some_iff.mp h
  obtain ⟨n, h1, rfl⟩ := Option.map_eq_some_iff.mp h
  exact joinRows_le h1

/-- Swapping the sides of a join does not change the estimate. -/
theorem C69_spn_join_symmetric (l r : SpnModel) (j : JCond) : (spnJoin l r j).map (·.numRows) = (spnJoin r l j).map (·.numRows) := by
  unfold spnJoin
  cases addMf l j with
  | none => cases addMf r j <;> rfl
  | some ml =>
    cases addMf r j with
    | none => rfl
    | some mr =>
      simp only [Option.bind_some]
      rw [joinRows_comm]
      cases joinRows r.numRows l.numRows (accumulate mr) (accumulate ml) <;> rfl

/-- A conjunction of comparisons of different attributes to constants is translated so that the network is asked for the fraction of exactly the rows that
the conjunction selects. -/
theorem C69_spn_filter_partial (attrs : List Name) (cnf : List (List Pred)) (h1 : ∀ c ∈ cnf, Simple attrs c) (h2 : (cnf.filterMap clauseAttr).Nodup) :
    ∃ f, translate attrs cnf = some f ∧ ∀ row, spnSelects f row = selects cnf row := by
  obtain ⟨f, e1, e2⟩ := transLoop_simple (s := FT.init) (f := []) h1 h2 (by simp)
  exact ⟨f, e1, fun row => by rw [e2]; simp [spnSelects]⟩

example : (∀ c ∈ [[⟨Cmp.lt, Operand.attr [120], .const (some 5), false⟩], [⟨.eq, .attr [121], .const (some 7), false⟩]], Simple [[120], [121]] c) ∧
    ([[(⟨Cmp.lt, Operand.attr [120], .const (some 5), false⟩ : Pred)], [⟨.eq, .attr [121], .const (some 7), false⟩]].filterMap clauseAttr).Nodup := by
  refine ⟨?_, by decide⟩
  intro c hc
  simp only [List.mem_cons, List.not_mem_nil, or_false] at hc
  rcases hc with rfl | rfl
  · exact ⟨_, _, _, by decide, by decide, rfl⟩
  · exact ⟨_, _, _, by decide, by decide, rfl⟩

/-- **Deviation**: a constant on the left: the estimate for `5 < x` is that for `x < 5`. -/
theorem C69_bug_constant_left (op : Cmp) (a : Name) (v : Int) (attrs : List Name) :
    translate attrs [[⟨op, .const (some v), .attr a, false⟩]] = translate attrs [[⟨op, .attr a, .const (some v), false⟩]] := by
  cases op <;> rfl

/-- **Deviation**: negation is ignored: the estimate for `NOT x < 5` is that for `x < 5`. -/
theorem C69_bug_negation (p : Pred) (attrs : List Name) (cs : List (List Pred)) :
    translate attrs ([{ p with neg := true }] :: cs) = translate attrs ([{ p with neg := false }] :: cs) := by
  unfold translate
  rw [transLoop, transLoop]
  rfl

/-- **Deviation**: a second condition on the same attribute is ignored: the estimate for `x >= 3 AND x <= 5` is that for `x >= 3`. -/
theorem C69_bug_second_condition : translate [[120]] [[⟨.ge, .attr [120], .const (some 3), false⟩], [⟨.le, .attr [120], .const (some 5), false⟩]] =
    translate [[120]] [[⟨.ge, .attr [120], .const (some 3), false⟩]] := by decide

/-- **Deviation**: a comparison of two attributes is taken for a comparison of the second one to the constant of the previous conjunct. -/
theorem C69_bug_two_attributes : translate [[120], [121], [122]] [[⟨.eq, .attr [122], .const (some 9), false⟩], [⟨.lt, .attr [120], .attr [121], false⟩]] =
    translate [[120], [121], [122]] [[⟨.eq, .attr [122], .const (some 9), false⟩], [⟨.lt, .attr [121], .const (some 9), false⟩]] := by decide

/-- **Deviation**: `<>` and disjunctions are not supported: the process aborts. -/
theorem C69_bug_unsupported (attrs : List Name) (p q : Pred) (h : p.op = .ne) : translate attrs [[p]] = none ∧ translate attrs [[p, q]] = none := by
  constructor
  · unfold translate; rw [transLoop]; simp [ftPred, h, ftOp]
  · unfold translate; rw [transLoop]; simp

/-- **Deviation**: a join divides by zero if one side is estimated to have fewer rows than its column has distinct values, e.g. after a filter. -/
theorem C69_bug_division_by_zero (t : Name) (s : Spn) (rows k : Nat) (r : SpnModel) (j : JCond) (hk : lookup s.attrs (pickAttr t j) = some k) (h : rows < k)
    (hr : addMf r j ≠ none) : spnJoin ⟨[(t, s)], [], rows⟩ r j = none := by
  obtain ⟨mr, hmr⟩ := Option.ne_none_iff_exists'.mp hr
  have h1 : addMf ⟨[(t, s)], [], rows⟩ j = some [0] := by
    unfold addMf maxFreq maxFreqAttr
    simp only [List.length_singleton, if_true, hk, div64, if_neg (show k ≠ 0 by omega), Nat.div_eq_of_lt h]
    rfl
  have h2 : accumulate [0] = 0 := by decide
  simp [spnJoin, h1, hmr, h2, joinRows, div64]

/-- **Deviation**: the product of the maximum frequencies is computed in an `int`: joining the Cartesian product of two tables of 2^16 rows with a third
table divides by zero. -/
theorem C69_bug_int_product (t1 t2 : Name) (s1 s2 : Spn) (ht : t1 ≠ t2) (h1 : s1.numRows = 2 ^ 16) (h2 : s2.numRows = 2 ^ 16) (r : SpnModel) (j : JCond) :
    spnJoin (spnCross (spnScan t1 s1) (spnScan t2 s2)) r j = none := by
  have h3 : addMf (spnCross (spnScan t1 s1) (spnScan t2 s2)) j = some [2 ^ 16, 2 ^ 16] := by
    simp [addMf, spnCross, spnScan, mergeSpns, insertSpn, addRows, Ne.symm ht, h1, h2]
  have h4 : accumulate [2 ^ 16, 2 ^ 16] = 0 := by decide
  unfold spnJoin
  rw [h3]
  simp only [Option.bind_some, h4, joinRows, div64, if_true]
  cases addMf r j <;> rfl

/-- **Deviation**: the estimate of a join of all sources considers the first condition only: those of the others do not matter. -/
theorem C69_bug_join_all_conditions (ds : List SpnModel) (c : JCond) (cs cs' : List JCond) (h : cs.length = cs'.length) :
    spnJoinAll ds (c :: cs) = spnJoinAll ds (c :: cs') := by
  have : tableToAttr (c :: cs) = tableToAttr (c :: cs') := by
    unfold tableToAttr
    simp only [List.foldl_cons]
    generalize emplaceAttr _ _ _ = m
    induction cs generalizing cs' m with
    | nil => cases cs' with
      | nil => rfl
      | cons _ _ => simp at h
    | cons a cs ih => cases cs' with
      | nil => simp at h
      | cons b cs' =>
        simp only [List.foldl_cons]
        exact ih cs' (by simpa using h) _
  cases ds with
  | nil => rfl
  | cons d ds => simp only [spnJoinAll, this]

/-- **Deviation**: the estimate of a grouping may exceed that of its input: it is not reduced by filters. -/
theorem C69_bug_grouping_exceeds : ∃ (d m : SpnModel) (keys : List (Name × Name)), spnGroup d keys = some m ∧ d.numRows < m.numRows :=
  ⟨⟨[([97], ⟨[([120], 10)], 100⟩)], [], 2⟩, ⟨[([97], ⟨[([120], 10)], 100⟩)], [], 10⟩, [([97], [120])], by decide, by decide⟩

end Mutable.CardEst
