import Verif.Interp.Loop
import Mathlib.Data.List.Sort

/-!
C35: the interpreter's operators implement the relational algebra.  Specification: `Verif.Interp.Spec`.
-/
namespace Mutable.Interp

variable {T V : Type} [Inhabited T] [DecidableEq V]

/-- The rows delivered to the user: the root of the plan is a callback or print operator. -/
def result (srt : (T → T → Bool) → List T → List T) (cl : T → T) (p : Plan T V) : List T :=
  (exec srt cl p (List T) collect []).st

/-- **C35 (partial)**: every plan satisfying `Ok` delivers a correct result of the query, for all inputs, in blocks of 64
tuples or not.  What is missing (`Ok`): `LIMIT`/`OFFSET` with a sum of 2⁶⁴ or more, `SUM` without any value, `AVG` of
NULLs, hash joins with NULL keys on the build side, NULLs in tuples that are copied (input of a sort, build side of a hash
join, all but the last input of a nested-loops join), string keys (`C35_string_groups_counterexample`), and hash joins below a filter or limit with more than 64 matches of a
probe tuple.  The theorems below show that each of them fails. -/
theorem C35_plans_partial {srt : (T → T → Bool) → List T → List T} {cl : T → T} (hs : SortSpec srt) (p : Plan T V)
    (h : Ok cl true p) : Sem p (result srt cl p) := by
  obtain ⟨bs, h1, h2⟩ := exec_ok hs true p h
  unfold result
  rw [h2 _ _ _ (fun _ => keeps_collect), feed_collect]
  exact h1

/-- Plans of scans, filters, projections, sorting, nested-loops joins and `COUNT`, `MIN`, `MAX` aggregation; tuples that are
copied contain no NULL. -/
inductive Basic (cl : T → T) : Plan T V → Prop
  | scan {rows} : Basic cl (.scan rows)
  | filter {p c} : Basic cl c → Basic cl (.filter p c)
  | dfilter {ps c} : Basic cl c → Basic cl (.dfilter ps c)
  | proj {f c} : Basic cl c → Basic cl (.proj f c)
  | proj0 {t} : Basic cl (.proj0 t)
  | sort {ks c} : Basic cl c → (∀ i, Sem c i → ∀ t ∈ i, cl t = t) → Basic cl (.sort ks c)
  | limit {lim off c} : off + lim < 2 ^ 64 → Basic cl c → Basic cl (.limit lim off c)
  | group {key aggs mk ord c} : (∀ a ∈ aggs, (∀ x, a ≠ Agg.sum x) ∧ ∀ x, a ≠ Agg.avg x) → Basic cl c →
      Basic cl (.group key aggs mk ord c)
  | agg {aggs mk c} : (∀ a ∈ aggs, (∀ x, a ≠ Agg.sum x) ∧ ∀ x, a ≠ Agg.avg x) → Basic cl c → Basic cl (.agg aggs mk c)
  | nlj1 {l pred comb r} : Basic cl l → (∀ i, Sem l i → ∀ t ∈ i, cl t = t) → Basic cl r → Basic cl (.nlj (.cons l .nil) pred comb r)
  | nlj2 {l l' pred comb r} : Basic cl l → (∀ i, Sem l i → ∀ t ∈ i, cl t = t) → Basic cl l' →
      (∀ i, Sem l' i → ∀ t ∈ i, cl t = t) → Basic cl r → Basic cl (.nlj (.cons l (.cons l' .nil)) pred comb r)

omit [Inhabited T] [DecidableEq V] in
theorem Basic.ok {cl : T → T} {p : Plan T V} (h : Basic cl p) : ∀ k, Ok cl k p := by
  have sup : ∀ (a : Agg T) (ts : List T), ((∀ x, a ≠ Agg.sum x) ∧ ∀ x, a ≠ Agg.avg x) → a.Supported ts := by
    intro a ts ⟨h1, h2⟩
    cases a with
    | sum arg => exact absurd rfl (h1 arg)
    | avg arg => exact absurd rfl (h2 arg)
    | countStar => trivial
    | count => trivial
    | min => trivial
    | max => trivial
  induction h with
  | scan => intro k; simp [Ok]
  | filter _ ih => intro k; simp only [Ok]; exact ih _
  | dfilter _ ih => intro k; simp only [Ok]; exact ih _
  | proj _ ih => intro k; simp only [Ok]; exact ih _
  | proj0 => intro k; simp [Ok]
  | sort _ hc ih => intro k; simp only [Ok]; exact ⟨ih _, hc⟩
  | limit h _ ih => intro k; simp only [Ok]; exact ⟨h, ih _⟩
  | group h _ ih => intro k; simp only [Ok]; exact ⟨ih _, fun i _ a ha t _ => sup _ _ (h a ha)⟩
  | agg h _ ih => intro k; simp only [Ok]; exact ⟨ih _, fun i _ a ha => sup _ _ (h a ha)⟩
  | nlj1 _ hc _ ih1 ih2 => intro k; simp only [Ok, OkList]; exact ⟨⟨ih1 _, hc, trivial⟩, ih2 _⟩
  | nlj2 _ hc _ hc' _ ih1 ih2 ih3 => intro k; simp only [Ok, OkList]; exact ⟨⟨ih1 _, hc, ih2 _, hc', trivial⟩, ih3 _⟩

/-- Plans of scans, filters, projections, limits (without overflow), sorting, nested-loops joins and `COUNT`, `MIN`,
`MAX` aggregation are executed correctly on all inputs (tuples that are copied must not contain NULLs, see `Basic`). -/
theorem C35_basic_plans {srt : (T → T → Bool) → List T → List T} {cl : T → T} (hs : SortSpec srt) (p : Plan T V)
    (h : Basic cl p) : Sem p (result srt cl p) := C35_plans_partial hs p (h.ok true)

/-- An equi-join of two basic plans whose build tuples and keys contain no NULL is executed correctly, however many matches there
are. -/
theorem C35_hash_join {srt : (T → T → Bool) → List T → List T} {cl : T → T} (hs : SortSpec srt)
    (kb kp : T → List (Option V)) (raw : T → Nat → V) (comb : T → T → T) (ord : Shuffle T) (b p : Plan T V)
    (hb : Basic cl b) (hp : Basic cl p) (hn : ∀ ib, Sem b ib → ∀ v ∈ ib, none ∉ kb v ∧ cl v = v) :
    Sem (.hash kb kp raw comb ord b p) (result srt cl (.hash kb kp raw comb ord b p)) :=
  C35_plans_partial hs _ (by simp only [Ok]; exact ⟨hb.ok _, hp.ok _, hn, Or.inl trivial⟩)

/-- The loop of the nested-loops join terminates and visits every combination of buffer positions exactly once, in
lexicographic order. -/
theorem C35_nlj_loop (lens : List Nat) (hn : lens ≠ []) (l : List (List Nat)) :
    NLJRun lens ⟨0, fun _ => none⟩ l ↔ l = tuplesOf (lens.map List.range) := nlj_loop lens hn l

omit [DecidableEq V] in
/-- The combinations of positions denote the combinations of buffered tuples used in the model of the join. -/
theorem C35_nlj_combinations (bufs : List (List T)) :
    combos bufs = (tuplesOf (bufs.map fun b => List.range b.length)).map
      fun ps => List.zipWith (fun b i => b.getD i default) bufs ps := by
  have := combos_pos bufs
  unfold allPos at this
  rw [List.map_map] at this
  exact this

/-- The comparator of the sorting operator is the lexicographic order of the sort keys. -/
theorem C35_comparator (ks : List (Key T)) (a b : T) : lessKeys ks a b = true ↔ ¬ InOrder ks b a := lessKeys_iff ks a b

/-! ### Examples -/

/-- There are sorting functions, e.g. insertion sort. -/
def isort {T : Type} (lt : T → T → Bool) (l : List T) : List T := l.insertionSort fun a b => lt b a = false

theorem isort_spec {T : Type} : SortSpec (isort : (T → T → Bool) → List T → List T) := by
  intro lt h1 h2 h3 l
  refine ⟨List.perm_insertionSort _ l, ?_⟩
  have : Std.Total (fun a b => lt b a = false) := ⟨by
    intro a b
    cases hab : lt b a
    · exact Or.inl rfl
    · right
      cases hba : lt a b
      · rfl
      · have := h2 _ _ _ hab hba
        rw [h1] at this
        simp at this⟩
  have : IsTrans T (fun a b => lt b a = false) := ⟨by
    intro a b c hab hbc
    exact h3 _ _ _ hbc hab⟩
  exact List.pairwise_insertionSort _ l

/-- A query with a filter, a join, a sort and a limit. -/
def exPlan : Plan (Nat × Nat) Nat :=
  .limit 2 1 (.sort [.int (fun t => t.2) false] (.filter (fun t => some (t.2 ≠ 5))
    (.hash (fun t => [some t.1]) (fun t => [some t.2]) (fun _ _ => 0) (fun v t => (t.1, v.2)) ⟨id, fun _ => List.Perm.refl _⟩
      (.scan [(1, 5), (2, 6), (3, 7), (2, 8)]) (.scan [(10, 2), (20, 1), (30, 3), (40, 9)]))))

example : result isort id exPlan = [(30, 7), (10, 6)] := by decide +kernel

example : Ok id true exPlan := by
  simp only [exPlan, Ok]
  refine ⟨by norm_num, ⟨trivial, trivial, ?_, Or.inr ?_⟩, fun _ _ _ _ => rfl⟩
  · intro ib h v _
    simp
  · intro ib ip h _ t _
    simp only [Sem] at h
    subst h
    exact le_trans (List.length_filter_le _ _) (by simp)

/-! ### What fails -/

def idShuffle {α : Type} : Shuffle α := ⟨id, fun _ => List.Perm.refl _⟩

/-- `Tuple::clone` preserves exactly the tuples without NULLs. -/
theorem cloneTuple_eq (t : List Cell) : cloneTuple t = t ↔ ∀ c ∈ t, c.null = false := by
  unfold cloneTuple
  induction t with
  | nil => simp
  | cons c t ih =>
    obtain ⟨n, w⟩ := c
    simp [ih]

/-- A NULL key on the build side of a hash join matches the probe rows whose key equals the word beneath the NULL (0 in the
example): the key is cloned into the hash table, and cloning clears the NULL bit. -/
theorem C35_hash_join_null_counterexample :
    let p : Plan Nat Nat := .hash (fun _ => [none]) (fun _ => [some 0]) (fun _ _ => 0) (fun v _ => v) idShuffle
      (.scan [1]) (.scan [2])
    result isort id p = [1] ∧ ¬ Sem p (result isort id p) := by
  intro p
  have hr : result isort id p = [1] := by decide +kernel
  refine ⟨hr, ?_⟩
  rw [hr]
  simp only [p, Sem]
  rintro ⟨ib, ip, h1, h2, h3⟩
  have := h3.length_eq
  subst h1 h2
  simp [SqlEq] at this

/-- `ORDER BY` turns NULLs into values: sorting two rows by the first column replaces the NULL in the second column of the
first row by the word beneath it. -/
theorem C35_sort_null_counterexample :
    let p : Plan (List Cell) Nat := .sort [.int (fun t => (t.headD default).word) true]
      (.scan [[⟨false, 1⟩, ⟨true, 7⟩], [⟨false, 2⟩, ⟨false, 8⟩]])
    result isort cloneTuple p = [[⟨false, 1⟩, ⟨false, 7⟩], [⟨false, 2⟩, ⟨false, 8⟩]] ∧
      ¬ Sem p (result isort cloneTuple p) := by
  intro p
  have hr : result isort cloneTuple p = [[⟨false, 1⟩, ⟨false, 7⟩], [⟨false, 2⟩, ⟨false, 8⟩]] := by decide +kernel
  refine ⟨hr, ?_⟩
  rw [hr]
  simp only [p, Sem]
  rintro ⟨i, h1, h2, _⟩
  subst h1
  have := h2.mem_iff (a := [⟨false, 1⟩, ⟨false, 7⟩])
  simp at this

/-- A join turns NULLs of its buffered input into values. -/
theorem C35_join_null_counterexample :
    let p : Plan (List Cell) Nat := .nlj (.cons (.scan [[⟨true, 7⟩]]) .nil) none (fun c t => c.flatten ++ t)
      (.scan [[⟨false, 1⟩]])
    result isort cloneTuple p = [[⟨false, 7⟩, ⟨false, 1⟩]] ∧ ¬ Sem p (result isort cloneTuple p) := by
  intro p
  have hr : result isort cloneTuple p = [[⟨false, 7⟩, ⟨false, 1⟩]] := by decide +kernel
  refine ⟨hr, ?_⟩
  rw [hr]
  simp only [p, Sem, SemList]
  rintro ⟨bs, ir, ⟨i, is, h1, h2, h3⟩, h4, h5⟩
  subst h1 h2 h3 h4
  have := h5.mem_iff (a := [⟨false, 7⟩, ⟨false, 1⟩])
  simp [tuplesOf] at this

/-- 129 rows on the build side, all with the same key; one probe row; above the join a filter. -/
def lostPlan : Plan Nat Nat :=
  .filter (fun t => some (64 ≤ t)) (.hash (fun _ => [some 0]) (fun _ => [some 0]) (fun _ _ => 0) (fun v _ => v) idShuffle
    (.scan (List.range 129)) (.scan [0]))

/-- A hash join below a filter loses rows if a probe tuple has many matches: the filter erases rows from the join's
output block, and the block's mask is not reset before the next rows of the same probe tuple are written. -/
theorem C35_hash_join_lost_rows_counterexample : result isort id lostPlan = [128] ∧ ¬ Sem lostPlan (result isort id lostPlan) := by
  have hr : result isort id lostPlan = [128] := by decide +kernel
  refine ⟨hr, ?_⟩
  rw [hr]
  simp only [lostPlan, Sem]
  rintro ⟨i, ⟨ib, ip, h1, h2, h3⟩, h4⟩
  subst h1 h2
  have hmem : 64 ∈ i := by
    rw [h3.mem_iff]
    simp [SqlEq]
  have : (64 : Nat) ∈ ([128] : List Nat) := by
    rw [h4, List.mem_filter]
    exact ⟨hmem, by simp⟩
  simp at this

/-- `AVG` counts NULLs: the average of NULL and 4 is computed as 2. -/
theorem C35_avg_null_counterexample :
    let p : Plan (Option ℚ) Nat := .agg [.avg id] (fun vs => vs.headD none) (.scan [none, some 4])
    result isort id p = [some 2] ∧ ¬ Sem p (result isort id p) := by
  intro p
  have hr : result isort id p = [some 2] := by decide +kernel
  refine ⟨hr, ?_⟩
  rw [hr]
  simp only [p, Sem]
  rintro ⟨i, h1, vs, h2, h3⟩
  subst h1
  cases h2 with
  | cons h _ =>
    simp only [AggSpec, argVals] at h
    simp at h
    subst h
    simp at h3

/-- `SUM` of no values is computed as 0, not NULL. -/
theorem C35_sum_null_counterexample :
    let p : Plan (Option ℚ) Nat := .agg [.sum id] (fun vs => vs.headD none) (.scan [none])
    result isort id p = [some 0] ∧ ¬ Sem p (result isort id p) := by
  intro p
  have hr : result isort id p = [some 0] := by decide +kernel
  refine ⟨hr, ?_⟩
  rw [hr]
  simp only [p, Sem]
  rintro ⟨i, h1, vs, h2, h3⟩
  subst h1
  cases h2 with
  | cons h _ =>
    simp only [AggSpec, argVals] at h
    simp at h
    subst h
    simp at h3

/-- `LIMIT 0` returns all rows: the optimizer omits the limit operator. -/
theorem C35_limit_zero_counterexample (srt : (T → T → Bool) → List T → List T) (rows : List T) :
    result srt id (addLimit 0 0 (.scan rows) : Plan T V) = rows := by
  unfold addLimit
  rw [if_neg (by simp)]
  unfold result
  simp only [exec]
  rw [pushAll_eq, feed_collect, flat_prodBlocks]
  rfl

/-- A query with a LIMIT other than zero (and any OFFSET) returns the rows that LIMIT/OFFSET prescribe. -/
theorem C35_limit_added {srt : (T → T → Bool) → List T → List T} {cl : T → T} (hs : SortSpec srt) (lim off : Nat) (rows : List T)
    (hl : lim ≠ 0) (h : off + lim < 2 ^ 64) : result srt cl (addLimit lim off (.scan rows) : Plan T V) = (rows.drop off).take lim := by
  unfold addLimit
  rw [if_pos (Or.inl hl)]
  have := C35_basic_plans (V := V) (cl := cl) hs (.limit lim off (.scan rows)) (.limit h .scan)
  simp only [Sem] at this
  obtain ⟨i, rfl, h'⟩ := this
  exact h'

/-- `LIMIT 18446744073709551615 OFFSET 1` returns no row. -/
theorem C35_limit_overflow_counterexample :
    let p : Plan Nat Nat := .limit (2 ^ 64 - 1) 1 (.scan [1, 2, 3])
    result isort id p = [] ∧ ¬ Sem p (result isort id p) := by
  intro p
  have hr : result isort id p = [] := by decide +kernel
  refine ⟨hr, ?_⟩
  rw [hr]
  simp only [p, Sem]
  rintro ⟨i, h1, h2⟩
  subst h1
  simp at h2

/-- A limit operator that is present computes LIMIT/OFFSET. -/
theorem C35_limit {srt : (T → T → Bool) → List T → List T} {cl : T → T} (hs : SortSpec srt) (lim off : Nat) (rows : List T)
    (h : off + lim < 2 ^ 64) : result srt cl (.limit lim off (.scan rows) : Plan T V) = (rows.drop off).take lim := by
  have := C35_basic_plans (V := V) (cl := cl) hs (.limit lim off (.scan rows)) (.limit h .scan)
  simp only [Sem] at this
  obtain ⟨i, rfl, h'⟩ := this
  exact h'

/-! ### String keys -/

theorem storeKey_ne {g g' : Nat} (hg : g ≠ g') {k k' : List Comp} (h : ∃ s, Comp.str s ∈ k) :
    entriesEq (storeKey g' k') (storeKey g k) = false := by
  obtain ⟨s, hs⟩ := h
  obtain ⟨i, hi, he⟩ := List.mem_iff_getElem.mp hs
  unfold entriesEq
  rw [beq_eq_false_iff_ne]
  intro heq
  have h1 : (storeKey g k)[i]? = some (.ptr (g, i)) := by
    simp [storeKey, List.getElem?_mapIdx, List.getElem?_eq_getElem hi, he]
  rw [← heq] at h1
  unfold storeKey at h1
  rw [List.getElem?_mapIdx] at h1
  cases hk : k'[i]? with
  | none => simp [hk] at h1
  | some c =>
    cases c with
    | null => simp [hk] at h1
    | word => simp [hk] at h1
    | str => simp [hk] at h1; exact hg h1.symm

theorem addToSGroups_str (g : Nat) (k : List Comp) (h : ∃ s, Comp.str s ∈ k) (xs : List SGroup)
    (hx : ∀ x ∈ xs, ∃ g' k', g' < g ∧ x.entries = storeKey g' k') :
    addToSGroups g k xs = (g + 1, xs ++ [⟨storeKey g k, k, 1⟩]) := by
  induction xs with
  | nil => rfl
  | cons x xs ih =>
    obtain ⟨g', k', h1, h2⟩ := hx x (by simp)
    unfold addToSGroups
    rw [h2, storeKey_ne (by omega) h]
    simp [ih fun y hy => hx y (by simp [hy])]

/-- **GROUP BY of a string does not group**: if the key has a (non-NULL) string component, every row forms a group of its
own, whatever the rows, because the addresses of the copies are compared, not the strings. -/
theorem C35_string_groups_counterexample (keys : List (List Comp)) (h : ∀ k ∈ keys, ∃ s, Comp.str s ∈ k) :
    (groupStrings keys).map (fun x => (x.key, x.n)) = keys.map fun k => (k, 1) := by
  have : ∀ (keys : List (List Comp)), (∀ k ∈ keys, ∃ s, Comp.str s ∈ k) → ∀ (g : Nat) (xs : List SGroup),
      (∀ x ∈ xs, ∃ g' k', g' < g ∧ x.entries = storeKey g' k') →
      ((keys.foldl (fun (s : Nat × List SGroup) k => addToSGroups s.1 k s.2) (g, xs)).2).map (fun x => (x.key, x.n)) =
        xs.map (fun x => (x.key, x.n)) ++ keys.map fun k => (k, 1) := by
    intro keys
    induction keys with
    | nil => intro _ g xs _; simp
    | cons k ks ih =>
      intro h g xs hx
      rw [List.foldl_cons, addToSGroups_str g k (h k (by simp)) xs hx,
        ih (fun k hk => h k (by simp [hk]))]
      · simp
      · intro x hm
        rw [List.mem_append, List.mem_singleton] at hm
        rcases hm with hm | hm
        · obtain ⟨g', k', h1, h2⟩ := hx x hm
          exact ⟨g', k', by omega, h2⟩
        · exact ⟨g, k, by omega, by rw [hm]⟩
  have := this keys h 0 [] (by simp)
  simpa [groupStrings] using this

/-! ### Keys without strings -/

theorem entriesEq_nostr {g g' : Nat} {k k' : List Comp} (h : ∀ s, Comp.str s ∉ k) (h' : ∀ s, Comp.str s ∉ k') :
    entriesEq (storeKey g' k') (storeKey g k) = decide (k' = k) := by
  rw [Bool.eq_iff_iff, entriesEq, beq_iff_eq, decide_eq_true_eq]
  constructor
  · intro he
    apply List.ext_getElem?
    intro i
    have h1 : (storeKey g' k')[i]? = (storeKey g k)[i]? := by rw [he]
    unfold storeKey at h1
    rw [List.getElem?_mapIdx, List.getElem?_mapIdx] at h1
    cases hk : k[i]? with
    | none =>
      cases hk' : k'[i]? with
      | none => rfl
      | some c' => rw [hk, hk'] at h1; cases c' <;> simp at h1
    | some c =>
      cases hk' : k'[i]? with
      | none => rw [hk, hk'] at h1; cases c <;> simp at h1
      | some c' =>
        rw [hk, hk'] at h1
        cases c with
        | str s => exact absurd (List.mem_of_getElem? hk) (h s)
        | null => cases c' <;> simp_all
        | word w => cases c' <;> simp_all
  · rintro rfl
    unfold storeKey
    apply List.ext_getElem?
    intro i
    rw [List.getElem?_mapIdx, List.getElem?_mapIdx]
    cases hk : k'[i]? with
    | none => rfl
    | some c =>
      cases c with
      | str s => exact absurd (List.mem_of_getElem? hk) (h s)
      | null => rfl
      | word w => rfl

/-- The groups of a list of keys: each distinct key with the number of its occurrences. -/
def IsGrouping (keys : List (List Comp)) (gs : List (List Comp × Nat)) : Prop :=
  (gs.map (·.1)).Nodup ∧ (∀ k, k ∈ gs.map (·.1) ↔ k ∈ keys) ∧ ∀ g ∈ gs, g.2 = keys.count g.1

theorem addToSGroups_nostr (g : Nat) (k : List Comp) (h : ∀ s, Comp.str s ∉ k) : ∀ (xs : List SGroup) (keys : List (List Comp)),
    (∀ x ∈ xs, (∃ g', x.entries = storeKey g' x.key) ∧ ∀ s, Comp.str s ∉ x.key) →
    (∀ x ∈ (addToSGroups g k xs).2, (∃ g', x.entries = storeKey g' x.key) ∧ ∀ s, Comp.str s ∉ x.key) ∧
    ((xs.map (·.key)).Nodup → ((addToSGroups g k xs).2.map (·.key)).Nodup) ∧
    (∀ k', k' ∈ (addToSGroups g k xs).2.map (·.key) ↔ k' ∈ xs.map (·.key) ∨ k' = k) ∧
    ((xs.map (·.key)).Nodup → (∀ x ∈ xs, x.n = keys.count x.key) → (k ∉ xs.map (·.key) → keys.count k = 0) →
      ∀ x ∈ (addToSGroups g k xs).2, x.n = (keys ++ [k]).count x.key)
  | [], keys, _ => by
    simp only [addToSGroups]
    refine ⟨?_, ?_, ?_, ?_⟩
    · intro x hx; obtain rfl := List.mem_singleton.mp hx; exact ⟨⟨g, rfl⟩, h⟩
    · intro _; simp
    · intro k'; simp
    · intro _ _ h0 x hx
      obtain rfl := List.mem_singleton.mp hx
      have := h0 (by simp)
      simp [this]
  | x :: xs, keys, hx => by
    obtain ⟨⟨g', he⟩, hs⟩ := hx x (by simp)
    obtain ⟨i1, i2, i3, i4⟩ := addToSGroups_nostr g k h xs keys (fun y hy => hx y (by simp [hy]))
    rw [addToSGroups, he, entriesEq_nostr h hs]
    by_cases hk : x.key = k
    · simp only [hk, decide_true, if_true]
      refine ⟨?_, ?_, ?_, ?_⟩
      · intro y hy
        rcases List.mem_cons.mp hy with rfl | hy
        · exact ⟨⟨g', by rw [← hk, ← he]⟩, h⟩
        · exact hx y (by simp [hy])
      · simp [hk]
      · intro k'; simp [hk]; tauto
      · intro hn hc h0 y hy
        rw [List.count_append]
        rcases List.mem_cons.mp hy with rfl | hy
        · have := hc x (by simp)
          simp only [hk] at this ⊢
          simp [this]
        · have := hc y (by simp [hy])
          have hne : y.key ≠ k := by
            intro e
            simp only [List.map_cons, List.nodup_cons] at hn
            exact hn.1 (by rw [hk, ← e]; exact List.mem_map_of_mem hy)
          rw [this, List.count_singleton]
          simp [Ne.symm hne]
    · simp only [hk, decide_false, Bool.false_eq_true, if_false]
      refine ⟨?_, ?_, ?_, ?_⟩
      · intro y hy
        rcases List.mem_cons.mp hy with rfl | hy
        · exact hx y (by simp)
        · exact i1 y hy
      · intro hn
        simp only [List.map_cons, List.nodup_cons] at hn ⊢
        refine ⟨?_, i2 hn.2⟩
        rw [i3]
        rintro (hm | hm)
        · exact hn.1 hm
        · exact hk hm
      · intro k'
        simp only [List.map_cons, List.mem_cons, i3]
        tauto
      · intro hn hc h0 y hy
        simp only [List.map_cons, List.nodup_cons] at hn
        rcases List.mem_cons.mp hy with rfl | hy
        · rw [hc y (by simp), List.count_append, List.count_singleton]
          simp [Ne.symm hk]
        · refine i4 hn.2 (fun z hz => hc z (by simp [hz])) (fun hnm => h0 ?_) y hy
          simp only [List.map_cons, List.mem_cons, not_or]
          exact ⟨fun e => hk e.symm, hnm⟩

/-- **Grouping by keys without strings groups**: each distinct key (NULL being a value of its own) forms one group, with the number of
its rows. -/
theorem C35_groups_without_strings_partial (keys : List (List Comp)) (h : ∀ k ∈ keys, ∀ s, Comp.str s ∉ k) :
    IsGrouping keys ((groupStrings keys).map fun x => (x.key, x.n)) := by
  have : ∀ (keys done : List (List Comp)), (∀ k ∈ keys, ∀ s, Comp.str s ∉ k) → ∀ (g : Nat) (xs : List SGroup),
      (∀ x ∈ xs, (∃ g', x.entries = storeKey g' x.key) ∧ ∀ s, Comp.str s ∉ x.key) → (xs.map (·.key)).Nodup →
      (∀ k, k ∈ xs.map (·.key) ↔ k ∈ done) → (∀ x ∈ xs, x.n = done.count x.key) →
      IsGrouping (done ++ keys) (((keys.foldl (fun (s : Nat × List SGroup) k => addToSGroups s.1 k s.2) (g, xs)).2).map fun x => (x.key, x.n)) := by
    intro keys
    induction keys with
    | nil =>
      intro done _ g xs _ h2 h3 h4
      simp only [List.foldl_nil, List.append_nil]
      refine ⟨by simpa [List.map_map, Function.comp_def] using h2, by simpa [List.map_map, Function.comp_def] using h3, ?_⟩
      intro y hy
      obtain ⟨x, hx, rfl⟩ := List.mem_map.mp hy
      exact h4 x hx
    | cons k ks ih =>
      intro done hk g xs h1 h2 h3 h4
      obtain ⟨i1, i2, i3, i4⟩ := addToSGroups_nostr g k (hk k (by simp)) xs done h1
      have := ih (done ++ [k]) (fun k' hk' => hk k' (by simp [hk'])) (addToSGroups g k xs).1 (addToSGroups g k xs).2 i1 (i2 h2)
        (fun k' => by rw [i3, h3]; simp) (i4 h2 h4 (fun hn => List.count_eq_zero.mpr (fun hm => hn ((h3 k).mpr hm))))
      rw [List.append_assoc] at this
      exact this
  simpa [groupStrings] using this keys [] h 0 [] (by simp) (by simp) (by simp) (by simp)

/-- The hypothesis holds, and NULL differs from 0. -/
example : (∀ k ∈ [[Comp.null], [.word 0], [.null]], ∀ s, Comp.str s ∉ k) ∧
    (groupStrings [[.null], [.word 0], [.null]]).map (fun x => (x.key, x.n)) = [([.null], 2), ([.word 0], 1)] :=
  ⟨by intro k hk s; simp at hk; rcases hk with rfl | rfl | rfl <;> simp, by decide +kernel⟩

/-- Two rows with the same name: two groups of one row each, instead of one group of two rows. -/
example : (groupStrings [[.str [97]], [.str [97]]]).map (fun x => (x.key, x.n)) = [([.str [97]], 1), ([.str [97]], 1)] := by
  decide +kernel

/-- **A hash join on strings finds nothing**, whatever the rows. -/
theorem C35_string_join_counterexample (build probe : List (List Comp)) (h : ∀ k ∈ probe, ∃ s, Comp.str s ∈ k) :
    hashStrings build probe = [] := by
  unfold hashStrings
  rw [List.flatMap_eq_nil_iff]
  intro p hp
  rw [List.map_eq_nil_iff, List.filter_eq_nil_iff]
  intro b _
  have hp' := List.mem_zipIdx' hp
  rw [storeKey_ne (by omega) (h p.1 (by rw [hp'.2]; exact List.getElem_mem _))]
  simp

example : hashStrings [[.str [97]]] [[.str [97]]] = [] ∧ hashStrings [[.word 5]] [[.word 5]] = [(0, 0)] := by
  decide +kernel

end Mutable.Interp
