import Verif.SortCond.Claims
import Mathlib.Data.Int.Order.Basic

/-!
# C59: what physical plans claim about the order of their rows

The physical optimizer skips a sort (`NoOpSorting`), groups without a hash table (`OrderedGrouping`) or merges without
sorting (`SortMergeJoin`) if the `Sortedness` that the rest of the plan claims implies what the operator needs.
`admitted P` says that all these checks succeeded.  For plans that are `Careful` all claims are true and the three
operators get what they need.  Nothing in the code makes sure that a plan is `Careful`: the theorems `C59_bug_…` give plans
that pass all checks and whose result is wrong.
-/

namespace Mutable.SortCond

variable {I V : Type} [DecidableEq I] [LinearOrder V]

theorem parts_inherit {E : Env I V} : ∀ {P Q : Plan I V}, Q ∈ parts P → WellFormed E P → admitted P = true → Careful P →
    WellFormed E Q ∧ admitted Q = true ∧ Careful Q := by
  intro P
  induction P with
  | scan => intro Q hq hw ha hc; simp only [parts, List.mem_singleton] at hq; subst hq; exact ⟨hw, ha, hc⟩
  | indexScan => intro Q hq hw ha hc; simp only [parts, List.mem_singleton] at hq; subst hq; exact ⟨hw, ha, hc⟩
  | single => intro Q hq hw ha hc; simp only [parts, List.mem_singleton] at hq; subst hq; exact ⟨hw, ha, hc⟩
  | filter p c ih =>
    intro Q hq hw ha hc
    rcases List.mem_cons.mp hq with rfl | hq
    · exact ⟨hw, ha, hc⟩
    · exact ih hq hw ha hc
  | limit a b c ih =>
    intro Q hq hw ha hc
    rcases List.mem_cons.mp hq with rfl | hq
    · exact ⟨hw, ha, hc⟩
    · exact ih hq hw ha hc
  | project i c ih =>
    intro Q hq hw ha hc
    rcases List.mem_cons.mp hq with rfl | hq
    · exact ⟨hw, ha, hc⟩
    · exact ih hq hw ha hc.1
  | hashGroup k a c ih =>
    intro Q hq hw ha hc
    rcases List.mem_cons.mp hq with rfl | hq
    · exact ⟨hw, ha, hc⟩
    · exact ih hq hw ha hc
  | orderedGroup k a c ih =>
    intro Q hq hw ha hc
    rcases List.mem_cons.mp hq with rfl | hq
    · exact ⟨hw, ha, hc⟩
    · simp only [admitted, Bool.and_eq_true] at ha
      exact ih hq hw ha.1 hc.1
  | aggregate s a c ih =>
    intro Q hq hw ha hc
    rcases List.mem_cons.mp hq with rfl | hq
    · exact ⟨hw, ha, hc⟩
    · exact ih hq hw ha hc
  | quicksort b c ih =>
    intro Q hq hw ha hc
    rcases List.mem_cons.mp hq with rfl | hq
    · exact ⟨hw, ha, hc⟩
    · exact ih hq hw ha hc
  | noopSort b c ih =>
    intro Q hq hw ha hc
    rcases List.mem_cons.mp hq with rfl | hq
    · exact ⟨hw, ha, hc⟩
    · simp only [admitted, Bool.and_eq_true] at ha
      exact ih hq hw ha.1 hc.1
  | nlj ls p l r ih1 ih2 =>
    intro Q hq hw ha hc
    rcases List.mem_cons.mp hq with rfl | hq
    · exact ⟨hw, ha, hc⟩
    · simp only [admitted, Bool.and_eq_true] at ha
      rcases List.mem_append.mp hq with hq | hq
      · exact ih1 hq hw.1 ha.1 hc.1
      · exact ih2 hq hw.2.1 ha.2 hc.2
  | hashJoin ls p l r ih1 ih2 =>
    intro Q hq hw ha hc
    rcases List.mem_cons.mp hq with rfl | hq
    · exact ⟨hw, ha, hc⟩
    · simp only [admitted, Bool.and_eq_true] at ha
      rcases List.mem_append.mp hq with hq | hq
      · exact ih1 hq hw.1 ha.1 hc.1
      · exact ih2 hq hw.2.1 ha.2 hc.2
  | smj sl sr ls k l r ih1 ih2 =>
    intro Q hq hw ha hc
    rcases List.mem_cons.mp hq with rfl | hq
    · exact ⟨hw, ha, hc⟩
    · simp only [admitted, Bool.and_eq_true] at ha
      rcases List.mem_append.mp hq with hq | hq
      · exact ih1 hq hw.1 ha.1.1.1 hc.1
      · exact ih2 hq hw.2.1 ha.1.1.2 hc.2.1

/-! ## What holds -/

/-- C59 (partial: only for `Careful` plans, see the counterexamples below): in a plan that passes all checks, the
`Sortedness` of every part is true of the rows that the part passes on. -/
theorem C59_claims_hold_partial {E : Env I V} (hE : EnvOK E) {P : Plan I V} (hw : WellFormed E P)
    (ha : admitted P = true) (hc : Careful P) : ∀ Q ∈ parts P, HoldsOpt (post Q) (run E Q) := fun Q hq =>
  have ⟨h1, h2, h3⟩ := parts_inherit hq hw ha hc
  claims hE Q h1 h2 h3

/-- A true condition that implies (as `Sortedness::implied_by` decides) the orders of an ORDER BY clause guarantees that
the rows are sorted that way, if the condition has only directions or only "undefined" (partial: not if it has both). -/
theorem C59_implied_by_sound_partial {o : Orders I} (hu : Uniform o) {rows : List (Row I V)} (hh : Holds o rows)
    {b : List (I × Bool)} (h : condImplied (some (orderBy b)) (some o) = true) : Sorted b rows := by
  have := (impliedBy_sound hu hh (r := orderBy b) (fun p hp he => orderBy_undef b p.1 (by rw [← he]; exact hp)) h).1
  rw [dirs_orderBy] at this
  exact this.imp fun r _ s _ h => LexLe.of_nub (by simp) h

/-- `NoOpSorting`: the rows are in fact already sorted by the ORDER BY clause. -/
theorem C59_noop_sorting_partial {E : Env I V} (hE : EnvOK E) {P : Plan I V} (hw : WellFormed E P)
    (ha : admitted P = true) (hc : Careful P) {b : List (I × Bool)} {c : Plan I V} (hq : Plan.noopSort b c ∈ parts P) :
    Sorted b (run E (Plan.noopSort b c)) := by
  obtain ⟨h1, h2, h3⟩ := parts_inherit hq hw ha hc
  simp only [admitted, Bool.and_eq_true] at h2
  obtain ⟨o, ho, _⟩ := condImplied_some h2.2
  have hi := h2.2
  rw [ho] at hi
  exact C59_implied_by_sound_partial (h3.2 o ho) (claims hE c h1 h2.1 h3.1 o ho) hi

/-- `OrderedGrouping`: the groups it forms (a new one at every change of the key) are the groups of GROUP BY. -/
theorem C59_ordered_grouping_partial {E : Env I V} (hE : EnvOK E) {P : Plan I V} (hw : WellFormed E P)
    (ha : admitted P = true) (hc : Careful P) {keys : List (I × I)} {agg : List (Row I V) → I → V} {c : Plan I V}
    (hq : Plan.orderedGroup keys agg c ∈ parts P) :
    ∃ gs, IsGrouping keys (run E c) gs ∧ run E (Plan.orderedGroup keys agg c) = gs.map (groupRow keys agg) := by
  obtain ⟨h1, h2, h3⟩ := parts_inherit hq hw ha hc
  simp only [admitted, Bool.and_eq_true] at h2
  obtain ⟨o, ho, hi⟩ := condImplied_some h2.2
  exact ⟨_, (orderedGroups_spec (contig_of_prefix (claims hE c h1 h2.1 h3.1 o ho) (group_found hi) (h3.2.1 o ho))).2, rfl⟩

/-- `SortMergeJoin`: an input that it does not sort is sorted by its keys. -/
theorem C59_merge_join_inputs_sorted_partial {E : Env I V} (hE : EnvOK E) {P : Plan I V} (hw : WellFormed E P)
    (ha : admitted P = true) (hc : Careful P) {sl sr : Bool} {ls : I → Bool} {keys : List (I × I)} {l r : Plan I V}
    (hq : Plan.smj sl sr ls keys l r ∈ parts P) :
    (sl = false → Sorted (keys.map fun k => (k.1, true)) (run E l)) ∧
    (sr = false → Sorted (keys.map fun k => (k.2, true)) (run E r)) := by
  obtain ⟨h1, h2, h3⟩ := parts_inherit hq hw ha hc
  simp only [admitted, Bool.and_eq_true] at h2
  obtain ⟨⟨⟨ha1, ha2⟩, ha3⟩, ha4⟩ := h2
  obtain ⟨hw1, hw2, _⟩ := h1
  obtain ⟨hc1, hc2, hc3, hc4⟩ := h3
  have := smj_pre (ls := ls) hE (claims hE l hw1 ha1 hc1) (claims hE r hw2 ha2 hc2) (sl := sl) (sr := sr) (keys := keys)
    (by rw [ha3, ha4]; rfl) hc3 hc4
  exact ⟨fun h => (this.1 h).1, fun h => (this.2 h).1⟩

/-- The order of GROUP BY keys does not matter for the groups: it is enough that the keys are, in any order, a prefix of
a true sort order. -/
theorem C59_grouping_needs_a_prefix {o : Orders I} {rows : List (Row I V)} (hh : Holds o rows) {keys : List (I × I)} {n : Nat}
    (hk : ∀ p ∈ keys, ∃ q ∈ (dirs o).take n, q.1 = p.1) (hn : ∀ q ∈ (dirs o).take n, ∃ p ∈ keys, q.1 = p.1) :
    IsGrouping keys rows (orderedGroups keys rows) :=
  (orderedGroups_spec (contig_of_sorted hh (fun p hp => .inr (hk p hp)) hn)).2

/-- a plan without projections, ordered groupings and aggregations -/
def Simple : Plan I V → Prop
  | .scan _ _ _ => True
  | .indexScan _ _ => True
  | .single _ => True
  | .filter _ c => Simple c
  | .limit _ _ c => Simple c
  | .project _ _ => False
  | .hashGroup _ _ c => Simple c
  | .orderedGroup _ _ _ => False
  | .aggregate _ _ _ => False
  | .quicksort _ c => Simple c
  | .noopSort _ c => Simple c
  | .nlj _ _ l r => Simple l ∧ Simple r
  | .hashJoin _ _ l r => Simple l ∧ Simple r
  | .smj _ _ _ _ l r => Simple l ∧ Simple r

theorem no_undef_addAll {a b : Orders I} (ha : ∀ p ∈ a, p.2 ≠ Order.undef) (hb : ∀ p ∈ b, p.2 ≠ Order.undef) :
    ∀ p ∈ addAll a b, p.2 ≠ Order.undef := by
  intro p hp
  rw [addAll_eq] at hp
  rcases List.mem_append.mp hp with h | h
  · exact ha p h
  · exact hb p (nubO_mem h)

theorem no_undef_asc (ks : List I) : ∀ p ∈ ascKeys ks, p.2 ≠ Order.undef := by
  intro p hp
  obtain ⟨k, _, rfl⟩ := List.mem_map.mp hp
  simp

theorem simple_post : ∀ (P : Plan I V), Simple P → ∀ p ∈ (post P).getD [], p.2 ≠ Order.undef
  | .scan s d rows, _, p, hp => by
    simp only [post] at hp
    split at hp
    · cases hp
    · exact fun h => scanOrders_undef d s p.1 (by rw [← h]; exact hp)
  | .indexScan i rows, _, p, hp => by
    simp only [post, Option.getD_some, List.mem_singleton] at hp
    subst hp; simp
  | .single _, _, p, hp => by cases hp
  | .filter _ c, h, p, hp => simple_post c h p hp
  | .limit _ _ c, h, p, hp => simple_post c h p hp
  | .hashGroup _ _ c, _, p, hp => by cases hp
  | .quicksort b c, _, p, hp => fun h => orderBy_undef b p.1 (by rw [← h]; exact hp)
  | .noopSort _ c, h, p, hp => simple_post c h p hp
  | .nlj _ _ l r, h, p, hp => simple_post r h.2 p hp
  | .hashJoin _ _ l r, h, p, hp => simple_post r h.2 p hp
  | .smj sl sr _ keys l r, h, p, hp => by
    have hl := simple_post l h.1
    have hr := simple_post r h.2
    have hn : ∀ p ∈ ([] : Orders I), p.2 ≠ Order.undef := by simp
    have happ : ∀ p ∈ (post l).getD [] ++ (post r).getD [], p.2 ≠ Order.undef := by
      intro q hq
      rcases List.mem_append.mp hq with h | h
      · exact hl q h
      · exact hr q h
    simp only [post, Option.getD_some, smjOrders] at hp
    cases sl <;> cases sr <;> simp only [Bool.false_eq_true, if_false, if_true, List.nil_append] at hp
    · exact happ p hp
    · exact no_undef_addAll hl (no_undef_asc _) p hp
    · exact no_undef_addAll hr (no_undef_asc _) p hp
    · exact no_undef_addAll (no_undef_addAll hn (no_undef_asc _)) (no_undef_asc _) p hp

theorem simple_uniform {P : Plan I V} (h : Simple P) : UniformOpt (post P) := fun o ho =>
  .inl (by have := simple_post P h; rw [ho] at this; exact this)

theorem simple_careful : ∀ (P : Plan I V), Simple P → Careful P
  | .scan _ _ _, _ => trivial
  | .indexScan _ _, _ => trivial
  | .single _, _ => trivial
  | .filter _ c, h => simple_careful c h
  | .limit _ _ c, h => simple_careful c h
  | .hashGroup _ _ c, h => simple_careful c h
  | .quicksort _ c, h => simple_careful c h
  | .noopSort _ c, h => ⟨simple_careful c h, simple_uniform h⟩
  | .nlj _ _ l r, h => ⟨simple_careful l h.1, simple_careful r h.2⟩
  | .hashJoin _ _ l r, h => ⟨simple_careful l h.1, simple_careful r h.2⟩
  | .smj _ _ _ _ l r, h => ⟨simple_careful l h.1, simple_careful r h.2, fun _ => simple_uniform h.1, fun _ => simple_uniform h.2⟩

/-- Without projections, ordered groupings and aggregations nothing has to be assumed: all claims of a plan that passes
all checks are true, and a sort that is left out is superfluous. -/
theorem C59_simple_plans {E : Env I V} (hE : EnvOK E) {P : Plan I V} (hw : WellFormed E P)
    (ha : admitted P = true) (hs : Simple P) :
    (∀ Q ∈ parts P, HoldsOpt (post Q) (run E Q)) ∧
    ∀ b c, Plan.noopSort b c ∈ parts P → Sorted b (run E (Plan.noopSort b c)) :=
  ⟨C59_claims_hold_partial hE hw ha (simple_careful P hs),
   fun _ _ hq => C59_noop_sorting_partial hE hw ha (simple_careful P hs) hq⟩

/-! ## An environment, examples -/

def lexLeB : List (Nat × Bool) → Row Nat Int → Row Nat Int → Bool
  | [], _, _ => true
  | (i, asc) :: t, r, s => (if asc then decide (r i < s i) else decide (s i < r i)) || (decide (r i = s i) && lexLeB t r s)

theorem lexLeB_iff : ∀ (b : List (Nat × Bool)) (r s : Row Nat Int), lexLeB b r s = true ↔ LexLe b r s
  | [], _, _ => by simp [lexLeB, LexLe]
  | (i, asc) :: t, r, s => by
    cases asc <;> simp [lexLeB, LexLe, lexLeB_iff t r s]

instance (b : List (Nat × Bool)) (r s : Row Nat Int) : Decidable (LexLe b r s) :=
  decidable_of_iff _ (lexLeB_iff b r s)

instance (b : List (Nat × Bool)) (rows : List (Row Nat Int)) : Decidable (Sorted b rows) := by
  unfold Sorted; infer_instance

theorem lexLe_total : ∀ (b : List (Nat × Bool)) (r s : Row Nat Int), LexLe b r s ∨ LexLe b s r
  | [], _, _ => .inl trivial
  | (i, asc) :: t, r, s => by
    rcases lt_trichotomy (r i) (s i) with h | h | h
    · cases asc
      · exact .inr (.inl (by simpa using h))
      · exact .inl (.inl (by simpa using h))
    · rcases lexLe_total t r s with h' | h'
      · exact .inl (.inr ⟨h, h'⟩)
      · exact .inr (.inr ⟨h.symm, h'⟩)
    · cases asc
      · exact .inl (.inl (by simpa using h))
      · exact .inr (.inl (by simpa using h))

/-- insertion into a sorted list -/
def ins (b : List (Nat × Bool)) (x : Row Nat Int) : List (Row Nat Int) → List (Row Nat Int)
  | [] => [x]
  | y :: t => if lexLeB b x y then x :: y :: t else y :: ins b x t

theorem ins_perm (b : List (Nat × Bool)) (x : Row Nat Int) : ∀ l, (ins b x l).Perm (x :: l)
  | [] => .refl _
  | y :: t => by
    unfold ins
    split
    · exact .refl _
    · exact ((ins_perm b x t).cons y).trans (.swap _ _ _)

theorem ins_sorted (b : List (Nat × Bool)) (x : Row Nat Int) : ∀ l, Sorted b l → Sorted b (ins b x l)
  | [], _ => by simp [ins, Sorted]
  | y :: t, h => by
    unfold ins
    have h' := List.pairwise_cons.mp h
    split
    · rename_i hx
      refine List.pairwise_cons.mpr ⟨?_, h⟩
      intro z hz
      have hxy := (lexLeB_iff b x y).mp hx
      rcases List.mem_cons.mp hz with rfl | hz
      · exact hxy
      · exact hxy.trans (h'.1 z hz)
    · rename_i hx
      refine List.pairwise_cons.mpr ⟨?_, ins_sorted b x t h'.2⟩
      intro z hz
      rcases List.mem_cons.mp ((ins_perm b x t).subset hz) with rfl | hz
      · rcases lexLe_total b z y with h1 | h1
        · exact absurd ((lexLeB_iff b z y).mpr h1) hx
        · exact h1
      · exact h'.1 z hz

/-- insertion sort, no shuffling, −1 is NULL -/
def exEnv : Env Nat Int where
  sort b rows := rows.foldr (ins b) []
  shuffle := id
  isNull v := decide (v = -1)

theorem exEnv_ok : EnvOK exEnv where
  perm b rows := by
    show (rows.foldr (ins b) []).Perm rows
    induction rows with
    | nil => exact .refl _
    | cons r rs ih => exact (ins_perm b r _).trans (ih.cons r)
  sorted b rows := by
    show Sorted b (rows.foldr (ins b) [])
    induction rows with
    | nil => simp [Sorted]
    | cons r rs ih => exact ins_sorted b r _ ih

/-- a row with values for the attributes 0, 1 -/
def row (a b : Int) : Row Nat Int := fun i => if i = 0 then a else if i = 1 then b else 0

def cnt : List (Row Nat Int) → Nat → Int := fun g _ => g.length

def exT : Plan Nat Int := .scan [0, 1] [] [row 2 1, row 1 2, row 2 2, row 1 1]

/-- `SELECT a AS 5, b AS 6 … ORDER BY a, b` with a filter, a projection that keeps the whole order, a sort that is left
out and an ordered grouping -/
def exGood : Plan Nat Int :=
  .noopSort [(7, true)] (.orderedGroup [(5, 7)] cnt
    (.noopSort [(5, true), (6, false)] (.project [(0, 5), (1, 6)] (.filter (fun r => decide (0 < r 0))
      (.quicksort [(0, true), (1, false)] exT)))))

/-- The hypotheses of the theorems above can be met, by a plan that leaves out two sorts and groups without hash table. -/
example : EnvOK exEnv ∧ WellFormed exEnv exGood ∧ admitted exGood = true ∧ Careful exGood := by
  refine ⟨exEnv_ok, ?_, by decide, ?_⟩
  · simp [exGood, exT, WellFormed]
  · refine ⟨⟨⟨⟨trivial, ?_⟩, ?_⟩, ?_, ?_⟩, ?_⟩
    · intro o ho
      have : o = [(0, .asc), (1, .desc)] := by injection ho with ho; exact ho.symm
      subst this
      unfold KeepsPrefix; decide
    · intro o ho
      have : o = [(5, .asc), (6, .desc)] := by injection ho with ho; exact ho.symm
      subst this
      exact .inl (by decide)
    · intro o ho
      have : o = [(5, .asc), (6, .desc)] := by injection ho with ho; exact ho.symm
      subst this
      unfold KeepsPrefix; decide
    · intro o ho
      have : o = [(5, .asc), (6, .desc)] := by injection ho with ho; exact ho.symm
      subst this
      unfold KeepsPrefix; decide
    · intro o ho
      have : o = [(7, .asc)] := by injection ho with ho; exact ho.symm
      subst this
      exact .inl (by decide)

example : (run exEnv exGood).map (fun r => (r 7, r 100)) = [(1, 2), (2, 2)] := by decide

/-- a merge join that sorts its right input only -/
def exJoin : Plan Nat Int :=
  .smj false true (fun i => decide (i = 0)) [(0, 1)]
    (.indexScan 0 [fun _ => 1, fun _ => 2, fun _ => 3])
    (.quicksort [(2, true)] (.scan [1, 2] [] [row 0 3, row 0 1, row 0 3]))

example : WellFormed exEnv exJoin ∧ admitted exJoin = true ∧ Simple exJoin ∧
    (run exEnv exJoin).map (fun r => (r 0, r 1)) = [(1, 1), (3, 3), (3, 3)] := by
  refine ⟨?_, by decide, ⟨trivial, trivial⟩, by decide⟩
  refine ⟨?_, by simp [WellFormed], by decide, by decide, by decide, ?_⟩
  · unfold WellFormed; decide
  · intro x hx y hy h
    simp only [run, List.mem_cons, List.not_mem_nil, or_false] at hx hy
    have := (h (0, 1) (by simp)).2
    rcases hx with rfl | rfl | rfl <;> rcases hy with rfl | rfl | rfl <;> simp_all

example : Holds [(0, Order.asc), (1, Order.asc)] [row 1 1, row 1 2, row 2 1] ∧
    IsGrouping [(1, 1), (0, 0)] [row 1 1, row 1 2, row 2 1] (orderedGroups [(1, 1), (0, 0)] [row 1 1, row 1 2, row 2 1]) := by
  have h : Holds [(0, Order.asc), (1, Order.asc)] [row 1 1, row 1 2, row 2 1] :=
    ⟨by decide, fun i hi => by simp at hi⟩
  exact ⟨h, C59_grouping_needs_a_prefix h (n := 2) (by decide) (by decide)⟩

/-! ## What the code lets through -/

/-- the rows of `T`, sorted by `a` and `b` -/
def sortedT : Plan Nat Int := .quicksort [(0, true), (1, true)] (.scan [0, 1] [] [row 1 2, row 2 1, row 3 2, row 1 1])

/-- **Bug**: `SELECT b FROM (SELECT a, b FROM T ORDER BY a, b) AS S ORDER BY b`: the projection on `b` keeps "sorted by b"
of "sorted by a, b", so that the sort by `b` is left out.  The result is not sorted. -/
theorem C59_bug_projection_drops_leading_key :
    ∃ P : Plan Nat Int, P = .noopSort [(1, true)] (.project [(1, 1)] sortedT) ∧
      EnvOK exEnv ∧ WellFormed exEnv P ∧ admitted P = true ∧
      (run exEnv P).map (fun r => r 1) = [1, 2, 1, 2] ∧ ¬ Sorted [(1, true)] (run exEnv P) := by
  refine ⟨_, rfl, exEnv_ok, ?_, by decide, by decide, by decide⟩
  simp [sortedT, WellFormed]

/-- **Bug**: `SELECT b, COUNT(*) FROM (SELECT a, b FROM T ORDER BY a, b) AS S GROUP BY b`: ordered grouping is accepted,
because `b` is *somewhere* in the sort order.  The result has several groups with the same key. -/
theorem C59_bug_grouping_by_non_prefix :
    ∃ P : Plan Nat Int, P = .orderedGroup [(1, 1)] cnt sortedT ∧
      EnvOK exEnv ∧ WellFormed exEnv P ∧ admitted P = true ∧
      (run exEnv P).map (fun r => (r 1, r 100)) = [(1, 1), (2, 1), (1, 1), (2, 1)] ∧
      ¬ ∃ gs, IsGrouping [(1, 1)] (run exEnv sortedT) gs ∧ run exEnv P = gs.map (groupRow [(1, 1)] cnt) := by
  refine ⟨_, rfl, exEnv_ok, ?_, by decide, by decide, ?_⟩
  · simp [sortedT, WellFormed]
  · rintro ⟨gs, hg, he⟩
    have h1 := congrArg (List.map fun r => [r 1]) he
    rw [List.map_map] at h1
    have h2 : (gs.map fun g => keyOf [(1, 1)] g.1) = gs.map ((fun r : Row Nat Int => [r 1]) ∘ groupRow [(1, 1)] cnt) := by
      apply List.map_congr_left
      intro g _
      rfl
    have h3 := hg.nodup
    rw [h2, ← h1] at h3
    exact absurd h3 (by decide)

/-- **Bug**: `… GROUP BY b, a ORDER BY b, a` on rows sorted by `a, b`: ordered grouping forms the right groups, but claims
that they are sorted by `b, a`, and the sort is left out. -/
theorem C59_bug_grouping_reorders_keys :
    ∃ P : Plan Nat Int, P = .noopSort [(1, true), (0, true)] (.orderedGroup [(1, 1), (0, 0)] cnt sortedT) ∧
      EnvOK exEnv ∧ WellFormed exEnv P ∧ admitted P = true ∧
      (run exEnv P).map (fun r => (r 1, r 0)) = [(1, 1), (2, 1), (1, 2), (2, 3)] ∧
      ¬ Sorted [(1, true), (0, true)] (run exEnv P) := by
  refine ⟨_, rfl, exEnv_ok, ?_, by decide, by decide, by decide⟩
  simp [sortedT, WellFormed]

/-- **Bug**: attributes without direction shift the positions that `Sortedness::implied_by` compares: "sorted by z, then
b; u and w constant" is found to imply "sorted by u, w, b", which by itself means sorted by b. -/
theorem C59_bug_implied_by_positions :
    ∃ (o : Orders Nat) (rows : List (Row Nat Int)), o = [(2, .asc), (3, .undef), (1, .asc), (4, .undef)] ∧ Holds o rows ∧
      condImplied (some (orderBy [(3, true), (4, true), (1, true)])) (some o) = true ∧
      ¬ Sorted [(3, true), (4, true), (1, true)] rows := by
  refine ⟨_, [fun i => if i = 2 then 1 else if i = 1 then 2 else 0, fun i => if i = 2 then 2 else if i = 1 then 1 else 0],
    rfl, ⟨by decide, ?_⟩, by decide, by decide⟩
  intro i hi r hr s hs
  simp only [List.mem_cons, Prod.mk.injEq, reduceCtorEq, and_false, and_true, List.not_mem_nil, or_false, false_or] at hi
  simp only [List.mem_cons, List.not_mem_nil, or_false] at hr hs
  rcases hi with rfl | rfl <;> rcases hr with rfl | rfl <;> rcases hs with rfl | rfl <;> rfl

/-- The full property – every admitted plan makes only true claims – is false. -/
theorem C59_full_property_false :
    ¬ ∀ P : Plan Nat Int, WellFormed exEnv P → admitted P = true → HoldsOpt (post P) (run exEnv P) := by
  intro h
  have := h (.project [(1, 1)] sortedT) (by simp [sortedT, WellFormed]) (by decide) [(1, .asc)] (by decide)
  exact absurd this.1 (by decide)

/-- Observation: a merge join that sorts only one input cannot be used if the input it *sorts* comes without any
`Sortedness` (e.g. a plain table scan), since then both children need one. -/
theorem C59_merge_join_overly_strict (ls : I → Bool) (keys : List (I × I)) (l : Plan I V) (schema : List I) (rows : List (Row I V)) :
    admitted (.smj false true ls keys l (.scan schema [] rows)) = false := by
  have : scanOrders ([] : List (I × Bool)) schema = [] := by
    induction schema with
    | nil => rfl
    | cons i t ih => simp [scanOrders, ih]
  simp [admitted, smjPre, post, this, condImplied]

end Mutable.SortCond
