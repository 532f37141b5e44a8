import Verif.SumProd.ContEval
/-
C70: sum-product networks.
-/
namespace Mutable.SumProd

/-- **C70.**  A learned discrete leaf answers every condition with the fraction of the entries of its column that meet it. -/
theorem C70_leaf_exact (col : List (Option ℚ)) (hc : col ≠ []) (op : Op) (v : ℚ) : ask (learnLeaf col) op v = fracCol col op v :=
  learn_ask hc op v _ _ (by simp [findCond])

/-- **C70.**  Whatever groups of columns and clusters of rows the learning algorithm chooses, a learned network answers a single condition with the
fraction of the rows that meet it. -/
theorem C70_condition_exact (s : Shape) (vars : List Nat) (rows : List Row) (h : s.Valid vars rows) (hr : rows ≠ []) (a : Nat) (ha : a ∈ vars) (op : Op)
    (v : ℚ) : likelihood (s.learn vars rows) [(a, (op, v))] = frac rows a op v :=
  shape_exact op v a s vars rows h ha hr

/-- **C70.**  The answer to several conditions is a probability, and no greater than the fraction of the rows that meet any one of them. -/
theorem C70_conditions_bounded (s : Shape) (vars : List Nat) (rows : List Row) (h : s.Valid vars rows) (hr : rows ≠ []) (f : Filter) (hf : f ≠ [])
    (hd : (f.map (·.1)).Nodup) (hv : ∀ e ∈ f, e.1 ∈ vars) :
    0 ≤ likelihood (s.learn vars rows) f ∧ likelihood (s.learn vars rows) f ≤ 1 ∧
    ∀ e ∈ f, likelihood (s.learn vars rows) f ≤ frac rows e.1 e.2.1 e.2.2 := by
  obtain ⟨e, f', rfl⟩ := List.exists_cons_of_ne_nil hf
  obtain ⟨h1, h2, h3⟩ := shape_bound _ hd s vars rows e.1 h hr (hv e List.mem_cons_self) ⟨e.2, List.mem_cons_self⟩
  exact ⟨h1, h2, fun x hx => h3 x hx (hv x hx)⟩

/-- **C70.**  Two groups of columns are treated as independent: the answer for two conditions on attributes of different groups is the product of
both fractions. -/
theorem C70_independence (s₁ s₂ : Shape) (vars₁ vars₂ : List Nat) (rows : List Row) (h₁ : s₁.Valid vars₁ rows) (h₂ : s₂.Valid vars₂ rows)
    (hd : ∀ a ∈ vars₁, a ∉ vars₂) (hr : rows ≠ []) (a b : Nat) (ha : vars₁ = [a]) (hb : vars₂ = [b]) (c d : Op × ℚ) :
    likelihood ((Shape.prod (.cons vars₁ s₁ (.cons vars₂ s₂ .nil))).learn (vars₁ ++ vars₂) rows) [(a, c), (b, d)] =
      frac rows a c.1 c.2 * frac rows b d.1 d.2 := by
  subst ha hb
  have hab : a ≠ b := fun e => hd a (by simp) (by simp [e])
  simp only [likelihood, Shape.learn, ProdShape.learn, Node.eval, ProdCs.eval]
  have c1 : childCond [(a, c), (b, d)] [a] = some a := by simp [childCond]
  have c2 : childCond [(a, c), (b, d)] [b] = some b := by simp [childCond, hab]
  rw [c1, c2]
  simp only [mul_one]
  rw [shape_single s₁ a rows h₁ hr _ (by simp [hab]) c (by simp), shape_single s₂ b rows h₂ hr _ (by simp [hab]) d (by simp)]

/-- **C70.**  The estimated number of distinct values of an attribute is at least the number of its different values that are not NULL, and at most
the number of rows; for a leaf it is exact. -/
theorem C70_distinct_values (s : Shape) (vars : List Nat) (rows : List Row) (h : s.Valid vars rows) (a : Nat) (ha : a ∈ vars) :
    (values rows a).length ≤ (s.learn vars rows).distincts a ∧ (s.learn vars rows).distincts a ≤ rows.length ∧
    (s = .leaf → (s.learn vars rows).distincts a = (values rows a).length) := by
  rw [values_length]
  obtain ⟨h1, h2⟩ := shape_distincts a s vars rows h ha
  refine ⟨h1, h2, ?_⟩
  rintro rfl
  obtain ⟨b, rfl⟩ := h
  rw [List.mem_singleton] at ha
  subst ha
  rw [Shape.learn, leaf_distincts, List.filterMap_map]
  rfl

/-- **C70, partial.**  After any history of insertions, and deletions of existing values, a discrete leaf still answers with the fraction of the entries
of the column.  Missing: IS NULL, see `C70_bug_null_stale`. -/
theorem C70_leaf_updates_partial (col : List (Option ℚ)) (us : List Upd) (h : UpdsOk col us) (op : Op) (hop : op ≠ .isNull) (v : ℚ) :
    ask (us.foldl Upd.applyLeaf (learnLeaf col)) op v = fracCol (us.foldl Upd.apply col) op v :=
  rep_ask (rep_history us (rep_learn col) h) hop v _ _ (by simp [findCond])

/-- **C70, partial.**  After any insertions of rows, a network that the learning algorithm builds without clusters still answers a single condition
with the fraction of the rows.  Missing: IS NULL, deletions, and networks with clusters, see `C70_bug_nested_sums`. -/
theorem C70_insertions_partial (s : Shape) (vars : List Nat) (rows : List Row) (h : s.Valid vars rows) (hn : s.NoSum) (near : SumCs → Nat)
    (new : List (Nat → ℚ)) (a : Nat) (ha : a ∈ vars) (op : Op) (hop : op ≠ .isNull) (v : ℚ) :
    likelihood (new.foldl (fun x row => x.update false near row vars 0) (s.learn vars rows)) [(a, (op, v))] =
      frac (rows ++ new.map full) a op v := by
  have key : ∀ (new : List (Nat → ℚ)) (rows : List Row) (x : Node), RepT vars rows s x →
      RepT vars (rows ++ new.map full) s (new.foldl (fun x row => x.update false near row vars 0) x) := by
    intro new
    induction new with
    | nil => intro rows x h; simpa using h
    | cons r new ih =>
      intro rows x h
      have := ih _ _ (repT_insert near r s vars rows x h)
      simpa using this
  exact repT_exact hop v a s vars _ _ (key new rows _ (repT_learn s vars rows h hn)) ha

/-! ### Continuous leaves -/

/-- **C70, partial.**  A continuous leaf, learned from a column with a value that is not NULL, and after any history of insertions, and deletions of
values other than the lower bound, answers a comparison with the right fraction, or is off by at most the fraction of the values in the bin in
which the value lies; an equality it answers with the right fraction, or with that of the whole bin.  Missing: deletions of the lower
bound, see `C70_bug_delete_lower_bound`, and columns of NULLs, see `C70_bug_continuous_null`. -/
theorem C70_continuous_partial (lo hi : ℚ) (nb : Nat) (hn : 0 < nb) (col : List (Option ℚ)) (hlo : ∀ y, some y ∈ col → lo ≤ y)
    (hhi : ∀ y, some y ∈ col → y ≤ hi) (hne : ∃ y, some y ∈ col) (us : List Upd) (hus : UpdsOkC lo col us) (t : EvalType) (v : ℚ) :
    let x := us.foldl Upd.applyCont (learnCont lo hi nb col)
    let now := us.foldl Upd.apply col
    (∀ op, op ≠ .eq → op ≠ .isNull → x.eval t op v = fracCol now op v ∨
      ∃ a b, x.HasBin a b ∧ a < v ∧ v ≤ b ∧ |x.eval t op v - fracCol now op v| ≤ fracIn now a b) ∧
    fracCol now .eq v ≤ x.eval t .eq v ∧
    (x.eval t .eq v = fracCol now .eq v ∨ ∃ a b, x.HasBin a b ∧ a < v ∧ v ≤ b ∧ x.eval t .eq v = fracIn now a b) := by
  have hm : ∀ y, y ∈ col.filterMap id ↔ some y ∈ col := by
    intro y
    rw [List.mem_filterMap]
    constructor
    · rintro ⟨x, hx, e⟩
      simp only [id] at e
      rw [← e]; exact hx
    · exact fun h => ⟨_, h, rfl⟩
  have h0 : Right (learnCont lo hi nb col) col := by
    refine right_learn hn (fun y hy => hlo y ((hm y).mp hy)) (fun y hy => hhi y ((hm y).mp hy)) ?_
    obtain ⟨y, hy⟩ := hne
    exact List.ne_nil_of_mem ((hm y).mpr hy)
  have hl : (learnCont lo hi nb col).lower = lo := by
    unfold learnCont
    rw [if_neg]
    intro hall
    obtain ⟨y, hy⟩ := hne
    have := List.all_eq_true.mp hall _ hy
    simp at this
  have h : Right (us.foldl Upd.applyCont (learnCont lo hi nb col)) (us.foldl Upd.apply col) := right_history us h0 (by rw [hl]; exact hus)
  refine ⟨fun op h1 h2 => ?_, eq_upper h v⟩
  cases op with
  | eq => exact absurd rfl h1
  | isNull => exact absurd rfl h2
  | lt => exact less_near h t false v
  | le => exact less_near h t true v
  | gt => exact greater_near h t false v
  | ge => exact greater_near h t true v

/-- **C70.**  A learned continuous leaf has bins of equal width, and answers IS NULL with the right fraction. -/
theorem C70_continuous_learned (lo hi : ℚ) (nb : Nat) (col : List (Option ℚ)) (hne : ∃ y, some y ∈ col) (t : EvalType) (v : ℚ) :
    (learnCont lo hi nb col).eval t .isNull v = fracCol col .isNull v ∧
    (learnCont lo hi nb col).bins.map (·.upper) = (List.range nb).map fun (i : Nat) => lo + ((i : ℚ) + 1) * ((hi - lo) / nb) := by
  have hall : col.all (fun x => x.isNone) ≠ true := by
    intro hall
    obtain ⟨y, hy⟩ := hne
    have := List.all_eq_true.mp hall _ hy
    simp at this
  have hs : (fun x : Option ℚ => x.isNone) = sat .isNull v := by funext x; cases x <;> rfl
  unfold learnCont
  rw [if_neg hall]
  refine ⟨?_, ?_⟩
  · simp only [CLeaf.eval, fracCol, hs]
  · simp only
    rw [cumulC_upper]
    have : ∀ (vals : List ℚ) (bs : List CBin), (vals.foldl (countC lo) bs).map (·.upper) = bs.map (·.upper) := by
      intro vals
      induction vals with
      | nil => intro bs; rfl
      | cons y vals ih =>
        intro bs
        rw [List.foldl_cons, ih]
        unfold countC
        split
        · rfl
        · exact putBin_upper y bs
    rw [this]
    simp [emptyBins]

/-! ### Violations -/

/-- **C70, violated.**  The type of evaluation has no influence: what is called an approximation and an upper bound is the lower bound. -/
theorem C70_bug_eval_type (x : CLeaf) (t t' : EvalType) (op : Op) (v : ℚ) : x.eval t op v = x.eval t' op v := by
  have hs : ∀ A U L : ℚ, switchEval t A U L = switchEval t' A U L := fun A U L => by cases t <;> cases t' <;> rfl
  cases op <;> simp only [CLeaf.eval, CLeaf.evalLess, CLeaf.evalGreater, hs]

/-- The column 0, 1, …, 7. -/
def exCol : List (Option ℚ) := [some 0, some 1, some 2, some 3, some 4, some 5, some 6, some 7]

/-- **C70, violated.**  0, …, 7 in four bins: the upper bound for `< 5` is 1/2, and the fraction is 5/8. -/
theorem C70_bug_upper_bound : (learnCont 0 7 4 exCol).eval .upper .lt 5 = 1 / 2 ∧ fracCol exCol .lt 5 = 5 / 8 := by decide +kernel

/-- **C70, violated.**  After the least value has been deleted, the leaf counts it twice: `≤ 0` has the probability 2/7, and `≥ 0` more than 1. -/
theorem C70_bug_delete_lower_bound : ((learnCont 0 7 4 exCol).delete 0).eval .approximate .le 0 = 2 / 7 ∧
    ((learnCont 0 7 4 exCol).delete 0).eval .approximate .ge 0 = 9 / 7 ∧ fracCol (exCol.erase (some 0)) .le 0 = 0 := by decide +kernel

/-- **C70, violated.**  A continuous leaf of a column of NULLs does not find a negative value that is inserted. -/
theorem C70_bug_continuous_null : ((learnCont 0 0 2 [none]).insert (-5)).eval .approximate .eq (-5) = 0 ∧
    fracCol [none, some (-5)] .eq (-5) = 1 / 2 := by decide +kernel

/-- **C70, violated.**  An insertion leaves the probability of NULL as it is: 1, NULL and then 2. -/
theorem C70_bug_null_stale : ask (insertLeaf 2 (learnLeaf [some 1, none])) .isNull 0 = 1 / 2 ∧ fracCol [some 1, none, some 2] .isNull 0 = 1 / 3 := by
  decide +kernel

/-- **C70, violated.**  A deletion leaves the number of distinct values as it is. -/
theorem C70_bug_distinct_stale : (deleteLeaf 2 (learnLeaf [some 1, some 2])).distincts 0 = 2 ∧ (deleteLeaf 2 (learnLeaf [some 1, some 2])).rows = 1 := by
  decide +kernel

/-- Rows with two attributes. -/
def exRow (x y : ℚ) : Row := fun a => some (if a = 0 then x else y)

/-- Both attributes are independent. -/
def exProd : Shape := .prod (.cons [0] .leaf (.cons [1] .leaf .nil))

/-- Two clusters, the first of which has one cluster. -/
def exSums : Shape := .sum (.cons [exRow 1 1] (.sum (.cons [exRow 1 1] exProd .nil)) (.cons [exRow 5 5] exProd .nil))

theorem exProd_valid (rows : List Row) : exProd.Valid [0, 1] rows := by
  refine ⟨⟨⟨0, rfl⟩, ⟨1, rfl⟩, trivial⟩, ?_, by decide⟩
  exact List.Perm.refl _

/-- **C70, violated.**  With clusters inside a cluster, an insertion counts the row twice: after it, the condition that all rows meet has the
probability 7/9. -/
theorem C70_bug_nested_sums : exSums.Valid [0, 1] [exRow 1 1, exRow 5 5] ∧
    likelihood ((exSums.learn [0, 1] [exRow 1 1, exRow 5 5]).update false (fun _ => 0) (fun _ => 2) [0, 1] 0) [(0, (.ge, 0))] = 7 / 9 ∧
    frac [exRow 1 1, exRow 5 5, full fun _ => 2] 0 .ge 0 = 1 := by
  refine ⟨⟨⟨by simp, ⟨⟨by simp, exProd_valid _, trivial⟩, List.Perm.refl _⟩, by simp, exProd_valid _, trivial⟩, List.Perm.refl _⟩, ?_, ?_⟩ <;>
    decide +kernel

/-- Two clusters. -/
def exTwo : Shape := .sum (.cons [exRow 1 1, exRow 2 2] exProd (.cons [exRow 5 5] exProd .nil))

/-- **C70, violated.**  A deletion from a network with clusters adds a row: after the deletion of (2, 2) from (1, 1), (2, 2), (5, 5) there are four rows,
and three quarters of them are the one in the first cluster. -/
theorem C70_bug_delete_adds : exTwo.Valid [0, 1] [exRow 1 1, exRow 2 2, exRow 5 5] ∧
    ((exTwo.learn [0, 1] [exRow 1 1, exRow 2 2, exRow 5 5]).update true (fun _ => 0) (fun _ => 2) [0, 1] 0).rows = 4 ∧
    likelihood ((exTwo.learn [0, 1] [exRow 1 1, exRow 2 2, exRow 5 5]).update true (fun _ => 0) (fun _ => 2) [0, 1] 0) [(0, (.eq, 1))] = 3 / 4 ∧
    frac [exRow 1 1, exRow 5 5] 0 .eq 1 = 1 / 2 := by
  refine ⟨⟨⟨by simp, exProd_valid _, by simp, exProd_valid _, trivial⟩, List.Perm.refl _⟩, ?_, ?_, ?_⟩ <;> decide +kernel

/-! ### Examples -/

/-- The hypotheses of `C70_conditions_bounded`, and of the theorems for one condition. -/
example : exSums.Valid [0, 1] [exRow 1 1, exRow 5 5] ∧ (([(0, (.lt, 3)), (1, (.ge, 1))] : Filter).map (·.1)).Nodup ∧
    (∀ e ∈ ([(0, (.lt, 3)), (1, (.ge, 1))] : Filter), e.1 ∈ [0, 1]) ∧
    likelihood (exSums.learn [0, 1] [exRow 1 1, exRow 5 5]) [(0, (.lt, 3)), (1, (.ge, 1))] = 1 / 2 :=
  ⟨C70_bug_nested_sums.1, by decide, by decide, by decide +kernel⟩

/-- The hypotheses of `C70_insertions_partial`. -/
example : exProd.Valid [0, 1] [exRow 1 1, exRow 5 5] ∧ exProd.NoSum := ⟨exProd_valid _, trivial, trivial, trivial⟩

/-- A history for `C70_leaf_updates_partial`. -/
example : UpdsOk [some 1, none] [.ins 2, .ins 2, .del 1, .del 2] := by
  refine ⟨by decide, by decide, by decide, by decide, trivial⟩

/-- A history for `C70_continuous_partial`. -/
example : UpdsOkC 0 exCol [.ins (-1), .ins 9, .del 0, .del 5] := by
  refine ⟨by decide +kernel, by decide +kernel, by decide +kernel, by decide +kernel, by decide +kernel, by decide +kernel, trivial⟩

end Mutable.SumProd
