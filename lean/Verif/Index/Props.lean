import Verif.Index.Model
import Verif.Index.Regression
/-!
# C27, C28: index lookups
-/
namespace Mutable.Index

variable {K : Type} [LinearOrder K]

/-! ### Specification -/

/-- The histories of an index: `added` are the entries added so far. -/
inductive Hist : Idx K → List (K × Nat) → Prop where
  | init : Hist Idx.init []
  | add {s l} (k v) : Hist s l → Hist (s.add k v) (l ++ [(k, v)])
  | finalize {s s' l} : Hist s l → s.Finalize s' → Hist s' l

/-- `i` is the first position of the array whose key satisfies `q` (the length of the array if there is none). -/
def IsFirst (es : List (K × Nat)) (q : K → Prop) (i : Nat) : Prop :=
  i ≤ es.length ∧ (∀ e ∈ es.take i, ¬ q e.1) ∧ ∀ e ∈ es.drop i, q e.1

/-! ### Binary search -/

/-- Up to `m`, `p` holds, from there on it does not. -/
structure Split (p : Nat → Bool) (lo hi m : Nat) : Prop where
  ge : lo ≤ m
  le : m ≤ hi
  left : ∀ i, lo ≤ i → i < m → p i = true
  right : ∀ i, m ≤ i → i < hi → p i = false

theorem bsearch_spec {p : Nat → Bool} {first len m : Nat} (S : Split p first (first + len) m) : bsearch p first len = m := by
  induction len using Nat.strong_induction_on generalizing first with
  | _ len ih =>
    unfold bsearch
    by_cases h : len = 0
    · rw [dif_pos h]; have := S.ge; have := S.le; omega
    · rw [dif_neg h]
      simp only
      cases hp : p (first + len / 2) with
      | true =>
        rw [if_pos rfl]
        have hm : first + len / 2 < m := by
          by_contra hle
          have := S.right (first + len / 2) (by omega) (by omega)
          rw [hp] at this; simp at this
        refine ih (len - len / 2 - 1) (by omega) ⟨by omega, by have := S.le; omega, fun i h1 h2 => S.left i (by omega) h2, fun i h1 h2 => S.right i h1 (by omega)⟩
      | false =>
        rw [if_neg (by simp)]
        have hm : m ≤ first + len / 2 := by
          by_contra hle
          have := S.left (first + len / 2) (by omega) (by omega)
          rw [hp] at this; simp at this
        exact ih (len / 2) (by omega) ⟨S.ge, by omega, S.left, fun i h1 h2 => S.right i h1 (by omega)⟩

theorem rightLoop_spec {n : Nat} {p : Nat → Bool} {m k prev curr : Nat} (S : Split p 0 n m) (h1 : prev < m) (h2 : prev ≤ curr) :
    let r := rightLoop n p k prev curr
    r.1 < m ∧ r.1 ≤ r.2 ∧ (m ≤ r.2) := by
  induction hd : n - curr using Nat.strong_induction_on generalizing k prev curr with
  | _ d ih =>
    unfold rightLoop
    by_cases h : curr < n ∧ p curr
    · rw [dif_pos h]
      have hm : curr < m := by
        by_contra hle
        have := S.right curr (by omega) h.1
        rw [this] at h; simp at h
      have := Nat.two_pow_pos (k + 1)
      exact ih (n - (curr + 2 ^ (k + 1))) (by omega) hm (by omega) rfl
    · rw [dif_neg h]
      refine ⟨h1, h2, ?_⟩
      simp only
      by_contra hlt
      have := S.le
      exact h ⟨by omega, S.left curr (by omega) (by omega)⟩

theorem leftLoop_spec {n : Nat} {p : Nat → Bool} {m k : Nat} {prev curr : Int} (S : Split p 0 n m) (h1 : (m : Int) ≤ prev) (h2 : curr < prev) (hn : prev ≤ n) :
    let r := leftLoop p k prev curr
    (m : Int) ≤ r.1 ∧ r.1 ≤ n ∧ max 0 r.2 ≤ m := by
  induction hd : curr.toNat using Nat.strong_induction_on generalizing k prev curr with
  | _ d ih =>
    unfold leftLoop
    by_cases h : 0 < curr ∧ !p curr.toNat
    · rw [dif_pos h]
      have hm : (m : Int) ≤ curr := by
        by_contra hlt
        have := S.left curr.toNat (by omega) (by omega)
        rw [this] at h; simp at h
      have hpos : (0:Int) < 2 ^ (k + 1) := by positivity
      exact ih (curr - 2 ^ (k + 1)).toNat (by omega) hm (by omega) (by omega) rfl
    · rw [dif_neg h]
      refine ⟨h1, hn, ?_⟩
      simp only
      by_cases h0 : 0 < curr
      · have hp : p curr.toNat = true := by
          by_contra hne; exact h ⟨h0, by simpa using hne⟩
        have : curr.toNat < m := by
          by_contra hle
          have := S.right curr.toNat (by omega) (by omega)
          rw [hp] at this; simp at this
        omega
      · omega

theorem expSearch_spec {n : Nat} {p : Nat → Bool} {m pred : Nat} (S : Split p 0 n m) (hp : pred < n ∨ (pred = n ∧ p n = false)) :
    expSearch n p pred = m := by
  unfold expSearch
  cases h : p pred with
  | true =>
    have hlt : pred < n := by
      rcases hp with hp | ⟨rfl, hp⟩
      · exact hp
      · rw [hp] at h; simp at h
    rw [if_pos rfl]
    have hm : pred < m := by
      by_contra hle
      have := S.right pred (by omega) hlt
      rw [h] at this; simp at this
    obtain ⟨a1, a2, a3⟩ := rightLoop_spec (k := 0) S hm (show pred ≤ pred + 1 by omega)
    have := S.le
    simp only
    apply bsearch_spec
    exact ⟨by omega, by omega, fun i h1 h2 => S.left i (by omega) h2, fun i h1 h2 => S.right i h1 (by omega)⟩
  | false =>
    rw [if_neg (by simp)]
    have hm : m ≤ pred := by
      by_contra hlt
      have := S.left pred (by omega) (by omega)
      rw [h] at this; simp at this
    obtain ⟨a1, a2, a3⟩ := leftLoop_spec (k := 0) S (show (m : Int) ≤ (pred : Int) by omega) (show (pred : Int) - 1 < pred by omega) (by omega)
    simp only
    generalize leftLoop p 0 pred ((pred : Int) - 1) = r at *
    apply bsearch_spec
    exact ⟨by omega, by omega, fun i h1 h2 => S.left i (by omega) h2, fun i h1 h2 => S.right i h1 (by omega)⟩

/-! ### Sorted arrays -/

theorem split_of_first {es : List (K × Nat)} {junk : K} {q : K → Prop} [DecidablePred q] {i : Nat} (h : IsFirst es q i) :
    Split (fun j => decide (¬ q (keyAt es junk j))) 0 es.length i := by
  refine ⟨by omega, h.1, fun j _ hj => ?_, fun j hj hl => ?_⟩
  · have hjl : j < es.length := by have := h.1; omega
    have : es[j] ∈ es.take i := List.mem_take_iff_getElem.2 ⟨j, by omega, rfl⟩
    simp [keyAt, hjl, h.2.1 _ this]
  · have : es[j] ∈ es.drop i := List.mem_drop_iff_getElem.2 ⟨j - i, by omega, by congr 1; omega⟩
    simp [keyAt, hl, h.2.2 _ this]

theorem exists_first {es : List (K × Nat)} {q : K → Prop} [DecidablePred q] (hs : es.Pairwise fun a b => q a.1 → q b.1) : ∃ i, IsFirst es q i := by
  induction es with
  | nil => exact ⟨0, by simp [IsFirst]⟩
  | cons e t ih =>
    obtain ⟨h1, h2⟩ := List.pairwise_cons.1 hs
    by_cases hq : q e.1
    · exact ⟨0, by simp, by simp, by simp only [List.drop_zero, List.mem_cons]; rintro x (rfl | hx); exacts [hq, h1 x hx hq]⟩
    · obtain ⟨i, a1, a2, a3⟩ := ih h2
      refine ⟨i + 1, by simpa using a1, ?_, by simpa using a3⟩
      intro x hx
      rw [List.take_succ_cons, List.mem_cons] at hx
      rcases hx with rfl | hx
      · exact hq
      · exact a2 x hx

theorem hist_entries {s : Idx K} {l} (h : Hist s l) : s.entries.Perm l := by
  induction h with
  | init => exact List.Perm.refl _
  | add k v _ ih => exact ih.append_right _
  | finalize _ hf ih => exact hf.1.trans ih

theorem hist_sorted {s : Idx K} {l} (h : Hist s l) (hf : s.finalized = true) : s.entries.Pairwise (fun a b => a.1 ≤ b.1) := by
  cases h with
  | init => simp [Idx.init]
  | add => simp [Idx.add] at hf
  | finalize _ h => exact h.2.1.imp fun h => not_lt.1 h

theorem first_exists {s : Idx K} {l} (h : Hist s l) (hf : s.finalized = true) (key : K) :
    (∃ i, IsFirst s.entries (fun k => ¬ k < key) i) ∧ ∃ i, IsFirst s.entries (fun k => key < k) i :=
  ⟨exists_first ((hist_sorted h hf).imp fun hab hq => not_lt.2 (le_trans (not_lt.1 hq) hab)),
   exists_first ((hist_sorted h hf).imp fun hab hq => lt_of_lt_of_le hq hab)⟩

/-! ### C27 -/

/-- In every history, a finalized index holds exactly the added entries, sorted by key. -/
theorem C27_entries {s : Idx K} {l} (h : Hist s l) :
    s.entries.Perm l ∧ (s.finalized = true → s.entries.Pairwise fun a b => a.1 ≤ b.1) := ⟨hist_entries h, hist_sorted h⟩

/-- `lower_bound` returns the first position with a key that is not less than the probe. -/
theorem C27_lower_bound {s : Idx K} {l} (h : Hist s l) (hf : s.finalized = true) (junk key : K) :
    ∃ i, s.lowerBound junk key = some i ∧ IsFirst s.entries (fun k => ¬ k < key) i := by
  obtain ⟨i, hi⟩ := (first_exists h hf key).1
  refine ⟨i, ?_, hi⟩
  have S := split_of_first (junk := junk) hi
  simp only [not_not] at S
  unfold Idx.lowerBound
  rw [if_pos hf, bsearch_spec (by simpa using S)]

/-- `upper_bound` returns the first position with a key that is greater than the probe. -/
theorem C27_upper_bound {s : Idx K} {l} (h : Hist s l) (hf : s.finalized = true) (junk key : K) :
    ∃ i, s.upperBound junk key = some i ∧ IsFirst s.entries (fun k => key < k) i := by
  obtain ⟨i, hi⟩ := (first_exists h hf key).2
  refine ⟨i, ?_, hi⟩
  have S := split_of_first (junk := junk) hi
  unfold Idx.upperBound
  rw [if_pos hf, bsearch_spec (m := i)]
  simpa only [decide_not, Nat.zero_add] using S

/-- The entries between `lower_bound(key)` and `upper_bound(key)` are exactly the entries added with that key. -/
theorem C27_range {s : Idx K} {l} (h : Hist s l) (hf : s.finalized = true) (junk key : K) :
    ∃ i j, s.lowerBound junk key = some i ∧ s.upperBound junk key = some j ∧ i ≤ j ∧
      ((s.entries.take j).drop i).Perm (l.filter fun e => e.1 = key) := by
  obtain ⟨i, ei, i1, i2, i3⟩ := C27_lower_bound h hf junk key
  obtain ⟨j, ej, j1, j2, j3⟩ := C27_upper_bound h hf junk key
  have hij : i ≤ j := by
    by_contra hlt
    have hjl : j < s.entries.length := by omega
    have h1 := i2 s.entries[j] (List.mem_take_iff_getElem.2 ⟨j, by omega, rfl⟩)
    have h2 := j3 s.entries[j] (List.mem_drop_iff_getElem.2 ⟨0, by omega, by simp⟩)
    simp only [not_not] at h1
    exact absurd h2 (not_lt.2 h1.le)
  refine ⟨i, j, ei, ej, hij, ?_⟩
  refine List.Perm.trans ?_ ((hist_entries h).filter _)
  have e : s.entries = s.entries.take i ++ ((s.entries.take j).drop i ++ s.entries.drop j) := by
    have e1 : s.entries.take j = s.entries.take i ++ (s.entries.take j).drop i := by
      conv_lhs => rw [← List.take_append_drop i (s.entries.take j)]
      rw [List.take_take, min_eq_left hij]
    rw [← List.append_assoc, ← e1, List.take_append_drop]
  have f1 : (s.entries.take i).filter (fun e => decide (e.1 = key)) = [] := by
    rw [List.filter_eq_nil_iff]
    intro x hx
    have := i2 x hx
    simp only [not_not] at this
    simpa using this.ne
  have f3 : (s.entries.drop j).filter (fun e => decide (e.1 = key)) = [] := by
    rw [List.filter_eq_nil_iff]
    intro x hx
    have := j3 x hx
    simpa using this.ne'
  have f2 : ((s.entries.take j).drop i).filter (fun e => decide (e.1 = key)) = (s.entries.take j).drop i := by
    rw [List.filter_eq_self]
    intro x hx
    have h1 := j2 x (List.mem_of_mem_drop hx)
    have h2 : x ∈ s.entries.drop i := by
      rw [List.drop_take] at hx
      exact List.mem_of_mem_take hx
    have h3 := i3 x h2
    simpa using le_antisymm (not_lt.1 h1) (not_lt.1 h3)
  have : s.entries.filter (fun e => decide (e.1 = key)) = (s.entries.take j).drop i := by
    rw [e, List.filter_append, List.filter_append, f1, f3, List.nil_append, List.append_nil, ← e]
    exact f2
  rw [this]

/-- Before `finalize()`, also after entries have been added to a finalized index, lookups throw. -/
theorem C27_not_finalized {s : Idx K} (junk key k : K) (v : Nat) :
    (s.add k v).lowerBound junk key = none ∧ (s.add k v).upperBound junk key = none ∧
    (Idx.init : Idx K).lowerBound junk key = none ∧ (Idx.init : Idx K).upperBound junk key = none := by
  simp [Idx.lowerBound, Idx.upperBound, Idx.add, Idx.init]

/-! ### C28 -/

/-- Whenever the prediction is the position of an entry, `RecursiveModelIndex` finds the same position as `ArrayIndex`,
however wrong the prediction is. -/
theorem C28_rmi_equals_array_partial {s : Idx K} {l} (h : Hist s l) (hf : s.finalized = true) (junk : K) (predict : K → Nat) (key : K)
    (hp : predict key < s.entries.length) :
    s.rmiLowerBound junk predict key = s.lowerBound junk key ∧ s.rmiUpperBound junk predict key = s.upperBound junk key := by
  obtain ⟨i, ei, hi⟩ := C27_lower_bound h hf junk key
  obtain ⟨j, ej, hj⟩ := C27_upper_bound h hf junk key
  have S1 := split_of_first (junk := junk) hi
  have S2 : Split (fun i => !decide (key < keyAt s.entries junk i)) 0 s.entries.length j := by
    have := split_of_first (junk := junk) hj
    simpa only [decide_not] using this
  simp only [not_not] at S1
  rw [ei, ej]
  unfold Idx.rmiLowerBound Idx.rmiUpperBound
  rw [if_pos hf, if_pos hf, expSearch_spec (by simpa using S1) (Or.inl hp), expSearch_spec (m := j) S2 (Or.inl hp)]
  exact ⟨rfl, rfl⟩

/-- If the prediction is one past the last entry, the memory behind the array is read. The result is right if that
compares like an end marker. -/
theorem C28_end_prediction_partial {s : Idx K} {l} (h : Hist s l) (hf : s.finalized = true) (junk : K) (predict : K → Nat) (key : K)
    (hp : predict key = s.entries.length) :
    (key ≤ junk → s.rmiLowerBound junk predict key = s.lowerBound junk key) ∧
    (key < junk → s.rmiUpperBound junk predict key = s.upperBound junk key) := by
  obtain ⟨i, ei, hi⟩ := C27_lower_bound h hf junk key
  obtain ⟨j, ej, hj⟩ := C27_upper_bound h hf junk key
  have S1 := split_of_first (junk := junk) hi
  have S2 : Split (fun i => !decide (key < keyAt s.entries junk i)) 0 s.entries.length j := by
    have := split_of_first (junk := junk) hj
    simpa only [decide_not] using this
  simp only [not_not] at S1
  rw [ei, ej]
  unfold Idx.rmiLowerBound Idx.rmiUpperBound
  rw [if_pos hf, if_pos hf]
  refine ⟨fun hk => ?_, fun hk => ?_⟩
  · rw [expSearch_spec (by simpa using S1) (Or.inr ⟨hp, by simp [keyAt, hk]⟩)]
  · rw [expSearch_spec (m := j) S2 (Or.inr ⟨hp, by simp [keyAt, hk]⟩)]

/-- The models of the second layer are least-squares fits (in exact arithmetic): on the keys it is trained with, no line
has a smaller sum of squared errors against the positions of the keys. -/
theorem C28_regression_least_squares (xs : List Rat) (offset : Nat) (m : Linear) (hn : xs ≠ []) :
    sse (trainRegression xs offset 1) xs offset ≤ sse m xs offset := trainRegression_optimal xs offset m hn

/-- Keys that lie on a line get their exact positions as predictions. -/
theorem C28_regression_exact (xs : List Rat) (offset : Nat) (m : Linear) (h : ∀ i (hi : i < xs.length), m.eval xs[i] = (offset + i : Nat)) :
    ∀ i (hi : i < xs.length), (trainRegression xs offset 1).eval xs[i] = (offset + i : Nat) := by
  have hz : ∀ (xs : List Rat) (offset : Nat), (∀ i (hi : i < xs.length), m.eval xs[i] = (offset + i : Nat)) → sse m xs offset = 0 := by
    intro xs
    induction xs with
    | nil => intros; rfl
    | cons x t ih =>
      intro o h
      have h0 := h 0 (by simp)
      simp only [List.getElem_cons_zero, Nat.add_zero] at h0
      rw [sse, h0, ih (o + 1) (fun i hi => by
        have := h (i + 1) (by simpa using hi)
        simp only [List.getElem_cons_succ] at this
        rw [this]; congr 1; omega)]
      ring
  have hp : ∀ (m : Linear) (xs : List Rat) (offset : Nat), 0 ≤ sse m xs offset ∧
      (sse m xs offset = 0 → ∀ i (hi : i < xs.length), m.eval xs[i] = (offset + i : Nat)) := by
    intro m xs
    induction xs with
    | nil => intro o; exact ⟨le_rfl, fun _ i hi => absurd hi (by simp)⟩
    | cons x t ih =>
      intro o
      obtain ⟨g1, g2⟩ := ih (o + 1)
      have hsq := sq_nonneg (m.eval x - (o : Rat))
      refine ⟨by rw [sse]; linarith, fun h => ?_⟩
      rw [sse] at h
      have e1 : (m.eval x - (o : Rat)) ^ 2 = 0 := by linarith
      have e2 : sse m t (o + 1) = 0 := by linarith
      intro i hi
      cases i with
      | zero =>
        have : m.eval x - (o : Rat) = 0 := by simpa using e1
        simp only [List.getElem_cons_zero, Nat.add_zero]
        linarith
      | succ i =>
        have := g2 e2 i (by simpa using hi)
        simp only [List.getElem_cons_succ]
        rw [this]; congr 1; omega
  intro i hi
  have hn : xs ≠ [] := by rintro rfl; exact absurd hi (by simp)
  have h1 := trainRegression_optimal xs offset m hn
  rw [hz xs offset h] at h1
  exact (hp _ xs offset).2 (le_antisymm h1 (hp _ xs offset).1) i hi

/-- Keys 10, 20, 30 at the positions 4, 5, 6 lie on a line. -/
example : ∀ i (hi : i < [10, 20, 30].length), (⟨1 / 10, 3⟩ : Linear).eval ([10, 20, 30] : List Rat)[i] = (4 + i : Nat) := by
  intro i hi
  match i, hi with
  | 0, _ => norm_num [Linear.eval]
  | 1, _ => norm_num [Linear.eval]
  | 2, _ => norm_num [Linear.eval]

/-- The trained predictor clamps to the number of entries, so it can predict the position behind the last entry. -/
theorem C28_prediction_range (models : List Linear) (n : Nat) (key : Rat) : Mutable.Index.predict models n key ≤ n := by
  unfold Mutable.Index.predict clampNat
  simp only
  generalize (models.getD _ _).eval key = v
  split
  · omega
  · split
    · omega
    · next h =>
      have : v.floor ≤ (n : Int) := by
        have h1 : v ≤ ((n : Int) : Rat) := by simpa using not_lt.1 h
        have h2 := Rat.floor_le v
        exact_mod_cast (le_trans h2 h1)
      omega

/-- **Found defect**: keys 0 (18 times), 10 and 20.  The model trained by `finalize()` predicts position 20 (one past the
end) for the key 20, the zero-initialised memory behind the array compares less, and the lookup of an existing key
returns `end()`. -/
theorem C28_misses_existing_key :
    let xs : List Rat := List.replicate 18 0 ++ [10, 20]
    let s : Idx Rat := { entries := xs.zipIdx, finalized := true }
    let predict := Mutable.Index.predict (train xs (1 / 100)) xs.length
    Hist s xs.zipIdx ∧ s.lowerBound 0 20 = some 19 ∧ s.rmiLowerBound 0 predict 20 = some 20 := by
  intro xs s predict
  refine ⟨?_, ?_, ?_⟩
  · have hadd : ∀ l : List (Rat × Nat), ∃ s : Idx Rat, Hist s l ∧ s.entries = l := by
      intro l
      suffices H : ∀ l : List (Rat × Nat), ∃ s : Idx Rat, Hist s l.reverse ∧ s.entries = l.reverse by
        simpa using H l.reverse
      intro l
      induction l with
      | nil => exact ⟨_, .init, rfl⟩
      | cons e l ih => obtain ⟨s, h, e'⟩ := ih; exact ⟨_, by simpa using Hist.add e.1 e.2 h, by simp [Idx.add, e']⟩
    obtain ⟨s0, h0, e0⟩ := hadd xs.zipIdx
    refine .finalize h0 ⟨by rw [e0], ?_, rfl⟩
    decide +kernel
  · decide +kernel
  · decide +kernel

/-! ### Witness -/

example : ∃ s : Idx Nat, Hist s [(5, 0), (3, 1), (5, 2)] ∧ s.finalized = true ∧ s.entries = [(3, 1), (5, 2), (5, 0)] :=
  ⟨⟨[(3, 1), (5, 2), (5, 0)], true⟩, .finalize (.add 5 2 (.add 3 1 (.add 5 0 .init))) ⟨by decide, by simp, rfl⟩, rfl, rfl⟩

end Mutable.Index
