import Verif.Interp.Join
import Mathlib.Data.Rat.Cast.Order
import Mathlib.Data.List.Induction
import Mathlib.Data.List.Lex
import Mathlib.Algebra.Order.Field.Basic

/-! Aggregation, grouping and sorting. -/
namespace Mutable.Interp

variable {σ T V : Type}

/-! ### Aggregates -/

theorem argVals_snoc (arg : T → Option ℚ) (ts : List T) (t : T) :
    argVals arg (ts ++ [t]) = argVals arg ts ++ (arg t).toList := by
  unfold argVals
  rw [List.filterMap_append]
  cases h : arg t <;> simp [h]

/-- What the running aggregate is after the tuples `ts`, for arbitrary arguments. -/
def Running (a : Agg T) (ts : List T) (v : Option ℚ) : Prop :=
  match a with
  | .countStar => v.getD 0 = (ts.length : ℚ) ∧ (ts ≠ [] → v ≠ none)
  | .count arg => v.getD 0 = ((argVals arg ts).length : ℚ) ∧ (ts ≠ [] → v ≠ none)
  | .sum arg => v.getD 0 = (argVals arg ts).sum ∧ (ts ≠ [] → v ≠ none)
  | .avg arg => ((∀ t ∈ ts, arg t ≠ none) → v.getD 0 * (ts.length : ℚ) = (argVals arg ts).sum) ∧ (ts ≠ [] → v ≠ none)
  | .min arg => AggSpec (.min arg) ts v
  | .max arg => AggSpec (.max arg) ts v

theorem running_step (a : Agg T) (ts : List T) (v : Option ℚ) (t : T) (h : Running a ts v) :
    Running a (ts ++ [t]) (a.step (ts.length + 1) v t) := by
  cases a with
  | countStar =>
    obtain ⟨h1, _⟩ := h
    simp [Running, Agg.step, h1]
  | count arg =>
    obtain ⟨h1, _⟩ := h
    refine ⟨?_, fun _ => by simp [Agg.step]⟩
    rw [argVals_snoc]
    cases ha : arg t <;> simp [Agg.step, ha, h1]
  | sum arg =>
    obtain ⟨h1, _⟩ := h
    refine ⟨?_, fun _ => by cases ha : arg t <;> simp [Agg.step, ha]⟩
    rw [argVals_snoc]
    cases ha : arg t <;> simp [Agg.step, ha, h1]
  | avg arg =>
    obtain ⟨h1, _⟩ := h
    refine ⟨?_, fun _ => by cases ha : arg t <;> simp [Agg.step, ha]⟩
    intro hall
    have h2 := h1 fun u hu => hall u (by simp [hu])
    obtain ⟨x, hx⟩ := Option.ne_none_iff_exists'.mp (hall t (by simp))
    rw [argVals_snoc]
    simp only [hx, Option.toList_some, List.sum_append, List.sum_cons, List.sum_nil, Agg.step, Option.getD_some,
      List.length_append, List.length_singleton]
    rw [← h2]
    have : ((ts.length + 1 : ℕ) : ℚ) ≠ 0 := by exact_mod_cast Nat.succ_ne_zero ts.length
    field_simp
    push_cast
    ring
  | min arg =>
    simp only [Running, AggSpec] at h ⊢
    rw [argVals_snoc]
    cases ha : arg t with
    | none => simpa [Agg.step, ha] using h
    | some x =>
      by_cases he : argVals arg ts = []
      · rw [if_pos he] at h
        simp [Agg.step, ha, he, h]
      · rw [if_neg he] at h
        obtain ⟨m, hm, rfl, hle⟩ := h
        rw [if_neg (by simp)]
        simp only [Agg.step, ha, Option.toList_some, List.mem_append, List.mem_singleton]
        by_cases hlt : x < m
        · refine ⟨x, Or.inr rfl, by simp [hlt], ?_⟩
          rintro y (hy | rfl)
          · exact le_trans hlt.le (hle y hy)
          · exact le_refl _
        · refine ⟨m, Or.inl hm, by simp [hlt], ?_⟩
          rintro y (hy | rfl)
          · exact hle y hy
          · exact not_lt.mp hlt
  | max arg =>
    simp only [Running, AggSpec] at h ⊢
    rw [argVals_snoc]
    cases ha : arg t with
    | none => simpa [Agg.step, ha] using h
    | some x =>
      by_cases he : argVals arg ts = []
      · rw [if_pos he] at h
        simp [Agg.step, ha, he, h]
      · rw [if_neg he] at h
        obtain ⟨m, hm, rfl, hle⟩ := h
        rw [if_neg (by simp)]
        simp only [Agg.step, ha, Option.toList_some, List.mem_append, List.mem_singleton]
        by_cases hlt : m < x
        · refine ⟨x, Or.inr rfl, by simp [hlt], ?_⟩
          rintro y (hy | rfl)
          · exact le_trans (hle y hy) hlt.le
          · exact le_refl _
        · refine ⟨m, Or.inl hm, by simp [hlt], ?_⟩
          rintro y (hy | rfl)
          · exact hle y hy
          · exact not_lt.mp hlt

theorem argVals_length (arg : T → Option ℚ) (ts : List T) (h : ∀ t ∈ ts, arg t ≠ none) :
    (argVals arg ts).length = ts.length := by
  unfold argVals
  induction ts with
  | nil => rfl
  | cons t ts ih =>
    obtain ⟨x, hx⟩ := Option.ne_none_iff_exists'.mp (h t (by simp))
    simp [hx, ih fun u hu => h u (by simp [hu])]

/-- For supported aggregates the running value is the SQL aggregate.  (`v ≠ none` holds after the first tuple or, for
`AggregationOperator`, from the beginning.) -/
theorem running_spec (a : Agg T) (ts : List T) (v : Option ℚ) (h : Running a ts v) (hs : a.Supported ts)
    (hv : ts ≠ [] ∨ a.init = none ∨ v ≠ none) : AggSpec a ts v := by
  have key : ∀ x : ℚ, v.getD 0 = x → v ≠ none → v = some x := by
    intro x hx hn
    cases v with
    | none => exact absurd rfl hn
    | some y => simpa using hx
  cases a with
  | countStar =>
    refine key _ h.1 ?_
    rcases hv with hv | hv | hv
    · exact h.2 hv
    · simp [Agg.init] at hv
    · exact hv
  | count arg =>
    refine key _ h.1 ?_
    rcases hv with hv | hv | hv
    · exact h.2 hv
    · simp [Agg.init] at hv
    · exact hv
  | sum arg =>
    have hs' : argVals arg ts ≠ [] := hs
    simp only [AggSpec, if_neg hs']
    refine key _ h.1 (h.2 ?_)
    rintro rfl
    exact hs' rfl
  | avg arg =>
    obtain ⟨hne, hall⟩ := hs
    have hlen := argVals_length arg ts hall
    have hne' : argVals arg ts ≠ [] := by
      intro e
      rw [e] at hlen
      exact hne (List.length_eq_zero_iff.mp hlen.symm)
    simp only [AggSpec, if_neg hne']
    refine key _ ?_ (h.2 hne)
    rw [← h.1 hall, hlen]
    have : (ts.length : ℚ) ≠ 0 := by
      have : ts.length ≠ 0 := fun e => hne (List.length_eq_zero_iff.mp e)
      exact_mod_cast this
    field_simp
  | min arg => exact h
  | max arg => exact h

theorem forall₂_zipWith_step (aggs : List (Agg T)) (vs : List (Option ℚ)) (ts : List T) (n : Nat) (hn : n = ts.length + 1)
    (t : T) (h : List.Forall₂ (fun a v => Running a ts v) aggs vs) :
    List.Forall₂ (fun a v => Running a (ts ++ [t]) v) aggs (List.zipWith (fun a v => a.step n v t) aggs vs) := by
  subst hn
  induction h with
  | nil => exact List.Forall₂.nil
  | cons h1 _ ih => exact List.Forall₂.cons (running_step _ _ _ _ h1) ih

theorem running_nil (a : Agg T) (v : Option ℚ) (h : v = none ∨ v = a.init) : Running a [] v := by
  rcases h with rfl | rfl <;> cases a <;> simp [Running, Agg.init, AggSpec, argVals]

/-- Aggregation without grouping. -/
theorem aggStep_fold (aggs : List (Agg T)) (ts : List T) :
    let s := ts.foldl (aggStep aggs) (0, aggs.map Agg.init)
    s.1 = ts.length ∧ List.Forall₂ (fun a v => Running a ts v ∧ (a.init = none ∨ v ≠ none)) aggs s.2 := by
  induction ts using List.reverseRecOn with
  | nil =>
    refine ⟨rfl, ?_⟩
    simp only [List.foldl_nil]
    rw [List.forall₂_map_right_iff, List.forall₂_same]
    intro a _
    refine ⟨running_nil a _ (Or.inr rfl), ?_⟩
    by_cases h : a.init = none <;> simp [h]
  | append_singleton ts t ih =>
    obtain ⟨h1, h2⟩ := ih
    simp only [List.foldl_append, List.foldl_cons, List.foldl_nil, aggStep]
    refine ⟨by simp [h1], ?_⟩
    rw [h1]
    generalize (ts.foldl (aggStep aggs) (0, aggs.map Agg.init)).2 = vs at h2
    clear h1
    induction h2 with
    | nil => exact List.Forall₂.nil
    | @cons a v as vs' h1 _ ih =>
      refine List.Forall₂.cons ⟨running_step _ _ _ _ h1.1, ?_⟩ ih
      have hh := running_step a ts v t h1.1
      cases a <;> first | exact Or.inl rfl | exact Or.inr (hh.2 (by simp))

/-! ### Grouping -/

open Classical in
/-- The groups after the tuples `ts`. -/
structure GInv [DecidableEq V] (key : T → List (Option V)) (aggs : List (Agg T)) (ts : List T) (gs : List (Group V)) :
    Prop where
  nodup : (gs.map Group.key).Nodup
  keys : ∀ k, k ∈ gs.map Group.key ↔ ∃ t ∈ ts, key t = k
  vals : ∀ g ∈ gs, g.n = (ts.filter fun t => key t = g.key).length ∧
    List.Forall₂ (fun a v => Running a (ts.filter fun t => key t = g.key) v) aggs g.vals

theorem addToGroups_keys [DecidableEq V] (key : T → List (Option V)) (aggs : List (Agg T)) (gs : List (Group V)) (t : T) :
    (addToGroups key aggs gs t).map Group.key =
      if key t ∈ gs.map Group.key then gs.map Group.key else gs.map Group.key ++ [key t] := by
  induction gs with
  | nil => simp [addToGroups, Group.add]
  | cons g gs ih =>
    unfold addToGroups
    by_cases h : g.key = key t
    · simp [h, Group.add]
    · have h' : ¬ key t = g.key := fun e => h e.symm
      rw [if_neg h, List.map_cons, ih, List.map_cons]
      by_cases hm : key t ∈ gs.map Group.key
      · rw [if_pos hm, if_pos (List.mem_cons_of_mem _ hm)]
      · rw [if_neg hm, if_neg (by simp only [List.mem_cons, not_or]; exact ⟨h', hm⟩)]
        rfl

theorem addToGroups_mem [DecidableEq V] (key : T → List (Option V)) (aggs : List (Agg T)) (gs : List (Group V)) (t : T)
    (hn : (gs.map Group.key).Nodup) (g : Group V) (hg : g ∈ addToGroups key aggs gs t) :
    (g ∈ gs ∧ g.key ≠ key t) ∨ (∃ g' ∈ gs, g'.key = key t ∧ g = Group.add aggs g' t) ∨
    (key t ∉ gs.map Group.key ∧ g = Group.add aggs ⟨key t, 0, aggs.map fun _ => none⟩ t) := by
  induction gs with
  | nil =>
    simp only [addToGroups, List.mem_singleton] at hg
    exact Or.inr (Or.inr ⟨by simp, hg⟩)
  | cons g' gs ih =>
    rw [List.map_cons, List.nodup_cons] at hn
    unfold addToGroups at hg
    by_cases h : g'.key = key t
    · rw [if_pos h, List.mem_cons] at hg
      rcases hg with hg | hg
      · exact Or.inr (Or.inl ⟨g', by simp, h, hg⟩)
      · left
        refine ⟨by simp [hg], fun e => hn.1 ?_⟩
        rw [h, ← e]
        exact List.mem_map_of_mem hg
    · rw [if_neg h, List.mem_cons] at hg
      rcases hg with rfl | hg
      · exact Or.inl ⟨by simp, h⟩
      · rcases ih hn.2 hg with ⟨h1, h2⟩ | ⟨g'', h1, h2, h3⟩ | ⟨h1, h2⟩
        · exact Or.inl ⟨by simp [h1], h2⟩
        · exact Or.inr (Or.inl ⟨g'', by simp [h1], h2, h3⟩)
        · refine Or.inr (Or.inr ⟨?_, h2⟩)
          rw [List.map_cons, List.mem_cons, not_or]
          exact ⟨fun e => h e.symm, h1⟩

theorem GInv.step [DecidableEq V] {key : T → List (Option V)} {aggs : List (Agg T)} {ts : List T} {gs : List (Group V)}
    (h : GInv key aggs ts gs) (t : T) : GInv key aggs (ts ++ [t]) (addToGroups key aggs gs t) where
  nodup := by
    rw [addToGroups_keys]
    split
    · exact h.nodup
    · rename_i hm
      rw [List.nodup_append]
      refine ⟨h.nodup, by simp, ?_⟩
      intro a ha b hb e
      rw [List.mem_singleton] at hb
      subst hb e
      exact hm ha
  keys := by
    intro k
    rw [addToGroups_keys]
    split
    · rename_i hm
      rw [h.keys]
      constructor
      · rintro ⟨u, hu, e⟩; exact ⟨u, by simp [hu], e⟩
      · rintro ⟨u, hu, e⟩
        rw [List.mem_append, List.mem_singleton] at hu
        rcases hu with hu | rfl
        · exact ⟨u, hu, e⟩
        · rw [← e]; exact (h.keys _).mp hm
    · rw [List.mem_append, h.keys, List.mem_singleton]
      constructor
      · rintro (⟨u, hu, e⟩ | e)
        · exact ⟨u, by simp [hu], e⟩
        · exact ⟨t, by simp, e.symm⟩
      · rintro ⟨u, hu, e⟩
        rw [List.mem_append, List.mem_singleton] at hu
        rcases hu with hu | rfl
        · exact Or.inl ⟨u, hu, e⟩
        · exact Or.inr e.symm
  vals := by
    intro g hg
    rcases addToGroups_mem key aggs gs t h.nodup g hg with ⟨h1, h2⟩ | ⟨g', h1, h2, rfl⟩ | ⟨h1, rfl⟩
    · have hne : ¬ key t = g.key := fun e => h2 e.symm
      rw [List.filter_append]
      simpa [hne] using h.vals g h1
    · obtain ⟨hn, hv⟩ := h.vals g' h1
      rw [List.filter_append]
      simp only [Group.add, h2, List.filter_cons, decide_true, List.filter_nil, if_true]
      rw [h2] at hn hv
      refine ⟨by simp [hn], ?_⟩
      exact forall₂_zipWith_step aggs _ _ _ (by rw [hn]) t hv
    · rw [List.filter_append]
      have he : (ts.filter fun u => decide (key u = key t)) = [] := by
        rw [List.filter_eq_nil_iff]
        intro u hu
        simp only [decide_eq_true_eq]
        exact fun e => h1 ((h.keys _).mpr ⟨u, hu, e⟩)
      change 0 + 1 = ((ts.filter fun u => decide (key u = key t)) ++ [t].filter fun u => decide (key u = key t)).length ∧
        List.Forall₂ (fun a v => Running a ((ts.filter fun u => decide (key u = key t)) ++
          [t].filter fun u => decide (key u = key t)) v) aggs
          (List.zipWith (fun a v => a.step (0 + 1) v t) aggs (aggs.map fun _ => none))
      rw [he]
      simp only [List.filter_cons, decide_true, List.filter_nil, if_true, List.nil_append]
      refine ⟨rfl, ?_⟩
      have := forall₂_zipWith_step aggs (aggs.map fun _ => none) [] 1 rfl t (by
        rw [List.forall₂_map_right_iff, List.forall₂_same]
        intro a _
        exact running_nil a _ (Or.inl rfl))
      exact this

theorem GInv.fold [DecidableEq V] (key : T → List (Option V)) (aggs : List (Agg T)) (ts : List T) :
    GInv key aggs ts (ts.foldl (addToGroups key aggs) []) := by
  induction ts using List.reverseRecOn with
  | nil => exact ⟨by simp, by simp, by simp⟩
  | append_singleton ts t ih =>
    rw [List.foldl_append]
    exact ih.step t

theorem feed_fold {γ : Type} (f : γ → T → γ) (sink : Sink γ T)
    (h : ∀ s b, (sink s b).st = b.tuples.foldl f s ∧ (sink s b).unwound = false) (s : γ) (bs : List (Blk T)) :
    (feed sink s bs).st = (flat bs).foldl f s := by
  induction bs generalizing s with
  | nil => rfl
  | cons b bs ih =>
    simp only [feed]
    rw [(h s b).2, (h s b).1]
    simp only [Bool.false_eq_true, if_false]
    rw [ih, flat_cons, List.foldl_append]

theorem feed_group [DecidableEq V] (key : T → List (Option V)) (aggs : List (Agg T)) (bs : List (Blk T)) :
    (feed (groupSink key aggs) [] bs).st = (flat bs).foldl (addToGroups key aggs) [] :=
  feed_fold _ _ (fun _ _ => ⟨rfl, rfl⟩) _ _

theorem feed_agg (aggs : List (Agg T)) (bs : List (Blk T)) :
    (feed (aggSink aggs) (0, aggs.map Agg.init) bs).st = (flat bs).foldl (aggStep aggs) (0, aggs.map Agg.init) :=
  feed_fold _ _ (fun _ _ => ⟨rfl, rfl⟩) _ _

/-! ### Sorting -/

theorem strcmp_spec (a b : List Nat) :
    (strcmp a b < 0 ↔ a < b) ∧ (0 < strcmp a b ↔ b < a) ∧ (strcmp a b = 0 ↔ a = b) := by
  induction a generalizing b with
  | nil => cases b <;> simp [strcmp]
  | cons x xs ih =>
    cases b with
    | nil => simp [strcmp]
    | cons y ys =>
      unfold strcmp
      rcases Nat.lt_trichotomy x y with h | h | h
      · have : ¬ y < x := by omega
        have h2 : ¬ y = x := by omega
        have h3 : ¬ x = y := by omega
        simp [h, this, h2, h3, List.cons_lt_cons_iff]
      · subst h
        obtain ⟨h1, h2, h3⟩ := ih ys
        simp [List.cons_lt_cons_iff, h1, h2, h3]
      · have : ¬ x < y := by omega
        have h2 : ¬ y = x := by omega
        have h3 : ¬ x = y := by omega
        simp [h, this, h2, h3, List.cons_lt_cons_iff]

theorem key_cmp_neg (k : Key T) (a b : T) : k.cmp a b < 0 ↔ k.before a b := by
  rcases k with ⟨f, _ | _⟩ | ⟨f, _ | _⟩ <;> simp only [Key.cmp, Key.before]
  · simp only [Bool.false_eq_true, if_false]
    split <;> split <;> omega
  · simp only [if_true]
    split <;> split <;> omega
  · simp only [Bool.false_eq_true, if_false]
    rw [← (strcmp_spec (f a) (f b)).2.1]; omega
  · simp only [if_true]
    rw [← (strcmp_spec (f a) (f b)).1]

theorem key_cmp_zero (k : Key T) (a b : T) : k.cmp a b = 0 ↔ k.same a b := by
  rcases k with ⟨f, _ | _⟩ | ⟨f, _ | _⟩ <;> simp only [Key.cmp, Key.same]
  · simp only [Bool.false_eq_true, if_false]
    split <;> split <;> omega
  · simp only [if_true]
    split <;> split <;> omega
  · simp only [Bool.false_eq_true, if_false]
    rw [← (strcmp_spec (f a) (f b)).2.2]; omega
  · simp only [if_true]
    rw [← (strcmp_spec (f a) (f b)).2.2]

theorem Key.before_trans (k : Key T) {a b c : T} : k.before a b → k.before b c → k.before a c := by
  rcases k with ⟨f, _ | _⟩ | ⟨f, _ | _⟩ <;> simp only [Key.before]
  · intro h1 h2; omega
  · intro h1 h2; omega
  · intro h1 h2; exact List.lt_trans h2 h1
  · intro h1 h2; exact List.lt_trans h1 h2

theorem Key.before_irrefl (k : Key T) (a : T) : ¬ k.before a a := by
  rcases k with ⟨f, _ | _⟩ | ⟨f, _ | _⟩ <;> simp [Key.before]

theorem Key.total (k : Key T) (a b : T) : k.before a b ∨ k.same a b ∨ k.before b a := by
  rcases k with ⟨f, _ | _⟩ | ⟨f, _ | _⟩ <;> simp only [Key.before, Key.same]
  · omega
  · omega
  · rcases lt_trichotomy (f a) (f b) with h | h | h <;> simp [h]
  · rcases lt_trichotomy (f a) (f b) with h | h | h <;> simp [h]

theorem Key.same_before (k : Key T) {a b c : T} : k.same a b → (k.before a c ↔ k.before b c) ∧ (k.before c a ↔ k.before c b) := by
  rcases k with ⟨f, _ | _⟩ | ⟨f, _ | _⟩ <;> simp only [Key.before, Key.same] <;> intro h <;> rw [h] <;> simp

theorem Key.same_symm (k : Key T) {a b : T} : k.same a b → k.same b a := by
  rcases k with ⟨f, _ | _⟩ | ⟨f, _ | _⟩ <;> exact Eq.symm

theorem Key.same_trans (k : Key T) {a b c : T} : k.same a b → k.same b c → k.same a c := by
  rcases k with ⟨f, _ | _⟩ | ⟨f, _ | _⟩ <;> exact Eq.trans

theorem cmpKeys_cons (k : Key T) (ks : List (Key T)) (a b : T) :
    cmpKeys (k :: ks) a b = if k.cmp a b ≠ 0 then k.cmp a b else cmpKeys ks a b := by
  cases ks with
  | nil =>
    simp only [cmpKeys]
    split
    · rfl
    · rename_i h; simpa using h
  | cons k' ks => rfl

/-- The comparator in terms of the specification. -/
theorem lessKeys_iff (ks : List (Key T)) (a b : T) : lessKeys ks a b = true ↔ ¬ InOrder ks b a := by
  unfold lessKeys
  rw [decide_eq_true_eq]
  induction ks with
  | nil => simp [cmpKeys, InOrder]
  | cons k ks ih =>
    rw [cmpKeys_cons]
    unfold InOrder
    by_cases h0 : k.cmp a b = 0
    · rw [if_neg (by simpa using h0), ih]
      have hs := (key_cmp_zero k a b).mp h0
      have hb : ¬ k.before b a := by
        rw [(k.same_before hs).2]
        exact k.before_irrefl b
      have hs' := k.same_symm hs
      constructor
      · rintro h (h1 | h1)
        · exact hb h1
        · exact h h1.2
      · intro h h1
        exact h (Or.inr ⟨hs', h1⟩)
    · rw [if_pos h0, key_cmp_neg]
      have hs : ¬ k.same b a := fun e => h0 ((key_cmp_zero k a b).mpr (k.same_symm e))
      constructor
      · rintro h (h1 | h1)
        · exact k.before_irrefl a (k.before_trans h h1)
        · exact hs h1.1
      · intro h
        rcases k.total a b with h1 | h1 | h1
        · exact h1
        · exact absurd (k.same_symm h1) hs
        · exact absurd (Or.inl h1) h

theorem InOrder.refl (ks : List (Key T)) (a : T) : InOrder ks a a := by
  induction ks with
  | nil => trivial
  | cons k ks ih =>
    refine Or.inr ⟨?_, ih⟩
    rcases k with ⟨f, _ | _⟩ | ⟨f, _ | _⟩ <;> rfl

theorem InOrder.trans (ks : List (Key T)) {a b c : T} : InOrder ks a b → InOrder ks b c → InOrder ks a c := by
  induction ks with
  | nil => intros; trivial
  | cons k ks ih =>
    rintro (h1 | ⟨h1, h1'⟩) (h2 | ⟨h2, h2'⟩)
    · exact Or.inl (k.before_trans h1 h2)
    · exact Or.inl ((k.same_before h2).2.mp h1)
    · exact Or.inl ((k.same_before h1).1.mpr h2)
    · exact Or.inr ⟨k.same_trans h1 h2, ih h1' h2'⟩

theorem InOrder.total (ks : List (Key T)) (a b : T) : InOrder ks a b ∨ InOrder ks b a := by
  induction ks with
  | nil => exact Or.inl trivial
  | cons k ks ih =>
    rcases k.total a b with h | h | h
    · exact Or.inl (Or.inl h)
    · rcases ih with h' | h'
      · exact Or.inl (Or.inr ⟨h, h'⟩)
      · exact Or.inr (Or.inr ⟨k.same_symm h, h'⟩)
    · exact Or.inr (Or.inl h)

theorem sort_spec {srt : (T → T → Bool) → List T → List T} (hs : SortSpec srt) (ks : List (Key T)) (l : List T) :
    (srt (lessKeys ks) l).Perm l ∧ (srt (lessKeys ks) l).Pairwise (InOrder ks) := by
  have hf : ∀ a b, lessKeys ks a b = false ↔ InOrder ks b a := by
    intro a b
    have := lessKeys_iff ks a b
    cases h : lessKeys ks a b
    · simp [h] at this; simpa using this
    · simp [h] at this; simpa using this
  obtain ⟨h1, h2⟩ := hs (lessKeys ks) (fun a => (hf a a).mpr (InOrder.refl ks a)) (by
      intro a b c hab hbc
      rw [lessKeys_iff] at *
      intro hca
      rcases InOrder.total ks a b with h | h
      · exact hbc (InOrder.trans ks hca h)
      · exact hab h) (by
      intro a b c hab hbc
      rw [hf] at *
      exact InOrder.trans ks hbc hab) l
  refine ⟨h1, h2.imp ?_⟩
  intro a b h
  exact (hf b a).mp h

end Mutable.Interp
