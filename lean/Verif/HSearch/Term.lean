import Verif.HSearch.AStar
import Mathlib.Data.Set.Card
import Mathlib.Data.Set.Finite.Lattice
import Mathlib.Data.Set.Finite.Lemmas
/-! A* search: termination, and what a run returns. -/
namespace Mutable.HS
variable {σ K : Type} [DecidableEq σ] [Field K] [LinearOrder K]

/-- `n` iterations of the work list algorithm. -/
inductive Cfg.Steps (cfg : Cfg K) (sp : Space σ K) (md : Method) : Nat → Mgr σ K → Mgr σ K → Prop
  | zero (m : Mgr σ K) : Steps cfg sp md 0 m m
  | succ {n : Nat} {m m' m'' : Mgr σ K} : Steps cfg sp md n m m' → cfg.Iter sp md m' m'' → Steps cfg sp md (n + 1) m m''

/-- The parents lead from `s` back to a state without parent; the actions along this way cost `c`. -/
inductive Trace (sp : Space σ K) (m : Mgr σ K) (s₀ : σ) : σ → K → Prop
  | root {i : Info σ K} : m.map s₀ = some i → i.parent = none → Trace sp m s₀ s₀ 0
  | step {s p : σ} {i : Info σ K} {c d : K} : m.map s = some i → i.parent = some p → (s, c) ∈ sp.succ p →
      Trace sp m s₀ p d → Trace sp m s₀ s (d + c)

section
variable [IsStrictOrderedRing K] {cfg : Cfg K} {sp : Space σ K} {s₀ : σ} {rank : σ → Nat}

omit [DecidableEq σ] in
/-- Only finitely many states can be reached, with finitely many costs. -/
theorem finite_paths (hS : sp.Sane rank) (s : σ) : {p : σ × K | Path sp s p.1 p.2}.Finite := by
  suffices h : ∀ n s, rank s < n → {p : σ × K | Path sp s p.1 p.2}.Finite from h (rank s + 1) s (by omega)
  intro n
  induction n with
  | zero => intro s h; omega
  | succ n ih =>
    intro s hs
    have : {p : σ × K | Path sp s p.1 p.2} ⊆ {(s, 0)} ∪
        ⋃ tc ∈ {tc | tc ∈ sp.succ s}, (fun p : σ × K => (p.1, tc.2 + p.2)) '' {p : σ × K | Path sp tc.1 p.1 p.2} := by
      rintro p hp
      have key : ∀ u d, Path sp s u d → (u, d) ∈ ({(s, 0)} ∪
          ⋃ tc ∈ {tc | tc ∈ sp.succ s}, (fun p : σ × K => (p.1, tc.2 + p.2)) '' {p : σ × K | Path sp tc.1 p.1 p.2} : Set (σ × K)) := by
        intro u d hud
        cases hud with
        | nil => exact Or.inl rfl
        | cons h1 h2 => right; simp only [Set.mem_iUnion]; exact ⟨(_, _), h1, (_, _), h2, rfl⟩
      exact key p.1 p.2 hp
    refine Set.Finite.subset ((Set.finite_singleton _).union ?_) this
    refine Set.Finite.biUnion (List.finite_toSet _) fun tc htc => ?_
    exact (ih tc.1 (by have := hS.rank _ _ _ htc; omega)).image _

/-- The costs with which a state may still be dequeued. -/
def Open (sp : Space σ K) (s₀ : σ) (m : Mgr σ K) : Set (σ × K) :=
  {p | Path sp s₀ p.1 p.2 ∧ ∀ i, m.map p.1 = some i → (i.queue = .out → p.2 < i.g) ∧ p.2 ≤ i.g}

theorem open_finite (hS : sp.Sane rank) (m : Mgr σ K) : (Open sp s₀ m).Finite :=
  (finite_paths hS s₀).subset fun _ h => h.1

theorem Eff.open {m m' : Mgr σ K} {t : σ} {p : Option σ} {g h : K} (he : Eff cfg sp m t p g h m') :
    Open sp s₀ m' ⊆ Open sp s₀ m := by
  rintro ⟨s, c⟩ ⟨h1, h2⟩
  refine ⟨h1, fun i hi => ?_⟩
  cases he with
  | pruned e1 _ _ => rw [e1] at h2; exact h2 i hi
  | keep k e1 _ _ _ _ => rw [e1] at h2; exact h2 i hi
  | set e1 _ e3 _ =>
    by_cases hs : s = t
    · subst hs
      have := (h2 _ (by rw [e1]; exact Function.update_self ..)).2
      have h4 := e3 i hi
      simp only at this ⊢
      exact ⟨fun _ => this.trans_lt h4, (this.trans_lt h4).le⟩
    · exact h2 i (by rw [e1, Function.update_of_ne hs]; exact hi)

theorem explore_open (hA : cfg.IsAStar) (hS : sp.Sane rank) (hw : cfg.WeightOK) {ex : σ → Prop} {s : σ} {j : Info σ K} (l : List (σ × K))
    (hl : ∀ tc ∈ l, tc ∈ sp.succ s) (m : Mgr σ K) (hI : Inv cfg sp s₀ ex m) (hs : m.map s = some j) :
    Open sp s₀ (l.foldl (fun m tc => cfg.pushRegular sp m tc.1 (some s) (m.gOf s + tc.2) (cfg.hOf sp m s tc.1)) m) ⊆ Open sp s₀ m := by
  induction l generalizing m with
  | nil => exact subset_refl _
  | cons tc l ih =>
    rw [List.foldl_cons]
    have htc := hl tc (by simp)
    have hrk := hS.rank _ _ _ htc
    have hne : tc.1 ≠ s₀ := by
      intro h; have := (hI.path s j hs).rank_le hS; rw [← h] at this; omega
    have hst : s ≠ tc.1 := by intro h; rw [← h] at hrk; omega
    have hh := hOf_eq hI hs hne
    have hg : m.gOf s = j.g := by simp [Mgr.gOf, hs]
    have he : Eff cfg sp m tc.1 (some s) (j.g + tc.2) (hVal cfg sp s₀ tc.1)
        (cfg.pushRegular sp m tc.1 (some s) (m.gOf s + tc.2) (cfg.hOf sp m s tc.1)) := by
      rw [hh, hg, Cfg.pushRegular, if_pos hA.1]
      exact push_eff hw _ _ _ _ _ (hVal_nonneg hS hw _) (fun i hi => hI.hval _ i hi) (fun i hi => hI.nobeam _ i hi)
    exact (ih (fun x hx => hl x (by simp [hx])) _ (hI.push hS hs htc rfl he) (by rw [he.other hst, hs])).trans he.open

theorem dequeue_open {m : Mgr σ K} {s : σ} {i : Info σ K} (hp : Path sp s₀ s i.g) (hs : m.map s = some i) (hq : i.queue ≠ .out) :
    Open sp s₀ (m.dequeue s i) ⊂ Open sp s₀ m := by
  refine (Set.ssubset_iff_of_subset ?_).2 ⟨(s, i.g), ⟨hp, fun k hk => ?_⟩, fun hc => ?_⟩
  · rintro ⟨t, c⟩ ⟨h1, h2⟩
    refine ⟨h1, fun k hk => ?_⟩
    by_cases ht : t = s
    · subst ht
      rw [hs] at hk; cases hk
      have := h2 { i with queue := .out } (by simp [Mgr.dequeue, Mgr.set])
      exact ⟨fun h => absurd h hq, this.2⟩
    · exact h2 k (by simp [Mgr.dequeue, Mgr.set, Function.update_of_ne ht]; exact hk)
  · simp only at hk; rw [hs] at hk; cases hk
    exact ⟨fun h => absurd h hq, le_refl _⟩
  · have := (hc.2 { i with queue := .out } (by simp [Mgr.dequeue, Mgr.set])).1 rfl
    exact lt_irrefl _ this

/-- Every iteration uses up one of the finitely many costs. -/
theorem iter_card (hA : cfg.IsAStar) (hS : sp.Sane rank) (hw : cfg.WeightOK) {m m' : Mgr σ K}
    (hI : Inv cfg sp s₀ (fun _ => False) m) (h : cfg.Iter sp .astar m m') :
    (Open sp s₀ m').ncard < (Open sp s₀ m).ncard := by
  obtain ⟨s, i, hp, hg, rfl⟩ := h
  have ht := pop_astar hA hp
  have hd : (m.dequeue s i).map s = some { i with queue := .out } := by simp [Mgr.dequeue, Mgr.set]
  have h1 := explore_open hA hS hw (sp.succ s) (fun _ h => h) _ (hI.dequeue ht.1 hg) hd
  have h2 := dequeue_open (hI.path s i ht.1) ht.1 (by rw [ht.2.1]; simp)
  exact Set.ncard_lt_ncard (lt_of_le_of_lt h1 h2) (open_finite hS m)

theorem steps_inv (hA : cfg.IsAStar) (hS : sp.Sane rank) (hw : cfg.WeightOK) {n : Nat} {m m' : Mgr σ K}
    (hI : Inv cfg sp s₀ (fun _ => False) m) (h : cfg.Steps sp .astar n m m') :
    Inv cfg sp s₀ (fun _ => False) m' ∧ Mono m m' ∧ n + (Open sp s₀ m').ncard ≤ (Open sp s₀ m).ncard := by
  induction h with
  | zero => exact ⟨hI, Mono.refl _, by omega⟩
  | succ _ h ih =>
    obtain ⟨h1, h2, h3⟩ := ih hI
    obtain ⟨h4, h5⟩ := h1.iter hA hS hw h
    have := iter_card hA hS hw h1 h
    exact ⟨h4, h2.trans h5, by omega⟩

/-- A nonempty queue has a least element. -/
theorem exists_top (hS : sp.Sane rank) {ex : σ → Prop} {m : Mgr σ K} (hI : Inv cfg sp s₀ ex m)
    (h : ¬ Empty m .regular) : ∃ s i, Top m .regular s i := by
  unfold Empty at h; push Not at h
  obtain ⟨t, j, h1, h2⟩ := h
  have hfin : {s | ∃ i, m.map s = some i ∧ i.queue = .regular}.Finite := by
    refine ((finite_paths hS s₀).image Prod.fst).subset ?_
    rintro s ⟨i, hi, _⟩
    exact ⟨(s, i.g), hI.path s i hi, rfl⟩
  obtain ⟨s, ⟨i, hi, hq⟩, hmin⟩ := Set.exists_min_image _ (fun s => (m.map s).elim 0 (fun i => i.g + i.h)) hfin ⟨t, j, h1, h2⟩
  refine ⟨s, i, hi, hq, fun u k hu hk => ?_⟩
  have := hmin u ⟨k, hu, hk⟩
  simpa [hi, hu] using this

/-- The search is never stuck. -/
theorem progress (hA : cfg.IsAStar) (hS : sp.Sane rank) {m : Mgr σ K} (hI : Inv cfg sp s₀ (fun _ => False) m) :
    cfg.QueuesEmpty m ∨ (∃ s i, cfg.Pop m s i ∧ sp.goal s = true) ∨ ∃ m', cfg.Iter sp .astar m m' := by
  by_cases he : Empty m .regular
  · exact Or.inl ⟨fun _ => he, fun h => by rw [hA.2] at h; cases h⟩
  · obtain ⟨s, i, ht⟩ := exists_top hS hI he
    have hp : cfg.Pop m s i := Or.inr ⟨fun h => (by rw [hA.2] at h; cases h), hA.1, ht⟩
    right
    by_cases hg : sp.goal s = true
    · exact Or.inl ⟨s, i, hp, hg⟩
    · exact Or.inr ⟨_, s, i, hp, by simpa using hg, rfl⟩

/-- Following the parents yields a real way from the start, not more expensive than the stored *g*. -/
theorem Inv.trace (hS : sp.Sane rank) {ex : σ → Prop} {m : Mgr σ K} (hI : Inv cfg sp s₀ ex m) {s : σ} {i : Info σ K}
    (hs : m.map s = some i) : ∃ c, Trace sp m s₀ s c ∧ c ≤ i.g := by
  suffices h : ∀ n s i, rank s₀ - rank s < n → m.map s = some i → ∃ c, Trace sp m s₀ s c ∧ c ≤ i.g from
    h _ s i (Nat.lt_succ_self _) hs
  intro n
  induction n with
  | zero => intro s i h; omega
  | succ n ih =>
    intro s i hn hi
    cases hp : i.parent with
    | none =>
      have := hI.orphan s i hi hp; subst this
      exact ⟨0, .root hi hp, by rw [(hI.root i hi).1]⟩
    | some p =>
      obtain ⟨j, c, h1, h2, h3⟩ := hI.par s p i hi hp
      have hr := hS.rank _ _ _ h2
      have hr2 := (hI.path p j h1).rank_le hS
      obtain ⟨d, h4, h5⟩ := ih p j (by omega) h1
      exact ⟨d + c, .step hi hp h2 h4, by linarith⟩

omit [IsStrictOrderedRing K] in
theorem Trace.path {m : Mgr σ K} {s : σ} {c : K} [IsStrictOrderedRing K] (h : Trace sp m s₀ s c) : Path sp s₀ s c := by
  induction h with
  | root _ _ => exact .nil _
  | step _ _ h3 _ ih => exact ih.snoc h3

/-- What a run from a reachable manager returns. -/
theorem run_found (hA : cfg.IsAStar) (hS : sp.Sane rank) (hw : cfg.WeightOK) {b : Option Nat} {m m' : Mgr σ K} {s : σ}
    (hI : Inv cfg sp s₀ (fun _ => False) m) (h : cfg.Run sp .astar b m (.found s m')) :
    ∃ m₁ i, Inv cfg sp s₀ (fun _ => False) m₁ ∧ Mono m m₁ ∧ Top m₁ .regular s i ∧ sp.goal s = true ∧ m' = m₁.dequeue s i := by
  generalize hr : Result.found s m' = r at h
  induction h with
  | @found b m s' i _ h1 h2 => cases hr; exact ⟨m, i, hI, Mono.refl m, pop_astar hA h1, h2, rfl⟩
  | iter _ h1 _ ih =>
    obtain ⟨h2, h3⟩ := hI.iter hA hS hw h1
    obtain ⟨m₁, i, e1, e2, e3⟩ := ih h2 hr
    exact ⟨m₁, i, e1, h3.trans e2, e3⟩
  | exhausted _ => cases hr
  | unreachable _ => cases hr

theorem run_unreachable (hA : cfg.IsAStar) (hS : sp.Sane rank) (hw : cfg.WeightOK) {b : Option Nat} {m : Mgr σ K}
    (hI : Inv cfg sp s₀ (fun _ => False) m) (h : cfg.Run sp .astar b m .unreachable) :
    ∃ m₁, Inv cfg sp s₀ (fun _ => False) m₁ ∧ Mono m m₁ ∧ Empty m₁ .regular := by
  generalize hr : (Result.unreachable : Result σ K) = r at h
  induction h with
  | found _ _ _ => cases hr
  | iter _ h1 _ ih =>
    obtain ⟨h2, h3⟩ := hI.iter hA hS hw h1
    obtain ⟨m₁, e1, e2, e3⟩ := ih h2 hr
    exact ⟨m₁, e1, h3.trans e2, e3⟩
  | exhausted _ => cases hr
  | @unreachable b m h => exact ⟨m, hI, Mono.refl m, h.1 hA.1⟩

/-- A run exists. -/
theorem run_exists (hA : cfg.IsAStar) (hS : sp.Sane rank) (hw : cfg.WeightOK) (b : Option Nat) {m : Mgr σ K}
    (hI : Inv cfg sp s₀ (fun _ => False) m) : ∃ r, cfg.Run sp .astar b m r := by
  generalize hn : (Open sp s₀ m).ncard = n
  induction n using Nat.strong_induction_on generalizing m b with
  | _ n ih =>
    rcases progress hA hS hI with h | h
    · exact ⟨_, .unreachable h⟩
    · by_cases hb : b = some 0
      · subst hb
        by_cases hq : cfg.QueuesEmpty m
        · exact ⟨_, .unreachable hq⟩
        · exact ⟨_, .exhausted hq⟩
      · rcases h with ⟨s, i, h1, h2⟩ | ⟨m', h1⟩
        · exact ⟨_, .found hb h1 h2⟩
        · obtain ⟨r, hr⟩ := ih _ (by rw [← hn]; exact iter_card hA hS hw hI h1) (b.map (· - 1)) (hI.iter hA hS hw h1).1 rfl
          exact ⟨r, .iter hb h1 hr⟩

end
end Mutable.HS
