import Verif.HSearch.Model
import Mathlib.Tactic.Linarith
/-! A* search: invariants, optimality. -/
namespace Mutable.HS
variable {σ K : Type} [DecidableEq σ] [Field K] [LinearOrder K]

/-- `Path sp s t c`: some sequence of expansions leads from `s` to `t` with total cost `c`. -/
inductive Path (sp : Space σ K) : σ → σ → K → Prop
  | nil (s : σ) : Path sp s s 0
  | cons {s t u : σ} {c d : K} : (t, c) ∈ sp.succ s → Path sp t u d → Path sp s u (c + d)

/-- Non-negative costs and heuristic values; no infinite chain of expansions. -/
structure Space.Sane (sp : Space σ K) (rank : σ → Nat) : Prop where
  nonneg : ∀ s t c, (t, c) ∈ sp.succ s → 0 ≤ c
  rank : ∀ s t c, (t, c) ∈ sp.succ s → rank t < rank s
  heur : ∀ s, 0 ≤ sp.heur s

/-- The heuristic never overestimates the remaining cost from a state that can be reached from `s₀`. -/
def Space.Admissible (sp : Space σ K) (s₀ : σ) : Prop :=
  ∀ s e, Path sp s₀ s e → ∀ t c, sp.goal t = true → Path sp s t c → sp.heur s ≤ c

/-- Weights are positive (`weighting_factor` insists on it). -/
def Cfg.WeightOK (cfg : Cfg K) : Prop := ∀ w, cfg.weight = some w → 0 < w

/-- Plain A*: one queue. -/
def Cfg.IsAStar (cfg : Cfg K) : Prop := cfg.hasRegular = true ∧ cfg.hasBeam = false

section
variable [IsStrictOrderedRing K] {cfg : Cfg K} {sp : Space σ K} {s₀ : σ} {rank : σ → Nat}

theorem Path.snoc {s t u : σ} {c d : K} (h : Path sp s t c) (hs : (u, d) ∈ sp.succ t) : Path sp s u (c + d) := by
  induction h with
  | nil s => rw [zero_add, ← add_zero d]; exact .cons hs (.nil _)
  | cons h1 _ ih => rw [add_assoc]; exact .cons h1 (ih hs)

theorem Path.trans {s t u : σ} {c d : K} (h : Path sp s t c) (h' : Path sp t u d) : Path sp s u (c + d) := by
  induction h with
  | nil s => rwa [zero_add]
  | cons h1 _ ih => rw [add_assoc]; exact .cons h1 (ih h')

omit [DecidableEq σ] in
theorem Path.nonneg (hS : sp.Sane rank) {s t : σ} {c : K} (h : Path sp s t c) : 0 ≤ c := by
  induction h with
  | nil s => exact le_refl _
  | cons h1 _ ih => exact add_nonneg (hS.nonneg _ _ _ h1) ih

omit [DecidableEq σ] [IsStrictOrderedRing K] in
theorem Path.rank_le (hS : sp.Sane rank) {s t : σ} {c : K} (h : Path sp s t c) : rank t ≤ rank s := by
  induction h with
  | nil s => exact le_refl _
  | cons h1 _ ih => have := hS.rank _ _ _ h1; omega

/-- The *h* that a seen state has. -/
def hVal (cfg : Cfg K) (sp : Space σ K) (s₀ s : σ) : K :=
  if cfg.lazy = true ∨ s = s₀ then 0 else cfg.weight.getD 1 * sp.heur s

theorem weight_pos (hw : cfg.WeightOK) : 0 < cfg.weight.getD 1 := by
  cases h : cfg.weight with
  | none => simp
  | some w => exact hw w h

theorem hVal_nonneg (hS : sp.Sane rank) (hw : cfg.WeightOK) (s : σ) : 0 ≤ hVal cfg sp s₀ s := by
  unfold hVal; split
  · exact le_refl _
  · exact mul_nonneg (weight_pos hw).le (hS.heur s)

omit [DecidableEq σ] in
theorem minPathCost_ge (hw : cfg.WeightOK) {g h : K} (hh : 0 ≤ h) : g ≤ cfg.minPathCost g h := by
  unfold Cfg.minPathCost; split
  · split
    · rename_i w hw'; have := div_nonneg hh (hw w hw').le; linarith
    · linarith
  · exact le_refl _

/-- `t` has been reached with cost at most `g`, or reaching it with cost `g` is hopeless. -/
def Covered (cfg : Cfg K) (sp : Space σ K) (s₀ : σ) (m : Mgr σ K) (t : σ) (g : K) : Prop :=
  (∃ j, m.map t = some j ∧ j.g ≤ g) ∨
  (cfg.prune = true ∧ geLeast (cfg.minPathCost g (hVal cfg sp s₀ t)) m.least = true)

/-- Invariant of the work list algorithm with one queue; the states in `ex` are exempt from having their successors
covered. -/
structure Inv (cfg : Cfg K) (sp : Space σ K) (s₀ : σ) (ex : σ → Prop) (m : Mgr σ K) : Prop where
  root : ∀ (i : Info σ K), m.map s₀ = some i → i.g = 0 ∧ i.parent = none
  path : ∀ (s : σ) (i : Info σ K), m.map s = some i → Path sp s₀ s i.g
  orphan : ∀ (s : σ) (i : Info σ K), m.map s = some i → i.parent = none → s = s₀
  par : ∀ (s p : σ) (i : Info σ K), m.map s = some i → i.parent = some p →
    ∃ j c, m.map p = some j ∧ (s, c) ∈ sp.succ p ∧ j.g + c ≤ i.g
  hval : ∀ (s : σ) (i : Info σ K), m.map s = some i → i.h = hVal cfg sp s₀ s
  done : ∀ (s : σ) (i : Info σ K), m.map s = some i → i.queue = .out → ¬ ex s →
    ∀ t c, (t, c) ∈ sp.succ s → Covered cfg sp s₀ m t (i.g + c)
  nogoal : ∀ (s : σ) (i : Info σ K), m.map s = some i → i.queue = .out → sp.goal s = false
  least : ∀ (l : K), m.least = some l → cfg.bound = some l ∨
    ∃ z j, sp.goal z = true ∧ m.map z = some j ∧ j.g ≤ l
  nobeam : ∀ (s : σ) (i : Info σ K), m.map s = some i → i.queue ≠ .beam
  ok : m.ok = true

/-- What `push` does to a manager that satisfies the invariant. -/
inductive Eff (cfg : Cfg K) (sp : Space σ K) (m : Mgr σ K) (t : σ) (p : Option σ) (g h : K) (m' : Mgr σ K) : Prop
  | pruned : m' = m → cfg.prune = true → geLeast (cfg.minPathCost g h) m.least = true → Eff cfg sp m t p g h m'
  | keep (i : Info σ K) : m'.map = m.map → m'.ok = m.ok → m.map t = some i → i.g ≤ g →
      (m'.least = m.least ∨ (sp.goal t = true ∧ m'.least = some g ∧ geLeast g m.least = false)) → Eff cfg sp m t p g h m'
  | set : m'.map = Function.update m.map t (some ⟨g, h, .regular, p⟩) → m'.ok = m.ok →
      (∀ i, m.map t = some i → g < i.g) →
      (m'.least = m.least ∨ (sp.goal t = true ∧ m'.least = some g ∧ geLeast g m.least = false)) → Eff cfg sp m t p g h m'

theorem geLeast_mono {a b : K} (h : a ≤ b) (l : Option K) (hl : geLeast a l = true) : geLeast b l = true := by
  cases l with
  | none => simp [geLeast] at hl
  | some l => simp [geLeast] at hl ⊢; exact hl.trans h

theorem prunes_cases (hw : cfg.WeightOK) (m : Mgr σ K) (t : σ) (g h : K) (hh : 0 ≤ h) :
    (cfg.prunes sp m t g h = none ∧ cfg.prune = true ∧ geLeast (cfg.minPathCost g h) m.least = true) ∨
    ∃ m', cfg.prunes sp m t g h = some m' ∧ m'.map = m.map ∧ m'.ok = m.ok ∧
      (m'.least = m.least ∨ (sp.goal t = true ∧ m'.least = some g ∧ geLeast g m.least = false)) := by
  unfold Cfg.prunes
  by_cases hp : cfg.prune = true
  · rw [if_pos hp]
    by_cases hg : geLeast (cfg.minPathCost g h) m.least = true
    · left; rw [if_pos hg]; exact ⟨rfl, hp, hg⟩
    · right; rw [if_neg hg]
      have hg' : geLeast g m.least = false := by
        rw [← Bool.not_eq_true]; exact fun hc => hg (geLeast_mono (minPathCost_ge hw hh) _ hc)
      by_cases hgo : sp.goal t = true
      · rw [if_pos hgo]
        exact ⟨_, rfl, rfl, by simp [Mgr.insist, hg'], Or.inr ⟨hgo, rfl, hg'⟩⟩
      · rw [if_neg hgo]; exact ⟨_, rfl, rfl, rfl, Or.inl rfl⟩
  · right; rw [if_neg hp]; exact ⟨_, rfl, rfl, rfl, Or.inl rfl⟩

theorem push_eff (hw : cfg.WeightOK) (m : Mgr σ K) (t : σ) (p : Option σ) (g h : K) (hh : 0 ≤ h)
    (hv : ∀ i, m.map t = some i → i.h = h) (hq : ∀ i, m.map t = some i → i.queue ≠ .beam) :
    Eff cfg sp m t p g h (cfg.push sp false m t p g h) := by
  unfold Cfg.push
  rcases prunes_cases (sp := sp) hw m t g h hh with ⟨h1, h2, h3⟩ | ⟨m', h1, h2, h3, h4⟩
  · rw [h1]; exact .pruned rfl h2 h3
  · rw [h1]
    simp only [h2, Bool.false_and, Bool.false_eq_true, if_false]
    cases hm : m.map t with
    | none => exact .set (by simp [Mgr.set, h2]) h3 (by simp [hm]) h4
    | some i =>
      have hi := hv i hm
      have hqi := hq i hm
      simp only [hi, Mgr.insist, decide_true, Bool.and_true]
      split
      · rename_i hc; exact .keep i h2 h3 hm hc h4
      · rename_i hc
        have hlt : ∀ j, m.map t = some j → g < j.g := by
          intro j hj; rw [hm] at hj; cases hj; exact lt_of_not_ge hc
        split
        · exact .set (by simp [Mgr.set, h2]) h3 hlt h4
        · have hr : i.queue = .regular := by cases hx : i.queue <;> simp_all
          exact .set (by simp [Mgr.set, h2, hr]) (by simp [Mgr.set, h3, hr]) hlt h4

/-- Entries persist, their *g* never increases, and what is not queued is unchanged; `least_path_cost` never increases. -/
structure Mono (m m' : Mgr σ K) : Prop where
  entry : ∀ (s : σ) (i : Info σ K), m.map s = some i → ∃ i', m'.map s = some i' ∧ i'.g ≤ i.g
  least : ∀ (c : K), geLeast c m.least = true → geLeast c m'.least = true

theorem Mono.refl (m : Mgr σ K) : Mono m m := ⟨fun _ i h => ⟨i, h, le_refl _⟩, fun _ h => h⟩
theorem Mono.trans {m m' m'' : Mgr σ K} (h : Mono m m') (h' : Mono m' m'') : Mono m m'' := by
  refine ⟨fun s i hi => ?_, fun c hc => h'.least c (h.least c hc)⟩
  obtain ⟨i', h1, h2⟩ := h.entry s i hi
  obtain ⟨i'', h3, h4⟩ := h'.entry s i' h1
  exact ⟨i'', h3, h4.trans h2⟩

theorem Covered.mono {m m' : Mgr σ K} (h : Mono m m') {t : σ} {g : K} (hc : Covered cfg sp s₀ m t g) :
    Covered cfg sp s₀ m' t g := by
  rcases hc with ⟨j, h1, h2⟩ | ⟨h1, h2⟩
  · obtain ⟨i', h3, h4⟩ := h.entry t j h1
    exact Or.inl ⟨i', h3, h4.trans h2⟩
  · exact Or.inr ⟨h1, h.least _ h2⟩

theorem least_lower {l l' : Option K} {g : K} {P : Prop} (h : l' = l ∨ (P ∧ l' = some g ∧ geLeast g l = false)) (c : K)
    (hc : geLeast c l = true) : geLeast c l' = true := by
  rcases h with h | ⟨_, h1, h2⟩
  · rwa [h]
  · rw [h1]
    cases l with
    | none => simp [geLeast] at hc
    | some l => simp [geLeast] at hc h2 ⊢; exact (h2.trans_le hc).le

theorem Eff.mono {m m' : Mgr σ K} {t : σ} {p : Option σ} {g h : K} (he : Eff cfg sp m t p g h m') : Mono m m' := by
  cases he with
  | pruned h1 _ _ => rw [h1]; exact Mono.refl m
  | keep i h1 _ _ _ h5 => exact ⟨fun s i hi => ⟨i, by rw [h1, hi], le_refl _⟩, least_lower h5⟩
  | set h1 _ h3 h4 =>
    refine ⟨fun s i hi => ?_, least_lower h4⟩
    by_cases hs : s = t
    · subst hs; exact ⟨_, by rw [h1, Function.update_self], (h3 i hi).le⟩
    · exact ⟨i, by rw [h1, Function.update_of_ne hs, hi], le_refl _⟩

theorem Eff.other {m m' : Mgr σ K} {t : σ} {p : Option σ} {g h : K} (he : Eff cfg sp m t p g h m') {s : σ} (hs : s ≠ t) :
    m'.map s = m.map s := by
  cases he with
  | pruned h1 _ _ => rw [h1]
  | keep i h1 _ _ _ _ => rw [h1]
  | set h1 _ _ _ => rw [h1, Function.update_of_ne hs]

theorem Eff.covered {m m' : Mgr σ K} {t : σ} {p : Option σ} {g h : K} (he : Eff cfg sp m t p g h m')
    (hh : h = hVal cfg sp s₀ t) : Covered cfg sp s₀ m' t g := by
  cases he with
  | pruned h1 h2 h3 => rw [h1]; exact Or.inr ⟨h2, by rw [← hh]; exact h3⟩
  | keep i h1 _ h3 h4 _ => exact Or.inl ⟨i, by rw [h1, h3], h4⟩
  | set h1 _ _ _ => exact Or.inl ⟨_, by rw [h1, Function.update_self], le_refl _⟩

/-- A push of a successor keeps the invariant. -/
theorem Inv.push {ex : σ → Prop} (hS : sp.Sane rank) {m m' : Mgr σ K} (hI : Inv cfg sp s₀ ex m) {p t : σ} {j : Info σ K} {c h : K}
    (hp : m.map p = some j) (hs : (t, c) ∈ sp.succ p) (hh : h = hVal cfg sp s₀ t)
    (he : Eff cfg sp m t (some p) (j.g + c) h m') : Inv cfg sp s₀ ex m' := by
  have hmono := he.mono
  have hrk := hS.rank _ _ _ hs
  have hpt : p ≠ t := by intro h; subst h; omega
  have hts : t ≠ s₀ := by
    intro h; have := (hI.path p j hp).rank_le hS; subst h; omega
  have hleast : ∀ (l : K), (m'.least = m.least ∨ (sp.goal t = true ∧ m'.least = some (j.g + c) ∧
      geLeast (j.g + c) m.least = false)) → (∃ i', m'.map t = some i' ∧ i'.g ≤ j.g + c) → m'.least = some l →
      cfg.bound = some l ∨ ∃ z j, sp.goal z = true ∧ m'.map z = some j ∧ j.g ≤ l := by
    rintro l (h | ⟨h1, h2, _⟩) ⟨i', h3, h4⟩ hl
    · rcases hI.least l (h ▸ hl) with h | ⟨z, k, h1, h2, h3⟩
      · exact Or.inl h
      · obtain ⟨k', h4, h5⟩ := hmono.entry z k h2
        exact Or.inr ⟨z, k', h1, h4, h5.trans h3⟩
    · rw [h2] at hl; cases hl; exact Or.inr ⟨t, i', h1, h3, h4⟩
  cases he with
  | pruned h1 _ _ => rw [h1]; exact hI
  | keep i h1 h2 h3 h4 h5 =>
    refine ⟨by rw [h1]; exact hI.root, by rw [h1]; exact hI.path, by rw [h1]; exact hI.orphan, by rw [h1]; exact hI.par,
      by rw [h1]; exact hI.hval, fun s i' hi ho hx u d hu => ?_, by rw [h1]; exact hI.nogoal, fun l hl => ?_,
      by rw [h1]; exact hI.nobeam, by rw [h2]; exact hI.ok⟩
    · rw [h1] at hi; exact (hI.done s i' hi ho hx u d hu).mono hmono
    · exact hleast l h5 ⟨i, by rw [h1, h3], h4⟩ hl
  | set h1 h2 h3 h4 =>
    have key : ∀ (s : σ) (i : Info σ K), m'.map s = some i →
        (s = t ∧ i = ⟨j.g + c, h, .regular, some p⟩) ∨ (s ≠ t ∧ m.map s = some i) := by
      intro s i hi
      rw [h1] at hi
      by_cases hst : s = t
      · subst hst; rw [Function.update_self] at hi; cases hi; exact Or.inl ⟨rfl, rfl⟩
      · rw [Function.update_of_ne hst] at hi; exact Or.inr ⟨hst, hi⟩
    refine ⟨fun i hi => ?_, fun s i hi => ?_, fun s i hi ho => ?_, fun s q i hi hq => ?_, fun s i hi => ?_,
      fun s i hi ho hx u d hu => ?_, fun s i hi ho => ?_, fun l hl => ?_, fun s i hi => ?_, by rw [h2]; exact hI.ok⟩
    · rcases key _ _ hi with ⟨a, _⟩ | ⟨_, a⟩
      · exact absurd a.symm hts
      · exact hI.root i a
    · rcases key _ _ hi with ⟨a, b⟩ | ⟨_, a⟩
      · subst a b; exact (hI.path p j hp).snoc hs
      · exact hI.path s i a
    · rcases key _ _ hi with ⟨a, b⟩ | ⟨_, a⟩
      · subst b; simp at ho
      · exact hI.orphan s i a ho
    · rcases key _ _ hi with ⟨a, b⟩ | ⟨_, a⟩
      · subst a b; simp only [Option.some.injEq] at hq; subst hq
        exact ⟨j, c, by rw [h1, Function.update_of_ne hpt, hp], hs, le_refl _⟩
      · obtain ⟨k, d, e1, e2, e3⟩ := hI.par s q i a hq
        obtain ⟨k', e4, e5⟩ := hmono.entry q k e1
        exact ⟨k', d, e4, e2, by linarith⟩
    · rcases key _ _ hi with ⟨a, b⟩ | ⟨_, a⟩
      · subst a b; exact hh
      · exact hI.hval s i a
    · rcases key _ _ hi with ⟨a, b⟩ | ⟨_, a⟩
      · subst b; simp at ho
      · exact (hI.done s i a ho hx u d hu).mono hmono
    · rcases key _ _ hi with ⟨a, b⟩ | ⟨_, a⟩
      · subst b; simp at ho
      · exact hI.nogoal s i a ho
    · exact hleast l h4 ⟨_, by rw [h1, Function.update_self], le_refl _⟩ hl
    · rcases key _ _ hi with ⟨a, b⟩ | ⟨_, a⟩
      · subst b; simp
      · exact hI.nobeam s i a

theorem hOf_eq {ex : σ → Prop} {m : Mgr σ K} (hI : Inv cfg sp s₀ ex m) {s t : σ} {j : Info σ K} (hs : m.map s = some j)
    (ht : t ≠ s₀) : cfg.hOf sp m s t = hVal cfg sp s₀ t := by
  unfold Cfg.hOf
  by_cases hl : cfg.lazy = true
  · rw [if_pos hl, hs]
    show j.h = _
    rw [hI.hval s j hs]; simp [hVal, hl]
  · rw [if_neg hl]
    cases hm : m.map t with
    | none => simp [hVal, hl, ht]
    | some i => exact hI.hval t i hm

/-- The loop over the successors. -/
theorem explore_loop {ex : σ → Prop} (hA : cfg.IsAStar) (hS : sp.Sane rank) (hw : cfg.WeightOK) {s : σ} {j : Info σ K} (l : List (σ × K))
    (hl : ∀ tc ∈ l, tc ∈ sp.succ s) (m : Mgr σ K) (hI : Inv cfg sp s₀ ex m) (hs : m.map s = some j) :
    ∀ m', m' = l.foldl (fun m tc => cfg.pushRegular sp m tc.1 (some s) (m.gOf s + tc.2) (cfg.hOf sp m s tc.1)) m →
    Inv cfg sp s₀ ex m' ∧ Mono m m' ∧ m'.map s = some j ∧ ∀ tc ∈ l, Covered cfg sp s₀ m' tc.1 (j.g + tc.2) := by
  induction l generalizing m with
  | nil => intro m' h; rw [List.foldl_nil] at h; rw [h]; exact ⟨hI, Mono.refl m, hs, by simp⟩
  | cons tc l ih =>
    intro m' hm'
    rw [List.foldl_cons] at hm'
    have htc := hl tc (by simp)
    have hrk := hS.rank _ _ _ htc
    have hne : tc.1 ≠ s₀ := by
      intro h; have := (hI.path s j hs).rank_le hS; rw [← h] at this; omega
    have hst : s ≠ tc.1 := by intro h; rw [← h] at hrk; omega
    have hh := hOf_eq hI hs hne
    have hg : m.gOf s = j.g := by simp [Mgr.gOf, hs]
    have he : Eff cfg sp m tc.1 (some s) (j.g + tc.2) (hVal cfg sp s₀ tc.1)
        (cfg.pushRegular sp m tc.1 (some s) (m.gOf s + tc.2) (cfg.hOf sp m s tc.1)) := by
      rw [hh, hg, Cfg.pushRegular, if_pos hA.1]
      exact push_eff hw _ _ _ _ _ (hVal_nonneg hS hw _) (fun i hi => hI.hval _ i hi) (fun i hi => hI.nobeam _ i hi)
    obtain ⟨h1, h2, h3, h4⟩ := ih (fun x hx => hl x (by simp [hx])) _ (hI.push hS hs htc rfl he) (by rw [he.other hst, hs]) m' hm'
    refine ⟨h1, he.mono.trans h2, h3, fun x hx => ?_⟩
    rcases List.mem_cons.1 hx with rfl | hx
    · exact (he.covered rfl).mono h2
    · exact h4 x hx

/-- Removing a non-goal from the queue keeps the invariant, but its successors are not covered. -/
theorem Inv.dequeue {m : Mgr σ K} (hI : Inv cfg sp s₀ (fun _ => False) m) {s : σ} {i : Info σ K} (hs : m.map s = some i)
    (hg : sp.goal s = false) : Inv cfg sp s₀ (· = s) (m.dequeue s i) := by
  have key : ∀ (t : σ) (k : Info σ K), (m.dequeue s i).map t = some k →
      (t = s ∧ k = { i with queue := .out }) ∨ (t ≠ s ∧ m.map t = some k) := by
    intro t k hk
    simp only [Mgr.dequeue, Mgr.set] at hk
    by_cases h : t = s
    · subst h; rw [Function.update_self] at hk; cases hk; exact Or.inl ⟨rfl, rfl⟩
    · rw [Function.update_of_ne h] at hk; exact Or.inr ⟨h, hk⟩
  have hmono : Mono m (m.dequeue s i) := by
    refine ⟨fun t k hk => ?_, fun c hc => hc⟩
    by_cases h : t = s
    · subst h; rw [hs] at hk; cases hk; exact ⟨{ i with queue := .out }, by simp [Mgr.dequeue, Mgr.set], le_refl _⟩
    · exact ⟨k, by simp [Mgr.dequeue, Mgr.set, Function.update_of_ne h, hk], le_refl _⟩
  refine ⟨fun k hk => ?_, fun t k hk => ?_, fun t k hk ho => ?_, fun t q k hk hq => ?_, fun t k hk => ?_,
    fun t k hk ho hx u d hu => ?_, fun t k hk ho => ?_, fun l hl => ?_, fun t k hk => ?_, hI.ok⟩
  · rcases key _ _ hk with ⟨a, b⟩ | ⟨_, a⟩
    · subst a b; exact hI.root i hs
    · exact hI.root k a
  · rcases key _ _ hk with ⟨a, b⟩ | ⟨_, a⟩
    · subst a b; exact hI.path t i hs
    · exact hI.path t k a
  · rcases key _ _ hk with ⟨a, b⟩ | ⟨_, a⟩
    · subst a b; exact hI.orphan t i hs ho
    · exact hI.orphan t k a ho
  · have : ∃ j c, m.map q = some j ∧ (t, c) ∈ sp.succ q ∧ j.g + c ≤ k.g := by
      rcases key _ _ hk with ⟨a, b⟩ | ⟨_, a⟩
      · subst a b; exact hI.par t q i hs hq
      · exact hI.par t q k a hq
    obtain ⟨j, c, h1, h2, h3⟩ := this
    obtain ⟨j', h4, h5⟩ := hmono.entry q j h1
    exact ⟨j', c, h4, h2, by linarith⟩
  · rcases key _ _ hk with ⟨a, b⟩ | ⟨_, a⟩
    · subst a b; exact hI.hval t i hs
    · exact hI.hval t k a
  · rcases key _ _ hk with ⟨a, b⟩ | ⟨_, a⟩
    · exact absurd a hx
    · exact (hI.done t k a ho (by simp) u d hu).mono hmono
  · rcases key _ _ hk with ⟨a, b⟩ | ⟨_, a⟩
    · subst a; exact hg
    · exact hI.nogoal t k a ho
  · rcases hI.least l hl with h | ⟨z, k, h1, h2, h3⟩
    · exact Or.inl h
    · obtain ⟨k', h4, h5⟩ := hmono.entry z k h2
      exact Or.inr ⟨z, k', h1, h4, h5.trans h3⟩
  · rcases key _ _ hk with ⟨a, b⟩ | ⟨_, a⟩
    · subst b; simp
    · exact hI.nobeam t k a

theorem pop_astar (hA : cfg.IsAStar) {m : Mgr σ K} {s : σ} {i : Info σ K} (h : cfg.Pop m s i) : Top m .regular s i := by
  rcases h with ⟨h, _⟩ | ⟨_, _, h⟩
  · rw [hA.2] at h; cases h
  · exact h

theorem Inv.iter (hA : cfg.IsAStar) (hS : sp.Sane rank) (hw : cfg.WeightOK) {m m' : Mgr σ K}
    (hI : Inv cfg sp s₀ (fun _ => False) m) (h : cfg.Iter sp .astar m m') :
    Inv cfg sp s₀ (fun _ => False) m' ∧ Mono m m' := by
  obtain ⟨s, i, hp, hg, rfl⟩ := h
  have ht := pop_astar hA hp
  have hd : (m.dequeue s i).map s = some { i with queue := .out } := by simp [Mgr.dequeue, Mgr.set]
  obtain ⟨h1, h2, h3, h4⟩ := explore_loop hA hS hw (sp.succ s) (fun _ h => h) _ (hI.dequeue ht.1 hg) hd _ rfl
  refine ⟨⟨h1.root, h1.path, h1.orphan, h1.par, h1.hval, fun t k hk ho _ u d hu => ?_, h1.nogoal, h1.least, h1.nobeam, h1.ok⟩, ?_⟩
  · by_cases hts : t = s
    · subst hts
      have : k = { i with queue := .out } := by
        rw [Cfg.explore] at hk; rw [h3] at hk; cases hk; rfl
      subst this
      exact h4 (u, d) hu
    · exact h1.done t k hk ho hts u d hu
  · refine Mono.trans (m' := m.dequeue s i) ⟨fun t k hk => ?_, fun c hc => hc⟩ h2
    by_cases h : t = s
    · subst h; rw [ht.1] at hk; cases hk; exact ⟨_, hd, le_refl _⟩
    · exact ⟨k, by simp [Mgr.dequeue, Mgr.set, Function.update_of_ne h, hk], le_refl _⟩

theorem Inv.start (hA : cfg.IsAStar) (hw : cfg.WeightOK) :
    Inv cfg sp s₀ (fun _ => False) (cfg.start sp s₀) ∧
    ((∀ b, cfg.prune = true → cfg.bound = some b → 0 < b) → ∃ i, (cfg.start sp s₀).map s₀ = some i) ∧
    (∀ s i, (cfg.start sp s₀).map s = some i → s = s₀) := by
  have he : Eff cfg sp (⟨fun _ => none, if cfg.prune then cfg.bound else none, true⟩ : Mgr σ K) s₀ none 0 0 (cfg.start sp s₀) := by
    unfold Cfg.start; rw [hA.2, Bool.false_and]
    exact push_eff hw _ _ _ _ _ (le_refl _) (by simp) (by simp)
  cases he with
  | pruned h1 h2 h3 =>
    rw [h1]
    refine ⟨⟨by simp, by simp, by simp, by simp, by simp, by simp, by simp, fun l hl => Or.inl ?_, by simp, rfl⟩, fun hb => ?_, by simp⟩
    · simpa [h2] using hl
    · exfalso
      simp only [h2, if_true] at h3
      cases hbd : cfg.bound with
      | none => simp [hbd, geLeast] at h3
      | some b =>
        have := hb b h2 hbd
        rw [hbd] at h3
        simp only [geLeast, decide_eq_true_eq] at h3
        have h0 : cfg.minPathCost 0 0 = 0 := by
          unfold Cfg.minPathCost; split
          · split <;> simp
          · rfl
        rw [h0] at h3; exact absurd this (not_lt.2 h3)
  | keep i _ _ h3 _ _ => simp at h3
  | set h1 h2 _ h4 =>
    have key : ∀ s i, (cfg.start sp s₀).map s = some i → s = s₀ ∧ i = ⟨0, 0, .regular, none⟩ := by
      intro s i hi
      rw [h1] at hi
      by_cases h : s = s₀
      · subst h; rw [Function.update_self] at hi; cases hi; exact ⟨rfl, rfl⟩
      · rw [Function.update_of_ne h] at hi; cases hi
    refine ⟨⟨fun i hi => ?_, fun s i hi => ?_, fun s i hi _ => (key s i hi).1, fun s p i hi hp => ?_, fun s i hi => ?_,
      fun s i hi ho => ?_, fun s i hi ho => ?_, fun l hl => ?_, fun s i hi => ?_, by rw [h2]⟩, fun _ => ⟨_, by rw [h1, Function.update_self]⟩,
      fun s i hi => (key s i hi).1⟩
    · rw [(key _ _ hi).2]; exact ⟨rfl, rfl⟩
    · obtain ⟨rfl, rfl⟩ := key _ _ hi; exact .nil _
    · rw [(key _ _ hi).2] at hp; simp at hp
    · obtain ⟨rfl, rfl⟩ := key _ _ hi; simp [hVal]
    · rw [(key _ _ hi).2] at ho; simp at ho
    · rw [(key _ _ hi).2] at ho; simp at ho
    · rcases h4 with h | ⟨h5, h6, _⟩
      · rw [hl] at h
        by_cases hp : cfg.prune = true
        · rw [if_pos hp] at h; exact Or.inl h.symm
        · rw [if_neg hp] at h; cases h
      · rw [h6] at hl; cases hl
        exact Or.inr ⟨s₀, _, h5, by rw [h1, Function.update_self], le_refl _⟩
    · rw [(key _ _ hi).2]; simp

/-- Some queued state promises a goal of cost at most `W·C`, where `C` is the cost of a path to a goal. -/
theorem Inv.front (hS : sp.Sane rank) (hw : cfg.WeightOK) {m : Mgr σ K} (hI : Inv cfg sp s₀ (fun _ => False) m)
    (hadm : cfg.lazy = true ∨ sp.Admissible s₀) {i₀ : Info σ K} (h₀ : m.map s₀ = some i₀) {t : σ} {C : K} (hp : Path sp s₀ t C)
    (hg : sp.goal t = true) (hb : ∀ b, cfg.prune = true → cfg.bound = some b → C < b) :
    ∃ y j, m.map y = some j ∧ j.queue = .regular ∧ j.g + j.h ≤ max 1 (cfg.weight.getD 1) * C := by
  have hC := hp.nonneg hS
  have hW : C ≤ max 1 (cfg.weight.getD 1) * C := by
    have : (1:K) * C ≤ max 1 (cfg.weight.getD 1) * C := mul_le_mul_of_nonneg_right (le_max_left _ _) hC
    linarith
  have hwp := weight_pos hw
  have hnb : ∀ y j, m.map y = some j → j.queue ≠ .out → j.queue = .regular := by
    intro y j hy hq; have := hI.nobeam y j hy; cases h : j.queue <;> simp_all
  -- a value of h on a path is small
  have hbd : ∀ x e d, Path sp s₀ x e → Path sp x t d → hVal cfg sp s₀ x ≤ cfg.weight.getD 1 * d := by
    intro x e d hxe hx
    unfold hVal; split
    · exact mul_nonneg hwp.le (hx.nonneg hS)
    · rename_i hc; push Not at hc
      rcases hadm with h | h
      · exact absurd h hc.1
      · exact mul_le_mul_of_nonneg_left (h x e hxe t d hg hx) hwp.le
  have fin : ∀ x d e j, Path sp x t d → d + e = C → 0 ≤ e → m.map x = some j → j.g ≤ e → j.queue = .regular →
      ∃ y j, m.map y = some j ∧ j.queue = .regular ∧ j.g + j.h ≤ max 1 (cfg.weight.getD 1) * C := by
    intro x d e j hx hde he hj hje hq
    refine ⟨x, j, hj, hq, ?_⟩
    rw [hI.hval x j hj, ← hde]
    have h1 := hbd x j.g d (hI.path x j hj) hx
    have h2 : cfg.weight.getD 1 * d ≤ max 1 (cfg.weight.getD 1) * d := mul_le_mul_of_nonneg_right (le_max_right _ _) (hx.nonneg hS)
    have h3 : (1:K) * e ≤ max 1 (cfg.weight.getD 1) * e := mul_le_mul_of_nonneg_right (le_max_left _ _) he
    rw [mul_add]; linarith
  suffices hmain : ∀ x d, Path sp x t d → ∀ e j, d + e = C → 0 ≤ e → m.map x = some j → j.g ≤ e →
      ∃ y j, m.map y = some j ∧ j.queue = .regular ∧ j.g + j.h ≤ max 1 (cfg.weight.getD 1) * C by
    refine hmain s₀ C hp 0 i₀ (by simp) (le_refl _) h₀ ?_
    rw [(hI.root i₀ h₀).1]
  intro x d hx
  induction hx with
  | nil s =>
    intro e j hde he hj hje
    by_cases hq : j.queue = .out
    · have := hI.nogoal s j hj hq; rw [this] at hg; cases hg
    · exact fin s 0 e j (.nil s) hde he hj hje (hnb s j hj hq)
  | @cons x y u c d hs hy ih =>
    intro e j hde he hj hje
    by_cases hq : j.queue = .out
    · have hc0 := hS.nonneg _ _ _ hs
      rcases hI.done x j hj hq (by simp) y c hs with ⟨k, h1, h2⟩ | ⟨h1, h2⟩
      · exact ih hp hg hbd fin (e + c) k (by linarith) (by linarith) h1 (by linarith)
      · -- pruned: the least path cost is at most C
        have hle : cfg.minPathCost (j.g + c) (hVal cfg sp s₀ y) ≤ C := by
          have h3 := hbd y _ d ((hI.path x j hj).snoc hs) hy
          have hd0 := hy.nonneg hS
          unfold Cfg.minPathCost
          split
          · cases hwt : cfg.weight with
            | none =>
              rw [hwt] at h3; simp only [Option.getD_none, one_mul] at h3
              show j.g + c + _ ≤ _
              linarith
            | some w =>
              have hwpos := hw w hwt
              rw [hwt] at h3; simp only [Option.getD_some] at h3
              have : hVal cfg sp s₀ y / w ≤ d := by rw [div_le_iff₀ hwpos]; linarith
              show j.g + c + _ ≤ _
              linarith
          · linarith
        cases hl : m.least with
        | none => rw [hl] at h2; simp [geLeast] at h2
        | some l =>
          rw [hl] at h2; simp only [geLeast, decide_eq_true_eq] at h2
          have hlC := h2.trans hle
          rcases hI.least l hl with h | ⟨z, k, h4, h5, h6⟩
          · exact absurd hlC (not_le.2 (hb l h1 h))
          · have hkq : k.queue = .regular := by
              apply hnb z k h5; intro hc
              have := hI.nogoal z k h5 hc; rw [this] at h4; cases h4
            refine ⟨z, k, h5, hkq, ?_⟩
            have hh : k.h ≤ 0 := by
              rw [hI.hval z k h5]; unfold hVal; split
              · exact le_refl _
              · rename_i hc; push Not at hc
                rcases hadm with h | h
                · exact absurd h hc.1
                · have := h z _ (hI.path z k h5) z 0 h4 (.nil z)
                  nlinarith [hS.heur z]
            linarith
    · exact fin x (c + d) e j (.cons hs hy) hde he hj hje (hnb x j hj hq)

/-- With any heuristic that is not declared admissible, some state is queued as long as there is a path to a goal. -/
theorem Inv.front_any (hS : sp.Sane rank) (hw : cfg.WeightOK) {m : Mgr σ K} (hI : Inv cfg sp s₀ (fun _ => False) m)
    (hadm : (cfg.lazy = true ∨ sp.Admissible s₀) ∨ cfg.admissible = false) {i₀ : Info σ K} (h₀ : m.map s₀ = some i₀) {t : σ} {C : K}
    (hp : Path sp s₀ t C) (hg : sp.goal t = true) (hb : ∀ b, cfg.prune = true → cfg.bound = some b → C < b) :
    ∃ y j, m.map y = some j ∧ j.queue = .regular := by
  rcases hadm with hadm | hadm
  · obtain ⟨y, j, h1, h2, _⟩ := hI.front hS hw hadm h₀ hp hg hb
    exact ⟨y, j, h1, h2⟩
  have hnb : ∀ y j, m.map y = some j → j.queue ≠ .out → j.queue = .regular := by
    intro y j hy hq; have := hI.nobeam y j hy; cases h : j.queue <;> simp_all
  suffices hmain : ∀ x d, Path sp x t d → ∀ e j, d + e = C → 0 ≤ e → m.map x = some j → j.g ≤ e →
      ∃ y j, m.map y = some j ∧ j.queue = .regular by
    refine hmain s₀ C hp 0 i₀ (by simp) (le_refl _) h₀ ?_
    rw [(hI.root i₀ h₀).1]
  intro x d hx
  induction hx with
  | nil s =>
    intro e j hde he hj hje
    by_cases hq : j.queue = .out
    · have := hI.nogoal s j hj hq; rw [this] at hg; cases hg
    · exact ⟨s, j, hj, hnb s j hj hq⟩
  | @cons x y u c d hs hy ih =>
    intro e j hde he hj hje
    by_cases hq : j.queue = .out
    · have hc0 := hS.nonneg _ _ _ hs
      rcases hI.done x j hj hq (by simp) y c hs with ⟨k, h1, h2⟩ | ⟨h1, h2⟩
      · exact ih hp hg (e + c) k (by linarith) (by linarith) h1 (by linarith)
      · have hle : cfg.minPathCost (j.g + c) (hVal cfg sp s₀ y) ≤ C := by
          have hd0 := hy.nonneg hS
          unfold Cfg.minPathCost
          rw [hadm]
          show j.g + c ≤ C
          linarith
        cases hl : m.least with
        | none => rw [hl] at h2; simp [geLeast] at h2
        | some l =>
          rw [hl] at h2; simp only [geLeast, decide_eq_true_eq] at h2
          have hlC := h2.trans hle
          rcases hI.least l hl with h | ⟨z, k, h4, h5, h6⟩
          · exact absurd hlC (not_le.2 (hb l h1 h))
          · refine ⟨z, k, h5, hnb z k h5 fun hc => ?_⟩
            have := hI.nogoal z k h5 hc; rw [this] at h4; cases h4
    · exact ⟨x, j, hj, hnb x j hj hq⟩

end
end Mutable.HS
