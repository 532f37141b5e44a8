import Verif.HSearch.TopDown
import Verif.Graph.Props
import Verif.PlanEnum.Props
import Mathlib.Algebra.Order.Ring.Rat
import Mathlib.Tactic.NormNum
/-!
# Property C40: heuristic search for join orders

Specification: `Path sp s t c` — expansions lead from `s` to `t` with cost `c`; `Trace sp m s₀ s c` — following the stored
parents from `s` ends in `s₀`, and the actions on this way cost `c`; `Space.Sane` — no negative costs or heuristic values,
no infinite chain of expansions; `Space.Admissible` — the heuristic never overestimates; `Tree`, `IsPlan`, `Recorded` as for
C13; `Tree.cout card t` — the sum of the sizes of all join results of `t`.

`Run cfg sp md b m r`: with budget `b`, the work list algorithm can return `r` — for any choice between equally good
states; `start`: the state manager after the initial state was pushed; `Steps n`: `n` iterations.
-/
namespace Mutable.HS
open SB PE AdjMat
variable {σ K : Type} [DecidableEq σ] [Field K] [LinearOrder K] [IsStrictOrderedRing K]
variable {cfg : Cfg K} {sp : Space σ K} {s₀ : σ} {rank : σ → Nat}

omit [DecidableEq σ] [LinearOrder K] [IsStrictOrderedRing K] in
theorem Trace.transfer {m m' : Mgr σ K} (key : ∀ t k, m.map t = some k → ∃ k', m'.map t = some k' ∧ k'.parent = k.parent) {s : σ} {c : K}
    (hc : Trace sp m s₀ s c) : Trace sp m' s₀ s c := by
  induction hc with
  | root h1 h2 => obtain ⟨k, e1, e2⟩ := key _ _ h1; exact .root e1 (e2.trans h2)
  | step h1 h2 h3 _ ih => obtain ⟨k, e1, e2⟩ := key _ _ h1; exact .step e1 (e2.trans h2) h3 ih

/-! ### A* in general -/

/-- The result is a goal; the stored cost is that of a real path; the parents lead back to the initial state at no higher
cost; no assertion failed. -/
theorem C40_astar_sound (hA : cfg.IsAStar) (hS : sp.Sane rank) (hw : cfg.WeightOK) {b : Option Nat} {s : σ} {m : Mgr σ K}
    (h : cfg.Run sp .astar b (cfg.start sp s₀) (.found s m)) :
    sp.goal s = true ∧ m.ok = true ∧ ∃ i, m.map s = some i ∧ Path sp s₀ s i.g ∧ ∃ c, Trace sp m s₀ s c ∧ Path sp s₀ s c ∧ c ≤ i.g := by
  obtain ⟨m₁, i, hI, _, ht, hg, rfl⟩ := run_found hA hS hw (Inv.start hA hw).1 h
  have hd : (m₁.dequeue s i).map s = some { i with queue := .out } := by simp [Mgr.dequeue, Mgr.set]
  have key : ∀ t k, m₁.map t = some k → ∃ k', (m₁.dequeue s i).map t = some k' ∧ k'.parent = k.parent := by
    intro t k hk
    by_cases hts : t = s
    · subst hts; rw [ht.1] at hk; cases hk; exact ⟨_, hd, rfl⟩
    · exact ⟨k, by simp [Mgr.dequeue, Mgr.set, Function.update_of_ne hts, hk], rfl⟩
  obtain ⟨c, hc, hcg⟩ := hI.trace hS ht.1
  refine ⟨hg, by simp [Mgr.dequeue, Mgr.set, hI.ok], _, hd, hI.path s i ht.1, c, hc.transfer key, hc.path, hcg⟩

/-- Weighted A* (and lazy search with any heuristic) finds a goal whose cost is at most `max 1 w` times the cost of any
path to a goal (cheaper than the upper bound, if one is given), whatever the budget. -/
theorem C40_astar_bound (hA : cfg.IsAStar) (hS : sp.Sane rank) (hw : cfg.WeightOK) (hadm : cfg.lazy = true ∨ sp.Admissible s₀)
    {b : Option Nat} {s : σ} {m : Mgr σ K} (h : cfg.Run sp .astar b (cfg.start sp s₀) (.found s m)) {i : Info σ K}
    (hi : m.map s = some i) {t : σ} {C : K} (hp : Path sp s₀ t C) (hg : sp.goal t = true)
    (hb : ∀ b, cfg.prune = true → cfg.bound = some b → C < b) : i.g ≤ max 1 (cfg.weight.getD 1) * C := by
  have hC := hp.nonneg hS
  obtain ⟨i₀, h₀⟩ := (Inv.start (sp := sp) (s₀ := s₀) hA hw).2.1 (fun b h1 h2 => lt_of_le_of_lt hC (hb b h1 h2))
  obtain ⟨m₁, j, hI, hm, ht, _, rfl⟩ := run_found hA hS hw (Inv.start hA hw).1 h
  have : i = { j with queue := .out } := by simpa [Mgr.dequeue, Mgr.set] using hi.symm
  subst this
  obtain ⟨k₀, h1, _⟩ := hm.entry _ _ h₀
  obtain ⟨y, k, h2, h3, h4⟩ := hI.front hS hw hadm h1 hp hg hb
  have h5 := ht.2.2 y k h2 h3
  have h6 : 0 ≤ j.h := by rw [hI.hval s j ht.1]; exact hVal_nonneg hS hw s
  show j.g ≤ _
  linarith

/-- Unweighted search with an admissible heuristic (or lazy search with any heuristic) is optimal: the stored cost is
least among all paths to goals, and following the parents yields a path of just this cost. -/
theorem C40_astar_optimal (hA : cfg.IsAStar) (hS : sp.Sane rank) (hw : cfg.weight = none)
    (hadm : cfg.lazy = true ∨ sp.Admissible s₀) (hb : cfg.prune = true → cfg.bound = none)
    {b : Option Nat} {s : σ} {m : Mgr σ K} (h : cfg.Run sp .astar b (cfg.start sp s₀) (.found s m)) :
    ∃ i, m.map s = some i ∧ sp.goal s = true ∧ Trace sp m s₀ s i.g ∧
      ∀ t C, Path sp s₀ t C → sp.goal t = true → i.g ≤ C := by
  have hwo : cfg.WeightOK := fun w h => by rw [hw] at h; cases h
  obtain ⟨hg, _, i, hi, _, c, hc, hpc, hle⟩ := C40_astar_sound hA hS hwo h
  have key : ∀ t C, Path sp s₀ t C → sp.goal t = true → i.g ≤ C := by
    intro t C hp hgt
    have := C40_astar_bound hA hS hwo hadm h hi hp hgt (fun b h1 h2 => by rw [hb h1] at h2; cases h2)
    rw [hw] at this; simpa using this
  have : c = i.g := le_antisymm hle (key s c hpc hg)
  exact ⟨i, hi, hg, this ▸ hc, key⟩

/-- "Goal unreachable" is reported only if there is no path to a goal (cheaper than the upper bound); the heuristic may be
arbitrary if it is not declared to be admissible. -/
theorem C40_astar_complete (hA : cfg.IsAStar) (hS : sp.Sane rank) (hw : cfg.WeightOK) 
    (hadm : (cfg.lazy = true ∨ sp.Admissible s₀) ∨ cfg.admissible = false)
    {b : Option Nat} (h : cfg.Run sp .astar b (cfg.start sp s₀) .unreachable) {t : σ} {C : K} (hp : Path sp s₀ t C)
    (hg : sp.goal t = true) : ∃ b, cfg.prune = true ∧ cfg.bound = some b ∧ b ≤ C := by
  by_contra hc
  push Not at hc
  have hC := hp.nonneg hS
  obtain ⟨i₀, h₀⟩ := (Inv.start (sp := sp) (s₀ := s₀) hA hw).2.1 (fun b h1 h2 => lt_of_le_of_lt hC (hc b h1 h2))
  obtain ⟨m₁, hI, hm, he⟩ := run_unreachable hA hS hw (Inv.start hA hw).1 h
  obtain ⟨k₀, h1, _⟩ := hm.entry _ _ h₀
  obtain ⟨y, k, h2, h3⟩ := hI.front_any hS hw hadm h1 hp hg hc
  exact he y k h2 h3

/-- The search terminates: there is a bound on the number of iterations, whatever states are chosen; it never gets stuck
(some run exists for every budget); and no assertion fails on the way. -/
theorem C40_astar_terminates (hA : cfg.IsAStar) (hS : sp.Sane rank) (hw : cfg.WeightOK) (s₀ : σ) :
    (∃ N, ∀ n m, cfg.Steps sp .astar n (cfg.start sp s₀) m → n ≤ N ∧ m.ok = true ∧ ∀ b, ∃ r, cfg.Run sp .astar b m r) := by
  refine ⟨(Open sp s₀ (cfg.start sp s₀)).ncard, fun n m h => ?_⟩
  obtain ⟨h1, _, h2⟩ := steps_inv hA hS hw (Inv.start hA hw).1 h
  exact ⟨by omega, h1.ok, fun b => run_exists hA hS hw b h1⟩

/-- Without a budget the search is never cut off. -/
theorem C40_no_budget {md : Method} {m : Mgr σ K} {r : Result σ K} (h : cfg.Run sp md none m r) : r ≠ .exhausted := by
  generalize hb : (none : Option Nat) = b at h
  induction h with
  | found => simp
  | iter _ _ _ ih => subst hb; exact ih rfl
  | exhausted => cases hb
  | unreachable => simp

/-! ### Beam search in general -/

/-- The result is a goal and the parents lead back to the initial state. -/
theorem C40_beam_sound (hB : cfg.IsBeam) (hS : sp.Sane rank) {w : Option Nat} (hw : WidthOK w) {b : Option Nat} {s : σ} {m : Mgr σ K}
    (h : cfg.Run sp (.beam w) b (cfg.start sp s₀) (.found s m)) :
    sp.goal s = true ∧ ∃ i, m.map s = some i ∧ Path sp s₀ s i.g ∧ ∃ c, Trace sp m s₀ s c ∧ Path sp s₀ s c ∧ c ≤ i.g := by
  obtain ⟨m₁, i, hI, ht, hg, rfl⟩ := brun_found hB hS hw (BInv.start hB).1 h
  have hd : (m₁.dequeue s i).map s = some { i with queue := .out } := by simp [Mgr.dequeue, Mgr.set]
  have key : ∀ t k, m₁.map t = some k → ∃ k', (m₁.dequeue s i).map t = some k' ∧ k'.parent = k.parent := by
    intro t k hk
    by_cases hts : t = s
    · subst hts; rw [ht.1] at hk; cases hk; exact ⟨_, hd, rfl⟩
    · exact ⟨k, by simp [Mgr.dequeue, Mgr.set, Function.update_of_ne hts, hk], rfl⟩
  obtain ⟨c, hc, hcg⟩ := hI.trace hS ht.1
  refine ⟨hg, _, hd, hI.path s i ht.1, c, hc.transfer key, hc.path, hcg⟩

/-- Beam search terminates and never gets stuck. -/
theorem C40_beam_terminates (hB : cfg.IsBeam) (hS : sp.Sane rank) {w : Option Nat} (hw : WidthOK w) (s₀ : σ) :
    ∃ N, ∀ n m, cfg.Steps sp (.beam w) n (cfg.start sp s₀) m → n ≤ N ∧ ∀ b, ∃ r, cfg.Run sp (.beam w) b m r := by
  refine ⟨(BOpen sp s₀ (cfg.start sp s₀)).ncard, fun n m h => ?_⟩
  obtain ⟨h1, _, h2⟩ := bsteps_inv hB hS hw (BInv.start hB).1 h
  exact ⟨by omega, fun b => brun_exists hB hS hw b h1⟩

/-- Without pruning, and if every state that is not a goal has a successor, beam search finds a goal. -/
theorem C40_beam_finds (hB : cfg.IsBeam) (hS : sp.Sane rank) {w : Option Nat} (hw : WidthOK w) (hpr : cfg.prune = false)
    (hsucc : ∀ s c, Path sp s₀ s c → sp.goal s = false → sp.succ s ≠ []) {b : Option Nat} :
    ¬ cfg.Run sp (.beam w) b (cfg.start sp s₀) .unreachable := by
  intro h
  obtain ⟨m₁, hI, hm, he⟩ := brun_unreachable hB hS hw (BInv.start hB).1 h
  obtain ⟨i, hi⟩ := (BInv.start (sp := sp) (s₀ := s₀) hB).2 hpr
  obtain ⟨i', h1, _, _⟩ := hm s₀ i hi ((BInv.start (sp := sp) (s₀ := s₀) hB).1.root i hi).2.2
  exact hI.not_empty hS hpr hsucc h1 he

/-! ### Join orders -/

section
variable {C D : Type} [LinearOrder C] {E : PE.Env C D} {est : SB → D} {base : Nat → C} {card : SB → K} {cfgJ : Cfg K}

/-- The reconstructed plan table holds a join tree without cross products for the whole query, with its cost; the sum of
its intermediate results is at most `W` times that of any other such tree. -/
def GoodPlan (E : PE.Env C D) (est : SB → D) (base : Nat → C) (card : SB → K) (W : K) (T : PT C D) : Prop :=
  ∃ t, Recorded T (all E.n) t ∧ IsPlan E.n (Adjacent E.M) t (all E.n) ∧ t.cost E est base = (T (all E.n)).cost ∧
    ∀ t', IsPlan E.n (Adjacent E.M) t' (all E.n) → t.cout card - card (all E.n) ≤ W * (t'.cout card - card (all E.n))

/-- With `W = 1` the plan is *C_out*-optimal. -/
theorem C40_good_optimal {T : PT C D} (h : GoodPlan E est base card 1 T) : ∃ t, Recorded T (all E.n) t ∧
    IsPlan E.n (Adjacent E.M) t (all E.n) ∧ t.cost E est base = (T (all E.n)).cost ∧
    ∀ t', IsPlan E.n (Adjacent E.M) t' (all E.n) → t.cout card ≤ t'.cout card := by
  obtain ⟨t, h1, h2, h3, h4⟩ := h
  exact ⟨t, h1, h2, h3, fun t' ht' => by have := h4 t' ht'; linarith⟩

omit [IsStrictOrderedRing K] in
theorem forest_top {T : PT C D} {c : K} (h : Forest E est base card T (top E.n) c) :
    ∃ t, Recorded T (all E.n) t ∧ IsPlan E.n (Adjacent E.M) t (all E.n) ∧ t.cost E est base = (T (all E.n)).cost ∧ xcost E.n card t = c := by
  obtain ⟨f, h1, h2, h3⟩ := h.plans
  have hm : all E.n ∈ top E.n := by simp [top]
  exact ⟨f (all E.n), (h1 _ hm).1, h2 _ hm, (h1 _ hm).2, by simpa [fcost, top] using h3⟩

theorem path_of_plan_bu (hM : E.M.Symm) (hn : E.n ≤ 64) (h2 : 2 ≤ E.n) {heur : JS → K} {t : Tree}
    (ht : IsPlan E.n (Adjacent E.M) t (all E.n)) : ∃ g, (buSpace E.M E.n card heur).goal g = true ∧
    Path (buSpace E.M E.n card heur) (bottom E.n) g (t.cout card - card (all E.n)) := by
  have hc := plan_conn hM ht
  obtain ⟨mk, hp⟩ := bu_complete (card := card) (heur := heur) hM hn _ (top E.n) (fun _ => t) rfl (top_wf hn (by omega) hc) (by
    intro P hP; rw [top, List.mem_singleton] at hP; subst hP; exact ht)
  refine ⟨⟨top E.n, mk⟩, by simp [buSpace, top], ?_⟩
  have : t.cout card - card (all E.n) = fcost E.n card (fun _ => t) (top E.n) := by
    rw [cout_eq hn h2 ht]; simp [fcost, top]
  rw [this]; exact hp

theorem path_of_plan_td (hM : E.M.Symm) (hn : E.n ≤ 64) (h2 : 2 ≤ E.n) {heur : List SB → K} {t : Tree}
    (ht : IsPlan E.n (Adjacent E.M) t (all E.n)) : ∃ g, (tdSpace E.M E.n card heur).goal g = true ∧
    Path (tdSpace E.M E.n card heur) (top E.n) g (t.cout card - card (all E.n)) := by
  have hc := plan_conn hM ht
  have hp := td_complete (card := card) (heur := heur) hM hn _ (top E.n) (fun _ => t) rfl (top_wf hn (by omega) hc) (by
    intro P hP; rw [top, List.mem_singleton] at hP; subst hP; exact ht)
  refine ⟨(bottom E.n).parts, by simp [tdSpace, length_bottom], ?_⟩
  have : t.cout card - card (all E.n) = fcost E.n card (fun _ => t) (top E.n) := by
    rw [cout_eq hn h2 ht]; simp [fcost, top]
  rw [this]; exact hp

/-- Bottom-up search with an admissible heuristic: the search does not report failure, and whatever goal it finds, the plan is
reconstructed without violating an assertion and is good: optimal without a weight (`W = 1`), and never worse than the
weight allows.  The upper bound must be that of some plan. -/
theorem C40_bottom_up (hE : PE.Sane E est) (hM : E.M.Symmetric) (hn : E.n ≤ 64) (h2 : 2 ≤ E.n) (hconn : E.M.Connected (elems (all E.n)))
    {T : PT C D} (hT : Init est base E.n T) (hcard : ∀ S, 0 ≤ card S) {heur : JS → K} (hh : ∀ s, 0 ≤ heur s)
    (hA : cfg.IsAStar) (hw : cfg.WeightOK) (hadm : cfg.lazy = true ∨ (buSpace E.M E.n card heur).Admissible (bottom E.n))
    (hb : ∀ b, cfg.prune = true → cfg.bound = some b → ∃ t, IsPlan E.n (Adjacent E.M) t (all E.n) ∧ t.cout card - card (all E.n) < b)
    {b : Option Nat} {r : Result JS K} (h : cfg.Run (buSpace E.M E.n card heur) .astar b (cfg.start (buSpace E.M E.n card heur) (bottom E.n)) r) :
    r ≠ .unreachable ∧ ∀ s m, r = .found s m → ∃ T', ReconBU E m T s T' ∧ GoodPlan E est base card (max 1 (cfg.weight.getD 1)) T' := by
  rw [symmetric_iff] at hM
  rw [connected_iff] at hconn
  have hS := bu_sane (M := E.M) (n := E.n) hcard hh
  have hne : all E.n ≠ 0#64 := (ne_zero_iff _).2 ⟨0, (mem_all hn 0).2 (by omega)⟩
  obtain ⟨t₀, ht₀⟩ := conn_plan hn hconn hne (fun _ h => h)
  have hex : ∀ b, cfg.prune = true → cfg.bound = some b → ∃ g c, (buSpace E.M E.n card heur).goal g = true ∧
      Path (buSpace E.M E.n card heur) (bottom E.n) g c ∧ c < b := by
    intro b h1 h3
    obtain ⟨t, ht, hlt⟩ := hb b h1 h3
    obtain ⟨g, hg, hp⟩ := path_of_plan_bu (card := card) (heur := heur) hM hn h2 ht
    exact ⟨g, _, hg, hp, hlt⟩
  constructor
  · rintro rfl
    obtain ⟨g, hg, hp⟩ := path_of_plan_bu (card := card) (heur := heur) hM hn h2 ht₀
    obtain ⟨b', h1, h3, _⟩ := C40_astar_complete hA hS hw (Or.inl hadm) h hp hg
    obtain ⟨g', c', hg', hp', hlt⟩ := hex b' h1 h3
    obtain ⟨b'', h4, h5, h6⟩ := C40_astar_complete hA hS hw (Or.inl hadm) h hp' hg'
    rw [h3] at h5; cases h5
    exact absurd hlt (not_lt.2 h6)
  · rintro s m rfl
    obtain ⟨hg, _, i, hi, _, c, hc, hpc, hle⟩ := C40_astar_sound hA hS hw h
    obtain ⟨T', e1, e2, e3⟩ := bu_recon hE hM hn hT hc
    refine ⟨T', e1, ?_⟩
    have htop : s.parts = top E.n := e2.eq_top hn (by omega) (by simpa [buSpace] using hg)
    rw [htop] at e3
    obtain ⟨t, t1, t2, t3, t4⟩ := forest_top e3
    refine ⟨t, t1, t2, t3, fun t' ht' => ?_⟩
    have ht : t.cout card - card (all E.n) = c := by rw [cout_eq hn h2 t2, t4]; ring
    rw [ht]
    refine hle.trans ?_
    obtain ⟨g, hg', hp⟩ := path_of_plan_bu (card := card) (heur := heur) hM hn h2 ht'
    by_cases hbd : ∀ b, cfg.prune = true → cfg.bound = some b → t'.cout card - card (all E.n) < b
    · exact C40_astar_bound hA hS hw hadm h hi hp hg' hbd
    · push Not at hbd
      obtain ⟨b', h1, h3, h4⟩ := hbd
      obtain ⟨g', c', hg', hp', hlt⟩ := hex b' h1 h3
      have := C40_astar_bound hA hS hw hadm h hi hp' hg' (fun b h5 h6 => by rw [h3] at h6; cases h6; exact hlt)
      refine this.trans (mul_le_mul_of_nonneg_left (hlt.le.trans h4) (le_trans zero_le_one (le_max_left _ _)))

/-- Bottom-up search with a heuristic that is not declared admissible: it does not report failure, and finds some plan without
cross products. -/
theorem C40_bottom_up_inadmissible (hE : PE.Sane E est) (hM : E.M.Symmetric) (hn : E.n ≤ 64) (h2 : 2 ≤ E.n)
    (hconn : E.M.Connected (elems (all E.n))) {T : PT C D} (hT : Init est base E.n T) (hcard : ∀ S, 0 ≤ card S)
    {heur : JS → K} (hh : ∀ s, 0 ≤ heur s) (hA : cfg.IsAStar) (hw : cfg.WeightOK) (hadm : cfg.admissible = false)
    (hb : ∀ b, cfg.prune = true → cfg.bound = some b → ∃ t, IsPlan E.n (Adjacent E.M) t (all E.n) ∧ t.cout card - card (all E.n) < b)
    {b : Option Nat} {r : Result JS K} (h : cfg.Run (buSpace E.M E.n card heur) .astar b (cfg.start (buSpace E.M E.n card heur) (bottom E.n)) r) :
    r ≠ .unreachable ∧ ∀ s m, r = .found s m → ∃ T', ReconBU E m T s T' ∧ ∃ t, Recorded T' (all E.n) t ∧
      IsPlan E.n (Adjacent E.M) t (all E.n) ∧ t.cost E est base = (T' (all E.n)).cost := by
  rw [symmetric_iff] at hM
  rw [connected_iff] at hconn
  have hS := bu_sane (M := E.M) (n := E.n) hcard hh
  have hne : all E.n ≠ 0#64 := (ne_zero_iff _).2 ⟨0, (mem_all hn 0).2 (by omega)⟩
  obtain ⟨t₀, ht₀⟩ := conn_plan hn hconn hne (fun _ h => h)
  constructor
  · rintro rfl
    obtain ⟨g, hg, hp⟩ := path_of_plan_bu (card := card) (heur := heur) hM hn h2 ht₀
    obtain ⟨b', h1, h3, _⟩ := C40_astar_complete hA hS hw (Or.inr hadm) h hp hg
    obtain ⟨t, ht, hlt⟩ := hb b' h1 h3
    obtain ⟨g', hg', hp'⟩ := path_of_plan_bu (card := card) (heur := heur) hM hn h2 ht
    obtain ⟨b'', h4, h5, h6⟩ := C40_astar_complete hA hS hw (Or.inr hadm) h hp' hg'
    rw [h3] at h5; cases h5
    exact absurd hlt (not_lt.2 h6)
  · rintro s m rfl
    obtain ⟨hg, _, i, hi, _, c, hc, hpc, hle⟩ := C40_astar_sound hA hS hw h
    obtain ⟨T', e1, e2, e3⟩ := bu_recon hE hM hn hT hc
    have htop : s.parts = top E.n := e2.eq_top hn (by omega) (by simpa [buSpace] using hg)
    rw [htop] at e3
    obtain ⟨t, t1, t2, t3, t4⟩ := forest_top e3
    exact ⟨T', e1, t, t1, t2, t3⟩

/-- Top-down search with an admissible heuristic, as `C40_bottom_up`. -/
theorem C40_top_down (hE : PE.Sane E est) (hM : E.M.Symmetric) (hn : E.n ≤ 64) (h2 : 2 ≤ E.n) (hconn : E.M.Connected (elems (all E.n)))
    {T : PT C D} (hT : Init est base E.n T) (hcard : ∀ S, 0 ≤ card S) {heur : List SB → K} (hh : ∀ s, 0 ≤ heur s)
    (hA : cfg.IsAStar) (hw : cfg.WeightOK) (hadm : cfg.lazy = true ∨ (tdSpace E.M E.n card heur).Admissible (top E.n))
    (hb : ∀ b, cfg.prune = true → cfg.bound = some b → ∃ t, IsPlan E.n (Adjacent E.M) t (all E.n) ∧ t.cout card - card (all E.n) < b)
    {b : Option Nat} {r : Result (List SB) K}
    (h : cfg.Run (tdSpace E.M E.n card heur) .astar b (cfg.start (tdSpace E.M E.n card heur) (top E.n)) r) :
    r ≠ .unreachable ∧ ∀ s m, r = .found s m → ∃ T', ReconTD E m s T T' ∧ GoodPlan E est base card (max 1 (cfg.weight.getD 1)) T' := by
  rw [symmetric_iff] at hM
  rw [connected_iff] at hconn
  have hS := td_sane (n := E.n) hM hcard hh
  have hne : all E.n ≠ 0#64 := (ne_zero_iff _).2 ⟨0, (mem_all hn 0).2 (by omega)⟩
  obtain ⟨t₀, ht₀⟩ := conn_plan hn hconn hne (fun _ h => h)
  have hwf := top_wf hn (by omega) hconn
  have hex : ∀ b, cfg.prune = true → cfg.bound = some b → ∃ g c, (tdSpace E.M E.n card heur).goal g = true ∧
      Path (tdSpace E.M E.n card heur) (top E.n) g c ∧ c < b := by
    intro b h1 h3
    obtain ⟨t, ht, hlt⟩ := hb b h1 h3
    obtain ⟨g, hg, hp⟩ := path_of_plan_td (card := card) (heur := heur) hM hn h2 ht
    exact ⟨g, _, hg, hp, hlt⟩
  constructor
  · rintro rfl
    obtain ⟨g, hg, hp⟩ := path_of_plan_td (card := card) (heur := heur) hM hn h2 ht₀
    obtain ⟨b', h1, h3, _⟩ := C40_astar_complete hA hS hw (Or.inl hadm) h hp hg
    obtain ⟨g', c', hg', hp', hlt⟩ := hex b' h1 h3
    obtain ⟨b'', h4, h5, h6⟩ := C40_astar_complete hA hS hw (Or.inl hadm) h hp' hg'
    rw [h3] at h5; cases h5
    exact absurd hlt (not_lt.2 h6)
  · rintro s m rfl
    obtain ⟨hg, _, i, hi, hpi, c, hc, hpc, hle⟩ := C40_astar_sound hA hS hw h
    have hs := td_goal hn (td_wf hM hwf hpc) hg
    subst hs
    obtain ⟨T', e1, e3⟩ := td_recon hE hM hn hwf hc (Forest.init (card := card) hn hT)
    refine ⟨T', e1, ?_⟩
    rw [zero_add] at e3
    obtain ⟨t, t1, t2, t3, t4⟩ := forest_top e3
    refine ⟨t, t1, t2, t3, fun t' ht' => ?_⟩
    have ht : t.cout card - card (all E.n) = c := by rw [cout_eq hn h2 t2, t4]; ring
    rw [ht]
    refine hle.trans ?_
    obtain ⟨g, hg', hp⟩ := path_of_plan_td (card := card) (heur := heur) hM hn h2 ht'
    by_cases hbd : ∀ b, cfg.prune = true → cfg.bound = some b → t'.cout card - card (all E.n) < b
    · exact C40_astar_bound hA hS hw hadm h hi hp hg' hbd
    · push Not at hbd
      obtain ⟨b', h1, h3, h4⟩ := hbd
      obtain ⟨g', c', hg', hp', hlt⟩ := hex b' h1 h3
      have := C40_astar_bound hA hS hw hadm h hi hp' hg' (fun b h5 h6 => by rw [h3] at h6; cases h6; exact hlt)
      refine this.trans (mul_le_mul_of_nonneg_left (hlt.le.trans h4) (le_trans zero_le_one (le_max_left _ _)))

/-- Bottom-up beam search (without pruning) always finds a plan without cross products. -/
theorem C40_bottom_up_beam (hE : PE.Sane E est) (hM : E.M.Symmetric) (hn : E.n ≤ 64) (h2 : 2 ≤ E.n) (hconn : E.M.Connected (elems (all E.n)))
    {T : PT C D} (hT : Init est base E.n T) (hcard : ∀ S, 0 ≤ card S) {heur : JS → K} (hh : ∀ s, 0 ≤ heur s)
    (hB : cfg.IsBeam) (hpr : cfg.prune = false) {w : Option Nat} (hw : WidthOK w)
    {b : Option Nat} {r : Result JS K} (h : cfg.Run (buSpace E.M E.n card heur) (.beam w) b (cfg.start (buSpace E.M E.n card heur) (bottom E.n)) r) :
    r ≠ .unreachable ∧ ∀ s m, r = .found s m → ∃ T', ReconBU E m T s T' ∧ ∃ t, Recorded T' (all E.n) t ∧
      IsPlan E.n (Adjacent E.M) t (all E.n) ∧ t.cost E est base = (T' (all E.n)).cost := by
  rw [symmetric_iff] at hM
  rw [connected_iff] at hconn
  have hS := bu_sane (M := E.M) (n := E.n) hcard hh
  constructor
  · rintro rfl
    refine C40_beam_finds hB hS hw hpr (fun s c hp hg => ?_) h
    have hI := (BUInv.bottom (M := E.M) hn).path hM hp
    exact bu_progress hM hn hconn hI (by simp [buSpace] at hg; omega)
  · rintro s m rfl
    obtain ⟨hg, i, hi, _, c, hc, hpc, hle⟩ := C40_beam_sound hB hS hw h
    obtain ⟨T', e1, e2, e3⟩ := bu_recon hE hM hn hT hc
    refine ⟨T', e1, ?_⟩
    have htop : s.parts = top E.n := e2.eq_top hn (by omega) (by simpa [buSpace] using hg)
    rw [htop] at e3
    obtain ⟨t, t1, t2, t3, _⟩ := forest_top e3
    exact ⟨t, t1, t2, t3⟩

/-- The same for top-down beam search. -/
theorem C40_top_down_beam (hE : PE.Sane E est) (hM : E.M.Symmetric) (hn : E.n ≤ 64) (h2 : 2 ≤ E.n) (hconn : E.M.Connected (elems (all E.n)))
    {T : PT C D} (hT : Init est base E.n T) (hcard : ∀ S, 0 ≤ card S) {heur : List SB → K} (hh : ∀ s, 0 ≤ heur s)
    (hB : cfg.IsBeam) (hpr : cfg.prune = false) {w : Option Nat} (hw : WidthOK w)
    {b : Option Nat} {r : Result (List SB) K}
    (h : cfg.Run (tdSpace E.M E.n card heur) (.beam w) b (cfg.start (tdSpace E.M E.n card heur) (top E.n)) r) :
    r ≠ .unreachable ∧ ∀ s m, r = .found s m → ∃ T', ReconTD E m s T T' ∧ ∃ t, Recorded T' (all E.n) t ∧
      IsPlan E.n (Adjacent E.M) t (all E.n) ∧ t.cost E est base = (T' (all E.n)).cost := by
  rw [symmetric_iff] at hM
  rw [connected_iff] at hconn
  have hS := td_sane (n := E.n) hM hcard hh
  have hwf := top_wf hn (by omega) hconn
  constructor
  · rintro rfl
    refine C40_beam_finds hB hS hw hpr (fun s c hp hg => ?_) h
    exact td_progress hM hn (td_wf hM hwf hp) (by simpa [tdSpace] using hg)
  · rintro s m rfl
    obtain ⟨hg, i, hi, _, c, hc, hpc, hle⟩ := C40_beam_sound hB hS hw h
    have hs := td_goal hn (td_wf hM hwf hpc) hg
    subst hs
    obtain ⟨T', e1, e3⟩ := td_recon hE hM hn hwf hc (Forest.init (card := card) hn hT)
    obtain ⟨t, t1, t2, t3, _⟩ := forest_top e3
    exact ⟨T', e1, t, t1, t2, t3⟩

/-- Two states that the bottom-up search reaches are the same if they have the same subproblems: comparing and hashing
states by their subproblems alone, as the code does, does not confuse states with different marks. -/
theorem C40_mark_determined (hM : E.M.Symmetric) (hn : E.n ≤ 64) {heur : JS → K} {s s' : JS} {c c' : K}
    (h : Path (buSpace E.M E.n card heur) (bottom E.n) s c) (h' : Path (buSpace E.M E.n card heur) (bottom E.n) s' c')
    (he : s.parts = s'.parts) : s = s' := by
  rw [symmetric_iff] at hM
  exact ((BUInv.bottom hn).path hM h).mark_eq ((BUInv.bottom hn).path hM h') he

/-- The heuristic `zero` is admissible. -/
theorem C40_zero_admissible (hcard : ∀ S, 0 ≤ card S) :
    (buSpace E.M E.n card (fun _ => 0)).Admissible (bottom E.n) :=
  fun _ _ _ _ _ _ hp => hp.nonneg (bu_sane hcard (fun _ => le_refl _))

/-- The heuristic `sum` is admissible for top-down search. -/
theorem C40_sum_admissible (hM : E.M.Symmetric) (hn : E.n ≤ 64) (h2 : 1 ≤ E.n) (hconn : E.M.Connected (elems (all E.n)))
    (hcard : ∀ S, 0 ≤ card S) : (tdSpace E.M E.n card (sumTD card)).Admissible (top E.n) := by
  rw [symmetric_iff] at hM
  rw [connected_iff] at hconn
  exact fun s e hp t c hg hp' => sumTD_le hM hn hcard (td_wf hM (top_wf hn h2 hconn) hp) hp' hg

omit [IsStrictOrderedRing K] in
theorem sumTD_nonneg [IsStrictOrderedRing K] (hcard : ∀ S, 0 ≤ card S) (l : List SB) : 0 ≤ sumTD card l := by
  unfold sumTD; split
  · exact le_refl _
  · exact List.sum_nonneg (by simp only [List.mem_map]; rintro x ⟨P, _, rfl⟩; exact hcard P)

end

/-! ### The hypotheses are met -/

/-- Bottom-up A* with pruning and the heuristic `zero`, and top-down A* with `sum`, on a cycle of four relations. -/
example : ∃ r, ({ prune := true, admissible := true } : Cfg ℚ).Run (buSpace exC4 4 (fun S => (size S : ℚ)) (fun _ => 0)) .astar none
      (({ prune := true, admissible := true } : Cfg ℚ).start (buSpace exC4 4 (fun S => (size S : ℚ)) (fun _ => 0)) (bottom 4)) r ∧
    ∃ s m, r = .found s m ∧ ∃ T', ReconBU (coutEnv 4 exC4 size) m (initPT size) s T' ∧
      GoodPlan (coutEnv 4 exC4 size) (fun S => (S, size S)) (fun _ => 0) (fun S => (size S : ℚ)) 1 T' := by
  have hc : ∀ S : SB, (0:ℚ) ≤ (size S : ℚ) := fun S => by positivity
  have hS := bu_sane (M := exC4) (n := 4) (card := fun S => (size S : ℚ)) (heur := fun _ => 0) hc (fun _ => le_refl _)
  have hA : ({ prune := true, admissible := true } : Cfg ℚ).IsAStar := ⟨rfl, rfl⟩
  have hw : ({ prune := true, admissible := true } : Cfg ℚ).WeightOK := fun w h => by cases h
  obtain ⟨N, hN⟩ := C40_astar_terminates hA hS hw (bottom 4)
  obtain ⟨r, hr⟩ := (hN 0 _ (.zero _)).2.2 none
  have hconn : exC4.Connected (elems (all 4)) := by
    rw [connected_iff, ← isConnected_iff ((symmetric_iff _).1 exC4_ok.2)]; decide
  have key := C40_bottom_up (E := coutEnv 4 exC4 size) (cout_sane _ _ _) exC4_ok.2 (by decide) (by decide) hconn
    (cout_init size 4 (by omega)) hc (fun _ => le_refl _) hA hw (Or.inr (C40_zero_admissible (E := coutEnv 4 exC4 size) hc))
    (fun b _ h => by cases h) hr
  refine ⟨r, hr, ?_⟩
  cases r with
  | found s m => exact ⟨s, m, rfl, by simpa using key.2 s m rfl⟩
  | unreachable => exact absurd rfl key.1
  | exhausted =>
    exact absurd rfl (C40_no_budget hr)

/-! ### The missing braces -/

/-- Three states: `s` leads to `a` (1) and to the goal `t` (2), `a` leads to `t` (5). -/
inductive Ex | s | a | t
  deriving DecidableEq

def exSpace : Space Ex ℚ where
  succ := fun | .s => [(.a, 1), (.t, 2)] | .a => [(.t, 5)] | .t => []
  goal := fun x => x == .t
  heur := fun _ => 0

def exCfg : Cfg ℚ := { hasRegular := false, hasBeam := true }

/-- Moving a state from the regular marker to the beam overwrites its cost: beam search (dynamic width) had found the goal
with cost 2, but returns it with cost 6, and an assertion is violated on the way. -/
theorem C40_beam_raises_cost : ∃ m₁ i₁ m i, exCfg.Iter exSpace (.beam none) (exCfg.start exSpace .s) m₁ ∧ m₁.map .t = some i₁ ∧ i₁.g = 2 ∧
    exCfg.Run exSpace (.beam none) none (exCfg.start exSpace .s) (.found .t m) ∧ m.map .t = some i ∧ i.g = 6 ∧ m.ok = false := by
  let m₀ : Mgr Ex ℚ := ⟨fun | .s => some ⟨0, 0, .beam, none⟩ | _ => none, none, true⟩
  let m₁ : Mgr Ex ℚ := ⟨fun | .s => some ⟨0, 0, .out, none⟩ | .a => some ⟨1, 0, .beam, some .s⟩ | .t => some ⟨2, 0, .regular, some .s⟩, none, true⟩
  let m₂ : Mgr Ex ℚ := ⟨fun | .s => some ⟨0, 0, .out, none⟩ | .a => some ⟨1, 0, .out, some .s⟩ | .t => some ⟨6, 0, .beam, some .a⟩, none, false⟩
  have mgr_ext : ∀ m m' : Mgr Ex ℚ, (∀ x, m.map x = m'.map x) → m.least = m'.least → m.ok = m'.ok → m = m' := by
    rintro ⟨a, b, c⟩ ⟨a', b', c'⟩ h h1 h2
    cases h1; cases h2
    have : a = a' := funext h
    rw [this]
  have h0 : exCfg.start exSpace .s = m₀ := by
    apply mgr_ext
    · rintro (_ | _ | _) <;> simp [exCfg, Cfg.start, Cfg.push, Cfg.prunes, Mgr.set, m₀, Function.update]
    · simp [exCfg, Cfg.start, Cfg.push, Cfg.prunes, Mgr.set, m₀]
    · simp [exCfg, Cfg.start, Cfg.push, Cfg.prunes, Mgr.set, m₀]
  have i1 : exCfg.Iter exSpace (.beam none) m₀ m₁ := by
    refine ⟨.s, ⟨0, 0, .beam, none⟩, Or.inl ⟨rfl, rfl, rfl, ?_⟩, rfl, ?_⟩
    · rintro (_ | _ | _) j hj _ <;> simp [m₀] at hj; subst hj; simp
    · have := Cfg.BeamExplore.dynamic (cfg := exCfg) (sp := exSpace) (width := none) (m := m₀.dequeue .s ⟨0, 0, .beam, none⟩) (s := .s)
        (l := [⟨.a, 1, 0⟩, ⟨.t, 2, 0⟩]) rfl (by
          simp [Cfg.allCands, exSpace, Mgr.gOf, Mgr.dequeue, Mgr.set, Cfg.hOf, exCfg, m₀, Function.update]) (by simp [Cand.f])
      have conv : ∀ m m' m'' s, m' = m'' → exCfg.BeamExplore exSpace none m s m' → exCfg.Explores exSpace (.beam none) m s m'' := by
        rintro m m' m'' s rfl h; exact h
      refine conv _ _ _ _ (mgr_ext _ _ ?_ ?_ ?_) this
      · rintro (_ | _ | _) <;> simp [numBeamed, Cfg.pushCands, Cfg.pushRest, Cfg.pushBeam, Cfg.pushRegular, Cfg.push, Cfg.prunes, Mgr.set,
          Mgr.dequeue, Mgr.insist, exCfg, m₀, m₁, Function.update]
      · simp [numBeamed, Cfg.pushCands, Cfg.pushRest, Cfg.pushBeam, Cfg.pushRegular, Cfg.push, Cfg.prunes, Mgr.set,
          Mgr.dequeue, Mgr.insist, exCfg, m₀, m₁, Function.update]
      · simp [numBeamed, Cfg.pushCands, Cfg.pushRest, Cfg.pushBeam, Cfg.pushRegular, Cfg.push, Cfg.prunes, Mgr.set,
          Mgr.dequeue, Mgr.insist, exCfg, m₀, m₁, Function.update]
  have i2 : exCfg.Iter exSpace (.beam none) m₁ m₂ := by
    refine ⟨.a, ⟨1, 0, .beam, some .s⟩, Or.inl ⟨rfl, rfl, rfl, ?_⟩, rfl, ?_⟩
    · rintro (_ | _ | _) j hj hq <;> simp [m₁] at hj <;> subst hj <;> simp at hq ⊢
    · have := Cfg.BeamExplore.dynamic (cfg := exCfg) (sp := exSpace) (width := none) (m := m₁.dequeue .a ⟨1, 0, .beam, some .s⟩) (s := .a)
        (l := [⟨.t, 6, 0⟩]) rfl (by
          simp [Cfg.allCands, exSpace, Mgr.gOf, Mgr.dequeue, Mgr.set, Cfg.hOf, exCfg, m₁, Function.update]; norm_num) (by simp [Cand.f])
      have conv : ∀ m m' m'' s, m' = m'' → exCfg.BeamExplore exSpace none m s m' → exCfg.Explores exSpace (.beam none) m s m'' := by
        rintro m m' m'' s rfl h; exact h
      refine conv _ _ _ _ (mgr_ext _ _ ?_ ?_ ?_) this
      · rintro (_ | _ | _) <;> simp [numBeamed, Cfg.pushCands, Cfg.pushRest, Cfg.pushBeam, Cfg.pushRegular, Cfg.push, Cfg.prunes, Mgr.set,
          Mgr.dequeue, Mgr.insist, exCfg, m₁, m₂, Function.update]
      · simp [numBeamed, Cfg.pushCands, Cfg.pushRest, Cfg.pushBeam, Cfg.pushRegular, Cfg.push, Cfg.prunes, Mgr.set,
          Mgr.dequeue, Mgr.insist, exCfg, m₁, m₂, Function.update]
      · simp [numBeamed, Cfg.pushCands, Cfg.pushRest, Cfg.pushBeam, Cfg.pushRegular, Cfg.push, Cfg.prunes, Mgr.set,
          Mgr.dequeue, Mgr.insist, exCfg, m₁, m₂, Function.update]
        norm_num
  refine ⟨m₁, ⟨2, 0, .regular, some .s⟩, m₂.dequeue .t ⟨6, 0, .beam, some .a⟩, ⟨6, 0, .out, some .a⟩, ?_, rfl, rfl, ?_, ?_, rfl, rfl⟩
  · rw [h0]; exact i1
  · rw [h0]
    refine .iter (by simp) i1 (.iter (by simp) i2 (.found (by simp) (Or.inl ⟨rfl, rfl, rfl, ?_⟩) rfl))
    rintro (_ | _ | _) j hj hq <;> simp [m₂] at hj <;> subst hj <;> simp at hq ⊢
  · simp [Mgr.dequeue, Mgr.set]

/-- The example meets the requirements. -/
example : exSpace.Sane (fun | .s => 2 | .a => 1 | .t => 0) ∧ exCfg.IsBeam ∧ WidthOK none := by
  refine ⟨⟨?_, ?_, ?_⟩, ⟨rfl, rfl⟩, trivial⟩
  · rintro (_ | _ | _) t c h <;> simp [exSpace] at h
    · rcases h with ⟨_, rfl⟩ | ⟨_, rfl⟩ <;> norm_num
    · rw [h.2]; norm_num
  · rintro (_ | _ | _) t c h <;> simp [exSpace] at h
    · rcases h with ⟨rfl, _⟩ | ⟨rfl, _⟩ <;> simp
    · rw [h.1]; simp
  · intro s; simp [exSpace]

end Mutable.HS
