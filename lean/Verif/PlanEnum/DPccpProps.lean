import Verif.PlanEnum.Props
import Verif.PlanEnum.DPccp
/-!
# Property C14: `DPccp`

`DPccp` is *not* optimal on all connected query graphs (`C14_not_optimal`): the breadth-first queue of
`for_each_CSG_undirected` can call back a connected set before one of its connected subsets, so a plan is costed before the
plan of one of its inputs has reached its final cost.  What does hold is proved in the other theorems.
-/
namespace Mutable
open SB AdjMat
namespace AdjMat

/-- Paths with `k` edges inside `S`. -/
inductive PathIn (M : AdjMat) (S : Set Nat) : Nat → Nat → Nat → Prop
  | nil (x : Nat) (h : x ∈ S) : PathIn M S 0 x x
  | tail {k x y z : Nat} (h : PathIn M S k x y) (he : M.Adj y z) (hz : z ∈ S) : PathIn M S (k+1) x z

/-- Distance-hereditary: passing to a connected subset never makes two of its vertices more distant. -/
def DistanceHereditary (M : AdjMat) (n : Nat) : Prop :=
  ∀ A S : SB, M.Connected (elems A) → M.Connected (elems S) → elems A ⊆ elems S → elems S ⊆ {i | i < n} →
    ∀ x ∈ elems A, ∀ y ∈ elems A, ∀ k, M.PathIn (elems S) k x y → ∃ j, j ≤ k ∧ M.PathIn (elems A) j x y

theorem PathIn.right {M : AdjMat} {S : Set Nat} {k x y : Nat} (h : M.PathIn S k x y) : y ∈ S := by
  cases h with
  | nil _ h => exact h
  | tail _ _ h => exact h

theorem path_of_ball (M : AdjMat) {i : Nat} {S : SB} (hi : Mem S i) (k : Nat) :
    ∀ x, Mem (M.ball i S k) x → ∃ j, j ≤ k ∧ M.PathIn (elems S) j i x := by
  induction k with
  | zero =>
    intro x hx; rw [ball, mem_singleton] at hx; rw [hx.2]
    exact ⟨0, le_rfl, .nil _ ((mem_elems _ _).2 hi)⟩
  | succ k ih =>
    intro x hx
    rw [ball, mem_or, mem_and, mem_neighbors] at hx
    rcases hx with h | ⟨⟨_, y, hy, he⟩, hS⟩
    · obtain ⟨j, h1, h2⟩ := ih x h; exact ⟨j, by omega, h2⟩
    · obtain ⟨j, h1, h2⟩ := ih y hy
      exact ⟨j+1, by omega, .tail h2 (by rw [adj_eq]; exact he) ((mem_elems _ _).2 hS)⟩

theorem ball_of_path (M : AdjMat) {i : Nat} {S : SB} {j x : Nat} (h : M.PathIn (elems S) j i x) : Mem (M.ball i S j) x := by
  induction h with
  | nil x hx => rw [ball]; simp [mem_lt ((mem_elems _ _).1 hx)]
  | @tail k x y z h he hz ih =>
    rw [ball, mem_or, mem_and, mem_neighbors]
    rw [adj_eq] at he
    by_cases hc : Mem (M.ball x S k) z
    · exact Or.inl hc
    · exact Or.inr ⟨⟨hc, y, ih, he⟩, (mem_elems _ _).1 hz⟩

theorem ballHered_of {M : AdjMat} {n : Nat} (hn : n ≤ 64) (h : M.DistanceHereditary n) (i : Nat) : M.BallHered (all n) i := by
  intro A S hA hS hsub hSn hi k x hx hb
  obtain ⟨j, h1, h2⟩ := path_of_ball M (hsub i hi) k x hb
  obtain ⟨j', h3, h4⟩ := h A S ((connected_iff M A).2 hA) ((connected_iff M S).2 hS) ((sub_iff_elems _ _).1 hsub)
    ((PE.sub_all_elems hn S).2 hSn) i ((mem_elems _ _).2 hi) x ((mem_elems _ _).2 hx) j h2
  exact ball_mono M (by omega) x (ball_of_path M h4)

/-- A path to `u` passes through `y` or avoids all edges at `y`. -/
theorem path_visits {M : AdjMat} {S : Set Nat} {k x u : Nat} (y : Nat) (h : M.PathIn S k x u) :
    (∃ m, m ≤ k ∧ M.PathIn S m x y) ∨ ∀ a, Relation.ReflTransGen (M.EdgeMinus a y) x u := by
  induction h with
  | nil x hx =>
    by_cases hc : x = y
    · subst hc; exact Or.inl ⟨0, le_rfl, .nil _ hx⟩
    · exact Or.inr (fun a => .refl)
  | @tail k x v z h he hz ih =>
    rcases ih with ⟨m, h1, h2⟩ | h2
    · exact Or.inl ⟨m, by omega, h2⟩
    · by_cases hc : z = y
      · subst hc; exact Or.inl ⟨k+1, le_rfl, .tail h he hz⟩
      · by_cases hv : v = y
        · subst hv; exact Or.inl ⟨k, by omega, h⟩
        · right; intro a
          refine (h2 a).tail ⟨by rw [adj_eq] at he; exact he, ?_, ?_⟩
          · rintro ⟨_, h⟩; exact hc h
          · rintro ⟨h, _⟩; exact hv h

/-- Forests are distance-hereditary. -/
theorem distanceHereditary_of_forest {M : AdjMat} (hM : M.Symmetric) (hF : M.Forest) (n : Nat) : M.DistanceHereditary n := by
  intro A S hA hS hsub _ x hx y hy k
  induction k using Nat.strong_induction_on generalizing y with
  | _ k ih =>
    intro hp
    cases hp with
    | nil => exact ⟨0, le_rfl, .nil _ hx⟩
    | @tail k' _ u _ h he hz =>
      by_cases hu : u ∈ elems A
      · obtain ⟨j, h1, h2⟩ := ih k' (by omega) u hu h
        exact ⟨j+1, by omega, .tail h2 he hy⟩
      · rcases path_visits y h with ⟨m, h1, h2⟩ | h2
        · obtain ⟨j, h3, h4⟩ := ih m (by omega) y hy h2
          exact ⟨j, by omega, h4⟩
        · exfalso
          have hS' := (symmetric_iff M).1 hM
          rw [forest_iff] at hF
          rw [adj_eq] at he
          refine hF u y he ?_
          have e1 : Relation.ReflTransGen (M.EdgeMinus u y) u x :=
            rtg_symm (fun a b h => edgeMinus_symm hS' h) (h2 u)
          refine e1.trans ?_
          have hw := hA x hx y hy
          unfold WalkIn at hw
          rw [adj_eq] at hw
          refine rtg_mono ?_ hw
          rintro a b ⟨hab, ha, hb⟩
          refine ⟨hab, ?_, ?_⟩
          · rintro ⟨rfl, _⟩; exact hu ha
          · rintro ⟨_, rfl⟩; exact hu hb

/-- Cliques are distance-hereditary. -/
theorem distanceHereditary_of_clique {M : AdjMat} {n : Nat} (h : ∀ i j, i < n → j < n → i ≠ j → M.Adj i j) :
    M.DistanceHereditary n := by
  intro A S hA hS hsub hn x hx y hy k hp
  by_cases hxy : x = y
  · subst hxy; exact ⟨0, by omega, .nil _ hx⟩
  · cases hp with
    | nil => exact absurd rfl hxy
    | @tail k' => exact ⟨1, by omega, .tail (.nil _ hx) (h x y (hn (hsub hx)) (hn (hsub hy)) hxy) hy⟩

end AdjMat

namespace PE
variable {C D : Type} [LinearOrder C] (E : Env C D) (est : SB → D) (base : Nat → C)

/-- On every query graph `DPccp` violates no assertion and records for every connected set a complete plan without Cartesian
products, which costs at most the recorded cost; unconnected sets get no plan.
Missing for the full property: optimality, which is false in general (`C14_not_optimal`). -/
theorem C14_valid_partial (hE : Sane E est) (hM : E.M.Symmetric) (hn : E.n ≤ 64) (T : PT C D) (hT : Init est base E.n T) :
    ∃ T', dpCcp E T = some T' ∧ ∀ S, (elems S).Nonempty → elems S ⊆ {i | i < E.n} →
      (E.M.Connected (elems S) → hasPlan T' S = true ∧
        ∃ t, Recorded T' S t ∧ IsPlan E.n (Adjacent E.M) t S ∧ t.cost E est base ≤ (T' S).cost) ∧
      (¬ E.M.Connected (elems S) → hasPlan T' S = false) := by
  have hM' := (symmetric_iff _).1 hM
  obtain ⟨T', h1, _, h3, h4⟩ := dpCcp_run hE hM' hn hT
  refine ⟨T', h1, fun S a b => ?_⟩
  rw [nonempty_elems] at a
  rw [sub_all_elems hn] at b
  rw [connected_iff]
  constructor
  · intro hc
    have hp := dpCcp_hasPlan hM' h4 hc a b hn
    exact ⟨hp, h3.recorded hE hn (size S) S le_rfl b hp⟩
  · intro hc
    by_contra hp
    obtain ⟨t, _, ht, _⟩ := h3.recorded hE hn (size S) S le_rfl b (by simpa using hp)
    exact hc (plan_conn hM' ht)

/-- On distance-hereditary query graphs (in particular acyclic ones and cliques) `DPccp` is optimal.
Missing for the full property: the other graphs, where it is false in general (`C14_not_optimal`). -/
theorem C14_optimal_partial (hE : Sane E est) (hM : E.M.Symmetric) (hn : E.n < 64) (hD : E.M.DistanceHereditary E.n)
    (T : PT C D) (hT : Init est base E.n T) : AllOptimal E est base (dpCcp E T) :=
  allOptimal_of hM hn (solves_dpCcp hE ((symmetric_iff _).1 hM) (by omega) hT
    (csgs_subset_first _ _ ((symmetric_iff _).1 hM) (fun i _ => ballHered_of (by omega) hD i)))

/-- Acyclic query graphs. -/
theorem C14_acyclic_partial (hE : Sane E est) (hM : E.M.Symmetric) (hn : E.n < 64) (hF : E.M.Forest)
    (T : PT C D) (hT : Init est base E.n T) : AllOptimal E est base (dpCcp E T) :=
  C14_optimal_partial E est base hE hM hn (distanceHereditary_of_forest hM hF _) T hT

/-- Cliques. -/
theorem C14_clique_partial (hE : Sane E est) (hM : E.M.Symmetric) (hn : E.n < 64)
    (hK : ∀ i j, i < E.n → j < E.n → i ≠ j → E.M.Adj i j)
    (T : PT C D) (hT : Init est base E.n T) : AllOptimal E est base (dpCcp E T) :=
  C14_optimal_partial E est base hE hM hn (distanceHereditary_of_clique hK) T hT

/-- 5-cycle 5-1-2-3-4 with vertex 0 attached to 1 -/
def exG : AdjMat := ofEdges 6 [(5,1),(1,2),(2,3),(3,4),(4,5),(0,1)]
/-- cardinalities: 1 for seven connected sets, 1000 for all others -/
def exCard (S : SB) : Nat :=
  if S ∈ [0b100010#64, 0b000110#64, 0b001100#64, 0b100110#64, 0b001110#64, 0b101110#64, 0b111110#64] then 1 else 1000

set_option maxRecDepth 100000 in
theorem exG_cost : ((dpCcp (coutEnv 6 exG exCard) (initPT exCard)).map fun T => (T 0b111111#64).cost) = some 2003 := by
  decide +kernel

theorem ofEdges_symm (n : Nat) (es : List (Nat × Nat)) (hes : ∀ e ∈ es, e.1 < 64 ∧ e.2 < 64) : (ofEdges n es).Symmetric := by
  rw [symmetric_iff]
  intro a b h
  rw [edge_ofEdges _ _ hes] at h ⊢
  exact h.symm

theorem exG_symm : exG.Symmetric := ofEdges_symm _ _ (by decide)

/-- the plan `((((5 ⋈ 1) ⋈ 2) ⋈ 3) ⋈ 4) ⋈ 0` -/
def exTree : Tree := .node (.node (.node (.node (.node (.leaf 5) (.leaf 1)) (.leaf 2)) (.leaf 3)) (.leaf 4)) (.leaf 0)

theorem exTree_plan : IsPlan 6 (Adjacent exG) exTree 0b111111#64 := by
  have hadj : ∀ A B x y, Mem A x → Mem B y → ((x, y) ∈ [(5,1),(1,2),(2,3),(3,4),(4,5),(0,1)] ∨
      (y, x) ∈ [(5,1),(1,2),(2,3),(3,4),(4,5),(0,1)]) → Adjacent exG A B := by
    intro A B x y hx hy he
    exact ⟨x, y, hx, hy, (edge_ofEdges _ _ (by decide) x y).2 he⟩
  have h1 := IsPlan.node (.leaf 5 (by omega)) (.leaf 1 (by omega)) (n := 6) (may := Adjacent exG) (by decide)
    (hadj _ _ 5 1 (by decide) (by decide) (by decide))
  have h2 := IsPlan.node h1 (.leaf 2 (by omega)) (by decide) (hadj _ _ 1 2 (by decide) (by decide) (by decide))
  have h3 := IsPlan.node h2 (.leaf 3 (by omega)) (by decide) (hadj _ _ 2 3 (by decide) (by decide) (by decide))
  have h4 := IsPlan.node h3 (.leaf 4 (by omega)) (by decide) (hadj _ _ 3 4 (by decide) (by decide) (by decide))
  have h5 := IsPlan.node h4 (.leaf 0 (by omega)) (by decide) (hadj _ _ 1 0 (by decide) (by decide) (by decide))
  exact h5

theorem exTree_cost : exTree.cost (coutEnv 6 exG exCard) (fun S => (S, exCard S)) (fun _ => 0) = 1004 := by decide

/-- `DPccp` with `C_out` records cost 2003 for a connected query of six relations that has a plan of cost 1004: the property
as stated fails. -/
theorem C14_not_optimal :
    Sane (coutEnv 6 exG exCard) (fun S => (S, exCard S)) ∧ exG.Symmetric ∧ exG.Connected {i | i < 6} ∧
    Init (fun S => (S, exCard S)) (fun _ => 0) 6 (initPT exCard) ∧
    ¬ WholeOptimal (coutEnv 6 exG exCard) (fun S => (S, exCard S)) (fun _ => 0) (dpCcp (coutEnv 6 exG exCard) (initPT exCard)) := by
  refine ⟨cout_sane _ _ _, exG_symm, ?_, cout_init _ _ (by omega), ?_⟩
  · have h := (isConnected_iff ((symmetric_iff _).1 exG_symm) (all 6)).1 (by decide)
    rw [← connected_iff] at h
    rwa [show elems (all 6) = {i | i < 6} from by ext i; rw [mem_elems, mem_all (by omega)]; rfl] at h
  · rintro ⟨T', h1, _, t, _, _, h3, h4⟩
    have hc := exG_cost
    rw [h1] at hc
    simp only [Option.map_some, Option.some.injEq] at hc
    have hall : all 6 = 0b111111#64 := by decide
    have := h4 exTree (by
      show IsPlan 6 _ _ (all 6)
      rw [hall]; exact exTree_plan)
    rw [exTree_cost, h3] at this
    change (T' (all 6)).cost ≤ 1004 at this
    rw [hall, hc] at this
    omega

/-- A star query satisfies the hypotheses of `C14_acyclic_partial`. -/
example : (ofEdges 4 [(0,1),(0,2),(0,3)]).Symmetric ∧ (ofEdges 4 [(0,1),(0,2),(0,3)]).Forest := by
  refine ⟨ofEdges_symm _ _ (by decide), ?_⟩
  rw [forest_iff]
  have he : ∀ a b, (ofEdges 4 [(0,1),(0,2),(0,3)]).Edge a b ↔ (a = 0 ∧ (b = 1 ∨ b = 2 ∨ b = 3)) ∨ (b = 0 ∧ (a = 1 ∨ a = 2 ∨ a = 3)) := by
    intro a b
    rw [edge_ofEdges _ _ (by decide)]
    simp only [List.mem_cons, Prod.mk.injEq, List.not_mem_nil, or_false]
    omega
  intro a b hab hw
  rw [he] at hab
  rcases hab with ⟨rfl, h⟩ | ⟨rfl, h⟩
  · rcases hw.cases_tail with h' | ⟨c, _, hc⟩
    · omega
    · obtain ⟨h1, h2, h3⟩ := hc
      rw [he] at h1
      omega
  · rcases hw.cases_head with h' | ⟨c, hc, _⟩
    · omega
    · obtain ⟨h1, h2, h3⟩ := hc
      rw [he] at h1
      omega

end PE
end Mutable
