import Verif.PlanEnum.DPsize
import Verif.PlanEnum.TopDown
import Verif.Graph.Props
/-!
# Properties C13 and C15: optimality of the plan enumerators

Specification (Generic.lean, BottomUp.lean, Enumerators.lean): `Tree` — join trees, `Tree.cost` — their cost under the cost
function and the estimator, `IsPlan n may t S` — `t` joins exactly the relations of `S`, each once, and every join is allowed
by `may`; `Adjacent M A B` — some join edge connects `A` and `B` (so `IsPlan n (Adjacent M)` are the trees without
Cartesian products); `Recorded T S t` — `t` is what one obtains by following the splits stored in the plan table.

Assumptions on the environment: `Sane E est` — the estimated result depends only on the set of joined relations, the join
cost is monotone in the costs of the inputs; `Init est base n T` — the table as `init_leaf_plans` leaves it.
-/
namespace Mutable
open SB AdjMat
namespace PE
variable {C D : Type} [LinearOrder C]

/-- The table holds for `S` a recorded tree which is a plan of `S`, has the recorded cost, and is a cheapest plan. -/
def OptimalFor (E : Env C D) (est : SB → D) (base : Nat → C) (may : SB → SB → Prop) (T : PT C D) (S : SB) : Prop :=
  ∃ t, Recorded T S t ∧ IsPlan E.n may t S ∧ t.cost E est base = (T S).cost ∧
    ∀ t', IsPlan E.n may t' S → t.cost E est base ≤ t'.cost E est base

/-- The run violates no assertion, every non-empty connected set gets an optimal Cartesian-product-free plan, and
unconnected sets get no plan. -/
def AllOptimal (E : Env C D) (est : SB → D) (base : Nat → C) (r : Option (PT C D)) : Prop :=
  ∃ T', r = some T' ∧ ∀ S, (elems S).Nonempty → elems S ⊆ {i | i < E.n} →
    (E.M.Connected (elems S) → hasPlan T' S = true ∧ OptimalFor E est base (Adjacent E.M) T' S) ∧
    (¬ E.M.Connected (elems S) → hasPlan T' S = false)

/-- The whole query gets an optimal plan. -/
def WholeOptimal (E : Env C D) (est : SB → D) (base : Nat → C) (r : Option (PT C D)) : Prop :=
  ∃ T', r = some T' ∧ hasPlan T' (all E.n) = true ∧ OptimalFor E est base (Adjacent E.M) T' (all E.n)

theorem optimalFor_of {E : Env C D} {est : SB → D} {base : Nat → C} {may : SB → SB → Prop} {T : PT C D} {S : SB}
    (h : OptAt E est base E.n may T S) : OptimalFor E est base may T S := by
  obtain ⟨⟨t, h1, h2, h3⟩, h4⟩ := h
  exact ⟨t, h1, h2, h3, fun t' ht' => h3 ▸ h4 t' ht'⟩

theorem sub_all_elems {n : Nat} (hn : n ≤ 64) (S : SB) : elems S ⊆ {i | i < n} ↔ Sub S (all n) := by
  constructor
  · intro h i hi; exact (mem_all hn i).2 (h ((mem_elems _ _).2 hi))
  · intro h i hi; exact (mem_all hn i).1 (h i ((mem_elems _ _).1 hi))

theorem nonempty_elems (S : SB) : (elems S).Nonempty ↔ S ≠ 0#64 := by
  rw [ne_zero_iff]; exact ⟨fun ⟨i, hi⟩ => ⟨i, (mem_elems _ _).1 hi⟩, fun ⟨i, hi⟩ => ⟨i, (mem_elems _ _).2 hi⟩⟩

theorem allOptimal_of {E : Env C D} {est : SB → D} {base : Nat → C} (hM : E.M.Symmetric) (hn : E.n < 64)
    {r : Option (PT C D)} (h : Solves E est base (Adjacent E.M) r) : AllOptimal E est base r := by
  obtain ⟨T', h1, h2, h3⟩ := h
  refine ⟨T', h1, fun S h4 h5 => ?_⟩
  rw [nonempty_elems] at h4
  rw [sub_all_elems (by omega)] at h5
  rw [connected_iff]
  constructor
  · intro h6
    obtain ⟨t, ht⟩ := conn_plan (by omega) h6 h4 h5
    have hp := h2 S t ht
    exact ⟨hp, optimalFor_of (h3 S h5 hp)⟩
  · intro h6
    by_contra hc
    obtain ⟨⟨t, _, ht, _⟩, _⟩ := h3 S h5 (by simpa using hc)
    exact h6 (plan_conn ((symmetric_iff _).1 hM) ht)

variable (E : Env C D) (est : SB → D) (base : Nat → C)

theorem C13_DPsize (hE : Sane E est) (hM : E.M.Symmetric) (hn : E.n < 64) (T : PT C D) (hT : Init est base E.n T) :
    AllOptimal E est base (dpSize E T) :=
  allOptimal_of hM hn (solves_dpSize hE ((symmetric_iff _).1 hM) hn hT)

theorem C13_DPsizeOpt (hE : Sane E est) (hM : E.M.Symmetric) (hn : E.n < 64) (T : PT C D) (hT : Init est base E.n T) :
    AllOptimal E est base (dpSizeOpt E T) :=
  allOptimal_of hM hn (solves_dpSizeOpt hE ((symmetric_iff _).1 hM) hn hT)

theorem C13_DPsizeSub (hE : Sane E est) (hM : E.M.Symmetric) (hn : E.n < 64) (T : PT C D) (hT : Init est base E.n T) :
    AllOptimal E est base (dpSizeSub E T) :=
  allOptimal_of hM hn (solves_dpSizeSub hE ((symmetric_iff _).1 hM) hn hT)

theorem C13_DPsub (hE : Sane E est) (hM : E.M.Symmetric) (hn : E.n < 64) (T : PT C D) (hT : Init est base E.n T) :
    AllOptimal E est base (dpSub E T) :=
  allOptimal_of hM hn (solves_dpSub hE ((symmetric_iff _).1 hM) hn hT)

theorem C13_DPsubOpt (hE : Sane E est) (hM : E.M.Symmetric) (hn : E.n < 64) (T : PT C D) (hT : Init est base E.n T) :
    AllOptimal E est base (dpSubOpt E T) :=
  allOptimal_of hM hn (solves_dpSubOpt hE ((symmetric_iff _).1 hM) hn hT)

theorem whole_of (hn : E.n ≤ 64) {r : Option (PT C D)} (h : SolvesTop E est base (Adjacent E.M) r) :
    WholeOptimal E est base r := by
  obtain ⟨T', h1, h2, h3⟩ := h
  exact ⟨T', h1, h2, optimalFor_of (h3 _ (Sub.refl _) h2)⟩

/-- Top-down, memoizing, naive partitioning; the query graph must be connected. -/
theorem C13_TDbasic (hE : Sane E est) (hM : E.M.Symmetric) (hn : E.n ≤ 64) (h1 : 1 ≤ E.n)
    (hc : E.M.Connected {i | i < E.n}) (T : PT C D) (hT : Init est base E.n T) :
    WholeOptimal E est base (tdBasic E T) := by
  refine whole_of E est base hn (solves_tdBasic hE ((symmetric_iff _).1 hM) hn h1 ((connected_iff _ _).1 ?_) hT)
  rwa [show elems (all E.n) = {i | i < E.n} from by ext i; rw [mem_elems, mem_all hn]; rfl]

/-- Top-down, memoizing, with `MinCutAGaT`; the query graph must be connected. -/
theorem C13_TDMinCutAGaT (hE : Sane E est) (hM : E.M.Symmetric) (hn : E.n ≤ 64) (h1 : 1 ≤ E.n)
    (hc : E.M.Connected {i | i < E.n}) (T : PT C D) (hT : Init est base E.n T) :
    WholeOptimal E est base (tdMinCut E T) := by
  refine whole_of E est base hn (solves_tdMinCut hE ((symmetric_iff _).1 hM) hn h1 ((connected_iff _ _).1 ?_) hT)
  rwa [show elems (all E.n) = {i | i < E.n} from by ext i; rw [mem_elems, mem_all hn]; rfl]

/-- `PEall`: with Cartesian products allowed, every non-empty set of relations gets an optimal plan. -/
theorem C15_PEall (hE : Sane E est) (hn : E.n < 64) (T : PT C D) (hT : Init est base E.n T) :
    ∃ T', peAll E T = some T' ∧ ∀ S, (elems S).Nonempty → elems S ⊆ {i | i < E.n} →
      hasPlan T' S = true ∧ OptimalFor E est base (fun _ _ => True) T' S := by
  obtain ⟨⟨T', h1, _, h3⟩, h4⟩ := solves_peAll hE hn hT
  refine ⟨T', h1, fun S a b => ?_⟩
  rw [nonempty_elems] at a
  rw [sub_all_elems (by omega)] at b
  have hp := h4 T' h1 S a b
  exact ⟨hp, optimalFor_of (h3 S b hp)⟩

/-! ### The hypotheses are met by `C_out` over estimated cardinalities -/

/-- `CostFunctionCout` (include/mutable/IR/CostFunctionCout.hpp:27-29) over natural numbers; data models carry the set and its estimated
cardinality. -/
def coutEnv (n : Nat) (M : AdjMat) (card : SB → Nat) : Env Nat (SB × Nat) where
  n := n
  M := M
  estJoin := fun a b => (a.1 ||| b.1, card (a.1 ||| b.1))
  jc := fun _ _ m _ _ cl cr => cl + cr + m.2

/-- the table after `init_leaf_plans` -/
def initPT (card : SB → Nat) : PT Nat (SB × Nat) := fun S =>
  { left := 0#64, right := 0#64, model := if size S = 1 then some (S, card S) else none, cost := 0 }

theorem cout_sane (n : Nat) (M : AdjMat) (card : SB → Nat) : Sane (coutEnv n M card) (fun S => (S, card S)) :=
  ⟨fun _ _ _ => rfl, fun _ _ _ _ _ _ h1 h2 => by simp only [Env.J, coutEnv]; omega⟩

theorem cout_init (card : SB → Nat) (n : Nat) (hn : n ≤ 64) : Init (fun S => (S, card S)) (fun _ => 0) n (initPT card) := by
  refine ⟨fun i hi => ⟨?_, rfl⟩, fun _ _ => rfl, ?_⟩
  · simp [initPT, size_singleton (show i < 64 by omega)]
  · intro S d hd
    simp only [initPT] at hd
    split at hd
    · exact (Option.some.inj hd).symm
    · cases hd

/-- All hypotheses hold for the 4-cycle with an extra isolated vertex excluded. -/
example : Sane (coutEnv 4 exC4 fun S => size S * size S) (fun S => (S, size S * size S)) ∧ exC4.Symmetric ∧
    Init (fun S => (S, size S * size S)) (fun _ => 0) 4 (initPT fun S => size S * size S) ∧
    exC4.isConnected (all 4) = true :=
  ⟨cout_sane _ _ _, exC4_ok.2, cout_init _ _ (by omega), by decide⟩

set_option maxRecDepth 100000 in
/-- and the run of `DPsubOpt` on it finds `C_out = 4 + 4 + 16`. -/
example : ((dpSubOpt (coutEnv 4 exC4 fun S => size S * size S) (initPT fun S => size S * size S)).map
    fun T => (T 0b1111#64).cost) = some 24 := by decide +kernel

end PE
end Mutable
