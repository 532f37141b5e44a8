import Verif.Common
import Mathlib.Algebra.Order.Field.Basic
/-! Model of the generic heuristic search (include/mutable/util/HeuristicSearch.hpp): `StateManager` and `genericAStar`.

Costs are elements of an ordered field `K` (the code uses `double`; rounding is not modelled).  The map of all seen
states, partitioned or not (the partition is a function of the state), is a function from states to their information.
A heap is the set of the states whose `queue` says so; the heap operations of Boost are trusted to yield a state with
the least *g + h*, any one of several. -/
namespace Mutable.HS

/-- A search space: `Expand`, `is_goal` and the heuristic. -/
structure Space (σ K : Type) where
  succ : σ → List (σ × K)
  goal : σ → Bool
  heur : σ → K

/-- `SearchConfigConcept`, `SearchConfiguration` and `is_admissible`.  HeuristicSearch.hpp:568-609. -/
structure Cfg (K : Type) where
  /-- `PerformWeightedSearch` with its `weighting_factor` -/
  weight : Option K := none
  /-- `Lazy` -/
  lazy : Bool := false
  /-- `PerformCostBasedPruning` -/
  prune : Bool := false
  /-- `Heuristic::is_admissible` -/
  admissible : Bool := false
  /-- `nextafter(upper_bound, ∞)`, if an upper bound is given -/
  bound : Option K := none
  /-- `HasRegularQueue` -/
  hasRegular : Bool := true
  /-- `HasBeamQueue` -/
  hasBeam : Bool := false

/-- The member `queue` of `StateInfo`: `nullptr`, `&regular_queue_`, `&beam_queue_`. -/
inductive Queue
  | out | regular | beam
  deriving DecidableEq, Repr

/-- A seen state's mutable *g* and parent, and its `StateInfo`.  HeuristicSearch.hpp:149-163. -/
structure Info (σ K : Type) where
  g : K
  h : K
  queue : Queue
  parent : Option σ

/-- `StateManager`.  `least` is `least_path_cost` (`none` is infinity); `ok` records that no `M_insist` failed.
HeuristicSearch.hpp:101-266. -/
structure Mgr (σ K : Type) where
  map : σ → Option (Info σ K)
  least : Option K
  ok : Bool

variable {σ K : Type} [DecidableEq σ] [Field K] [LinearOrder K]

/-- The entry of `s` becomes `i`. -/
def Mgr.set (m : Mgr σ K) (s : σ) (i : Info σ K) : Mgr σ K := { m with map := Function.update m.map s (some i) }

/-- An `M_insist`. -/
def Mgr.insist (m : Mgr σ K) (b : Bool) : Mgr σ K := { m with ok := m.ok && b }

/-- `min_path_cost`.  HeuristicSearch.hpp:328-337. -/
def Cfg.minPathCost (cfg : Cfg K) (g h : K) : K :=
  if cfg.admissible then
    match cfg.weight with
    | some w => g + h / w
    | none => g + h
  else g

/-- `c >= least_path_cost`. -/
def geLeast (c : K) : Option K → Bool
  | some l => l ≤ c
  | none => false

/-- Cost-based pruning: `none` if the state is pruned, else the manager with `least_path_cost` updated.
HeuristicSearch.hpp:318-344, 415-443, 306-311. -/
def Cfg.prunes (cfg : Cfg K) (sp : Space σ K) (m : Mgr σ K) (s : σ) (g h : K) : Option (Mgr σ K) :=
  if cfg.prune then
    if geLeast (cfg.minPathCost g h) m.least then none
    else if sp.goal s then some (({ m with least := some g } : Mgr σ K).insist (!geLeast g m.least))
    else some m
  else some m

/-- `push<ToBeamQueue>` of a state with parent `p`.  HeuristicSearch.hpp:314-395 (`detect_duplicates` is always true).
In the branch that moves a state from the regular to the beam queue, the code calls `decrease_g` whether or not the
new *g* is less: the `if` before it guards only the counter (lines 364-366). -/
def Cfg.push (cfg : Cfg K) (sp : Space σ K) (toBeam : Bool) (m : Mgr σ K) (s : σ) (p : Option σ) (g h : K) : Mgr σ K :=
  match cfg.prunes sp m s g h with
  | none => m
  | some m =>
    let q := if toBeam then Queue.beam else .regular
    match m.map s with
    | none => m.set s ⟨g, h, q, p⟩
    | some i =>
      let m := m.insist (i.h = h)
      if toBeam && i.queue = .regular then (m.insist (g ≤ i.g)).set s ⟨g, i.h, .beam, p⟩
      else if i.g ≤ g then m
      else if i.queue = .out then m.set s ⟨g, i.h, q, p⟩
      else (m.insist (i.queue = q)).set s ⟨g, i.h, i.queue, p⟩

/-- `push_regular_queue`.  HeuristicSearch.hpp:410-470.  Without a regular queue the entry is only recorded. -/
def Cfg.pushRegular (cfg : Cfg K) (sp : Space σ K) (m : Mgr σ K) (s : σ) (p : Option σ) (g h : K) : Mgr σ K :=
  if cfg.hasRegular then cfg.push sp false m s p g h
  else
    match cfg.prunes sp m s g h with
    | none => m
    | some m =>
      match m.map s with
      | none => m.set s ⟨g, h, .regular, p⟩
      | some i =>
        let m := m.insist (i.h = h)
        if g < i.g then m.set s ⟨g, i.h, i.queue, p⟩ else m

/-- `push_beam_queue`.  HeuristicSearch.hpp:472-474. -/
def Cfg.pushBeam (cfg : Cfg K) (sp : Space σ K) (m : Mgr σ K) (s : σ) (p : Option σ) (g h : K) : Mgr σ K :=
  cfg.push sp true m s p g h

/-- State `s` is on top of the heap `q`: it has the least *g + h*.  HeuristicSearch.hpp:554-566. -/
def Top (m : Mgr σ K) (q : Queue) (s : σ) (i : Info σ K) : Prop :=
  m.map s = some i ∧ i.queue = q ∧ ∀ t j, m.map t = some j → j.queue = q → i.g + i.h ≤ j.g + j.h

/-- Is queue `q` empty? -/
def Empty (m : Mgr σ K) (q : Queue) : Prop := ∀ t j, m.map t = some j → j.queue ≠ q

/-- `pop()` returns `s`.  HeuristicSearch.hpp:480-495. -/
def Cfg.Pop (cfg : Cfg K) (m : Mgr σ K) (s : σ) (i : Info σ K) : Prop :=
  cfg.hasBeam = true ∧ Top m .beam s i ∨
  (cfg.hasBeam = true → Empty m .beam) ∧ cfg.hasRegular = true ∧ Top m .regular s i

/-- `queues_empty()`.  HeuristicSearch.hpp:476-478. -/
def Cfg.QueuesEmpty (cfg : Cfg K) (m : Mgr σ K) : Prop :=
  (cfg.hasRegular = true → Empty m .regular) ∧ (cfg.hasBeam = true → Empty m .beam)

/-- `entry.second.queue = nullptr`.  HeuristicSearch.hpp:493. -/
def Mgr.dequeue (m : Mgr σ K) (s : σ) (i : Info σ K) : Mgr σ K := m.set s { i with queue := .out }

/-- The *h* passed to the callback for successor `t` of `s`.  Lazily: the cached value of `s` (a popped state is always
in the map), HeuristicSearch.hpp:804-821; eagerly: the cached value of `t`, or the heuristic, times the weighting
factor, :824-842. -/
def Cfg.hOf (cfg : Cfg K) (sp : Space σ K) (m : Mgr σ K) (s t : σ) : K :=
  if cfg.lazy then
    match m.map s with
    | some i => i.h
    | none => cfg.weight.getD 1 * sp.heur s
  else
    match m.map t with
    | some i => i.h
    | none => cfg.weight.getD 1 * sp.heur t

/-- The *g* of `s`: read from the map when a successor is generated. -/
def Mgr.gOf (m : Mgr σ K) (s : σ) : K := (m.map s).elim 0 Info.g

/-- `explore_state` without beam search: all successors go to the regular queue.  HeuristicSearch.hpp:876-881. -/
def Cfg.explore (cfg : Cfg K) (sp : Space σ K) (m : Mgr σ K) (s : σ) : Mgr σ K :=
  (sp.succ s).foldl (fun m tc => cfg.pushRegular sp m tc.1 (some s) (m.gOf s + tc.2) (cfg.hOf sp m s tc.1)) m

/-- A candidate successor for the beam (`weighted_state`), HeuristicSearch.hpp:670-690. -/
structure Cand (σ K : Type) where
  s : σ
  g : K
  h : K

/-- `weight()` -/
def Cand.f (c : Cand σ K) : K := c.g + c.h

/-- Generation of the successors with a beam of fixed width `k`: successors that do not fit go to the regular queue at
once; `cands` is the heap of candidates (ties between worst candidates may be broken either way).
HeuristicSearch.hpp:752-784. -/
inductive Cfg.BeamGen (cfg : Cfg K) (sp : Space σ K) (k : Nat) (s : σ) :
    Mgr σ K → List (Cand σ K) → List (σ × K) → Mgr σ K → List (Cand σ K) → Prop
  | nil {m cands} : BeamGen cfg sp k s m cands [] m cands
  | room {m cands tc rest m' out} : cands.length < k →
      BeamGen cfg sp k s m (cands ++ [⟨tc.1, m.gOf s + tc.2, cfg.hOf sp m s tc.1⟩]) rest m' out →
      BeamGen cfg sp k s m cands (tc :: rest) m' out
  | bypass {m cands tc rest m' out top} : ¬ cands.length < k → top ∈ cands → (∀ c ∈ cands, c.f ≤ top.f) →
      top.f ≤ m.gOf s + tc.2 + cfg.hOf sp m s tc.1 →
      BeamGen cfg sp k s (cfg.pushRegular sp m tc.1 (some s) (m.gOf s + tc.2) (cfg.hOf sp m s tc.1)) cands rest m' out →
      BeamGen cfg sp k s m cands (tc :: rest) m' out
  | replace {m cands tc rest m' out top worst cands'} : ¬ cands.length < k → top ∈ cands →
      (∀ c ∈ cands, c.f ≤ top.f) → m.gOf s + tc.2 + cfg.hOf sp m s tc.1 < top.f →
      (cands ++ [⟨tc.1, m.gOf s + tc.2, cfg.hOf sp m s tc.1⟩]).Perm (worst :: cands') →
      (∀ c ∈ cands', c.f ≤ worst.f) →
      BeamGen cfg sp k s (cfg.pushRegular sp m worst.s (some s) worst.g worst.h) cands' rest m' out →
      BeamGen cfg sp k s m cands (tc :: rest) m' out

/-- Pushes candidates to the beam queue. -/
def Cfg.pushCands (cfg : Cfg K) (sp : Space σ K) (m : Mgr σ K) (s : σ) (l : List (Cand σ K)) : Mgr σ K :=
  l.foldl (fun m c => cfg.pushBeam sp m c.s (some s) c.g c.h) m

/-- Pushes candidates to the regular queue. -/
def Cfg.pushRest (cfg : Cfg K) (sp : Space σ K) (m : Mgr σ K) (s : σ) (l : List (Cand σ K)) : Mgr σ K :=
  l.foldl (fun m c => cfg.pushRegular sp m c.s (some s) c.g c.h) m

/-- All successors as candidates.  HeuristicSearch.hpp:858-862. -/
def Cfg.allCands (cfg : Cfg K) (sp : Space σ K) (m : Mgr σ K) (s : σ) : List (Cand σ K) :=
  (sp.succ s).map fun tc => ⟨tc.1, m.gOf s + tc.2, cfg.hOf sp m s tc.1⟩

/-- `ceil(n * BEAM_FACTOR)`, a fifth rounded up.  HeuristicSearch.hpp:789, 643. -/
def numBeamed (n : Nat) : Nat := (n + 4) / 5

/-- `explore_state` with beam search: `width = none` is the dynamic beam.  HeuristicSearch.hpp:855-875, 787-801.
`reset_marked` is never called (the concept `has_mark` asks for a member of the state, :611-612, that no state has). -/
inductive Cfg.BeamExplore (cfg : Cfg K) (sp : Space σ K) (width : Option Nat) (m : Mgr σ K) (s : σ) : Mgr σ K → Prop
  | fixed {k m' cands cands'} : width = some k → cfg.BeamGen sp k s m [] (sp.succ s) m' cands → cands.Perm cands' →
      BeamExplore cfg sp width m s (cfg.pushCands sp m' s cands')
  | dynamic {l} : width = none → (cfg.allCands sp m s).Perm l → l.Pairwise (fun a b => a.f ≤ b.f) →
      BeamExplore cfg sp width m s
        (cfg.pushRest sp (cfg.pushCands sp m s (l.take (numBeamed l.length))) s (l.drop (numBeamed l.length)))

/-- What is searched with: plain A* or a beam. -/
inductive Method
  | astar | beam (width : Option Nat)

/-- One exploration. -/
def Cfg.Explores (cfg : Cfg K) (sp : Space σ K) : Method → Mgr σ K → σ → Mgr σ K → Prop
  | .astar, m, s, m' => m' = cfg.explore sp m s
  | .beam w, m, s, m' => cfg.BeamExplore sp w m s m'

/-- The state manager when the work list starts.  HeuristicSearch.hpp:914-924, 941-942. -/
def Cfg.start (cfg : Cfg K) (sp : Space σ K) (s₀ : σ) : Mgr σ K :=
  cfg.push sp (cfg.hasBeam && !cfg.hasRegular) ⟨fun _ => none, if cfg.prune then cfg.bound else none, true⟩ s₀ none 0 0

/-- One iteration of the work list algorithm that does not find a goal.  HeuristicSearch.hpp:945-954. -/
def Cfg.Iter (cfg : Cfg K) (sp : Space σ K) (md : Method) (m m' : Mgr σ K) : Prop :=
  ∃ s i, cfg.Pop m s i ∧ sp.goal s = false ∧ cfg.Explores sp md (m.dequeue s i) s m'

/-- The result of `search`: a goal state with the final state manager (in which *g* and the parents are found), or one
of the two exceptions. -/
inductive Result (σ K : Type)
  | found (s : σ) (m : Mgr σ K)
  | unreachable                -- `std::logic_error`
  | exhausted                  -- `budget_exhausted_exception`

/-- `search` from a given state of the work list, with an optional expansion budget (`PerformAnytimeSearch`).
HeuristicSearch.hpp:926-957. -/
inductive Cfg.Run (cfg : Cfg K) (sp : Space σ K) (md : Method) : Option Nat → Mgr σ K → Result σ K → Prop
  | found {b m s i} : b ≠ some 0 → cfg.Pop m s i → sp.goal s = true → Run cfg sp md b m (.found s (m.dequeue s i))
  | iter {b m m' r} : b ≠ some 0 → cfg.Iter sp md m m' → Run cfg sp md (b.map (· - 1)) m' r → Run cfg sp md b m r
  | exhausted {m} : ¬ cfg.QueuesEmpty m → Run cfg sp md (some 0) m .exhausted
  | unreachable {b m} : cfg.QueuesEmpty m → Run cfg sp md b m .unreachable

end Mutable.HS
