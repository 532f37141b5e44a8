import Verif.Common
import Verif.Bitset.Props
import Verif.Graph.CSG
import Verif.Graph.Prim
/-!
# Properties C05–C09, C11, C12 of `AdjacencyMatrix`

Specification vocabulary, in terms of the API call `M(i, j)`:
`Adj M i j` — the matrix has an edge from `i` to `j`; `Walk`/`WalkIn` — finite paths (inside a set of vertices);
`Connected M S` — any two vertices of `S` are joined by a path inside `S`.
-/
namespace Mutable
open SB
namespace AdjMat

/-- `M(i, j)` is `true`. -/
def Adj (M : AdjMat) (i j : Nat) : Prop := M.at' i j = true
/-- Finite path (possibly empty). -/
def Walk (M : AdjMat) : Nat → Nat → Prop := Relation.ReflTransGen M.Adj
/-- Finite path inside `S`. -/
def WalkIn (M : AdjMat) (S : Set Nat) : Nat → Nat → Prop :=
  Relation.ReflTransGen (fun a b => M.Adj a b ∧ a ∈ S ∧ b ∈ S)
/-- Any two vertices of `S` are joined inside `S`. -/
def Connected (M : AdjMat) (S : Set Nat) : Prop := ∀ i ∈ S, ∀ j ∈ S, M.WalkIn S i j
/-- `M(i, j) == M(j, i)` for all `i, j`. -/
def Symmetric (M : AdjMat) : Prop := ∀ i j, M.Adj i j → M.Adj j i
/-- The class invariant: at most 64 vertices, edges only between vertices `< n`. -/
def Valid (M : AdjMat) : Prop := M.n ≤ 64 ∧ ∀ i j, M.Adj i j → i < M.n ∧ j < M.n

theorem adj_eq (M : AdjMat) : M.Adj = M.Edge := by
  funext i j; exact propext (at'_iff M i j)
theorem walkIn_eq (M : AdjMat) (S : SB) : M.WalkIn (elems S) = Relation.ReflTransGen (M.EdgeIn S) := by
  unfold WalkIn
  congr 1
  funext a b
  simp only [adj_eq, mem_elems, EdgeIn]
theorem connected_iff (M : AdjMat) (S : SB) : M.Connected (elems S) ↔ M.ConnSet S := by
  unfold Connected ConnSet
  simp only [walkIn_eq, mem_elems]
  exact ⟨fun h i j hi hj => h i hi j hj, fun h i hi j hj => h i j hi hj⟩
theorem symmetric_iff (M : AdjMat) : M.Symmetric ↔ M.Symm := by
  unfold Symmetric Symm; rw [adj_eq]
theorem valid_iff (M : AdjMat) : M.Valid ↔ M.WF := by
  unfold Valid; rw [adj_eq]
  exact ⟨fun h => ⟨h.1, h.2⟩, fun h => ⟨h.le, h.row⟩⟩

/-- A graph from a list of undirected edges, as a client builds it: `M(i,j) = M(j,i) = true`. -/
def ofEdges (n : Nat) (es : List (Nat × Nat)) : AdjMat :=
  es.foldl (fun M e => (M.setAt e.1 e.2 true).setAt e.2 e.1 true) (mk0 n)

theorem edge_ofEdges (n : Nat) (es : List (Nat × Nat)) (hes : ∀ e ∈ es, e.1 < 64 ∧ e.2 < 64) (a b : Nat) :
    (ofEdges n es).Edge a b ↔ (a, b) ∈ es ∨ (b, a) ∈ es := by
  have key : ∀ (es : List (Nat × Nat)) (M : AdjMat), (∀ e ∈ es, e.1 < 64 ∧ e.2 < 64) →
      ((es.foldl (fun M e => (M.setAt e.1 e.2 true).setAt e.2 e.1 true) M).Edge a b ↔
        M.Edge a b ∨ (a, b) ∈ es ∨ (b, a) ∈ es) := by
    intro es
    induction es with
    | nil => intro M _; simp
    | cons e es ih =>
      intro M h
      have he := h e List.mem_cons_self
      rw [List.foldl_cons, ih _ (fun e he => h e (List.mem_cons_of_mem _ he)), edge_add M e.2 e.1 he.2 he.1]
      obtain ⟨e1, e2⟩ := e
      simp only [List.mem_cons, Prod.mk.injEq]
      tauto
  rw [ofEdges, key es _ hes]
  simp [Edge, mk0]

/-- Graphs built by `ofEdges` satisfy the class invariant and are symmetric. -/
theorem ofEdges_ok (n : Nat) (hn : n ≤ 64) (es : List (Nat × Nat)) (hes : ∀ e ∈ es, e.1 < n ∧ e.2 < n) :
    (ofEdges n es).Valid ∧ (ofEdges n es).Symmetric := by
  have hE := edge_ofEdges n es (fun e he => by have := hes e he; omega)
  have hnn : (ofEdges n es).n = n := by
    have : ∀ (es : List (Nat × Nat)) (M : AdjMat),
        (es.foldl (fun M e => (M.setAt e.1 e.2 true).setAt e.2 e.1 true) M).n = M.n := by
      intro es
      induction es with
      | nil => intro M; rfl
      | cons e es ih => intro M; rw [List.foldl_cons, ih]; rfl
    exact this es _
  constructor
  · rw [valid_iff]
    refine ⟨by omega, fun i j h => ?_⟩
    rw [hE] at h
    rw [hnn]
    rcases h with h | h
    · exact hes _ h
    · exact ⟨(hes _ h).2, (hes _ h).1⟩
  · rw [symmetric_iff]
    intro i j h
    rw [hE] at h ⊢
    exact h.symm

/-- running example: the 4-cycle 0-1-2-3 plus the isolated vertex 4 -/
def exC4 : AdjMat := ofEdges 5 [(0,1), (1,2), (2,3), (3,0)]
theorem exC4_ok : exC4.Valid ∧ exC4.Symmetric := ofEdges_ok 5 (by decide) _ (by decide)

/-! ## C05 -/

/-- `reachable(src)` is exactly the set of vertices reachable from `src` by a finite path. -/
theorem C05_reachable (M : AdjMat) (src : SB) :
    elems (M.reachable src) = {j | ∃ s ∈ elems src, M.Walk s j} := by
  ext j
  rw [mem_elems, mem_reachable]
  simp only [Set.mem_ofPred_eq, mem_elems, Walk, adj_eq]

/-- `reachable(src, S)` is exactly the set of vertices of `S` reachable from `src ∩ S` by a path inside `S`. -/
theorem C05_reachable_in (M : AdjMat) (src S : SB) :
    elems (M.reachableIn src S) = {j | ∃ s ∈ elems src ∩ elems S, M.WalkIn (elems S) s j} := by
  ext j
  rw [mem_elems, mem_reachableIn]
  simp only [Set.mem_ofPred_eq, Set.mem_inter_iff, mem_elems, walkIn_eq, and_assoc]

/-- Both loops terminate within 65 iterations, whatever the matrix. -/
theorem C05_terminates (M : AdjMat) (src S : SB) (k : Nat) (hk : 65 ≤ k) :
    reachLoop M.m k 0#64 src = M.reachable src ∧
    reachLoop (fun x => M.m x &&& S) k 0#64 (src &&& S) = M.reachableIn src S :=
  ⟨reachLoop_fuel _ _ _ _ _ (fun i hi => absurd hi (not_mem_zero i)) (by omega) (by omega),
   reachLoop_fuel _ _ _ _ _ (fun i hi => absurd hi (not_mem_zero i)) (by omega) (by omega)⟩

example : exC4.reachable 1#64 = 0b1111#64 ∧ exC4.reachableIn 1#64 0b10101#64 = 1#64 := by decide

/-! ## C06 -/

/-- `is_connected(S)` iff the subgraph induced by `S` is connected. -/
theorem C06_is_connected (M : AdjMat) (hM : M.Symmetric) (S : SB) :
    M.isConnected S = true ↔ M.Connected (elems S) := by
  rw [isConnected_iff ((symmetric_iff M).1 hM), connected_iff]
example : exC4.Symmetric ∧ exC4.isConnected 0b1101#64 = true ∧ exC4.isConnected 0b101#64 = false :=
  ⟨exC4_ok.2, by decide, by decide⟩

/-- `is_connected(L, R)` iff some edge leads from `R` to `L` (for symmetric matrices: joins `L` and `R`). -/
theorem C06_is_connected2 (M : AdjMat) (L R : SB) :
    M.isConnected2 L R = true ↔ ∃ x ∈ elems R, ∃ y ∈ elems L, M.Adj x y := by
  rw [isConnected2_iff]
  simp only [mem_elems, adj_eq]
  constructor
  · rintro ⟨x, y, h1, h2, h3⟩; exact ⟨x, h1, y, h2, h3⟩
  · rintro ⟨x, h1, y, h2, h3⟩; exact ⟨x, y, h1, h2, h3⟩

theorem C06_is_connected2_symm (M : AdjMat) (hM : M.Symmetric) (L R : SB) :
    M.isConnected2 L R = true ↔ ∃ x ∈ elems L, ∃ y ∈ elems R, M.Adj x y := by
  rw [C06_is_connected2]
  constructor
  · rintro ⟨x, h1, y, h2, h3⟩; exact ⟨y, h2, x, h1, hM _ _ h3⟩
  · rintro ⟨x, h1, y, h2, h3⟩; exact ⟨y, h2, x, h1, hM _ _ h3⟩

/-- `neighbors(S)`: the vertices outside `S` adjacent to `S`. -/
theorem C06_neighbors (M : AdjMat) (S : SB) :
    elems (M.neighbors S) = {j | j ∉ elems S ∧ ∃ x ∈ elems S, M.Adj x j} := by
  ext j
  rw [mem_elems, mem_neighbors]
  simp only [Set.mem_ofPred_eq, mem_elems, adj_eq]

/-! ## C07 -/

/-- `transitive_closure_directed()`: entry `(i, j)` is set iff there is a path of at least one edge. -/
theorem C07_directed (M : AdjMat) (hM : M.Valid) (i j : Nat) :
    M.tcDirected.Adj i j ↔ Relation.TransGen M.Adj i j := by
  rw [adj_eq, adj_eq]; exact tcDirected_spec M ((valid_iff M).1 hM) i j

/-- `transitive_closure_undirected()` computes the same on symmetric matrices. -/
theorem C07_undirected (M : AdjMat) (hM : M.Valid) (hS : M.Symmetric) (i j : Nat) :
    M.tcUndirected.Adj i j ↔ Relation.TransGen M.Adj i j := by
  rw [adj_eq, adj_eq]; exact tcUndirected_spec M ((valid_iff M).1 hM) ((symmetric_iff M).1 hS) i j

/-- Both `do … while (changed)` loops stop after at most `n² + 1` passes. -/
theorem C07_terminates (M : AdjMat) (hM : M.Valid) (k : Nat) (hk : M.n * M.n + 1 ≤ k) :
    tcDirLoop k M = M.tcDirected ∧ (M.Symmetric → tcUndirLoop k M = M.tcUndirected) :=
  ⟨tcDirLoop_fuel _ _ M ((valid_iff M).1 hM) (by omega) (by omega),
   fun hS => tcUndirLoop_fuel _ _ M ((valid_iff M).1 hM) ((symmetric_iff M).1 hS) (by omega) (by omega)⟩
set_option maxRecDepth 100000 in
example : exC4.Valid ∧ exC4.Symmetric ∧ exC4.tcUndirected.at' 0 2 = true ∧ exC4.tcDirected.at' 0 4 = false ∧
    exC4.at' 0 2 = false := ⟨exC4_ok.1, exC4_ok.2, by decide, by decide, by decide⟩

/-! ## C08 -/

/-- `for_each_CSG_undirected(super, source)` calls back exactly the connected subsets of `super` that meet `source`,
each exactly once. -/
theorem C08_csg (M : AdjMat) (hM : M.Symmetric) (super source : SB) :
    (M.csgs super source).Nodup ∧
    ∀ T, T ∈ M.csgs super source ↔
      elems T ⊆ elems super ∧ M.Connected (elems T) ∧ (elems T ∩ elems source).Nonempty := by
  obtain ⟨h1, h2⟩ := csgs_spec M super ((symmetric_iff M).1 hM) source
  refine ⟨h2, fun T => ?_⟩
  rw [h1, sub_iff_elems, connected_iff]
  simp only [Set.Nonempty, Set.mem_inter_iff, mem_elems]
example : exC4.Symmetric ∧ (exC4.csgs 0b11111#64 0b11111#64).length = 14 := ⟨exC4_ok.2, by decide⟩

/-- The overload without `source` calls back exactly the non-empty connected subsets of `super`. -/
theorem C08_csg_all (M : AdjMat) (hM : M.Symmetric) (super : SB) :
    (M.csgs super super).Nodup ∧
    ∀ T, T ∈ M.csgs super super ↔ elems T ⊆ elems super ∧ M.Connected (elems T) ∧ (elems T).Nonempty := by
  obtain ⟨h1, h2⟩ := C08_csg M hM super super
  refine ⟨h1, fun T => ?_⟩
  rw [h2]
  constructor
  · rintro ⟨h3, h4, x, hx, _⟩; exact ⟨h3, h4, x, hx⟩
  · rintro ⟨h3, h4, x, hx⟩; exact ⟨h3, h4, x, hx, h3 hx⟩

/-- Each inner queue loop terminates: `super + 1` iterations suffice. -/
theorem C08_terminates (M : AdjMat) (super X : SB) (i : Nat) (hi : i ∈ elems super) (k : Nat) (hk : super.toNat + 1 ≤ k) :
    M.csgLoop super k [(singleton i, X)] = M.csgLoop super (super.toNat + 1) [(singleton i, X)] := by
  have hs : Sub (singleton i) super := by
    intro j hj; rw [mem_singleton] at hj; rw [hj.2]; exact (mem_elems _ _).1 hi
  have := csgE_length M super (singleton i, X) hs
  apply csgLoop_mono <;> · simp only [List.flatMap_cons, List.flatMap_nil, List.append_nil]; omega

/-! ## C09 -/

/-- A csg-cmp pair: two disjoint non-empty connected subsets of `super` joined by an edge. -/
def CcpPair (M : AdjMat) (super A B : SB) : Prop :=
  elems A ⊆ elems super ∧ elems B ⊆ elems super ∧ M.Connected (elems A) ∧ M.Connected (elems B) ∧
  elems A ∩ elems B = ∅ ∧ ∃ x ∈ elems A, ∃ y ∈ elems B, M.Adj x y

/-- No callback occurs twice; every callback is a csg-cmp pair; and of every csg-cmp pair `{A, B}` exactly one of the two
orientations is called back. -/
theorem C09_pairs (M : AdjMat) (hM : M.Symmetric) (super : SB) :
    (M.csgPairs super).Nodup ∧
    (∀ A B, (A, B) ∈ M.csgPairs super → M.CcpPair super A B) ∧
    (∀ A B, M.CcpPair super A B → Xor ((A, B) ∈ M.csgPairs super) ((B, A) ∈ M.csgPairs super)) := by
  have hS := (symmetric_iff M).1 hM
  obtain ⟨h1, h2⟩ := csgPairs_spec M super hS
  have hdisj : ∀ A B : SB, elems A ∩ elems B = ∅ ↔ ∀ i, ¬ (Mem A i ∧ Mem B i) := by
    intro A B
    rw [Set.eq_empty_iff_forall_notMem]
    simp only [Set.mem_inter_iff, mem_elems]
  refine ⟨h2, fun A B h => ?_, ?_⟩
  · obtain ⟨a1, a2, a3, a4, a5, ⟨x, y, hx, hy, he⟩, _⟩ := (h1 A B).1 h
    refine ⟨(sub_iff_elems _ _).1 a1, (sub_iff_elems _ _).1 a2, (connected_iff _ _).2 a3, (connected_iff _ _).2 a4,
      (hdisj A B).2 a5, x, (mem_elems _ _).2 hx, y, (mem_elems _ _).2 hy, ?_⟩
    rw [adj_eq]; exact he
  · rintro A B ⟨a1, a2, a3, a4, a5, x, hx, y, hy, he⟩
    rw [← sub_iff_elems] at a1 a2
    rw [connected_iff] at a3 a4
    rw [hdisj] at a5
    rw [mem_elems] at hx hy
    rw [adj_eq] at he
    obtain ⟨p, hp⟩ := exists_greatest ((ne_zero_iff A).2 ⟨x, hx⟩)
    obtain ⟨q, hq⟩ := exists_greatest ((ne_zero_iff B).2 ⟨y, hy⟩)
    have hpq : p ≠ q := by rintro rfl; exact a5 p ⟨hp.1, hq.1⟩
    rcases Nat.lt_or_gt_of_ne hpq with h | h
    · refine Or.inr ⟨(h1 B A).2 ⟨a2, a1, a4, a3, fun i hi => a5 i ⟨hi.2, hi.1⟩, ⟨y, x, hy, hx, hS _ _ he⟩, q, hq.1,
        fun b hb => by have := hp.2 b hb; omega⟩, fun hc => ?_⟩
      obtain ⟨_, _, _, _, _, _, a, ha, hlt⟩ := (h1 A B).1 hc
      have := hlt q hq.1
      have := hp.2 a ha
      omega
    · refine Or.inl ⟨(h1 A B).2 ⟨a1, a2, a3, a4, a5, ⟨x, y, hx, hy, he⟩, p, hp.1,
        fun b hb => by have := hq.2 b hb; omega⟩, fun hc => ?_⟩
      obtain ⟨_, _, _, _, _, _, a, ha, hlt⟩ := (h1 B A).1 hc
      have := hlt p hp.1
      have := hq.2 a ha
      omega
example : exC4.Symmetric ∧ (exC4.csgPairs 0b1111#64).length = 18 ∧ (0b1000#64, 0b0001#64) ∈ exC4.csgPairs 0b1111#64 :=
  ⟨exC4_ok.2, by decide, by decide⟩

/-! ## C11 -/

/-- `H` is a symmetric subgraph of `M` with the same vertices and the same connected components. -/
def SpanningSubgraph (M H : AdjMat) : Prop :=
  H.n = M.n ∧ H.Symmetric ∧ (∀ a b, H.Adj a b → M.Adj a b) ∧ ∀ a b, M.Walk a b → H.Walk a b

/-- No cycle: removing an edge disconnects its end points. -/
def Forest (H : AdjMat) : Prop :=
  ∀ a b, H.Adj a b → ¬ Relation.ReflTransGen
    (fun x y => H.Adj x y ∧ ¬ (x = a ∧ y = b) ∧ ¬ (x = b ∧ y = a)) a b

/-- Sum of the weights of the undirected edges. -/
noncomputable def cost {W : Type} [AddCommGroup W] (w : Nat → Nat → W) (H : AdjMat) : W :=
  ∑ p ∈ (Finset.range H.n ×ˢ Finset.range H.n).filter (fun p => p.1 < p.2 ∧ H.at' p.1 p.2 = true), w p.1 p.2

theorem cost_eq {W : Type} [AddCommGroup W] (w : Nat → Nat → W) (H : AdjMat) : cost w H = totalWeight w H := by
  unfold cost totalWeight
  congr 1
  ext p
  simp [mem_edges, at'_iff, and_assoc]

theorem forest_iff (H : AdjMat) : H.Forest ↔ H.Acyclic := by
  unfold Forest Acyclic EdgeMinus; rw [adj_eq]

theorem spans_of {M H : AdjMat} (h : SpanningSubgraph M H) : Spans M H := by
  obtain ⟨h1, h2, h3, h4⟩ := h
  rw [adj_eq, adj_eq] at h3
  unfold Walk at h4
  rw [adj_eq, adj_eq] at h4
  exact ⟨h1, (symmetric_iff H).1 h2, h3, fun a b hab => h4 a b (.single hab)⟩

/-- `minimum_spanning_forest(w)`: for symmetric non-negative weights and however the priority queue breaks ties, the result
is a spanning subgraph without cycles, and no spanning subgraph is cheaper. -/
theorem C11_msf {W : Type} [AddCommGroup W] [LinearOrder W] [IsOrderedAddMonoid W]
    (M : AdjMat) (hM : M.Valid) (hS : M.Symmetric) (w : Nat → Nat → W) (hw : ∀ a b, w a b = w b a)
    (hpos : ∀ a b, 0 ≤ w a b) (pick : List (WEdge W) → Nat) (hp : PickMin pick) :
    SpanningSubgraph M (msf pick M w) ∧ (msf pick M w).Forest ∧
    ∀ H, SpanningSubgraph M H → cost w (msf pick M w) ≤ cost w H := by
  have h := msf_inv ((valid_iff M).1 hM) ((symmetric_iff M).1 hS) hw hp
  have hconn : ∀ a b, M.Edge a b → Relation.ReflTransGen (msf pick M w).Edge a b := by
    intro a b hab
    by_cases hne : a = b
    · subst hne; exact .refl
    · exact h.conn a b hab (not_mem_zero a) (not_mem_zero b) hne
  refine ⟨⟨h.n, (symmetric_iff _).2 h.symm, ?_, ?_⟩, (forest_iff _).2 h.acyc, ?_⟩
  · rw [adj_eq, adj_eq]; exact h.sub
  · unfold Walk
    rw [adj_eq, adj_eq]
    intro a b hab
    induction hab with
    | refl => exact .refl
    | tail _ h2 ih => exact ih.trans (hconn _ _ h2)
  · intro H hH
    obtain ⟨H', h1, h2, h3⟩ := h.opt H (spans_of hH)
    rw [cost_eq, cost_eq]
    exact (totalWeight_mono hpos (h.n.trans h1.n.symm) h2).trans h3

/-- A tie-breaking rule exists: first minimal element. -/
def pickFirst (Q : List (WEdge Int)) : Nat :=
  Q.findIdx fun e => Q.all fun q => decide (e.w ≤ q.w)
theorem pickFirst_min : PickMin pickFirst := by
  intro Q hQ
  have hex : ∃ e ∈ Q, ∀ q ∈ Q, e.w ≤ q.w := by
    clear * - hQ
    induction Q with
    | nil => exact absurd rfl hQ
    | cons a l ih =>
      by_cases hl : l = []
      · subst hl; exact ⟨a, by simp, by simp⟩
      · obtain ⟨e, he, hmin⟩ := ih hl
        rcases le_total a.w e.w with h | h
        · exact ⟨a, by simp, fun q hq => by
            rcases List.mem_cons.1 hq with rfl | hq
            · exact le_rfl
            · exact h.trans (hmin q hq)⟩
        · exact ⟨e, List.mem_cons_of_mem _ he, fun q hq => by
            rcases List.mem_cons.1 hq with rfl | hq
            · exact h
            · exact hmin q hq⟩
  obtain ⟨e, he, hmin⟩ := hex
  have hlt : pickFirst Q < Q.length := by
    rw [pickFirst, List.findIdx_lt_length]
    exact ⟨e, he, by simpa using hmin⟩
  refine ⟨hlt, ?_⟩
  have := List.findIdx_getElem (w := hlt)
  intro q hq
  rw [List.all_eq_true] at this
  have h2 := this q hq
  rw [decide_eq_true_eq] at h2
  exact h2

/-- weights |a-b| on the 4-cycle: the edge 0-3 (weight 3) is left out -/
example : PickMin pickFirst ∧ exC4.Valid ∧ exC4.Symmetric ∧
    (msf pickFirst exC4 (fun a b => ((a : Int) - b).natAbs)).at' 0 3 = false ∧
    (msf pickFirst exC4 (fun a b => ((a : Int) - b).natAbs)).at' 2 3 = true :=
  ⟨pickFirst_min, exC4_ok.1, exC4_ok.2, by decide, by decide⟩

/-! ## C12 -/

/-- `tree_directed_away_from(root)` on a tree: `a → b` is kept iff `{a, b}` is an edge whose removal leaves `a` (but then,
by acyclicity, not `b`) joined to the root; and of every edge exactly one direction is kept. -/
theorem C12_tree (M : AdjMat) (hM : M.Valid) (hS : M.Symmetric) (hF : M.Forest) (hC : M.Connected {i | i < M.n})
    (root : Nat) (hr : root < M.n) :
    (∀ a b, (M.treeDirectedAwayFrom (singleton root)).Adj a b ↔ M.Adj a b ∧
      Relation.ReflTransGen (fun x y => M.Adj x y ∧ ¬ (x = a ∧ y = b) ∧ ¬ (x = b ∧ y = a)) root a) ∧
    (∀ a b, M.Adj a b → Xor ((M.treeDirectedAwayFrom (singleton root)).Adj a b)
      ((M.treeDirectedAwayFrom (singleton root)).Adj b a)) := by
  have hW := (valid_iff M).1 hM
  have hS' := (symmetric_iff M).1 hS
  have hA := (forest_iff M).1 hF
  have hC' : M.ConnSet (all M.n) := by
    rw [← connected_iff, C01_all _ hW.le]; exact hC
  have hspec := treeDirected_spec hW hS' hA hC' root hr
  rw [adj_eq, adj_eq]
  refine ⟨hspec, fun a b hab => ?_⟩
  rw [hspec, hspec]
  have := tree_one_direction hW hS' hA hC' root hr a b hab
  rcases this with ⟨h1, h2⟩ | ⟨h1, h2⟩
  · exact Or.inl ⟨⟨hab, h1⟩, fun hc => h2 hc.2⟩
  · exact Or.inr ⟨⟨hS' _ _ hab, h1⟩, fun hc => h2 hc.2⟩

/-- witness: the path 0-1-2 rooted at 1 -/
def exP3 : AdjMat := ofEdges 3 [(0,1), (1,2)]

theorem exP3_edge (a b : Nat) : exP3.Edge a b ↔ (a = 0 ∧ b = 1) ∨ (a = 1 ∧ b = 0) ∨ (a = 1 ∧ b = 2) ∨ (a = 2 ∧ b = 1) := by
  rw [exP3, edge_ofEdges 3 _ (by decide)]
  simp only [List.mem_cons, Prod.mk.injEq, List.not_mem_nil, or_false]
  omega

example : exP3.Valid ∧ exP3.Symmetric ∧ exP3.Forest ∧ exP3.Connected {i | i < exP3.n} ∧
    (exP3.treeDirectedAwayFrom (singleton 1)).at' 1 0 = true ∧
    (exP3.treeDirectedAwayFrom (singleton 1)).at' 0 1 = false := by
  have hok := ofEdges_ok 3 (by decide) [(0,1), (1,2)] (by decide)
  refine ⟨hok.1, hok.2, ?_, ?_, by decide, by decide⟩
  · rw [forest_iff]
    intro a b hab hp
    rw [exP3_edge] at hab
    -- the side of the cut containing `a` is closed
    have hcl : ∀ c, Relation.ReflTransGen (exP3.EdgeMinus a b) a c →
        c = a ∨ (a = 1 ∧ c ≠ b ∧ c < 3) ∨ (b = 1 ∧ c = a) := by
      intro c hc
      induction hc with
      | refl => exact Or.inl rfl
      | tail _ h2 ih =>
        obtain ⟨h3, h4, h5⟩ := h2
        rw [exP3_edge] at h3
        omega
    have := hcl b hp
    omega
  · have : {i | i < exP3.n} = elems (all 3) := (C01_all 3 (by decide)).symm
    rw [this]
    exact (C06_is_connected exP3 hok.2 _).1 (by decide)

end AdjMat
end Mutable
