import Verif.Bitset.Model
/-!
# Model of `m::AdjacencyMatrix` (include/mutable/util/AdjacencyMatrix.hpp, src/util/AdjacencyMatrix.cpp)

`std::array<SmallBitset, 64> m_` (AdjacencyMatrix.hpp:60) is modelled by a function `Nat → SB` of which only the indices
`< 64` matter; range-for loops over a `SmallBitset` are modelled by folds over `SB.members` = the values produced by the
iterator loop `SB.iterate`.
-/
namespace Mutable

namespace SB
/-- Elements visited by a range-for loop `for (auto x : S)`. -/
def members (S : SB) : List Nat := (iterate S).map Prod.fst
end SB

open SB

/-- `struct AdjacencyMatrix` (AdjacencyMatrix.hpp:10, fields 60-61). -/
structure AdjMat where
  n : Nat
  m : Nat → SB

namespace AdjMat

/-- `AdjacencyMatrix(num_vertices)` (AdjacencyMatrix.hpp:65): all rows empty. -/
def mk0 (n : Nat) : AdjMat := ⟨n, fun _ => 0#64⟩

/-- `operator()(i, j)` const (AdjacencyMatrix.hpp:73, 29). -/
def at' (M : AdjMat) (i j : Nat) : Bool := get (M.m i) j

/-- `operator()(i, j) = v` (AdjacencyMatrix.hpp:33). -/
def setAt (M : AdjMat) (i j : Nat) (v : Bool) : AdjMat :=
  ⟨M.n, fun k => if k = i then set (M.m i) j v else M.m k⟩

/-- The loop body `for (auto x : R) R_new |= m_[x]` (AdjacencyMatrix.hpp:99-100), for arbitrary rows. -/
def orRows (row : Nat → SB) (R : SB) (acc : SB) : SB :=
  (members R).foldl (fun acc x => acc ||| row x) acc

/-- The `for (;;)` loop of `reachable` (AdjacencyMatrix.hpp:95-101 and 112-118) with rows `row`. -/
def reachLoop (row : Nat → SB) : Nat → SB → SB → SB
  | 0, _, Rnew => Rnew
  | fuel+1, Rold, Rnew =>
    let R := diff Rnew Rold
    if isEmpty R then Rnew else reachLoop row fuel Rnew (orRows row R Rnew)

/-- `reachable(src)` (AdjacencyMatrix.hpp:92-104).  65 iterations suffice (`reachLoop_fuel`). -/
def reachable (M : AdjMat) (src : SB) : SB := reachLoop M.m 65 0#64 src

/-- `reachable(src, S)` (AdjacencyMatrix.hpp:108-121). -/
def reachableIn (M : AdjMat) (src S : SB) : SB := reachLoop (fun x => M.m x &&& S) 65 0#64 (src &&& S)

/-- `neighbors(S)` (AdjacencyMatrix.hpp:124-129). -/
def neighbors (M : AdjMat) (S : SB) : SB := diff (orRows M.m S 0#64) S

/-- `is_connected(S)` (AdjacencyMatrix.hpp:134): `reachable(S.begin().as_set(), S) == S`. -/
def isConnected (M : AdjMat) (S : SB) : Bool := M.reachableIn (lo S) S == S

/-- `is_connected(left, right)` (AdjacencyMatrix.hpp:137-145). -/
def isConnected2 (M : AdjMat) (L R : SB) : Bool := ! isEmpty (L &&& orRows M.m R 0#64)

/-! ### transitive closure (src/util/AdjacencyMatrix.cpp:13-61) -/

/-- Body of the two inner loops of `transitive_closure_directed` (AdjacencyMatrix.cpp:20-33): the state carries the matrix
and the flag `changed`. -/
def tcDirStep (i j : Nat) (st : AdjMat × Bool) : AdjMat × Bool :=
  if st.1.at' i j then st
  else if (members (st.1.m i)).any (fun k => ! isEmpty (st.1.m k &&& singleton j)) then (st.1.setAt i j true, true)
  else st

/-- One iteration of the `do … while` loop (AdjacencyMatrix.cpp:18-35). -/
def tcDirPass (M : AdjMat) : AdjMat × Bool :=
  (List.range M.n).foldl (fun st i => (List.range M.n).foldl (fun st j => tcDirStep i j st) st) (M, false)

/-- The `do … while (changed)` loop (AdjacencyMatrix.cpp:17-36). -/
def tcDirLoop : Nat → AdjMat → AdjMat
  | 0, M => M
  | fuel+1, M => let r := tcDirPass M; if r.2 then tcDirLoop fuel r.1 else r.1

/-- `transitive_closure_directed` (AdjacencyMatrix.cpp:13-39); `n*n+1` passes suffice. -/
def tcDirected (M : AdjMat) : AdjMat := tcDirLoop (M.n * M.n + 1) M

/-- Loop body of `transitive_closure_undirected` (AdjacencyMatrix.cpp:49-56). -/
def tcUndirStep (i j : Nat) (st : AdjMat × Bool) : AdjMat × Bool :=
  let before := st.1.at' i j
  let dot := ! isEmpty (st.1.m i &&& st.1.m j)
  ((st.1.setAt j i dot).setAt i j dot, st.2 || (before != dot))

/-- One pass (AdjacencyMatrix.cpp:46-57): `for i`, `for (j = i; j != n; ++j)`. -/
def tcUndirPass (M : AdjMat) : AdjMat × Bool :=
  (List.range M.n).foldl (fun st i => (List.range' i (M.n - i)).foldl (fun st j => tcUndirStep i j st) st) (M, false)

/-- The `do … while (changed)` loop (AdjacencyMatrix.cpp:45-58). -/
def tcUndirLoop : Nat → AdjMat → AdjMat
  | 0, M => M
  | fuel+1, M => let r := tcUndirPass M; if r.2 then tcUndirLoop fuel r.1 else r.1

/-- `transitive_closure_undirected` (AdjacencyMatrix.cpp:41-61). -/
def tcUndirected (M : AdjMat) : AdjMat := tcUndirLoop (M.n * M.n + 1) M

/-! ### connected subgraph enumeration (AdjacencyMatrix.hpp:159-200) -/

/-- Children pushed for `(S, X_old)` (AdjacencyMatrix.hpp:176-179). -/
def csgChildren (M : AdjMat) (super : SB) (p : SB × SB) : List (SB × SB) :=
  let N := diff (M.neighbors p.1 &&& super) p.2
  (subsets N).map fun n => (p.1 ||| n, p.2 ||| N)

/-- The loop `while (not Q.empty())` (AdjacencyMatrix.hpp:170-180): FIFO queue; returns the sequence of callbacks. -/
def csgLoop (M : AdjMat) (super : SB) : Nat → List (SB × SB) → List SB
  | 0, _ => []
  | _+1, [] => []
  | fuel+1, p :: Q => p.1 :: csgLoop M super fuel (Q ++ csgChildren M super p)

/-- `for_each_CSG_undirected(super, source, callback)` (AdjacencyMatrix.hpp:159-182): the sequence of callback arguments.
Each inner loop makes at most `super` iterations (`csgLoop_fuel`). -/
def csgs (M : AdjMat) (super source : SB) : List SB :=
  let source := source &&& super
  (iterate source).flatMap fun it =>
    csgLoop M super (super.toNat + 1) [(it.2, source &&& ~~~ maskToLo it.2)]

/-- `for_each_CSG_pair_undirected(super, callback)` (AdjacencyMatrix.hpp:191-200): the sequence of callback arguments. -/
def csgPairs (M : AdjMat) (super : SB) : List (SB × SB) :=
  (csgs M super super).flatMap fun first =>
    let Nfirst := M.neighbors first &&& super
    let superSecond := diff super first &&& maskToLo (hi first)
    (csgs M superSecond Nfirst).map fun second => (first, second)

/-! ### tree rooting (AdjacencyMatrix.cpp:118-131) -/

/-- Inner loop `for (auto v : V) directed_tree.m_[v] = m_[v] - X` (AdjacencyMatrix.cpp:126-127). -/
def treeRows (M : AdjMat) (V X : SB) (D : AdjMat) : AdjMat :=
  (members V).foldl (fun D v => ⟨D.n, fun k => if k = v then diff (M.m v) X else D.m k⟩) D

/-- The `while (not V.empty())` loop (AdjacencyMatrix.cpp:124-129). -/
def treeLoop (M : AdjMat) : Nat → SB → SB → AdjMat → AdjMat
  | 0, _, _, D => D
  | fuel+1, V, X, D =>
    if isEmpty V then D else
      let X' := X ||| V
      let D' := treeRows M V X' D
      treeLoop M fuel (D'.neighbors V) X' D'

/-- `tree_directed_away_from(root)` (AdjacencyMatrix.cpp:118-131). -/
def treeDirectedAwayFrom (M : AdjMat) (root : SB) : AdjMat := treeLoop M 65 root 0#64 (mk0 M.n)

end AdjMat
end Mutable
