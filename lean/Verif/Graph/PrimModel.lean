import Verif.Graph.Model
/-!
# Model of `AdjacencyMatrix::minimum_spanning_forest` (src/util/AdjacencyMatrix.cpp:63-116)

Weights (`double`) are elements of an arbitrary type `W`; the `std::priority_queue` is a list together with a function
`pick` that gives the position of `top()`.  The theorems hold for every `pick` that returns the position of a minimal
element, so ties may be broken in any way.
-/
namespace Mutable
open SB
namespace AdjMat

/-- `struct weighted_edge` (AdjacencyMatrix.cpp:70-82). -/
structure WEdge (W : Type) where
  src : Nat
  snk : Nat
  w : W

variable {W : Type} (pick : List (WEdge W) → Nat)

/-- `do { if (Q.empty()) goto MST_done; E = Q.top(); Q.pop(); } while (not vertices_remaining[E.sink])`
(AdjacencyMatrix.cpp:98-103).  The first component is `none` if the queue ran empty.  `Q.length + 1` iterations suffice
(each one pops), see `primSearch_spec`. -/
def primSearch (rem : SB) : Nat → List (WEdge W) → Option (WEdge W) × List (WEdge W)
  | 0, Q => (none, Q)
  | fuel+1, Q =>
    match Q[pick Q]? with
    | none => (none, Q)
    | some E =>
      let Q' := Q.eraseIdx (pick Q)
      if ! get rem E.snk then primSearch rem fuel Q' else (some E, Q')

/-- `while (next_vertex) …` (AdjacencyMatrix.cpp:90-110); `u` is the single element of `next_vertex`. -/
def primLoop (M : AdjMat) (weight : Nat → Nat → W) : Nat → Nat → List (WEdge W) → SB → AdjMat → List (WEdge W) × SB × AdjMat
  | 0, _, Q, rem, F => (Q, rem, F)
  | fuel+1, u, Q, rem, F =>
    let N := M.neighbors (singleton u) &&& rem
    let Q1 := Q ++ (members N).map fun v => ⟨u, v, weight u v⟩
    match primSearch pick rem (Q1.length + 1) Q1 with
    | (none, Q2) => (Q2, rem, F)
    | (some E, Q2) =>
      primLoop M weight fuel E.snk Q2 (set rem E.snk false) ((F.setAt E.snk E.src true).setAt E.src E.snk true)

/-- `while (vertices_remaining) …` (AdjacencyMatrix.cpp:87-114). -/
def msfLoop (M : AdjMat) (weight : Nat → Nat → W) : Nat → List (WEdge W) → SB → AdjMat → AdjMat
  | 0, _, _, F => F
  | fuel+1, Q, rem, F =>
    if isEmpty rem then F else
      let next := lo rem
      let r := primLoop pick M weight 65 (ctz next) Q (diff rem next) F
      msfLoop M weight fuel r.1 r.2.1 r.2.2

/-- `minimum_spanning_forest(weight)` (AdjacencyMatrix.cpp:63-116). -/
def msf (M : AdjMat) (weight : Nat → Nat → W) : AdjMat :=
  if M.n = 0 then mk0 M.n else msfLoop pick M weight 65 [] (all M.n) (mk0 M.n)

end AdjMat
end Mutable
