import Verif.PlanEnum.Props
/-! Specification of the greedy enumerators. -/
namespace Mutable
open SB
namespace PE

/-- `GreedyRun M card P js`: starting from the subproblems `P`, the joins `js` are made one after the other, the two sides being
replaced by their join, until one subproblem is left; each join is one of those without Cartesian product that are possible
at that point, and of these it has the smallest result. -/
inductive GreedyRun {K : Type} [LE K] (M : AdjMat) (card : SB → K) : Set SB → List (SB × SB) → Prop
  | done (S : SB) : GreedyRun M card {S} []
  | step {P : Set SB} {A B : SB} {js : List (SB × SB)} (hA : A ∈ P) (hB : B ∈ P) (hne : A ≠ B) (hadj : Adjacent M A B)
      (hmin : ∀ A' ∈ P, ∀ B' ∈ P, A' ≠ B' → Adjacent M A' B' → card (A ||| B) ≤ card (A' ||| B'))
      (hrest : GreedyRun M card ((P \ {A, B}) ∪ {A ||| B}) js) : GreedyRun M card P ((A, B) :: js)

/-- `GreedyCut M card t S`: the tree `t` of `S` is obtained by cutting `S` in two connected parts so that the sum of the sizes of
the parts is least, and likewise for the parts. -/
inductive GreedyCut {K : Type} [LE K] [Add K] (M : AdjMat) (card : SB → K) : Tree → SB → Prop
  | leaf (i : Nat) : GreedyCut M card (.leaf i) (singleton i)
  | node {l r : Tree} {A B : SB} (hl : GreedyCut M card l A) (hr : GreedyCut M card r B) (hA : A ≠ 0#64) (hB : B ≠ 0#64)
      (hd : A &&& B = 0#64) (hcA : M.Connected (elems A)) (hcB : M.Connected (elems B))
      (hmin : ∀ A' B', A' ≠ 0#64 → B' ≠ 0#64 → A' &&& B' = 0#64 → A' ||| B' = A ||| B → M.Connected (elems A') →
        M.Connected (elems B') → card A + card B ≤ card A' + card B') :
      GreedyCut M card (.node l r) (A ||| B)

/-- One side of each join is a single relation. -/
inductive Linear : Tree → Prop
  | leaf (i : Nat) : Linear (.leaf i)
  | left (i : Nat) {t : Tree} : Linear t → Linear (.node (.leaf i) t)
  | right (i : Nat) {t : Tree} : Linear t → Linear (.node t (.leaf i))

/-- `RankLin F better rank S xs`: in the join graph `F`, starting from the relations `S`, the relations `xs` are appended one after
the other until no neighbor is left; each is a neighbor of an earlier one, and no other neighbor has a better rank. -/
inductive RankLin {W : Type} (F : AdjMat) (better : W → W → Prop) (rank : Nat → Nat → W) : SB → List Nat → Prop
  | done {S : SB} (h : ∀ p y, Mem S p → F.Adj p y → Mem S y) : RankLin F better rank S []
  | step {S : SB} {p x : Nat} {xs : List Nat} (hp : Mem S p) (hx : ¬ Mem S x) (he : F.Adj p x)
      (hbest : ∀ p' y, Mem S p' → ¬ Mem S y → F.Adj p' y → better (rank p x) (rank p' y))
      (rest : RankLin F better rank (S ||| singleton x) xs) : RankLin F better rank S (x :: xs)

/-- Cost of joining the relations `xs` one after the other to the result `S` of cost `c`, the two inputs of each join in the
cheaper order. -/
def linCost {C D : Type} [Min C] (E : Env C D) (est : SB → D) (base : Nat → C) : C → SB → List Nat → C
  | c, _, [] => c
  | c, S, x :: xs =>
    linCost E est base (min (E.J est S (singleton x) c (base x)) (E.J est (singleton x) S (base x) c)) (S ||| singleton x) xs

/-- `Along t l`: exchanging the sides of some joins of `t` yields a tree with the leaves `l` from left to right. -/
inductive Along : Tree → List Nat → Prop
  | leaf (i : Nat) : Along (.leaf i) [i]
  | node {l r : Tree} {xs ys : List Nat} : Along l xs → Along r ys → Along (.node l r) (xs ++ ys)
  | swap {l r : Tree} {xs ys : List Nat} : Along l xs → Along r ys → Along (.node r l) (xs ++ ys)

end PE
end Mutable
