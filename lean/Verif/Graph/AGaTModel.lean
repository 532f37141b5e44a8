import Verif.Graph.Model
/-!
# Model of `m::MinCutAGaT` (include/mutable/util/MinCutAGaT.hpp)

`none` stands for a violated `M_insist` (or exhausted fuel), `some l` for the sequence `l` of callback arguments.
-/
namespace Mutable
open SB
namespace AdjMat

/-- Entry `(C, X, T)` of the worklist (MinCutAGaT.hpp:27). -/
abbrev AgatEntry := SB × SB × SB

/-- The `IsConnectedImp()` check (MinCutAGaT.hpp:40-48). -/
def agatConn (M : AdjMat) (S C T : SB) : Bool :=
  let NT := diff (M.neighbors T &&& S) C
  if size NT ≤ 1 then true
  else isSubset NT (M.reachableIn (lo NT) (diff S C))

/-- The loop pushing the children (MinCutAGaT.hpp:64-68) over the remaining iterator positions `l`. -/
def agatPush (C Ttmp : SB) : List (Nat × SB) → SB → List AgatEntry
  | [], _ => []
  | it :: l, Xtmp => (C ||| it.2, Xtmp, Ttmp ||| it.2) :: agatPush C Ttmp l (Xtmp ||| it.2)

/-- Everything pushed for `(C, X, T)`, in push order (MinCutAGaT.hpp:50-68). -/
def agatChildren (M : AdjMat) (S : SB) (e : AgatEntry) : List AgatEntry :=
  let C := e.1
  let X := e.2.1
  let T := e.2.2
  let Ttmp := if M.agatConn S C T then 0#64 else C
  if size C + 1 ≥ size S then []
  else agatPush C Ttmp (iterate (diff (M.neighbors C &&& S) X)) X

/-- The `M_insist`s at the head of the loop (MinCutAGaT.hpp:35-37) and after the check (52-53, 56). -/
def agatInsist (M : AdjMat) (S C T : SB) : Bool :=
  isSubset C S && M.isConnected C && isSubset T C &&
  (if M.agatConn S C T then M.isConnected (diff S C) && M.isConnected2 C (diff S C)
   else !M.isConnected (diff S C) || !M.isConnected2 C (diff S C))

/-- The `while (not worklist.empty())` loop (MinCutAGaT.hpp:31-69); the head of the list is `worklist.back()`. -/
def agatLoop (M : AdjMat) (S : SB) : Nat → List AgatEntry → Option (List (SB × SB))
  | 0, [] => some []
  | 0, _ :: _ => none
  | _+1, [] => some []
  | fuel+1, e :: W =>
    if M.agatInsist S e.1 e.2.2 then
      (agatLoop M S fuel ((M.agatChildren S e).reverse ++ W)).map fun rest =>
        if M.agatConn S e.1 e.2.2 then (e.1, diff S e.1) :: rest else rest
    else none

/-- `partition(M, callback, S)` (MinCutAGaT.hpp:73-86) including the entry checks of
`min_cut_advanced_generate_and_test` (20-25). -/
def agatPartition (M : AdjMat) (S : SB) : Option (List (SB × SB)) :=
  if !isEmpty S && !isSingleton S && M.isConnected S then agatLoop M S (S.toNat + 1) [(lo S, 0#64, lo S)] else none

end AdjMat
end Mutable
