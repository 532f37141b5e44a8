/-
Model of `PartialPlanGenerator` (src/IR/PartialPlanGenerator.cpp): the enumeration of all complete partial plans of a query plan, and
the JSON file with them (option `--output-partial-plans-file`, src/mutable.cpp:133-156).

Simplifications: subproblems are natural numbers used as bit sets (the code: 64 bits, see C01).  The vectors `partial_plans`,
`candidates` and `decision_stack` are lists whose head is the last element of the vector.  Output is a list of characters.
-/
namespace Mutable.PartialPlan

/-- `SmallBitset::is_singleton`, include/mutable/util/ADT.hpp:165: one bit is set (the code: `popcount == 1`). -/
def isSingleton (s : Nat) : Bool := s != 0 && (s &&& (s - 1)) == 0

/-- The plan table: `PT[s].left` and `PT[s].right`. -/
abbrev PT := Nat → Nat × Nat

/-- The local variables, PartialPlanGenerator.cpp:27-31. -/
structure PState where
  plans : List Nat
  cands : List Nat
  dec : List Bool
deriving DecidableEq, Repr

/-- The outer loop, or the loop that unwinds the decision stack. -/
inductive Mode where
  | outer | unwind
deriving DecidableEq, Repr

/-- The two nested loops, PartialPlanGenerator.cpp:44-84: the calls of the callback in order, or nothing if the first argument (a bound
on the number of iterations) is too small or an assertion (`M_insist`) fails. -/
def run (pt : PT) : Nat → Mode → PState → Option (List (List Nat))
  | 0, _, _ => none
  | fuel + 1, .outer, s =>
    match s.cands with
    | [] => (run pt fuel .unwind s).map (s.plans.reverse :: ·)
    | c :: cs => run pt fuel .outer ⟨c :: s.plans, cs, true :: s.dec⟩
  | fuel + 1, .unwind, s =>
    match s.dec with
    | [] => some []
    | false :: ds =>
      match s.cands with
      | right :: left :: cs => run pt fuel .unwind ⟨s.plans, (left ||| right) :: cs, ds⟩
      | _ => none
    | true :: ds =>
      match s.plans with
      | [] => none
      | p :: ps =>
        if isSingleton p then run pt fuel .unwind ⟨ps, p :: s.cands, ds⟩
        else run pt fuel .outer ⟨ps, (pt p).2 :: (pt p).1 :: s.cands, false :: ds⟩

/-- `for_each_complete_partial_plan`, PartialPlanGenerator.cpp:9-86; `n` is `PT.num_sources()`. -/
def forEach (pt : PT) (n fuel : Nat) : Option (List (List Nat)) :=
  if n = 0 then some []
  else if n = 1 then some [[1]]
  else
    let final := pt (2 ^ n - 1)
    run pt fuel .outer ⟨[final.1 ||| final.2], [], [true]⟩

/-! ### The JSON file -/

/-- The position of the first element, `*root.begin()`. -/
def first (s : Nat) : Nat := s.log2

/-- `write_tree_rec`, PartialPlanGenerator.cpp:94-105; the first argument bounds the depth. -/
def writeTree (pt : PT) (name : Nat → List Char) : Nat → Nat → List Char
  | 0, _ => []
  | d + 1, s =>
    if isSingleton s then name (first s)
    else "@ ".toList ++ writeTree pt name d (pt s).1 ++ [' '] ++ writeTree pt name d (pt s).2

/-- The loop over the partial plan, PartialPlanGenerator.cpp:132-138; `isFirst`: `it == partial_plans.cbegin()`. -/
def writeItems (w : Nat → List Char) : Bool → List Nat → List Char
  | _, [] => []
  | isFirst, s :: ss => (if isFirst then [] else ", ".toList) ++ ['"'] ++ w s ++ ['"'] ++ writeItems w false ss

/-- `write_partial_plan`, PartialPlanGenerator.cpp:122-140: the text, and the value of the variable `is_first`, which is static. -/
def writePlan (w : Nat → List Char) (isFirst : Bool) (p : List Nat) : List Char × Bool :=
  ((if isFirst then [] else [',']) ++ "\n    ".toList ++ "[ ".toList ++ writeItems w true p ++ " ]".toList, false)

/-- The calls of `write_partial_plan`. -/
def writePlans (w : Nat → List Char) : Bool → List (List Nat) → List Char × Bool
  | isFirst, [] => ([], isFirst)
  | isFirst, p :: ps =>
    let r := writePlan w isFirst p
    let r' := writePlans w r.2 ps
    (r.1 ++ r'.1, r'.2)

/-- `write_partial_plans_JSON`, PartialPlanGenerator.cpp:88-152, given the partial plans and the static variable. -/
def writeJSON (w : Nat → List Char) (isFirst : Bool) (ps : List (List Nat)) : List Char × Bool :=
  let r := writePlans w isFirst ps
  (['['] ++ r.1 ++ "\n]\n".toList, r.2)

/-- The files of several queries in one process, mutable.cpp:133-156.  The static variable is initialised once. -/
def writeFiles (w : Nat → List Char) : Bool → List (List (List Nat)) → List (List Char)
  | _, [] => []
  | isFirst, q :: qs => let r := writeJSON w isFirst q; r.1 :: writeFiles w r.2 qs

end Mutable.PartialPlan
