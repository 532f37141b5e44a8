import Verif.PartialPlan.Model
/-
What a plan, a complete partial plan and a JSON document are.
-/
namespace Mutable.PartialPlan

/-- The plan table has a plan for `s`: a relation, or the join of two plans for disjoint sets whose union is `s`. -/
inductive HasPlan (pt : PT) : Nat → Prop
  | relation (s : Nat) : isSingleton s = true → HasPlan pt s
  | join (s : Nat) : isSingleton s = false → HasPlan pt (pt s).1 → HasPlan pt (pt s).2 →
      (pt s).1 &&& (pt s).2 = 0 → (pt s).1 ||| (pt s).2 = s → HasPlan pt s

/-- `s` occurs in the plan for `root`. -/
inductive SubPlan (pt : PT) (root : Nat) : Nat → Prop
  | root : SubPlan pt root root
  | left (s : Nat) : SubPlan pt root s → isSingleton s = false → SubPlan pt root (pt s).1
  | right (s : Nat) : SubPlan pt root s → isSingleton s = false → SubPlan pt root (pt s).2

/-- A complete partial plan (PartialPlanGenerator.hpp:15-17): plans that occur in the plan for `root`, such that each relation of `root`
occurs in exactly one of them. -/
def Complete (pt : PT) (root : Nat) (p : List Nat) : Prop :=
  (∀ s ∈ p, SubPlan pt root s) ∧ ∀ i, root.testBit i = true → p.countP (fun s => s.testBit i) = 1

/-! ### Plans in prefix notation -/

/-- A plan: a relation with a name, or a join. -/
inductive Term where
  | rel (name : List Char)
  | join (l r : Term)
deriving DecidableEq, Repr

/-- The plan for `s` in the plan table. -/
inductive IsPlan (pt : PT) (name : Nat → List Char) : Nat → Term → Prop
  | rel (i : Nat) : IsPlan pt name (2 ^ i) (.rel (name i))
  | join (s : Nat) (l r : Term) : isSingleton s = false → IsPlan pt name (pt s).1 l → IsPlan pt name (pt s).2 r →
      IsPlan pt name s (.join l r)

/-- Reads a plan in prefix notation: `@` and two plans, or a name; the first argument bounds the depth. -/
def readTerm : Nat → List Char → Option (Term × List Char)
  | 0, _ => none
  | d + 1, '@' :: ' ' :: s =>
    match readTerm d s with
    | some (l, ' ' :: s') =>
      match readTerm d s' with
      | some (r, s'') => some (.join l r, s'')
      | none => none
    | _ => none
  | _ + 1, s => some (.rel (s.takeWhile (· != ' ')), s.dropWhile (· != ' '))

/-! ### JSON: arrays of strings without escapes -/

/-- Whitespace. -/
def isWs (c : Char) : Bool := c = ' ' || c = '\n' || c = '\r' || c = '\t'

def ws (s : List Char) : List Char := s.dropWhile isWs

/-- A string: no escapes, no control characters. -/
def parseStr : List Char → Option (List Char × List Char)
  | '"' :: s =>
    let body := s.takeWhile (· != '"')
    if body.all (fun c => c != '\\' && c.toNat ≥ 32) then
      match s.dropWhile (· != '"') with
      | _ :: rest => some (body, rest)
      | [] => none
    else none
  | _ => none

/-- Elements up to the closing bracket; the first argument bounds their number. -/
def parseElems {α : Type} (p : List Char → Option (α × List Char)) : Nat → List Char → Option (List α × List Char)
  | 0, _ => none
  | fuel + 1, s =>
    match p (ws s) with
    | none => none
    | some (a, s') =>
      match ws s' with
      | ',' :: s'' => (parseElems p fuel s'').map (fun r => (a :: r.1, r.2))
      | ']' :: s'' => some ([a], s'')
      | _ => none

/-- An array. -/
def parseArr {α : Type} (p : List Char → Option (α × List Char)) (s : List Char) : Option (List α × List Char) :=
  match s with
  | '[' :: s =>
    match ws s with
    | ']' :: rest => some ([], rest)
    | s' => parseElems p s'.length s'
  | _ => none

/-- A document: an array of arrays of strings. -/
def parseJSON (s : List Char) : Option (List (List (List Char))) :=
  match parseArr (parseArr parseStr) (ws s) with
  | some (a, rest) => if ws rest = [] then some a else none
  | none => none

end Mutable.PartialPlan
