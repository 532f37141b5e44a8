import Verif.SQL.Expr
/-! Model of `m::cnf` (include/mutable/IR/CNF.hpp, src/IR/CNF.cpp). -/
namespace Mutable.CNF
open Mutable.SQL

/-- `cnf::Predicate`: an expression with a sign.  include/mutable/IR/CNF.hpp:16-90.  Simplification: the pointer tag
bit is a field, and expressions are compared structurally, which is what `Predicate::operator==` does. -/
structure Pred where
  expr : Expr
  negative : Bool
  deriving DecidableEq, Repr

/-- `Predicate::operator!`.  include/mutable/IR/CNF.hpp:58-60. -/
def Pred.neg (p : Pred) : Pred := { p with negative := !p.negative }

/-- `cnf::Clause`.  include/mutable/IR/CNF.hpp:92-143. -/
abbrev Clause := List Pred

/-- `cnf::CNF`.  include/mutable/IR/CNF.hpp:146-195. -/
abbrev CNF := List Clause

/-- `Clause::operator<=`.  src/IR/CNF.cpp:18-25. -/
def Clause.leb (a b : Clause) : Bool := a.all fun p => b.contains p

/-- `Clause::operator==`.  include/mutable/IR/CNF.hpp:99. -/
def Clause.beq (a b : Clause) : Bool := Clause.leb b a && Clause.leb a b

/-- `CNF::operator<=`; `contains` compares clauses with `Clause::operator==`.  src/IR/CNF.cpp:27-34. -/
def CNF.leb (a b : CNF) : Bool := a.all fun c => b.any fun d => Clause.beq d c

/-- `CNF::operator==`.  include/mutable/IR/CNF.hpp:181. -/
def CNF.beq (a b : CNF) : Bool := CNF.leb b a && CNF.leb a b

/-- `operator||(Clause, Clause)`.  src/IR/CNF.cpp:36-43. -/
def Clause.or (a b : Clause) : Clause := a ++ b

/-- `operator&&(Clause, Clause)`.  src/IR/CNF.cpp:45-51. -/
def Clause.and (a b : Clause) : CNF := [a, b]

/-- `operator&&(CNF, CNF)`.  src/IR/CNF.cpp:53-60. -/
def CNF.and (a b : CNF) : CNF := a ++ b

/-- `operator||(CNF, CNF)`.  src/IR/CNF.cpp:62-76. -/
def CNF.or (a b : CNF) : CNF :=
  if a.length = 0 then b
  else if b.length = 0 then a
  else a.flatMap fun cl => b.map fun cr => Clause.or cl cr

/-- `operator!(Clause)`.  src/IR/CNF.cpp:78-84. -/
def Clause.not (c : Clause) : CNF := c.map fun p => [p.neg]

/-- `operator!(CNF)`.  src/IR/CNF.cpp:86-92. -/
def CNF.not (c : CNF) : CNF := c.foldl (fun res cl => CNF.or res (Clause.not cl)) []

/-- A CNF holding a single literal, `CNF({Clause({Predicate::Create(&e, neg)})})`.  src/IR/CNF.cpp:223-241. -/
def lit (e : Expr) (neg : Bool) : CNF := [[⟨e, neg⟩]]

/-- `CNFGenerator`: the argument `neg` is the member `is_negative_`; `none` is `M_unreachable`.
src/IR/CNF.cpp:197-300. -/
def gen (Γ : Nat → Ty) (neg : Bool) : Expr → Option CNF
  | .leaf i => some (lit (.leaf i) neg)
  | .unary .not e => gen Γ (!neg) e
  | .unary op e => some (lit (.unary op e) neg)
  | .binary op l r =>
    if typeOf Γ l = some .bool ∧ typeOf Γ r = some .bool then do
      let cl ← gen Γ neg l
      let cr ← gen Γ neg r
      if (neg = false ∧ op = .and) ∨ (neg = true ∧ op = .or) then some (CNF.and cl cr)
      else if (neg = false ∧ op = .or) ∨ (neg = true ∧ op = .and) then some (CNF.or cl cr)
      else if op = .equal ∨ op = .bangEqual then
        let equiv := CNF.and (CNF.or (CNF.not cl) cr) (CNF.or (CNF.not cr) cl)
        if (neg = false ∧ op = .bangEqual) ∨ (neg = true ∧ op = .equal) then some (CNF.not equiv)
        else some equiv
      else none
    else some (lit (.binary op l r) neg)

/-- `to_CNF`.  src/IR/CNF.cpp:302-307. -/
def toCNF (Γ : Nat → Ty) (e : Expr) : Option CNF := gen Γ false e

end Mutable.CNF
