import Verif.G2S.Model
import Verif.Parser.PrintStmt
import Verif.SQL.Kleene
/-!
# What the SQL text of a query graph has to say

The tree of the statement that is meant, and which graphs can be written in SQL at all (`Ok`).
-/
namespace Mutable.G2S
open Mutable.Parse (Expr Str S K Tok Select printExpr printNat)
open Mutable.Parse.Spec (Ident AliasOK PExpr)

mutual

/-- Behind a grouping, a function that was computed by it is an attribute; its name is the text of the application, without special characters. -/
def lower : Expr → Expr
  | .fn f as => .designator none (mangle (printExpr false (.fn f as)))
  | .unary op e => .unary op (lower e)
  | .binary op l r => .binary op (lower l) (lower r)
  | e => e

end

/-- A predicate. -/
def predOf (p : Pred) : Expr := if p.1 then .unary ⟨S "NOT", K "NOT"⟩ (lower p.2) else lower p.2

/-- `a OR b OR …` -/
def disj : Clause → Expr
  | [] => .error
  | p :: ps => ps.foldl (fun l r => .binary ⟨S "OR", K "OR"⟩ l (predOf r)) (predOf p)

/-- `(…) AND (…) AND …` -/
def conj : CNF → Expr
  | [] => .error
  | c :: cs => cs.foldl (fun l r => .binary ⟨S "AND", K "AND"⟩ l (disj r)) (disj c)

/-- A projection: the alias it has, or its text without special characters, if that is another name than it has anyway. -/
def itemOf (p : Expr × Option Str) : Expr × Option Str :=
  match p.2 with
  | some a => (p.1, some (a.map fun c => if c = '$' then '_' else c))
  | none => (p.1, if printExpr false p.1 = mangle (printExpr false p.1) then none else some (mangle (printExpr false p.1)))

def intTok (n : Nat) : Tok := ⟨printNat n, if n = 0 then .octInt else .decInt⟩

mutual

/-- The statement: the same projections (all attributes, if there are none), sources, keys, orders and limits; the condition is the conjunction of the
filters of the sources and the conditions of the joins. -/
def selOf (id : Nat) : Graph → Select × Nat
  | .mk ps ss js gs os l o =>
    (.mk (.select (ps = []) (ps.map itemOf)) (if ss = [] then none else some (.from_ (srcsOf id ss).1))
      (if condition ss js = [] then none else some (.where_ (conj (condition ss js))))
      (if gs = [] then none else some (.groupBy (gs.map fun g => (lower g.1, g.2)))) none
      (if os = [] then none else some (.orderBy os))
      (if l = 0 ∧ o = 0 then none else some (.limit (intTok l) (if o = 0 then none else some (intTok o)))), (srcsOf id ss).2)

def srcsOf (id : Nat) : List Source → List Parse.Source × Nat
  | [] => ([], id)
  | s :: ss => ((srcOf id s).1 :: (srcsOf (srcOf id s).2 ss).1, (srcsOf (srcOf id s).2 ss).2)

/-- A table whose alias is its name needs no alias. -/
def srcOf (id : Nat) : Source → Parse.Source × Nat
  | .table n a _ => (.table n (if a = some n then none else a), id)
  | .query g (some a) _ => (.nested (selOf id g).1 a, (selOf id g).2)
  | .query g none _ => (.nested (selOf id g).1 (uniqueAlias (selOf id g).2), (selOf id g).2 + 1)

end

/-- A formula that can be written: no clause is empty, the predicates have a text that can be read. -/
def OkCNF (c : CNF) : Prop := ∀ cl ∈ c, cl ≠ [] ∧ ∀ p ∈ cl, PExpr false (lower p.2)

mutual

/-- Graphs that can be written in SQL: expressions without nested queries, names that are identifiers, tables with an alias. -/
def Ok : Graph → Prop
  | .mk ps ss js gs os _ _ => (∀ p ∈ ps, PExpr false p.1 ∧ AliasOK (itemOf p).2) ∧ OkL ss ∧ (∀ j ∈ js, OkCNF j) ∧
      (∀ g ∈ gs, PExpr false (lower g.1) ∧ AliasOK g.2) ∧ (∀ o ∈ os, PExpr false o.1)

def OkL : List Source → Prop
  | [] => True
  | s :: ss => OkS s ∧ OkL ss

def OkS : Source → Prop
  | .table n a f => Ident n ∧ (∃ b, a = some b ∧ Ident b) ∧ OkCNF f
  | .query g a f => Ok g ∧ AliasOK a ∧ OkCNF f

end

end Mutable.G2S
