import Verif.Tail.Model
import Verif.Deliver.Spec

/-!
What SELECT, ORDER BY and LIMIT should do, in terms of the rows below and of the SQL statement.
-/
namespace Mutable.Tail

open Deliver

variable {α : Type}

/-- The name of an item of the SELECT list: its alias or the name of its attribute. -/
def title (it : Item α) : Option String :=
  match it.as_ with
  | some a => some a
  | none => match it.e with
    | .des _ a => some a
    | _ => none

/-- The value of an ORDER BY expression on a row: a plain name is the item of the SELECT list with this name, if there is
exactly one (several: undefined); other names are columns of the row. -/
def orderVal (sem : Sem α) (items : List (Item α)) (low : Option String → String → Option Ident) (env : Env α) :
    Ex α → Option (Option α)
  | .des none a =>
    match items.filter fun it => title it = some a with
    | [] => (low none a).bind (column env)
    | [it] => value sem env it.e
    | _ => none
  | .des (some t) a => (low (some t) a).bind (column env)
  | .const _ v => some v
  | .aggNil f => column env ⟨none, f ++ "()"⟩
  | .agg f e => column env ⟨none, f ++ "(" ++ e.print ++ ")"⟩
  | .call f e => (orderVal sem items low env e).map (sem.call f)
  | .un op e => (orderVal sem items low env e).map (sem.un op)
  | .bin op l r =>
    (orderVal sem items low env l).bind fun a => (orderVal sem items low env r).map fun b => sem.bin op a b

/-- The keys of a row. -/
def orderKeys (sem : Sem α) (items : List (Item α)) (low : Option String → String → Option Ident) (orders : List (Ex α × Bool))
    (env : Env α) : Option (List (Option α)) :=
  orders.mapM fun o => orderVal sem items low env o.1

/-- The rows LIMIT and OFFSET leave. -/
def window {ρ : Type} (lim : Option (Nat × Nat)) (l : List ρ) : List ρ :=
  match lim with
  | none => l
  | some (n, off) => (l.drop off).take n

/-- A correct result: the rows in an order that respects the keys (unchanged without ORDER BY), the window, and of each
row the SELECT list.  `le`: a row with the first keys may precede a row with the second, given which keys are ascending. -/
def IsResult (sem : Sem α) (le : List Bool → List (Option α) → List (Option α) → Prop) (items : List (Item α))
    (low : Option String → String → Option Ident) (orders : List (Ex α × Bool)) (lim : Option (Nat × Nat))
    (rows : List (Env α)) (out : List (List (Option α))) : Prop :=
  ∃ l : List (Env α), l.Perm rows ∧ (orders = [] → l = rows) ∧
    (∃ ks, l.mapM (orderKeys sem items low orders) = some ks ∧ (orders ≠ [] → ks.Pairwise (le (orders.map (·.2))))) ∧
    specRows sem items (window lim l) = some out

/-- The sorting algorithm is correct for the order. -/
def Sorts (srt : Sorter α) (le : List Bool → List (Option α) → List (Option α) → Prop) : Prop :=
  ∀ (fl : List Bool) (ρ : Type) (l : List (List (Option α) × ρ)),
    (srt fl ρ l).Perm l ∧ ((srt fl ρ l).map (·.1)).Pairwise (le fl)

/-- The columns of the rows below an ORDER BY expression uses, in the order of their occurrence: names that are no item
of the SELECT list, and aggregates. -/
def orderCols (items : List (Item α)) (low : Option String → String → Option Ident) : Ex α → List (Ex α)
  | .des none a =>
    match items.filter fun it => title it = some a with
    | [] => (low none a).toList.map fun id => .des id.pre id.name
    | _ => []
  | .des (some t) a => (low (some t) a).toList.map fun id => .des id.pre id.name
  | .const _ _ => []
  | .aggNil f => [.aggNil f]
  | .agg f e => [.agg f e]
  | .call _ e => orderCols items low e
  | .un _ e => orderCols items low e
  | .bin _ l r => orderCols items low l ++ orderCols items low r

/-- The columns ORDER BY uses that are not in the SELECT list, as items. -/
def hidden [DecidableEq α] (items : List (Item α)) (low : Option String → String → Option Ident) (orders : List (Ex α × Bool)) :
    List (Item α) :=
  ((orders.flatMap fun o => orderCols items low o.1).filter fun e => ∀ it ∈ items, it.as_ = none → it.e ≠ e).map
    fun e => ⟨e, none, .prim 0⟩

/-- No scalar function (`ISNULL`, `INT`). -/
def NoCall : Ex α → Prop
  | .call _ _ => False
  | .un _ e => NoCall e
  | .bin _ l r => NoCall l ∧ NoCall r
  | _ => True

/-- No name ambiguous, no name unknown. -/
def Resolvable (items : List (Item α)) (low : Option String → String → Option Ident) : Ex α → Prop
  | .des none a => match items.filter fun it => title it = some a with
    | [] => (low none a).isSome
    | [_] => True
    | _ => False
  | .des (some t) a => (low (some t) a).isSome
  | .call _ e => Resolvable items low e
  | .un _ e => Resolvable items low e
  | .bin _ l r => Resolvable items low l ∧ Resolvable items low r
  | _ => True

/-- No name of the expression is an alias. -/
def NoAlias (items : List (Item α)) : Ex α → Prop
  | .des none a => ∀ it ∈ items, it.as_ ≠ some a
  | .call _ e => NoAlias items e
  | .un _ e => NoAlias items e
  | .bin _ l r => NoAlias items l ∧ NoAlias items r
  | _ => True

/-- The expression with its names completed: a name that is an item of the SELECT list without an alias is this item, a
name that is an alias stays, all other names are columns of the row below. -/
def full (items : List (Item α)) (low : Option String → String → Option Ident) : Ex α → Ex α
  | .des none a =>
    match items.filter fun it => title it = some a with
    | [] => match low none a with | some id => .des id.pre id.name | none => .des none a
    | it :: _ => if it.as_ = none then it.e else .des none a
  | .des (some t) a => match low (some t) a with | some id => .des id.pre id.name | none => .des (some t) a
  | .call f e => .call f (full items low e)
  | .un op e => .un op (full items low e)
  | .bin op l r => .bin op (full items low l) (full items low r)
  | e => e

/-- Whatever is named like an ORDER BY expression is this expression: the interpreter takes the column of that name. -/
def TextOk (its items : List (Item α)) (low : Option String → String → Option Ident) (cols : List Ident) (e : Ex α) :
    Prop :=
  ∀ it ∈ its, projId it = exprId (full items low e) → (full items low e).isName ∨
    (it.e = full items low e ∧ exprId it.e ∉ cols ∧ NoAlias items e)

end Mutable.Tail
