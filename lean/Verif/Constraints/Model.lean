import Mathlib.Data.List.Basic

/-!
Model of the constraints `NOT_NULLABLE` and `UNIQUE` that plans carry with the entries of their schemas
(include/mutable/catalog/Schema.hpp:72-104): where they come from (operator constructors and `add_child`,
src/IR/Operator.cpp:226-316, include/mutable/IR/Operator.hpp:146-530), how schema minimization changes them
(src/IR/Operator.cpp:331-566), and what compiled code does because of them (no NULL bits for entries that cannot be NULL,
WasmUtil.cpp; at most one partner per probe row for unique build keys, WasmOperator.cpp:4929-4965, :5136-5150).

Simplifications, valid for the whole file:
* `I` is the type of identifiers, `V` the type of non-NULL values; a row is a function `I → Option V`, `none` is NULL.
* Minimization is modelled as far as schemas are concerned: items and aggregates that are dropped stay in the tree, only their
  entries vanish from the schema.  That dropping them does not change the values of the other columns is the subject of
  `Verif.Minimize` (C56).  Exceptions are not modelled (C56).
* `REFERENCES_UNIQUE` and `IS_HIDDEN` are not modelled (no operator depends on the first one).
* Joins have two children; the build input of a hash join is the left one.
* Identifiers of projections of aliased derived tables are the renamed ones (Optimizer.cpp:243-249).
-/
namespace Mutable.Constraints

/-- `Schema::entry_type`, Schema.hpp:72-104: `nn` is `NOT_NULLABLE`, `uq` is `UNIQUE`. -/
structure Ent (I : Type) where
  id : I
  nn : Bool
  uq : Bool
deriving DecidableEq

abbrev Row (I V : Type) := I → Option V

/-! ### Expressions -/

/-- Expressions, include/mutable/parse/AST.hpp.  Designators have a target: an attribute of a table (`attr`), an expression
(`named`) or nothing (`free`).  `cnt` and `oth` are applications of aggregate functions (`COUNT`; `MIN`, `MAX`, `SUM`,
`AVG`), which are computed by an operator below and referred to by their text `i`. -/
inductive E (I V : Type) where
  | const (v : Option V)
  | attr (i : I) (notNull : Bool)
  | named (i : I) (target : E I V)
  | free (i : I)
  | un (f : V → V) (e : E I V)
  | bin (f : V → V → V) (a b : E I V)
  | logic (isAnd : Bool) (a b : E I V)
  | isNull (e : E I V)
  | cnt (i : I)
  | oth (i : I) (arg : E I V)

/-- The Booleans among the values. -/
class Truth (V : Type) where
  ofBool : Bool → V

section Expr
variable {I V : Type} [DecidableEq V] [Truth V]

/-- The constant is the dominating element of `AND` (`FALSE`) or `OR` (`TRUE`), AST.hpp:363-367. -/
def E.dominates (isAnd : Bool) : E I V → Bool
  | .const v => decide (v = some (Truth.ofBool (!isAnd)))
  | _ => false

/-- `Expr::can_be_null`, AST.hpp:120, :170-176, :217, :266-288, :333, :360-371. -/
def E.canBeNull : E I V → Bool
  | .const v => v.isNone
  | .attr _ nn => !nn
  | .named _ t => t.canBeNull
  | .free _ => true
  | .un _ e => e.canBeNull
  | .bin _ a b => a.canBeNull || b.canBeNull
  | .logic c a b => !a.dominates c && !b.dominates c && (a.canBeNull || b.canBeNull)
  | .isNull _ => false
  | .cnt _ => false
  | .oth _ arg => arg.canBeNull

/-- `Expr::get_required`, src/parse/AST.cpp:145-173. -/
def E.req : E I V → List I
  | .const _ => []
  | .attr i _ => [i]
  | .named i _ => [i]
  | .free i => [i]
  | .un _ e => e.req
  | .bin _ a b => a.req ++ b.req
  | .logic _ a b => a.req ++ b.req
  | .isNull e => e.req
  | .cnt i => [i]
  | .oth i _ => [i]

/-- `cast<const Designator>(expr)`, with the designator's identifier. -/
def E.designator? : E I V → Option I
  | .attr i _ => some i
  | .named i _ => some i
  | .free i => some i
  | _ => none

/-- The value of an expression on a row. -/
def E.ev (r : Row I V) : E I V → Option V
  | .const v => v
  | .attr i _ => r i
  | .named i _ => r i
  | .free i => r i
  | .un f e => (e.ev r).map f
  | .bin f a b => (a.ev r).bind fun x => (b.ev r).map (f x)
  | .logic c a b =>
    if a.ev r = some (Truth.ofBool (!c)) ∨ b.ev r = some (Truth.ofBool (!c)) then some (Truth.ofBool (!c))
    else (a.ev r).bind fun _ => (b.ev r).map fun _ => Truth.ofBool c
  | .isNull e => some (Truth.ofBool (e.ev r).isNone)
  | .cnt i => r i
  | .oth i _ => r i

/-- Aggregates: `COUNT` of rows or of an argument, and the others, which ignore NULLs and are NULL if nothing is left. -/
inductive Ag (I V : Type) where
  | cnt (f : List (Row I V) → V) (req : List I)
  | oth (f : List V → V) (arg : E I V)

def Ag.canBeNull : Ag I V → Bool
  | .cnt _ _ => false
  | .oth _ arg => arg.canBeNull

/-- The identifiers required by the arguments. -/
def Ag.req : Ag I V → List I
  | .cnt _ req => req
  | .oth _ arg => arg.req

def Ag.ev (rows : List (Row I V)) : Ag I V → Option V
  | .cnt f _ => some (f rows)
  | .oth f arg => let vs := rows.filterMap (fun r => arg.ev r); if vs = [] then none else some (f vs)

end Expr

/-! ### Plans -/

/-- Join predicates: arbitrary ones, and conjunctions of equations between a column of the left and one of the right child. -/
inductive JP (I V : Type) where
  | theta (req : List I) (f : Row I V → Bool)
  | equi (keys : List (I × I))

/-- Operator trees.  `S` is `Operator::schema()`; a limit has the schema of its child.  `L`: the identifiers of the left
child of a join. -/
inductive Plan (I V : Type) where
  | scan (S : List (Ent I)) (rows : List (Row I V))
  | filter (S : List (Ent I)) (req : List I) (f : Row I V → Bool) (c : Plan I V)
  | join (S : List (Ent I)) (L : List I) (p : JP I V) (l r : Plan I V)
  | proj (S : List (Ent I)) (items : List (I × E I V)) (c : Plan I V)
  | limit (off lim : Nat) (c : Plan I V)
  | group (S : List (Ent I)) (keys : List (I × E I V)) (aggs : List (I × Ag I V)) (c : Plan I V)
  | agg (S : List (Ent I)) (aggs : List (I × Ag I V)) (c : Plan I V)
  | sort (S : List (Ent I)) (req : List I) (ord : List (Row I V) → List (Row I V)) (c : Plan I V)

section Schemas
variable {I V : Type}

/-- `Operator::schema()`. -/
def schema : Plan I V → List (Ent I)
  | .scan S _ => S
  | .filter S _ _ _ => S
  | .join S _ _ _ _ => S
  | .proj S _ _ => S
  | .limit _ _ c => schema c
  | .group S _ _ _ => S
  | .agg S _ _ => S
  | .sort S _ _ _ => S

def ids (S : List (Ent I)) : List I := S.map Ent.id

variable [DecidableEq I]

/-- `Schema::find`, Schema.hpp:112-119. -/
def find (S : List (Ent I)) (i : I) : Option (Ent I) := S.find? fun e => decide (e.id = i)

/-- The constraints of `t` are added to those of `e`; `uq`: `UNIQUE` is not excluded. -/
def merge (uq : Bool) (e t : Ent I) : Ent I := ⟨e.id, e.nn || t.nn, e.uq || (uq && t.uq)⟩

/-- `add_constraints`, Operator.cpp:345-362: entries of `T` with the same identifier, if there is one. -/
def addC (uq : Bool) (S T : List (Ent I)) : List (Ent I) := S.map fun e => match find T e.id with
  | none => e
  | some t => merge uq e t

/-- `operator&`, Schema.hpp:258-270. -/
def inter (A B : List (Ent I)) : List (Ent I) := A.filterMap fun e => (find B e.id).map fun t => merge true e t

/-- One step of `operator|=`. -/
def addEnt (A : List (Ent I)) (e : Ent I) : List (Ent I) := if e.id ∈ ids A then A else A ++ [e]

/-- `operator|=`, Schema.hpp:195-203. -/
def union (A B : List (Ent I)) : List (Ent I) := B.foldl addEnt A

/-- Entries as `Expr::get_required` creates them. -/
def plain (is : List I) : List (Ent I) := is.map fun i => ⟨i, false, false⟩

variable [DecidableEq V] [Truth V]

/-- The entry of a projected expression: `ProjectionOperator::ProjectionOperator`, Operator.cpp:226-254, and `add_child`,
Operator.hpp:373-388, which adds the constraints of the child's entry for designators. -/
def itemEnt (T : List (Ent I)) (x : I × E I V) : Ent I :=
  let e : Ent I := ⟨x.1, !x.2.canBeNull, false⟩
  match x.2.designator?.bind (find T) with
  | none => e
  | some t => merge true e t

/-- The entry of a grouping key: `GroupingOperator::GroupingOperator`, Operator.cpp:256-285, and `add_child`,
Operator.hpp:459-474.  The constructor means to add `UNIQUE` if there is only one key, but asks the size of the vector
`group_by` after it was moved from, which is empty. -/
def keyEnt (T : List (Ent I)) (x : I × E I V) : Ent I :=
  let moved : List (I × E I V) := []
  let e : Ent I := ⟨x.1, !x.2.canBeNull, decide (moved.length = 1)⟩
  match x.2.designator?.bind (find T) with
  | none => e
  | some t => merge true e t

/-- The entry of an aggregate of a grouping, Operator.cpp:287-296. -/
def groupAggEnt (x : I × Ag I V) : Ent I := ⟨x.1, !x.2.canBeNull, false⟩

/-- Is it `COUNT`? -/
def Ag.isCount : Ag I V → Bool
  | .cnt _ _ => true
  | .oth _ _ => false

/-- The entry of an aggregate without grouping, Operator.cpp:299-315. -/
def aggEnt (x : I × Ag I V) : Ent I := ⟨x.1, x.2.isCount, true⟩

/-- `JoinOperator::add_child`, Operator.hpp:330-337: `UNIQUE` is removed. -/
def joinEnt (e : Ent I) : Ent I := { e with uq := false }

def JP.req : JP I V → List I
  | .theta req _ => req
  | .equi keys => keys.flatMap fun k => [k.1, k.2]

/-- `SchemaMinimizer`, Operator.cpp:365-560; `req` is `required`, `top` is `is_top_of_plan_`. -/
def mini (top : Bool) (req : List (Ent I)) : Plan I V → Plan I V
  | .scan S rows => .scan (if top then S else inter req S) rows                         -- :365-372
  | .filter S preq f c =>                                                               -- :392-405
    let c' := mini false (if top then S else union req (plain preq)) c
    .filter (addC true (if top then S else req) (schema c')) preq f c'
  | .join S L p l r =>                                                                  -- :412-428
    let below := if top then S else union req (plain p.req)
    let S := if top then S else req
    let l' := mini false (inter below (schema l)) l
    let S := addC false S (schema l')
    let r' := mini false (inter below (schema r)) r
    .join (addC false S (schema r')) L p l' r'
  | .proj S items c =>                                                                  -- :430-458
    let kept := items.filter fun x => top || decide (x.1 ∈ ids req)
    let S := S.filter fun e => top || decide (e.id ∈ ids req)
    let c' := mini false (union [] (plain (kept.flatMap fun x => x.2.req))) c
    .proj (addC true S (schema c')) items c'
  | .limit off lim c => .limit off lim (mini top req c)                                 -- :460-464
  | .group S keys aggs c =>                                                             -- :466-507
    let kept := aggs.filter fun x => top || decide (x.1 ∈ ids req)
    let Sk := S.take keys.length
    let Sa := (S.drop keys.length).filter fun e => top || decide (e.id ∈ ids req)
    let c' := mini false (union [] (plain (keys.flatMap (fun x => x.2.req) ++ kept.flatMap fun x => x.2.req))) c
    .group (addC true Sk (schema c') ++ Sa) keys aggs c'
  | .agg S aggs c =>                                                                    -- :509-543
    let kept := aggs.filter fun x => top || decide (x.1 ∈ ids req)
    let S := S.filter fun e => top || decide (e.id ∈ ids req)
    let c' := mini false (union [] (plain (kept.flatMap fun x => x.2.req))) c
    .agg S aggs c'
  | .sort S oreq ord c =>                                                               -- :545-560
    let c' := mini false (if top then S else union req (plain oreq)) c
    .sort (addC true (if top then S else req) (schema c')) oreq ord c'

/-- `Operator::minimize_schema`, Operator.cpp:562-566. -/
def minimize (p : Plan I V) : Plan I V := mini true [] p

/-! ### Execution that relies on the constraints -/

/-- The values of the items. -/
def project (items : List (I × E I V)) (r : Row I V) : Row I V := fun i =>
  (items.find? fun x => decide (x.1 = i)).bind fun x => x.2.ev r

/-- The row of a group: grouping keys and aggregates. -/
def groupRow (keys : List (I × E I V)) (aggs : List (I × Ag I V)) (k : List (Option V)) (rows : List (Row I V)) : Row I V := fun i =>
  match (keys.map Prod.fst).zip k |>.find? fun x => decide (x.1 = i) with
  | some x => x.2
  | none => (aggs.find? fun x => decide (x.1 = i)).bind fun x => x.2.ev rows

/-- The key of a row. -/
def keyOf (keys : List (I × E I V)) (r : Row I V) : List (Option V) := keys.map fun x => x.2.ev r

/-- The different elements of a list, in the order of their first occurrence. -/
def distinct {α : Type} [DecidableEq α] : List α → List α
  | [] => []
  | a :: l => a :: (distinct l).filter fun b => decide (b ≠ a)

/-- Does the pair satisfy the predicate (NULL equals nothing)? -/
def JP.holds (p : JP I V) (both a b : Row I V) : Bool := match p with
  | .theta _ f => f both
  | .equi keys => keys.all fun k => (a k.1).isSome && decide (a k.1 = b k.2)

def both (L : List I) (a b : Row I V) : Row I V := fun i => if i ∈ L then a i else b i

/-- A row after it was written to and read from memory with the given schema: entries that are not nullable have no NULL bit
(WasmUtil.cpp:1011 ff., :638, :1719), what is read for a NULL is some value. -/
def store (junk : V) (S : List (Ent I)) (r : Row I V) : Row I V := fun i => match find S i with
  | some e => if e.nn then some ((r i).getD junk) else r i
  | none => r i

/-- `SimpleHashJoin<UniqueBuild = true>::pre_condition`, WasmOperator.cpp:4929-4965: the predicate is an equi-predicate, which
the empty one is not (`CNF::is_equi`, CNF.hpp:147-153), and all build keys are declared unique. -/
def uniqueBuild (p : JP I V) (T : List (Ent I)) : Bool := match p with
  | .theta _ _ => false
  | .equi keys => !keys.isEmpty && keys.all fun k => (find T k.1).any Ent.uq

/-- Execution by compiled code.  Inputs of sorts and build inputs of joins are materialized with the schema of the child; if
the build keys are declared unique, the join looks only for one partner of every probe row (`find` instead of
`for_each_in_equal_range`, WasmOperator.cpp:5136-5150). -/
def exec (junk : V) : Plan I V → List (Row I V)
  | .scan _ rows => rows
  | .filter _ _ f c => (exec junk c).filter f
  | .join _ L p l r =>
    let ls := (exec junk l).map (store junk (schema l))
    let rs := exec junk r
    if uniqueBuild p (schema l) then rs.flatMap fun b => ((ls.find? fun a => p.holds (both L a b) a b).map fun a => both L a b).toList
    else rs.flatMap fun b => (ls.filter fun a => p.holds (both L a b) a b).map fun a => both L a b
  | .proj _ items c => (exec junk c).map (project items)
  | .limit off lim c => ((exec junk c).drop off).take lim
  | .group _ keys aggs c =>
    let rows := exec junk c
    (distinct (rows.map (keyOf keys))).map fun k => groupRow keys aggs k (rows.filter fun r => decide (keyOf keys r = k))
  | .agg _ aggs c => [groupRow [] aggs [] (exec junk c)]
  | .sort _ _ ord c => ord ((exec junk c).map (store junk (schema c)))

/-- What the user sees: the result set is written and read with the schema of the top operator (V8Engine.cpp,
`read_result_set`). -/
def shown (junk : V) (p : Plan I V) : List (List (Option V)) :=
  (exec junk p).map fun r => (ids (schema p)).map (store junk (schema p) r)

end Schemas

end Mutable.Constraints
