import Mathlib.Data.List.Forall2

/-!
Model of schema minimization, `SchemaMinimizer` in src/IR/Operator.cpp:331-582, which runs on every logical plan and
again on the physical plan (src/catalog/DatabaseCommand.cpp:89, :117, `Operator::minimize_schema`), and of how the two back ends address the attributes
of a tuple.

Simplifications, valid for the whole file:
* `I` is the type of `Schema::Identifier`s, `C` the type of the entries of a tuple (a word and its NULL bit).  A schema is
  the list of its identifiers; types and constraints of entries are not modelled (so the exception on different types of
  the same identifier is not either).
* An expression is a function of the row together with the identifiers it looks up (`Expr::get_required`,
  src/parse/AST.cpp:142-170).  That the stack machine and the code generator compute the value of expressions is the subject
  of `Verif.StackMachine` (C34) and `Verif.WasmExpr` (C48).
* Joins have two children, as in the plans of the optimizer (Optimizer.cpp:323-375).  The disjunctive filter is treated like
  a filter by the minimizer (:407-410).  Print, callback and no-op operators are the consumer of the plan.
* What `std::sort`, hash tables and block-wise processing leave open about the order of rows is a parameter of the operator
  (`enum`, `perm`).
-/
namespace Mutable.Minimize

/-- An expression with result in `α`: the identifiers it requires and its value on a row. -/
structure Ex (I C α : Type) where
  req : List I
  ev : (I → C) → α
  loc : ∀ r r', (∀ i ∈ req, r i = r' i) → ev r = ev r'

/-- An aggregate: the identifiers required by its arguments and its value on the rows of a group. -/
structure Agg (I C : Type) where
  req : List I
  ev : List (I → C) → C
  loc : ∀ rs rs', List.Forall₂ (fun r r' => ∀ i ∈ req, r i = r' i) rs rs' → ev rs = ev rs'

/-- The order of a sorting operator: the identifiers required by its expressions, and the order (as a list of positions)
in which the rows are output. -/
structure Ord (I C : Type) where
  req : List I
  perm : List (I → C) → List Nat
  loc : ∀ rs rs', List.Forall₂ (fun r r' => ∀ i ∈ req, r i = r' i) rs rs' → perm rs = perm rs'

/-- Join predicates.  `equi`: every clause is an equation between an expression over the left and one over the right child
(`CNF::is_equi`); `eqk` compares key tuples. -/
inductive JPred (I C : Type) where
  | theta (p : Ex I C Bool)
  | equi (keys : List (Ex I C C × Ex I C C)) (eqk : List C → List C → Bool)

/-- Operator trees, include/mutable/IR/Operator.hpp.  `S` is the operator's own schema where it is not determined by the
other fields. -/
inductive Plan (I C : Type) where
  | scan (S : List I) (rows : List (I → C))
  | filter (S : List I) (p : Ex I C Bool) (c : Plan I C)
  | join (S : List I) (p : JPred I C) (enum : Nat → Nat → List (Nat × Nat)) (l r : Plan I C)
  | proj (items : List (I × Ex I C C)) (c : Plan I C)
  | proj0 (items : List (I × Ex I C C))
  | limit (off lim : Nat) (c : Plan I C)
  | group (keys : List (I × Ex I C C)) (eqk : List C → List C → Bool) (aggs : List (I × Agg I C)) (enum : Nat → List Nat)
      (c : Plan I C)
  | agg (aggs : List (I × Agg I C)) (c : Plan I C)
  | sort (S : List I) (o : Ord I C) (c : Plan I C)

variable {I C : Type}

/-- `Operator::schema()`. -/
def schema : Plan I C → List I
  | .scan S _ => S
  | .filter S _ _ => S
  | .join S _ _ _ _ => S
  | .proj items _ => items.map Prod.fst
  | .proj0 items => items.map Prod.fst
  | .limit _ _ c => schema c
  | .group keys _ aggs _ _ => keys.map Prod.fst ++ aggs.map Prod.fst
  | .agg aggs _ => aggs.map Prod.fst
  | .sort S _ _ => S

/-! ### Operations on schemas -/

section Schema
variable [DecidableEq I]

/-- `Schema::has`, `Schema::find`, include/mutable/catalog/Schema.hpp:112-126: the lookup of an identifier with two entries
throws `invalid_argument` (`none`). -/
def has? (S : List I) (i : I) : Option Bool := if 2 ≤ S.count i then none else some (decide (i ∈ S))

/-- `Schema::operator|=`, Schema.hpp:195-203. -/
def union? (A : List I) : List I → Option (List I)
  | [] => some A
  | e :: B => do
    let h ← has? A e
    union? (if h then A else A ++ [e]) B

/-- `operator|=` for a sequence of schemas. -/
def unionAll? (A : List I) : List (List I) → Option (List I)
  | [] => some A
  | B :: Bs => do
    let A ← union? A B
    unionAll? A Bs

/-- `operator&`, Schema.hpp:254-268: the entries of the left schema that occur in the right one, in the order of the left
one. -/
def inter? : List I → List I → Option (List I)
  | [], _ => some []
  | e :: A, B => do
    let h ← has? B e
    let r ← inter? A B
    some (if h then e :: r else r)

/-- `M_insist(required == (required & op.schema()), "required must be subset of operator schema")`. -/
def insist? (req S : List I) : Option Unit := do
  let x ← inter? req S
  if req.all (fun i => decide (i ∈ x)) then some () else none

/-- The lookups of `add_constraints`, Operator.cpp:345-362 (constraints are not modelled, but lookups may throw). -/
def lookups? (S T : List I) : Option Unit :=
  match S with
  | [] => some ()
  | e :: S => do
    let _ ← has? T e
    lookups? S T

/-- The items with a required identifier. -/
def keep? {β : Type} (top : Bool) (req : List I) : List (I × β) → Option (List (I × β))
  | [] => some []
  | x :: xs => do
    let h ← if top then some true else has? req x.1                -- `is_top_of_plan_ or required.has(e.id)`
    let r ← keep? top req xs
    some (if h then x :: r else r)

/-- `CNF::get_required` of a join predicate.  (The sides of an equation are listed left child first, in the code as
written.) -/
def JPred.req? : JPred I C → Option (List I)
  | .theta p => some p.req
  | .equi keys _ => unionAll? [] (keys.flatMap fun k => [k.1.req, k.2.req])

/-- `SchemaMinimizer`, Operator.cpp:365-560: `req` is the member `required`, `top` is `is_top_of_plan_`.  The result is the
plan after minimization; `none` if an exception is thrown or an assertion is violated. -/
def mini? (top : Bool) (req : List I) : Plan I C → Option (Plan I C)
  | .scan S rows =>                                                -- :365-372
    if top then some (.scan S rows)
    else do
      let q ← inter? req S
      some (.scan q rows)
  | .filter S p c =>                                               -- :392-405
    if top then do
      let c ← mini? false S c
      lookups? S (schema c)
      some (.filter S p c)
    else do
      insist? req S
      let q ← union? req p.req
      let c ← mini? false q c
      lookups? req (schema c)
      some (.filter req p c)
  | .join S p enum l r => do                                       -- :412-428
    let preq ← p.req?
    let below ← if top then some S else union? req preq
    let S ← if top then some S else (insist? req S).map fun _ => req
    let ql ← inter? below (schema l)
    let l ← mini? false ql l
    lookups? S (schema l)
    let qr ← inter? below (schema r)
    let r ← mini? false qr r
    lookups? S (schema r)
    some (.join S p enum l r)
  | .proj items c => do                                            -- :430-458
    let items ← keep? top req items
    let q ← unionAll? [] (items.map fun x => x.2.req)
    let c ← mini? false q c
    lookups? (items.map Prod.fst) (schema c)
    some (.proj items c)
  | .proj0 items => do
    let items ← keep? top req items
    some (.proj0 items)
  | .limit off lim c => do                                         -- :460-464
    let c ← mini? top req c
    some (.limit off lim c)
  | .group keys eqk aggs enum c => do                              -- :466-507
    let aggs ← keep? top req aggs
    let q ← unionAll? [] (keys.map (fun x => x.2.req) ++ aggs.map fun x => x.2.req)
    let c ← mini? false q c
    lookups? (keys.map Prod.fst) (schema c)
    some (.group keys eqk aggs enum c)
  | .agg aggs c => do                                              -- :509-543
    if aggs.isEmpty then none else some ()                         -- `M_insist(not op.aggregates().empty())`, :511
    let aggs ← keep? top req aggs
    let q ← unionAll? [] (aggs.map fun x => x.2.req)
    let c ← mini? false q c
    some (.agg aggs c)
  | .sort S o c =>                                                 -- :545-560
    if top then do
      let c ← mini? false S c
      lookups? S (schema c)
      some (.sort S o c)
    else do
      insist? req S
      let q ← union? req o.req
      let c ← mini? false q c
      lookups? req (schema c)
      some (.sort req o c)

/-- `Operator::minimize_schema`, Operator.cpp:562-566. -/
def minimize (p : Plan I C) : Option (Plan I C) := mini? true [] p

end Schema

/-! ### Grouping -/

section Groups
variable {T : Type}

/-- Adding a row to its group, Interpreter.cpp:1286-1302 (the first group with an equal key). -/
def addGroup (eqk : List C → List C → Bool) (k : List C) (t : T) : List (List C × List T) → List (List C × List T)
  | [] => [(k, [t])]
  | g :: gs => if eqk g.1 k then (g.1, g.2 ++ [t]) :: gs else g :: addGroup eqk k t gs

def groupBy (eqk : List C → List C → Bool) (key : T → List C) (ts : List T) : List (List C × List T) :=
  ts.foldl (fun gs t => addGroup eqk (key t) t gs) []

end Groups

/-- The elements at the given positions. -/
def pick {α : Type} (ix : List Nat) (l : List α) : List α := ix.filterMap fun i => l[i]?

/-- The pairs at the given positions that match. -/
def pickPairs {α β γ : Type} (f : α → β → Option γ) (ix : List (Nat × Nat)) (l : List α) (r : List β) : List γ :=
  ix.filterMap fun ij => match l[ij.1]?, r[ij.2]? with
    | some a, some b => f a b
    | _, _ => none

/-! ### The interpreter -/

section Positional
variable [DecidableEq I]

/-- `Ld_Tup` of the position of identifier `i` in the schema `L` (StackMachine.cpp:83-91).  Beyond the end of the tuple, or
if there is no such entry, the value is arbitrary. -/
def look (junk : C) (L : List I) (t : List C) (i : I) : C := t.getD (L.idxOf i) junk

/-- The rows produced by an operator of the interpreter: tuples, and the schema of the pipeline they are pushed in
(`Pipeline::schema()`), which tells the position of attributes. -/
structure Out (I C : Type) where
  layout : List I
  rows : List (List C)

/-- `Tuple::clone(S)`: the first entries, as many as `S` has (src/IR/Tuple.cpp:124-136); `cl` is what happens to an entry. -/
def cloneAs (cl : C → C) (n : Nat) (t : List C) : List C := (t.take n).map cl

/-- The joined tuple, Interpreter.cpp:613-623: the attributes of the left and then those of the right tuple that occur in
the join's schema are stored at their position there. -/
def loadAttrs (junk : C) (S Ll Lr : List I) (t u : List C) : List C :=
  S.map fun i => if i ∈ Lr then look junk Lr u i else if i ∈ Ll then look junk Ll t i else junk

/-- Does the pair match?  Nested-loops join, Interpreter.cpp:1086-1093: the predicate is compiled against the two pipelines'
schemas, and evaluated on the buffered copy `t'` of the left tuple.  Hash join, :1001-1009, :1033-1041: the build key is
computed from the left tuple `t` and then cloned. -/
def pairMatches (cl : C → C) (junk : C) (p : JPred I C) (Ll Lr : List I) (t t' u : List C) : Bool :=
  match p with
  | .theta p => p.ev fun i => if i ∈ Ll then look junk Ll t' i else look junk Lr u i
  | .equi keys eqk => eqk (keys.map fun k => cl (k.1.ev (look junk Ll t))) (keys.map fun k => k.2.ev (look junk Lr u))

/-- Execution by the interpreter, src/backend/Interpreter.cpp.  Filters, limits and sorts pass the tuples of their child on,
in the layout of the child; expressions of filters, projections, sorts and joins are compiled against that layout; grouping
and aggregation compile theirs against the *declared* schema of the child (:735-800), and joins clone as many entries of a
buffered tuple as the declared schema of the child has (:1036, :1129). -/
def run (cl : C → C) (junk : C) : Plan I C → Out I C
  | .scan S rows => ⟨S, rows.map fun r => S.map r⟩                               -- :885-931, :1433-1437
  | .filter _ p c =>                                                             -- :955-968
    let o := run cl junk c
    ⟨o.layout, o.rows.filter fun t => p.ev (look junk o.layout t)⟩
  | .join S p enum l r =>                                                        -- :994-1139
    let ol := run cl junk l
    let or := run cl junk r
    ⟨S, pickPairs (fun t u =>
        let t' := cloneAs cl (schema l).length t
        if pairMatches cl junk p ol.layout or.layout t t' u then some (loadAttrs junk S ol.layout or.layout t' u)
        else none)
      (enum ol.rows.length or.rows.length) ol.rows or.rows⟩
  | .proj items c =>                                                             -- :584-604, :1141-1158
    let o := run cl junk c
    ⟨items.map Prod.fst, o.rows.map fun t => items.map fun x => x.2.ev (look junk o.layout t)⟩
  | .proj0 items => ⟨items.map Prod.fst, [items.map fun x => x.2.ev fun _ => junk]⟩ -- :1485-1489
  | .limit off lim c =>                                                          -- :1160-1175
    let o := run cl junk c
    ⟨o.layout, (o.rows.drop off).take lim⟩
  | .group keys eqk aggs enum c =>                                               -- :730-769, :1177-1303, :1501-1528
    let o := run cl junk c
    let D := schema c
    let gs := groupBy eqk (fun t => keys.map fun x => x.2.ev (look junk D t)) o.rows
    ⟨keys.map Prod.fst ++ aggs.map Prod.fst,
      (pick (enum gs.length) gs).map fun g => g.1 ++ aggs.map fun x => x.2.ev (g.2.map fun t => look junk D t)⟩
  | .agg aggs c =>                                                               -- :771-803, :1305-1395
    let o := run cl junk c
    let D := schema c
    ⟨aggs.map Prod.fst, [aggs.map fun x => x.2.ev (o.rows.map fun t => look junk D t)]⟩
  | .sort _ o c =>                                                               -- :1397-1406, :1585-1656
    let oc := run cl junk c
    let buf := oc.rows.map (cloneAs cl oc.layout.length)
    ⟨oc.layout, pick (o.perm (buf.map fun t => look junk oc.layout t)) buf⟩

end Positional

/-! ### The compiled back end -/

section Named
variable [DecidableEq I]

/-- What is left of a row after it was materialized in a buffer with schema `S`. -/
def restrict (junk : C) (S : List I) (r : I → C) : I → C := fun i => if i ∈ S then r i else junk

/-- A row with the given entries. -/
def mkRow (junk : C) (ids : List I) (vals : List C) : I → C := fun i => look junk ids vals i

/-- Does the pair match, given the rows by name? -/
def namedMatches (cl : C → C) (p : JPred I C) (l : I → C) (both r : I → C) : Bool :=
  match p with
  | .theta p => p.ev both
  | .equi keys eqk => eqk (keys.map fun k => cl (k.1.ev l)) (keys.map fun k => k.2.ev r)

/-- Execution by compiled code: attributes are addressed by identifier in the code generator's environment; pipeline breakers
materialize rows in buffers with the declared schema of the child (WasmOperator.cpp:4754 sort, :4868 nested-loops join,
:5008-5010 hash join, :5312-5313 sort-merge join; both inputs of every join are restricted here), and a sort resumes with its
own schema (:4755). -/
def runW (junk : C) : Plan I C → List (I → C)
  | .scan S rows => rows.map (restrict junk S)
  | .filter _ p c => (runW junk c).filter p.ev
  | .join _ p enum l r =>
    let ls := (runW junk l).map (restrict junk (schema l))
    let rs := (runW junk r).map (restrict junk (schema r))
    pickPairs (fun a b =>
      let both := fun i => if i ∈ schema l then a i else b i
      if namedMatches id p a both b then some both else none) (enum ls.length rs.length) ls rs
  | .proj items c => (runW junk c).map fun r => mkRow junk (items.map Prod.fst) (items.map fun x => x.2.ev r)
  | .proj0 items => [mkRow junk (items.map Prod.fst) (items.map fun x => x.2.ev fun _ => junk)]
  | .limit off lim c => ((runW junk c).drop off).take lim
  | .group keys eqk aggs enum c =>
    let gs := groupBy eqk (fun r => keys.map fun x => x.2.ev r) (runW junk c)
    (pick (enum gs.length) gs).map fun g =>
      mkRow junk (keys.map Prod.fst ++ aggs.map Prod.fst) (g.1 ++ aggs.map fun x => x.2.ev g.2)
  | .agg aggs c => [mkRow junk (aggs.map Prod.fst) (aggs.map fun x => x.2.ev (runW junk c))]
  | .sort S o c =>
    let buf := (runW junk c).map (restrict junk (schema c))
    (pick (o.perm buf) buf).map (restrict junk S)

end Named

end Mutable.Minimize
