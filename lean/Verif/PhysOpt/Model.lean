/-!
# The physical optimizer (tree covering by dynamic programming)

Model of `PhysicalOptimizerImpl` and of the pattern matcher in include/mutable/IR/PhysicalOptimizer.hpp, with the
table of src/IR/PhysicalPlanTable.hpp.

Parameters of the model (all of them arbitrary in the theorems):
* `L`  – the label of a logical operator (its dynamic class and its contents),
* `K`  – the type of condition sets (`ConditionSet`, include/mutable/IR/Condition.hpp:262-320), with `implied` for
         `ConditionSet::implied_by` and decidable equality for `ConditionSet::operator==`,
* `C`  – the type of costs (`double` in the code), with its `+` and its `<`.
-/

namespace Mutable.PhysOpt

variable {L K C : Type}

/-- A logical plan: `Operator` / `Consumer::children_`, include/mutable/IR/Operator.hpp:50-180.  A plan is a tree
(children are owned by their consumer). -/
inductive LOp (L : Type) where
  | node (lbl : L) (children : List (LOp L))

/-- A logical plan after `assign_post_order_ids`: every operator has its `id_` (Operator.hpp:46, 80-89). -/
inductive IOp (L : Type) where
  | node (id : Nat) (lbl : L) (children : List (IOp L))

/-- `Operator::id()`, Operator.hpp:85-88 -/
def IOp.id : IOp L → Nat
  | .node i _ _ => i

def IOp.lbl : IOp L → L
  | .node _ l _ => l

/-- `Consumer::children()`, Operator.hpp:176-181 -/
def IOp.children : IOp L → List (IOp L)
  | .node _ _ cs => cs

mutual
/-- `assign_post_order_ids(start_id)`, Operator.hpp:81 (leaf producer) and Operator.hpp:186-193 (consumer). -/
def assign (start : Nat) : LOp L → IOp L
  | .node l cs =>
    let r := assignList start cs
    .node r.2 l r.1
/-- the loop of Operator.hpp:188-191; returns the numbered children and the last `next_start_id` -/
def assignList (start : Nat) : List (LOp L) → List (IOp L) × Nat
  | [] => ([], start)
  | c :: cs =>
    let c' := assign start c
    let r := assignList (c'.id + 1) cs
    (c' :: r.1, r.2)
end

/-- A pattern, PhysicalOptimizer.hpp:43-60 and its validator :75-97: `Wildcard`, an operator class that is a
`Consumer` (all of its children are children of the match), an operator class that is a leaf producer (e.g.
`ScanOperator`), and `pattern_t<Op, Child>` / `pattern_t<Op, Child0, Child1>`.  `is` is the dynamic type test
`cast<const Op>`. -/
inductive Pat (L : Type) where
  | wild
  | cons (is : L → Bool)
  | leaf (is : L → Bool)
  | one (is : L → Bool) (c : Pat L)
  | two (is : L → Bool) (c0 c1 : Pat L)

/-- `std::tuple_size_v<get_nodes_t<Pattern>>`, PhysicalOptimizer.hpp:108-122 -/
def Pat.size : Pat L → Nat
  | .wild => 1
  | .cons _ => 1
  | .leaf _ => 1
  | .one _ c => 1 + c.size
  | .two _ c0 c1 => 1 + c0.size + c1.size

/-- A physical operator (`PhysicalOperator<Actual, Pattern>`, PhysicalOptimizer.hpp:407-489).  `pre` is
`pre_condition(child_idx, partial_inner_nodes)`; the partial nodes are the tuple with `nullptr` as `none`.  `cost`,
`post`, `adapt`, `adapts` are `cost(M)`, `post_condition(M)`, `adapt_post_condition(M, child)` and
`adapt_post_conditions(M, children)`; of the match `M` they see the matched logical operators and the matched root
(`get_matched_root()`) of every child match – which is all that the operators in src/backend/WasmOperator.cpp and
src/backend/InterpreterOperator.hpp look at. -/
structure PhysOp (L K C : Type) where
  pat : Pat L
  pre : Nat → List (Option (IOp L)) → K
  cost : List (IOp L) → List (IOp L) → C
  post : List (IOp L) → List (IOp L) → K
  adapt : List (IOp L) → List (IOp L) → K → K
  adapts : List (IOp L) → List (IOp L) → List K → K

/-- A match (`MatchBase` / `Match<PhysOp>`, PhysicalOptimizer.hpp:199-238): the number of the physical operator in
`pattern_matchers_`, the matched logical operators in pre-order of the pattern (with the operators matched by
wildcards), the matches of the children, and `cost_`. -/
inductive Match (L C : Type) where
  | mk (op : Nat) (nodes : List (IOp L)) (children : List (Match L C)) (cost : C)

def Match.nodes : Match L C → List (IOp L)
  | .mk _ ns _ _ => ns

def Match.opIdx : Match L C → Nat
  | .mk o _ _ _ => o

def Match.children : Match L C → List (Match L C)
  | .mk _ _ cs _ => cs

/-- One pair of condition and entry (`condition_entry_t`, include/mutable/IR/PhysicalPlanTable.hpp:18-33, with
`ConcretePhysicalPlanTableEntry`, src/IR/PhysicalPlanTable.hpp:88-145).  Simplified: the references to the children
entries (`children_`, only used by callers that traverse the table) are left out, the child matches are in the match. -/
structure Entry (L K C : Type) where
  cond : K
  mtch : Match L C
  cost : C

/-- `ConcretePhysicalPlanTable`, src/IR/PhysicalPlanTable.hpp:189-224: for every operator id the list of pairs. -/
abbrev Table (L K C : Type) := List (List (Entry L K C))

/-- What the model needs of conditions and costs, and the class test of `Wildcard = Producer`. -/
structure Sig (L K C : Type) where
  isProd : L → Bool
  implied : K → K → Bool
  emptyK : K
  add : C → C → C
  lt : C → C → Bool
  inf : C

/-- The mutable state of the matcher: `current_nodes` (passed by reference, PhysicalOptimizer.hpp:508) and the plan
table of the optimizer. -/
structure St (L K C : Type) where
  nodes : List (Option (IOp L))
  table : Table L K C

variable [DecidableEq K]

/-- `child->entry` → `get_matched_root()`: the first matched node of the child match -/
def Entry.root (e : Entry L K C) : List (IOp L) := e.mtch.nodes.take 1

/-- the roots of the matches of the children -/
def rootsOf (es : List (Entry L K C)) : List (IOp L) := es.flatMap Entry.root

/-- The post-condition computed by `handle_match`, PhysicalOptimizer.hpp:342-356: `post_condition(M)`, and if that is
empty the adapted conditions of the children. -/
def postCond (S : Sig L K C) (p : PhysOp L K C) (nodes : List (IOp L)) (children : List (Entry L K C)) : K :=
  let roots := rootsOf children
  if p.post nodes roots = S.emptyK then
    match children with
    | [] => p.adapt nodes roots S.emptyK
    | [c] => p.adapt nodes roots c.cond
    | cs => p.adapts nodes roots (cs.map (·.cond))
  else p.post nodes roots

/-- PhysicalOptimizer.hpp:358-371 together with `Condition2PPTEntryMap::insert` (src/IR/PhysicalPlanTable.hpp:173-175):
the first entry with an equal condition is replaced iff the new cost is strictly smaller; without such an entry the
new one is appended. -/
def insertEntry (S : Sig L K C) (e : Entry L K C) : List (Entry L K C) → List (Entry L K C)
  | [] => [e]
  | x :: xs =>
    if x.cond = e.cond then (if S.lt e.cost x.cost then e :: xs else x :: xs)
    else x :: insertEntry S e xs

/-- `handle_match`, PhysicalOptimizer.hpp:333-372 (with `instantiate`, :476-489). -/
def handleMatch (S : Sig L K C) (oi : Nat) (p : PhysOp L K C) (nodes : List (IOp L))
    (children : List (Entry L K C)) (t : Table L K C) : Table L K C :=
  let cost := children.foldl (fun c ch => S.add c ch.cost) (p.cost nodes (rootsOf children))
  let e : Entry L K C :=
    { cond := postCond S p nodes children, mtch := .mk oi nodes (children.map (·.mtch)) cost, cost := cost }
  match nodes with
  | [] => t
  | root :: _ => t.modify root.id (insertEntry S e)

/-- The entries of the operator `c` that fulfil the pre-condition `k`: PhysicalOptimizer.hpp:528-536 and :555-563. -/
def candidates (S : Sig L K C) (t : Table L K C) (c : IOp L) (k : K) : List (Entry L K C) :=
  (t.getD c.id []).filter (fun e => S.implied k e.cond)

/-- Cartesian product of the children lists found so far with new candidates, PhysicalOptimizer.hpp:540-547 and
:567-573. -/
def extend (cl : List (List (Entry L K C))) (new : List (Entry L K C)) : List (List (Entry L K C)) :=
  cl.flatMap (fun cs => new.map (fun n => cs ++ [n]))

/-- The loop over the children of a consumer that is a leaf of the pattern, PhysicalOptimizer.hpp:549-575; `base` is
`current_children_list.front().size()`, `i` the loop variable, `ncl` is `new_children_list`.  `none` is the early
`return`. -/
def consLoop (S : Sig L K C) (p : PhysOp L K C) (st : St L K C) (base : Nat) :
    Nat → List (IOp L) → List (List (Entry L K C)) → Option (List (List (Entry L K C)))
  | _, [], ncl => some ncl
  | i, c :: cs, ncl =>
    if st.table.length ≤ c.id then none else
    match candidates S st.table c (p.pre (base + i) st.nodes) with
    | [] => none
    | n :: ns => consLoop S p st base (i + 1) cs (extend ncl (n :: ns))

/-- PhysicalOptimizer.hpp:577-583: append every list of new children to every list found so far. -/
def combine (cl ncl : List (List (Entry L K C))) : List (List (Entry L K C)) :=
  cl.flatMap (fun cs => ncl.map (fun ns => cs ++ ns))

/-- The three leaf cases of `pattern_matcher_recursive::matches`, PhysicalOptimizer.hpp:525-591; `none` is the early
`return`. -/
def leafStep (S : Sig L K C) (p : PhysOp L K C) (st : St L K C) (cl : List (List (Entry L K C))) (op : IOp L) :
    Pat L → Option (List (List (Entry L K C)))
  | .wild =>
    if st.table.length ≤ op.id then none else
    match candidates S st.table op (p.pre (cl.headD []).length st.nodes) with
    | [] => none
    | n :: ns => some (extend cl (n :: ns))
  | .cons _ =>
    (consLoop S p st (cl.headD []).length 0 op.children [[]]).map (combine cl)
  | .leaf _ =>
    if S.implied (p.pre (cl.headD []).length st.nodes) S.emptyK then some cl else none
  | _ => none

/-- `std::get<Idx>(current_nodes) = op` -/
def St.setNode (st : St L K C) (i : Nat) (op : IOp L) : St L K C :=
  { st with nodes := st.nodes.set i (some op) }

/-- Continue with the queue, or stop (PhysicalOptimizer.hpp:593-609). -/
def proceed (r : Option (List (List (Entry L K C))))
    (k : List (List (Entry L K C)) → St L K C → St L K C) (st : St L K C) : St L K C :=
  match r with
  | none => st
  | some cl => k cl st

/-- `pattern_matcher_recursive<PhysOp, Idx, Pattern, PatternQueue...>::matches`, PhysicalOptimizer.hpp:494-657.  The
pattern queue with its operator queue is the continuation `k` (what is left of the queue is matched after this
pattern).  `current_children_list` is passed by value, `current_nodes` by reference: the second permutation of a
binary pattern starts from the nodes that the first one has left behind. -/
def matchP (S : Sig L K C) (p : PhysOp L K C) : Pat L → Nat → List (List (Entry L K C)) → IOp L →
    (List (List (Entry L K C)) → St L K C → St L K C) → St L K C → St L K C
  | .wild, idx, cl, op, k, st =>
    if S.isProd op.lbl then
      proceed (leafStep S p (st.setNode idx op) cl op .wild) k (st.setNode idx op)
    else st
  | .cons is, idx, cl, op, k, st =>
    if is op.lbl then
      proceed (leafStep S p (st.setNode idx op) cl op (.cons is)) k (st.setNode idx op)
    else st
  | .leaf is, idx, cl, op, k, st =>
    if is op.lbl then
      proceed (leafStep S p (st.setNode idx op) cl op (.leaf is)) k (st.setNode idx op)
    else st
  | .one is c, idx, cl, op, k, st =>
    if is op.lbl then
      match op.children with
      | [a] => matchP S p c (idx + 1) cl a k (st.setNode idx op)
      | _ => st
    else st
  | .two is c0 c1, idx, cl, op, k, st =>
    if is op.lbl then
      match op.children with
      | [a, b] =>
        matchP S p c0 (idx + 1) cl b (fun cl' => matchP S p c1 (idx + 1 + c0.size) cl' a k)
          (matchP S p c0 (idx + 1) cl a (fun cl' => matchP S p c1 (idx + 1 + c0.size) cl' b k) (st.setNode idx op))
      | _ => st
    else st

/-- The callback for every found list of children, PhysicalOptimizer.hpp:593-603. -/
def finish (S : Sig L K C) (oi : Nat) (p : PhysOp L K C) (cl : List (List (Entry L K C))) (st : St L K C) : St L K C :=
  { st with table := cl.foldl (fun t cs => handleMatch S oi p (st.nodes.filterMap (fun o => o)) cs t) st.table }

/-- `pattern_matcher_impl<PhysOp, PhysOpt>::matches`, PhysicalOptimizer.hpp:659-671 -/
def matchOp (S : Sig L K C) (oi : Nat) (p : PhysOp L K C) (op : IOp L) (t : Table L K C) : Table L K C :=
  (matchP S p p.pat 0 [[]] op (finish S oi p) { nodes := List.replicate p.pat.size none, table := t }).table

/-- the body of the visitor, PhysicalOptimizer.hpp:376-381: all matchers in the order of registration -/
def visitOne (S : Sig L K C) (op : IOp L) : Nat → List (PhysOp L K C) → Table L K C → Table L K C
  | _, [], t => t
  | i, p :: ps, t => visitOne S op (i + 1) ps (matchOp S i p op t)

mutual
/-- `ConstPostOrderOperatorVisitor`, Operator.hpp:594-606 -/
def visit (S : Sig L K C) (ops : List (PhysOp L K C)) : IOp L → Table L K C → Table L K C
  | .node i l cs, t => visitOne S (.node i l cs) 0 ops (visitList S ops cs t)
def visitList (S : Sig L K C) (ops : List (PhysOp L K C)) : List (IOp L) → Table L K C → Table L K C
  | [], t => t
  | c :: cs, t => visitList S ops cs (visit S ops c t)
end

/-- `cover(plan)`, PhysicalOptimizer.hpp:302-307 -/
def cover (S : Sig L K C) (ops : List (PhysOp L K C)) (plan : LOp L) : Table L K C :=
  let t := assign 0 plan
  visit S ops t (List.replicate (t.id + 1) [])

/-- `has_plan()`, PhysicalOptimizer.hpp:309 -/
def hasPlan (t : Table L K C) : Bool := !(t.getLastD []).isEmpty

/-- the loop of `get_plan_entry()`, PhysicalOptimizer.hpp:314-322; the result is `none` if `it_best` was never set -/
def bestLoop (S : Sig L K C) : List (Entry L K C) → Option (Entry L K C) → C → Option (Entry L K C)
  | [], best, _ => best
  | e :: es, best, m => if S.lt e.cost m then bestLoop S es (some e) e.cost else bestLoop S es best m

/-- `get_plan_entry()` / `extract_plan()`, PhysicalOptimizer.hpp:311-328.  Simplified: the ownership of the match
(`exclusive_shared_to_unique`) is not modelled. -/
def extractPlan (S : Sig L K C) (t : Table L K C) : Option (Entry L K C) :=
  bestLoop S (t.getLastD []) none S.inf

/-! ## Two instances -/

/-- `interpreter::CLASS` for the class test `is`, src/backend/InterpreterOperator.hpp:31-40: the pattern is the
class itself (a leaf producer for `ScanOperator`, a consumer otherwise), there is no pre-condition, the cost is `1.0`
and all conditions are empty (`Unit`). -/
def interpOp (isLeaf : Bool) (is : L → Bool) (one : C) : PhysOp L Unit C where
  pat := if isLeaf then .leaf is else .cons is
  pre := fun _ _ => ()
  cost := fun _ _ => one
  post := fun _ _ => ()
  adapt := fun _ _ _ => ()
  adapts := fun _ _ _ => ()

/-- The classes of logical operators, `M_OPERATOR_LIST`, include/mutable/IR/Operator.hpp:560-572 -/
inductive Kind where
  | scan | callback | print | noop | filter | disjunctive | join | projection | limit | grouping | aggregation | sorting
deriving DecidableEq, Repr

/-- the class test `cast<const Op>`: a `DisjunctiveFilterOperator` is also a `FilterOperator` (Operator.hpp:301) -/
def Kind.isA (want have' : Kind) : Bool :=
  want = have' ∨ (want = .filter ∧ have' = .disjunctive)

/-- `is<Producer>`: everything but the three sinks (Operator.hpp:201, 222, 237) -/
def Kind.isProducer : Kind → Bool
  | .callback | .print | .noop => false
  | _ => true

/-- `register_interpreter_operators`, src/backend/InterpreterOperator.cpp:8-13 -/
def interpOps (kind : L → Kind) (one : C) : List (PhysOp L Unit C) :=
  [Kind.scan, .callback, .print, .noop, .filter, .disjunctive, .join, .projection, .limit, .grouping, .aggregation,
    .sorting].map (fun k => interpOp (decide (k = .scan)) (fun l => Kind.isA k (kind l)) one)

/-- `OrderingStrategy` of `SimpleHashJoin`, src/backend/WasmOperator.hpp (option `--hash-join-ordering-strategy`) -/
inductive JoinOrdering where
  | buildOnLeft | buildOnRight
deriving DecidableEq

/-- `SimpleHashJoin::cost`, src/backend/WasmOperator.cpp:4989-4998, for the two fixed strategies, in tenths.  The
matched nodes are `join`, `build`, `probe` (PhysicalOptimizer.hpp:476-489 with the constructor of
`Match<SimpleHashJoin>`), the roots those of `M.children`. -/
def hashJoinCost (s : JoinOrdering) (uniqueBuild : Bool) (nodes roots : List (IOp L)) : Nat :=
  match s with
  | .buildOnLeft =>
    (if (nodes[1]?).map IOp.id = (roots[0]?).map IOp.id then 10 else 20) + (if uniqueBuild then 0 else 1)
  | .buildOnRight =>
    if (nodes[1]?).map IOp.id = (roots[1]?).map IOp.id then 10 else 20 + (if uniqueBuild then 0 else 1)

end Mutable.PhysOpt
