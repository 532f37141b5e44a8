import Mathlib.Data.Nat.Notation

/-!
# Semantic analysis of queries

`Sema` (src/parse/Sema.cpp, Sema.hpp): resolution of names, types of expressions, the checks of the clauses of a SELECT
statement.

Simplified: a nested query is represented by its own analysis, a function of the stack of contexts (`QInfo`); so queries
can be nested to any depth, and what is proved for all such functions holds for all nested queries.  Positions, texts of
diagnostics and warnings are left out, `err` tells whether an error was reported, `crash` whether the code runs into a
null pointer, `M_unreachable` or a failing cast.  Labels of columns without a name are abstract (their text is compared
only for equality).  Values `V` are abstract.
-/

namespace Mutable.Sema

abbrev Name := Nat

/-- The name of a result, a grouping key or a column: an identifier, or the text of an expression (Sema.cpp:1155-1157,
:1272-1274), or `$const` with a number (:1154). -/
inductive Label where
  | id (n : Name)
  | text (t : Nat)
  | const (n : Nat)
deriving DecidableEq, Repr

/-- `Type::category_t`, Type.hpp:47 -/
inductive Cat where
  | scalar | vector
deriving DecidableEq, Repr

/-- `std::max` of categories -/
def Cat.max : Cat → Cat → Cat
  | .scalar, .scalar => .scalar
  | _, _ => .vector

/-- `Numeric::kind_t`, Type.hpp:402 -/
inductive NumKind where
  | int | float | decimal
deriving DecidableEq, Repr

/-- Types, Type.hpp; bitmaps and function types do not occur as types of expressions. -/
inductive Ty where
  | error
  | none
  | bool (c : Cat)
  | char (c : Cat) (len : Nat) (varying : Bool)
  | date (c : Cat)
  | datetime (c : Cat)
  | num (c : Cat) (k : NumKind) (prec scale : Nat)
deriving DecidableEq, Repr

/-- `PrimitiveType::category`, Type.hpp:160; `none` if the type is not primitive -/
def Ty.cat : Ty → Option Cat
  | .error => Option.none
  | .none => Option.none
  | .bool c => some c
  | .char c _ _ => some c
  | .date c => some c
  | .datetime c => some c
  | .num c _ _ _ => some c

/-- `as_scalar`, `as_vectorial`, Type.hpp:173-176 -/
def Ty.withCat (d : Cat) : Ty → Ty
  | .error => .error
  | .none => .none
  | .bool _ => .bool d
  | .char _ l v => .char d l v
  | .date _ => .date d
  | .datetime _ => .datetime d
  | .num _ k p s => .num d k p s

def Ty.isPrim (t : Ty) : Bool := t.cat.isSome

def Ty.isVec (t : Ty) : Bool := decide (t.cat = some .vector)

def Ty.isScalar (t : Ty) : Bool := decide (t.cat = some .scalar)

/-! ## Syntax -/

/-- `Function::fnid_t`, tables/Functions.tbl -/
inductive Fn where
  | min | max | sum | avg | count | isnull | udf
deriving DecidableEq, Repr

/-- `Function::is_aggregate`, Schema.hpp:852 -/
def Fn.isAgg : Fn → Bool
  | .min | .max | .sum | .avg | .count => true
  | .isnull | .udf => false

/-- What a call is applied to: an identifier (with the function of that name, if it exists), a designator with table name,
or another expression (Parser.cpp:1027 accepts any). -/
inductive Callee where
  | ident (f : Option Fn)
  | qualified
  | other
deriving DecidableEq, Repr

inductive UnOp where
  | not | plus | minus | tilde
deriving DecidableEq, Repr

inductive BinOp where
  | add | sub | mul | div | mod
  | concat
  | lt | le | gt | ge
  | eq | ne
  | like
  | and | or
deriving DecidableEq, Repr

/-- Kinds of constants, by token; `ok` of a date tells whether year, month, day (and time) are valid (Sema.cpp:407-476),
`small` of an integer whether it fits into 32 bits (:487-491). -/
inductive ConstKind where
  | null
  | str (len : Nat)
  | date (ok : Bool)
  | datetime (ok : Bool)
  | bool
  | int (small : Bool)
  | float
deriving DecidableEq, Repr

/-- a row of the sources of one query: the value of every column -/
abbrev Row (V : Type) := Name → Label → V

/-- Expressions after the analysis: designators are replaced by what they refer to. -/
inductive RExpr (V : Type) where
  /-- a column of a source of the `depth`-th enclosing query; `con`: the column is the constant result of a nested query -/
  | attr (depth : Nat) (src : Name) (label : Label) (con : Bool)
  /-- a designator that refers to a result or to a grouping key (`target_` is an expression of the same query) -/
  | ref (e : RExpr V)
  | const (v : V)
  | agg (f : Fn) (arg : RExpr V)
  | countStar
  | isnull (arg : RExpr V)
  | un (op : UnOp) (e : RExpr V)
  | bin (op : BinOp) (l r : RExpr V)
  /-- a nested query: its value is a function of the rows of the enclosing queries, innermost first -/
  | query (con : Bool) (den : List (Row V) → V)
  | bad

/-- `Expr::is_constant`, AST.hpp:119, :165-169, :216, :265, :332, :359, AST.cpp:259-268 -/
def RExpr.isConst {V} : RExpr V → Bool
  | .attr _ _ _ con => con
  | .ref e => e.isConst
  | .const _ => true
  | .agg _ _ => false
  | .countStar => false
  | .isnull _ => false
  | .un _ e => e.isConst
  | .bin _ l r => l.isConst && r.isConst
  | .query con _ => con
  | .bad => false

/-- `Expr::contains_free_variables`, AST.hpp:121, :179, :218, :291-297, :334, :373, :408 -/
def RExpr.free {V} : RExpr V → Bool
  | .attr d _ _ _ => d != 0
  | .ref _ => false
  | .const _ => false
  | .agg _ e => e.free
  | .countStar => false
  | .isnull e => e.free
  | .un _ e => e.free
  | .bin _ l r => l.free || r.free
  | .query _ _ => false
  | .bad => false

/-- `is<FnApplicationExpr>` -/
def RExpr.isFn {V} : RExpr V → Bool
  | .agg _ _ => true
  | .countStar => true
  | .isnull _ => true
  | _ => false

/-! ## Contexts -/

/-- a column of a source -/
structure Col where
  label : Label
  ty : Ty
  con : Bool

/-- a source, `SemaContext::source_type` (Sema.hpp:62-65): a table or the named results of a nested query -/
structure Src where
  name : Name
  isTable : Bool
  cols : List Col

/-- `SemaContext::stage_t`, Sema.hpp:26-34 -/
inductive Stage where
  | from_ | where_ | groupBy | having | select | orderBy
deriving DecidableEq, Repr

def Stage.afterSelect : Stage → Bool
  | .orderBy => true
  | _ => false

def Stage.afterGroupBy : Stage → Bool
  | .having | .select | .orderBy => true
  | _ => false

/-- a result or a grouping key -/
structure Named (V : Type) where
  label : Label
  ty : Ty
  rex : RExpr V

/-- `SemaContext`, Sema.hpp:20-75.  `sources` are in the order in which the hash table enumerates them. -/
structure Ctx (V : Type) where
  stage : Stage
  needsGrouping : Bool
  sources : List Src
  results : List (Named V)
  keys : List (Named V)

/-- what the analysis of a nested query yields, see `toInfo` -/
structure QInfo (V : Type) where
  err : Bool
  crash : Bool
  results : List (Named V)
  hasFrom : Bool
  hasGroupBy : Bool
  den : List (Row V) → V

/-- Expressions, AST.hpp.  Simplified: a call with two arguments stands for calls with two or more. -/
inductive Expr (V : Type) where
  | des (tbl : Option Name) (attr : Label)
  | const (k : ConstKind) (v : V)
  | call0 (c : Callee)
  | call1 (c : Callee) (a : Expr V)
  | call2 (c : Callee) (a b : Expr V)
  | un (op : UnOp) (e : Expr V)
  | bin (op : BinOp) (l r : Expr V)
  | query (q : List (Ctx V) → QInfo V)

/-- the outcome of the analysis of an expression -/
structure Out (V : Type) where
  ty : Ty
  err : Bool
  crash : Bool
  rex : RExpr V

/-- an error was reported, the type is `Type::Get_Error()` -/
def Out.fail {V} (crash : Bool := false) : Out V := ⟨.error, true, crash, .bad⟩

def Out.crashed {V} : Out V := ⟨.error, true, true, .bad⟩

/-! ## Designators -/

/-- the outcome of looking for a column -/
inductive Found where
  | notFound
  | ambiguous
  | found (depth : Nat) (src : Name) (col : Col)

/-- `equal_range(attr_name)` or `tbl.at(attr_name)` -/
def colsOf (a : Label) (s : Src) : List Col := s.cols.filter fun c => decide (c.label = a)

/-- the search for the source, Sema.cpp:207-217 -/
def findSource {V} (t : Name) : List (Ctx V) → Nat → Option (Nat × Src)
  | [], _ => none
  | c :: cs, d =>
    match c.sources.find? (fun s => decide (s.name = t)) with
    | some s => some (d, s)
    | none => findSource t cs (d + 1)

/-- a designator with table name, Sema.cpp:200-255 -/
def findQualified {V} (ctxs : List (Ctx V)) (t : Name) (a : Label) : Found :=
  match findSource t ctxs 0 with
  | none => .notFound
  | some (d, s) =>
    match colsOf a s with
    | [] => .notFound
    | [c] => .found d s.name c
    | _ => .ambiguous

/-- the loop over the sources of a context, Sema.cpp:287-336; `none`: ambiguous -/
def scanSources (a : Label) : Option (Name × Col) → List Src → Option (Option (Name × Col))
  | target, [] => some target
  | target, s :: ss =>
    match colsOf a s with
    | [] => scanSources a target ss
    | [c] => if target.isSome then none else scanSources a (some (s.name, c)) ss
    | _ => none

/-- a designator without table name: the loop over the contexts, Sema.cpp:285-348 -/
def findUnqualified {V} (a : Label) : List (Ctx V) → Nat → Found
  | [], _ => .notFound
  | c :: cs, d =>
    match scanSources a none c.sources with
    | none => .ambiguous
    | some (some (s, col)) => .found d s col
    | some none => findUnqualified a cs (d + 1)

/-- A designator that refers to a column, Sema.cpp:196-400.  (The second lookup in the results, :260-277, never succeeds:
the first one, :158-172, has already been tried with the same name.)  The dereference of `pt` fails for columns that are
not of primitive type (:372-376); a context in the stage FROM between here and the query of the column is an error
(:379-399). -/
def analyzeColumn {V} (ctxs : List (Ctx V)) (tbl : Option Name) (a : Label) : Out V :=
  match (match tbl with
    | some t => findQualified ctxs t a
    | none => findUnqualified a ctxs 0) with
  | .notFound => .fail
  | .ambiguous => .fail
  | .found d s c =>
    if c.ty.isPrim then
      if (ctxs.take (d + 1)).any (fun x => decide (x.stage = .from_)) then .fail
      else ⟨c.ty.withCat .vector, false, false, .attr d s a c.con⟩
    else .crashed

/-- `Sema::operator()(Designator&)`, Sema.cpp:148-402: results (after SELECT), grouping keys (after GROUP BY), columns.  The
text of a designator with table name is no label. -/
def analyzeDes {V} (ctxs : List (Ctx V)) (tbl : Option Name) (a : Label) : Out V :=
  match ctxs with
  | [] => .crashed
  | cur :: _ =>
    match (if tbl.isNone && cur.stage.afterSelect then cur.results.filter (fun r => decide (r.label = a)) else []) with
    | [r] => ⟨r.ty, false, false, .ref r.rex⟩
    | _ :: _ :: _ => .fail
    | [] =>
      match (if tbl.isNone && cur.stage.afterGroupBy then cur.keys.filter (fun k => decide (k.label = a)) else []) with
      | [k] => ⟨k.ty.withCat .scalar, false, false, .ref k.rex⟩
      | _ :: _ :: _ => .fail
      | [] => analyzeColumn ctxs tbl a

/-! ## Types of expressions -/

/-- `Sema::operator()(Constant&)`, Sema.cpp:404-498 -/
def constTy : ConstKind → Ty
  | .null => .none
  | .str n => .char .scalar n false
  | .date true => .date .scalar
  | .date false => .error
  | .datetime true => .datetime .scalar
  | .datetime false => .error
  | .bool => .bool .scalar
  | .int small => .num .scalar .int (if small then 4 else 8) 0
  | .float => .num .scalar .float 64 0

/-- the precision in bits, Type.cpp:36-46; `LOG_2_OF_10` is taken exactly -/
def bits : NumKind → Nat → Nat
  | .int, p => 8 * p
  | .float, p => p
  | .decimal, p => (3321928094887362 * p + 999999999999999) / 1000000000000000

/-- `std::max` of kinds, Type.cpp:33 -/
def NumKind.max : NumKind → NumKind → NumKind
  | .decimal, _ | _, .decimal => .decimal
  | .float, _ | _, .float => .float
  | .int, .int => .int

/-- `arithmetic_join`, Type.cpp:24-60 -/
def arithJoin (c : Cat) (k k' : NumKind) (p p' s s' : Nat) : Ty :=
  let b := Nat.max (bits k p) (bits k' p')
  match k.max k' with
  | .int => .num c .int (b / 8) 0
  | .float => .num c .float (if b = 32 then 32 else 64) 0
  | .decimal => .num c .decimal (b * 1000000000000000 / 3321928094887362) (Nat.max s s')

/-- `is_comparable`, Type.hpp:547-554 -/
def comparable : Ty → Ty → Bool
  | .bool _, .bool _ => true
  | .char _ _ _, .char _ _ _ => true
  | .date _, .date _ => true
  | .datetime _, .datetime _ => true
  | .num _ _ _ _, .num _ _ _ _ => true
  | _, _ => false

/-- The type of a unary expression, Sema.cpp:713-749; `none`: error -/
def unTy : UnOp → Ty → Option Ty
  | .not, .bool c => some (.bool c)
  | .plus, .num c k p s | .minus, .num c k p s | .tilde, .num c k p s => some (.num c k p s)
  | _, _ => none

/-- The type of a binary expression, Sema.cpp:751-948; `none`: error -/
def binTy : BinOp → Ty → Ty → Option Ty
  | .add, .num c k p s, .num c' k' p' s' | .sub, .num c k p s, .num c' k' p' s'
  | .mul, .num c k p s, .num c' k' p' s' | .div, .num c k p s, .num c' k' p' s'
  | .mod, .num c k p s, .num c' k' p' s' => some (arithJoin (c.max c') k k' p p' s s')
  | .concat, .char c n _, .char c' n' _ => some (.char (c.max c') (n + n') false)
  | .lt, .bool _, .bool _ | .le, .bool _, .bool _ | .gt, .bool _, .bool _ | .ge, .bool _, .bool _ => none
  | .lt, a, b | .le, a, b | .gt, a, b | .ge, a, b | .eq, a, b | .ne, a, b =>
    if comparable a b then
      match a.cat, b.cat with
      | some c, some c' => some (.bool (c.max c'))
      | _, _ => none
    else none
  | .like, .char c _ _, .char c' _ _ => some (.bool (c.max c'))
  | .and, .bool c, .bool c' | .or, .bool c, .bool c' => some (.bool (c.max c'))
  | _, _, _ => none

/-- The type of an aggregate over an argument of type `t`, Sema.cpp:545-620; `none`: error (not numeric) -/
def aggTy : Fn → Ty → Option Ty
  | .min, .num _ k p s | .max, .num _ k p s => some (.num .scalar k p s)
  | .avg, .num _ _ _ _ => some (.num .scalar .float 64 0)
  | .sum, .num _ .int _ _ => some (.num .scalar .int 8 0)
  | .sum, .num _ .float _ _ => some (.num .scalar .float 64 0)
  | .sum, .num _ .decimal _ s => some (.num .scalar .decimal 19 s)
  | _, _ => none

/-- The checks by stage, Sema.cpp:675-711: `M_unreachable` in FROM (also for the values of INSERT statements, whose
context is in that stage, :1817), no aggregates in WHERE and GROUP BY. -/
def finishCall {V} (st : Stage) (f : Fn) (o : Out V) : Out V :=
  match st with
  | .from_ => { o with err := true, crash := true }
  | .where_ | .groupBy => if f.isAgg then { o with err := true } else o
  | _ => o

/-- `Sema::operator()(FnApplicationExpr&)`, Sema.cpp:500-711, without argument -/
def analyzeCall0 {V} (st : Stage) : Callee → Out V
  | .other => .crashed -- `d` is null, :506-508
  | .qualified => .fail
  | .ident (some .count) => finishCall st .count ⟨.num .scalar .int 8 0, false, false, .countStar⟩
  | .ident _ => .fail

/-- with one argument -/
def analyzeCall1 {V} (st : Stage) (c : Callee) (a : Out V) : Out V :=
  match c with
  | .other => .crashed
  | .qualified => .fail
  | .ident none => .fail a.crash
  | .ident (some .udf) => .fail a.crash
  | .ident (some .count) => finishCall st .count ⟨.num .scalar .int 8 0, a.err, a.crash, .agg .count a.rex⟩
  | .ident (some .isnull) =>
    match a.ty.cat with
    | none => .fail a.crash
    | some cat => finishCall st .isnull ⟨.bool cat, a.err, a.crash, .isnull a.rex⟩
  | .ident (some f) =>
    match aggTy f a.ty with
    | none => .fail a.crash
    | some t => finishCall st f ⟨t, a.err, a.crash, .agg f a.rex⟩

/-- with more arguments: always an error -/
def analyzeCall2 {V} (c : Callee) (a b : Out V) : Out V :=
  match c with
  | .other => .crashed
  | .qualified => .fail
  | .ident _ => .fail (a.crash || b.crash)

/-- `Sema::operator()(QueryExpr&)`, Sema.cpp:950-1012 -/
def analyzeQuery {V} (st : Stage) (i : QInfo V) : Out V :=
  match i.results with
  | [r] =>
    if !r.ty.isPrim then .fail i.crash
    else
      match st with
      | .where_ | .having | .select =>
        if !r.ty.isScalar then .fail i.crash
        else if !(r.rex.isConst && !i.hasFrom) && !(r.rex.isFn && !i.hasGroupBy) then .fail i.crash
        else ⟨r.ty, i.err, i.crash, .query (!i.hasFrom && r.rex.isConst) i.den⟩
      | _ => .fail i.crash
  | _ => .fail i.crash

/-- the stage of the current context -/
def stageOf {V} (ctxs : List (Ctx V)) : Stage :=
  match ctxs with
  | [] => .from_
  | c :: _ => c.stage

/-- The analysis of an expression, Sema.cpp:143-1012.  The fields `err` and `crash` accumulate. -/
def analyze {V} (ctxs : List (Ctx V)) : Expr V → Out V
  | .des t a => analyzeDes ctxs t a
  | .const k v => ⟨constTy k, decide (constTy k = .error), false, .const v⟩
  | .call0 c => analyzeCall0 (stageOf ctxs) c
  | .call1 c a => analyzeCall1 (stageOf ctxs) c (analyze ctxs a)
  | .call2 c a b => analyzeCall2 c (analyze ctxs a) (analyze ctxs b)
  | .un op e =>
    let o := analyze ctxs e
    match unTy op o.ty with
    | none => .fail o.crash
    | some t => ⟨t, o.err, o.crash, .un op o.rex⟩
  | .bin op l r =>
    let a := analyze ctxs l
    let b := analyze ctxs r
    match binTy op a.ty b.ty with
    | none => .fail (a.crash || b.crash)
    | some t => ⟨t, a.err || b.err, a.crash || b.crash, .bin op a.rex b.rex⟩
  | .query q => analyzeQuery (stageOf ctxs) (q ctxs)

/-! ## Clauses -/

/-- an item of the FROM clause: a table (under its name or alias), a table that does not exist, a nested query -/
inductive FItem (V : Type) where
  | table (name : Name) (cols : List Col)
  | unknown
  | nested (name : Name) (q : List (Ctx V) → QInfo V)

/-- an item of GROUP BY or SELECT: the expression, its alias, its text -/
structure Item (V : Type) where
  expr : Expr V
  name : Option Name
  text : Nat

/-- a SELECT statement; LIMIT is left out -/
structure Block (V : Type) where
  from_ : Option (List (FItem V))
  where_ : Option (Expr V)
  groupBy : Option (List (Item V))
  having : Option (Expr V)
  star : Bool
  select : List (Item V)
  orderBy : List (Expr V)

/-- the name is in use in this or another context, Sema.cpp:1178-1187 and :1209-1218 -/
def inUse {V} (outer : List (Ctx V)) (srcs : List Src) (n : Name) : Bool :=
  srcs.any (fun s => decide (s.name = n)) ||
    outer.any (fun c => decide (c.stage ≠ .from_) && c.sources.any (fun s => decide (s.name = n)))

/-- a source is added unless there is one of that name (`emplace`) -/
def addSrc (srcs : List Src) (s : Src) : List Src :=
  if srcs.any (fun t => decide (t.name = s.name)) then srcs else srcs ++ [s]

/-- the columns of a nested query as a source, Sema.cpp:1201-1208 -/
def nestedCols {V} (i : QInfo V) : List Col :=
  i.results.map fun r => ⟨r.label, r.ty.withCat .vector, r.rex.isConst⟩

/-- `Sema::operator()(FromClause&)`, Sema.cpp:1162-1227; the pair tells error and crash -/
def fromItems {V} (outer : List (Ctx V)) (ctx : Ctx V) : List (FItem V) → Ctx V × Bool × Bool
  | [] => (ctx, false, false)
  | .unknown :: _ => (ctx, true, false)
  | .table n cols :: rest =>
    let (c, e, k) := fromItems outer { ctx with sources := addSrc ctx.sources ⟨n, true, cols⟩ } rest
    (c, inUse outer ctx.sources n || e, k)
  | .nested n q :: rest =>
    let i := q (ctx :: outer)
    let ctx' := { ctx with sources := addSrc ctx.sources ⟨n, false, nestedCols i⟩ }
    let bad := i.results.any fun r => !r.ty.isPrim
    if inUse outer ctx.sources n then (ctx', true, i.crash || bad)
    else
      let (c, e, k) := fromItems outer ctx' rest
      (c, i.err || e, i.crash || bad || k)

/-- the label of a grouping key, Sema.cpp:1264-1274 -/
def keyLabel {V} (g : Item V) : Label :=
  match g.name, g.expr with
  | some n, _ => .id n
  | none, .des _ a => a
  | none, _ => .text g.text

/-- `Sema::operator()(GroupByClause&)`, Sema.cpp:1249-1277: the keys, error, crash -/
def groupKeys {V} (ctxs : List (Ctx V)) : List (Item V) → List (Named V) × Bool × Bool
  | [] => ([], false, false)
  | g :: gs =>
    let o := analyze ctxs g.expr
    let (ks, e, k) := groupKeys ctxs gs
    if o.ty = .error then (ks, o.err || e, o.crash || k)
    else
      let e' := o.err || o.rex.free
      if o.ty.isVec then (⟨keyLabel g, o.ty, o.rex⟩ :: ks, e' || e, o.crash || k)
      else (ks, true, o.crash || k)

/-- the expansion of `SELECT *`, Sema.cpp:1034-1106: the designators -/
def starExprs {V} (b : Block V) (srcs : List Src) : List (Label × Expr V) :=
  match b.star, b.groupBy, b.having with
  | false, _, _ => []
  | true, some gs, _ => gs.map fun g => (keyLabel g, .des none (keyLabel g))
  | true, none, some _ => []
  | true, none, none => srcs.flatMap fun s => s.cols.map fun c => (c.label, .des (some s.name) c.label)

/-- the label of a result, Sema.cpp:1131-1157; `n` counts constants -/
def itemLabel {V} (it : Item V) (o : Out V) (n : Nat) : Label :=
  match it.name, it.expr with
  | some m, _ => .id m
  | none, .des _ a => a
  | none, _ => if o.rex.isConst then .const n else .text it.text

/-- `is<QueryExpr>` -/
def Expr.isQuery {V} : Expr V → Bool
  | .query _ => true
  | _ => false

/-- what the SELECT clause collects -/
structure SelOut (V : Type) where
  results : List (Named V)
  hasVec : Bool
  hasScalar : Bool
  err : Bool
  crash : Bool

/-- the loop over the items of the SELECT clause, Sema.cpp:1108-1158 -/
def selectItems {V} (ctxs : List (Ctx V)) (grouping : Bool) : Nat → List (Item V) → SelOut V
  | _, [] => ⟨[], false, false, false, false⟩
  | n, it :: rest =>
    let o := analyze ctxs it.expr
    let e := o.err || (o.rex.free && !it.expr.isQuery)
    if o.ty = .error then
      let s := selectItems ctxs grouping n rest
      { s with err := e || s.err, crash := o.crash || s.crash }
    else if grouping && o.ty.isVec then
      let s := selectItems ctxs grouping n rest
      { s with err := true, crash := o.crash || s.crash }
    else
      let counts := it.name.isNone && o.rex.isConst && (match it.expr with | .des _ _ => false | _ => true)
      let s := selectItems ctxs grouping (if counts then n + 1 else n) rest
      let relevant := !o.rex.isConst && !it.expr.isQuery
      ⟨⟨itemLabel it o n, o.ty, o.rex⟩ :: s.results, (relevant && o.ty.isVec) || s.hasVec,
        (relevant && o.ty.isScalar) || s.hasScalar, e || s.err, o.crash || (relevant && !o.ty.isPrim) || s.crash⟩

/-- the expanded `*`, Sema.cpp:1034-1106: results, error, crash -/
def starOuts {V} (ctxs : List (Ctx V)) : List (Label × Expr V) → SelOut V
  | [] => ⟨[], false, false, false, false⟩
  | (l, e) :: rest =>
    let o := analyze ctxs e
    let s := starOuts ctxs rest
    ⟨⟨l, o.ty, o.rex⟩ :: s.results, o.ty.isVec || s.hasVec, o.ty.isScalar || s.hasScalar, o.err || s.err, o.crash || s.crash⟩

/-- `Sema::operator()(OrderByClause&)`, Sema.cpp:1308-1332: the expressions, error, crash -/
def orderItems {V} (ctxs : List (Ctx V)) (grouping : Bool) : List (Expr V) → List (Out V) × Bool × Bool
  | [] => ([], false, false)
  | e :: es =>
    let o := analyze ctxs e
    let (os, er, k) := orderItems ctxs grouping es
    if o.ty = .error then (os, o.err || er, o.crash || k)
    else
      let wrong := o.rex.free || (if grouping then o.ty.isVec else o.ty.isScalar)
      (o :: os, o.err || wrong || er, o.crash || !o.ty.isPrim || k)

/-- the condition of WHERE or HAVING must be Boolean (and scalar for HAVING), Sema.cpp:1229-1247 and :1279-1306 -/
def condition {V} (ctxs : List (Ctx V)) (scalar : Bool) : Option (Expr V) → Option (Out V) × Bool × Bool
  | none => (none, false, false)
  | some e =>
    let o := analyze ctxs e
    match o.ty with
    | .error => (some o, o.err, o.crash)
    | .bool c => (some o, o.err || (scalar && decide (c = .vector)), o.crash)
    | _ => (some o, true, o.crash)

/-- the outcome for a SELECT statement -/
structure BOut (V : Type) where
  where_ : Option (Out V)
  keys : List (Named V)
  having : Option (Out V)
  results : List (Named V)
  order : List (Out V)
  err : Bool
  crash : Bool

/-- `Sema::operator()(SelectStmt&)`, Sema.cpp:1791-1813, in the context `outer` of enclosing queries.  `enum` is the order in
which the hash table of sources is enumerated. -/
def analyzeBlock {V} (enum : List Src → List Src) (outer : List (Ctx V)) (b : Block V) : BOut V :=
  let ctx0 : Ctx V := ⟨.from_, false, [], [], []⟩
  let (ctx1, e1, k1) := fromItems outer ctx0 (b.from_.getD [])
  let srcs := enum ctx1.sources
  let (w, e2, k2) := condition (⟨.where_, false, srcs, [], []⟩ :: outer) false b.where_
  let (keys, e3, k3) := groupKeys (⟨.groupBy, true, srcs, [], []⟩ :: outer) (b.groupBy.getD [])
  let (h, e4, k4) := condition (⟨.having, true, srcs, [], keys⟩ :: outer) true b.having
  let grouping := b.groupBy.isSome || b.having.isSome
  let selCtx : Ctx V := ⟨.select, grouping, srcs, [], keys⟩
  let star := starOuts (selCtx :: outer) (starExprs b srcs)
  let sel := selectItems (selCtx :: outer) grouping 0 b.select
  let results := star.results ++ sel.results
  let hasScalar := sel.hasScalar || (b.star && b.groupBy.isSome && !(b.groupBy.getD []).isEmpty) || (b.star && star.hasScalar)
  let hasVec := sel.hasVec || (b.star && b.groupBy.isNone && b.having.isNone && (star.hasVec || srcs.any (·.isTable)))
  let (os, e6, k6) := orderItems (⟨.orderBy, grouping, srcs, results, keys⟩ :: outer) grouping b.orderBy
  ⟨w, keys, h, results, os,
    e1 || e2 || e3 || e4 || star.err || sel.err || (hasScalar && hasVec) || e6,
    k1 || k2 || k3 || k4 || star.crash || sel.crash || k6⟩

/-- A nested query in FROM or in an expression: its statement is analyzed in the context of the enclosing ones; `den` is
its value. -/
def toInfo {V} (enum : List Src → List Src) (den : List (Row V) → V) (b : Block V) : List (Ctx V) → QInfo V := fun outer =>
  let o := analyzeBlock enum outer b
  ⟨o.err, o.crash, o.results, b.from_.isSome, b.groupBy.isSome, den⟩

/-- the statement is accepted: a command is created iff no error was reported (Sema.cpp:1811-1812) -/
def accepted {V} (enum : List Src → List Src) (b : Block V) : Bool :=
  let o := analyzeBlock enum [] b
  !o.err && !o.crash

end Mutable.Sema
