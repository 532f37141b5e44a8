/-
Model of the interpreter's stack machine and of the compilation of expressions into it:
src/backend/StackMachine.{cpp,hpp}, tables/Opcodes.tbl.

Simplifications, valid for the whole file:
* `float` and `double` are not modelled (no `_f`/`_d` opcodes, no casts to and from them).
* Opcodes and their operands are constructors, not a byte sequence; but the operands keep their width of eight bits
  (`emit_Ld_Ctx(uint8_t)`, `emit_Ld_Tup(uint8_t, uint8_t)`, StackMachine.hpp:133-167).
* Undefined behaviour of signed 64 bit arithmetic (overflow, division by zero) is an explicit error outcome.
* Strings are lists of bytes without NUL; the 4 KiB scratch memory of the machine is unbounded.
* `std::regex_match` and `like` are parameters of the machine (`like` itself is modelled in `Verif.Fn.LikeModel`).
-/
namespace Mutable.SM

/-- C strings, without the terminating NUL. -/
abbrev Str := List Nat

/-- `Value`, include/mutable/IR/Tuple.hpp:20-110; `z` is the zero-initialised `Value()`. -/
inductive RVal where
  | z | i (v : Int) | b (v : Bool) | s (v : Str)
deriving DecidableEq, Repr

/-- A stack slot: value and NULL bit. -/
abbrev Slot := RVal × Bool

/-- Comparison operators. -/
inductive Cmp where
  | lt | gt | le | ge | eq | ne
deriving DecidableEq, Repr

/-- Opcodes used by expressions, tables/Opcodes.tbl. -/
inductive Op where
  | ldTup (tup idx : Nat) | ldCtx (idx : Nat) | pushNull
  | minusI | negI | notB | addI | subI | mulI | divI | modI
  | catS | andB | orB | cmpI (c : Cmp) | cmpS (c : Cmp) | cmpB (c : Cmp)
  | likeConst | likeExpr | isNull | castIB
deriving DecidableEq, Repr

/-- Abnormal outcomes: signed overflow, division by zero, stack underflow, access to a value of the wrong type, an
index out of bounds. -/
inductive Err where
  | overflow | divZero | stack | type | index
deriving DecidableEq, Repr

def asI : RVal → Except Err Int
  | .i v => .ok v
  | _ => .error .type
def asS : RVal → Except Err Str
  | .s v => .ok v
  | _ => .error .type

/-- Result of signed 64 bit arithmetic. -/
def chk (v : Int) : Except Err Int := if -2 ^ 63 ≤ v ∧ v < 2 ^ 63 then .ok v else .error .overflow

/-- What the machine depends on: the context, the tuples (value and NULL bit of every field), and the two
pattern matchers. -/
structure Mach where
  /-- What reading the boolean member of a `Value` yields if another member was written: after `LIKE` on NULL the
  slot still holds the string pointer (:1463-1488), and later instructions read it as a boolean. -/
  junk : RVal → Bool
  ctx : List RVal
  tup : Nat → Nat → Slot
  re : Str → Str → Bool
  like : Str → Str → Bool

/-- `TOP.as<bool>()`. -/
def asB (M : Mach) : RVal → Bool
  | .b v => v
  | v => M.junk v

/-- `UNARY`, StackMachine.cpp:1205-1210: the NULL bit stays. -/
def unI (f : Int → Except Err Int) : List Slot → Except Err (List Slot)
  | (v, n) :: S => do
    let x ← asI v
    let y ← f x
    pure ((.i y, n) :: S)
  | [] => .error .stack

/-- `BINARY`, StackMachine.cpp:1212-1222: the operation is performed on the values whatever the NULL bits are. -/
def binI (f : Int → Int → Except Err RVal) : List Slot → Except Err (List Slot)
  | (r, rn) :: (l, ln) :: S => do
    let y ← asI r
    let x ← asI l
    let w ← f x y
    pure ((w, ln || rn) :: S)
  | _ => .error .stack

/-- The same on booleans and strings. -/
def binB (M : Mach) (f : Bool → Bool → Bool) : List Slot → Except Err (List Slot)
  | (r, rn) :: (l, ln) :: S => do
    let y := asB M r
    let x := asB M l
    pure ((.b (f x y), ln || rn) :: S)
  | _ => .error .stack
def binS (f : Str → Str → Bool) : List Slot → Except Err (List Slot)
  | (r, rn) :: (l, ln) :: S => do
    let y ← asS r
    let x ← asS l
    pure ((.b (f x y), ln || rn) :: S)
  | _ => .error .stack

/-- `std::less` etc. on `int64_t`, :1413-1440. -/
def cmpInt : Cmp → Int → Int → Bool
  | .lt, a, b => decide (a < b)
  | .gt, a, b => decide (b < a)
  | .le, a, b => decide (a ≤ b)
  | .ge, a, b => decide (b ≤ a)
  | .eq, a, b => decide (a = b)
  | .ne, a, b => decide (a ≠ b)

/-- `strcmp`: bytewise lexicographic comparison. -/
def strcmp : Str → Str → Int
  | [], [] => 0
  | [], _ :: _ => -1
  | _ :: _, [] => 1
  | a :: as, b :: bs => if a < b then -1 else if b < a then 1 else strcmp as bs

/-- `streq`, `0 > strcmp`, ..., :1410-1440. -/
def cmpStr : Cmp → Str → Str → Bool
  | .lt, a, b => decide (0 > strcmp a b)
  | .gt, a, b => decide (0 < strcmp a b)
  | .le, a, b => decide (0 ≥ strcmp a b)
  | .ge, a, b => decide (0 ≤ strcmp a b)
  | .eq, a, b => decide (strcmp a b = 0)
  | .ne, a, b => !decide (strcmp a b = 0)

/-- Only `Eq_b` and `NE_b` exist. -/
def cmpBool : Cmp → Bool → Bool → Bool
  | .eq, a, b => a == b
  | _, a, b => a != b

/-- One instruction, StackMachine.cpp:865-1563. -/
def step (M : Mach) : Op → List Slot → Except Err (List Slot)
  | .ldTup t i, S => .ok (M.tup (t % 256) (i % 256) :: S)                        -- :957-963
  | .ldCtx i, S =>                                                               -- :934-939
    match M.ctx[i % 256]? with
    | some v => .ok ((v, false) :: S)
    | none => .error .index
  | .pushNull, S => .ok ((.z, true) :: S)                                        -- :920-922
  | .minusI, S => unI (fun x => chk (-x)) S                                      -- :1230
  | .negI, S => unI (fun x => .ok (-x - 1)) S                                    -- :1308 (`~`)
  | .notB, S =>                                                                  -- :1358
    match S with
    | (v, n) :: S => do
      let x := asB M v
      pure ((.b (!x), n) :: S)
    | [] => .error .stack
  | .addI, S => binI (fun x y => do let v ← chk (x + y); pure (.i v)) S          -- :1235
  | .subI, S => binI (fun x y => do let v ← chk (x - y); pure (.i v)) S          -- :1250
  | .mulI, S => binI (fun x y => do let v ← chk (x * y); pure (.i v)) S          -- :1255
  | .divI, S => binI (fun x y =>                                                 -- :1260
      if y = 0 then .error .divZero else do let v ← chk (x.tdiv y); pure (.i v)) S
  | .modI, S => binI (fun x y =>                                                 -- :1265
      if y = 0 then .error .divZero else do let _ ← chk (x.tdiv y); pure (.i (x.tmod y))) S
  | .catS, S =>                                                                  -- :1268-1296
    match S with
    | (r, rn) :: (l, ln) :: S =>
      if rn then .ok ((l, ln) :: S)
      else if ln then .ok ((r, rn) :: S)
      else do
        let x ← asS l
        let y ← asS r
        pure ((.s (x ++ y), false) :: S)
    | _ => .error .stack
  | .andB, S =>                                                                  -- :1361-1371
    match S with
    | (r, rn) :: (l, ln) :: S => do
      let y := asB M r
      let x := asB M l
      pure ((.b (x && y), (x || ln) && (y || rn) && (ln || rn)) :: S)
    | _ => .error .stack
  | .orB, S =>                                                                   -- :1374-1384
    match S with
    | (r, rn) :: (l, ln) :: S => do
      let y := asB M r
      let x := asB M l
      pure ((.b (x || y), (!x || ln) && (!y || rn) && (ln || rn)) :: S)
    | _ => .error .stack
  | .cmpI c, S => binI (fun x y => .ok (.b (cmpInt c x y))) S                    -- :1405-1440
  | .cmpS c, S => binS (cmpStr c) S
  | .cmpB c, S => binB M (cmpBool c) S
  | .likeConst, S =>                                                             -- :1463-1472
    match S with
    | (p, _) :: (l, ln) :: S =>
      if ln then .ok ((l, ln) :: S)
      else do
        let x ← asS l
        let y ← asS p
        pure ((.b (M.re x y), ln) :: S)
    | _ => .error .stack
  | .likeExpr, S =>                                                              -- :1474-1488
    match S with
    | (p, pn) :: (l, ln) :: S =>
      if pn then .ok ((l, true) :: S)
      else if ln then .ok ((l, ln) :: S)
      else do
        let y ← asS p
        let x ← asS l
        pure ((.b (M.like x y), ln) :: S)
    | _ => .error .stack
  | .isNull, S =>                                                                -- :1525-1528
    match S with
    | (_, n) :: S => .ok ((.b n, false) :: S)
    | [] => .error .stack
  | .castIB, S =>                                                                -- :1533
    match S with
    | (v, n) :: S => do
      let x := asB M v
      pure ((.i (if x then 1 else 0), n) :: S)
    | [] => .error .stack

/-- `StackMachine::operator()`, :845-1570, on a program without jumps. -/
def run (M : Mach) : List Op → List Slot → Except Err (List Slot)
  | [], S => .ok S
  | o :: os, S => do
    let S' ← step M o S
    run M os S'

/-! ### Expressions and their compilation -/

/-- Types of expressions.  `num dec s`: integer (`dec = false`, `s = 0`) or decimal of scale `s`.
`date` stands for `DATE` and `DATETIME`, both represented by integers. -/
inductive ETy where
  | num (dec : Bool) (scale : Nat) | bool | str | date | none
deriving DecidableEq, Repr

inductive UnOp where | plus | minus | tilde | not
deriving DecidableEq, Repr

inductive Arith where | add | sub | mul | div | mod
deriving DecidableEq, Repr

/-- Expressions after semantic analysis.  `attr t i ty`: anything the builder finds in a tuple (designators, aggregates,
results of nested queries, already computed expressions), StackMachine.cpp:87-91,:135-146,:509-515,:538-556.
`likeC` is `LIKE` with a constant pattern. -/
inductive E where
  | attr (tup idx : Nat) (ty : ETy)
  | const (v : RVal) (ty : ETy)
  | null
  | isNull (e : E)
  | castInt (e : E)
  | un (op : UnOp) (e : E)
  | ar (op : Arith) (l r : E)
  | cat (l r : E)
  | cmp (c : Cmp) (l r : E)
  | likeC (l : E) (pat : Str)
  | like (l r : E)
  | and (l r : E)
  | or (l r : E)
deriving DecidableEq, Repr

/-- The scale of a numeric type. -/
def ETy.scale : ETy → Nat
  | .num _ s => s
  | _ => 0

/-- `arithmetic_join`, src/catalog/Type.cpp:24-60, restricted to integers and decimals: decimal if one is, and the
larger scale. -/
def join : ETy → ETy → ETy
  | .num d s, .num d' s' => .num (d || d') (max s s')
  | t, _ => t

/-- Type of an expression as computed by `Sema` (src/parse/Sema.cpp:717-955), without the checks. -/
def E.ty : E → ETy
  | .attr _ _ t => t
  | .const _ t => t
  | .null => .none
  | .isNull _ => .bool
  | .castInt _ => .num false 0
  | .un _ e => e.ty
  | .ar _ l r => join l.ty r.ty
  | .cat _ _ => .str
  | .cmp _ _ _ => .bool
  | .likeC _ _ => .bool
  | .like _ _ => .bool
  | .and _ _ => .bool
  | .or _ _ => .bool

/-- 64 bit wrap-around of `powi<int64_t>(10, k)`. -/
def wrap64 (v : Int) : Int := (v + 2 ^ 63) % 2 ^ 64 - 2 ^ 63

/-- `powi<int64_t>(10, k)`. -/
def factor (k : Nat) : RVal := .i (wrap64 (10 ^ k))

/-- The compiler state: emitted operations and context. -/
structure CS where
  ops : List Op
  ctx : List RVal

def CS.emit (c : CS) (o : Op) : CS := { c with ops := c.ops ++ [o] }

/-- `add_and_emit_load`, StackMachine.hpp:207-213. -/
def CS.load (c : CS) (v : RVal) : CS := ⟨c.ops ++ [.ldCtx c.ctx.length], c.ctx ++ [v]⟩

/-- The lambda `scale`, StackMachine.cpp:213-263, for integers and decimals. -/
def CS.scale (c : CS) (from_ to_ : ETy) : CS :=
  if from_.scale < to_.scale then (c.load (factor (to_.scale - from_.scale))).emit .mulI
  else if from_.scale > to_.scale then (c.load (factor (from_.scale - to_.scale))).emit .divI
  else c

/-- `StackMachineBuilder`, StackMachine.cpp:87-507. -/
def compile : E → CS → CS
  | .attr t i _, c => c.emit (.ldTup t i)                                        -- :87-91
  | .const v _, c => c.load v                                                    -- :93-98
  | .null, c => c.emit .pushNull
  | .isNull e, c => (compile e c).emit .isNull                                   -- :113-117
  | .castInt e, c =>                                                             -- :120-136
    let c := compile e c
    if e.ty = .bool then c.emit .castIB else c
  | .un op e, c =>                                                               -- :151-193
    let c := compile e c
    match op with
    | .plus => c
    | .minus => c.emit .minusI
    | .tilde => if e.ty = .bool then c.emit .notB else c.emit .negI
    | .not => c.emit .notB
  | .ar op l r, c =>
    let ty := join l.ty r.ty
    match op with
    | .add => (((compile r (((compile l c).scale l.ty ty))).scale r.ty ty)).emit .addI      -- :312-328
    | .sub => (((compile r (((compile l c).scale l.ty ty))).scale r.ty ty)).emit .subI
    | .mul =>                                                                    -- :330-370
      let c := (compile r (compile l c)).emit .mulI
      let k := l.ty.scale + r.ty.scale - ty.scale
      if k ≠ 0 then (c.load (factor k)).emit .divI else c
    | .div =>                                                                    -- :372-435
      let c := compile l c
      let the : Int := (l.ty.scale : Int) - r.ty.scale
      let c := if the < ty.scale then (c.load (factor ((ty.scale - the).toNat))).emit .mulI else c
      let c := (compile r c).emit .divI
      if the > ty.scale then (c.load (factor ((the - ty.scale).toNat))).emit .divI else c
    | .mod => (compile r (compile l c)).emit .modI                               -- :437-441
  | .cat l r, c => (compile r (compile l c)).emit .catS                          -- :444-448
  | .cmp op l r, c =>                                                            -- :451-482
    match l.ty with
    | .num _ _ =>
      let ty := join l.ty r.ty
      (((compile r (((compile l c).scale l.ty ty))).scale r.ty ty)).emit (.cmpI op)
    | .bool => (compile r (compile l c)).emit (.cmpB op)
    | .str => (compile r (compile l c)).emit (.cmpS op)
    | _ => (compile r (compile l c)).emit (.cmpI op)
  | .likeC l p, c => ((compile l c).load (.s p)).emit .likeConst                 -- :485-492
  | .like l r, c => (compile r (compile l c)).emit .likeExpr                     -- :493-497
  | .and l r, c => (compile r (compile l c)).emit .andB                          -- :502-506
  | .or l r, c => (compile r (compile l c)).emit .orB

/-- `StackMachine::emit(cnf)`, StackMachine.cpp:575-610: predicates are (expression, negative) pairs. -/
def emitClause : List (E × Bool) → Bool → CS → CS
  | [], _, c => c
  | (e, neg) :: ps, first, c =>
    let c := compile e c
    let c := if neg then c.emit .notB else c
    let c := if first then c else c.emit .orB
    emitClause ps false c

def emitCNF : List (List (E × Bool)) → Bool → CS → CS
  | [], _, c => c
  | C :: Cs, first, c =>
    let c := emitClause C true c
    let c := if first then c else c.emit .andB
    emitCNF Cs false c

end Mutable.SM
