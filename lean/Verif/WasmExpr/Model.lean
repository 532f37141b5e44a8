/-
Model of the compilation of SQL expressions, filter conditions and projections to WebAssembly:
`ExprCompiler` (src/backend/WasmUtil.cpp:60-520), the classes `PrimitiveExpr` and `Expr` of the code generator
(src/backend/WasmDSL.hpp), the operators `Filter`, `LazyDisjunctiveFilter` and `Projection`
(src/backend/WasmOperator.cpp:2205-2490) and the typing of expressions in src/parse/Sema.cpp:717-955.

Simplifications, valid for the whole file:
* one tuple at a time (one SIMD lane);
* strings are not modelled here (see `Verif.WasmStr`), nor `DECIMAL`: `convert_in_place` calls `M_unreachable` on it
  (WasmUtil.cpp:83-84);
* `INT(x)` is not modelled: `Sema` has no case for it (Sema.cpp:544-546, :661);
* Wasm's floating-point instructions are parameters (`Fl`); integers are two's-complement bit vectors;
* a generated expression has no side effects, so that it is a tree that can be evaluated any number of times.
-/
namespace Mutable.WX

/-- Comparison operators. -/
inductive Cmp where
  | lt | gt | le | ge | eq | ne
deriving DecidableEq, Repr

/-- Arithmetic operators. -/
inductive Arith where
  | add | sub | mul | div | mod
deriving DecidableEq, Repr

/-- Wasm's instructions on one floating-point type. -/
structure Fl where
  F : Type
  neg : F → F
  add : F → F → F
  sub : F → F → F
  mul : F → F → F
  div : F → F → F
  cmp : Cmp → F → F → Bool
  ofInt : Int → F

/-- Single and double precision. -/
structure FP where
  s : Fl
  d : Fl
  promote : s.F → d.F

/-! ### Wasm expressions -/

/-- Types of Wasm values. -/
inductive WTy where
  | i32 | i64 | f32 | f64
deriving DecidableEq, Repr

@[reducible] def FP.Word (P : FP) : WTy → Type
  | .i32 => BitVec 32
  | .i64 => BitVec 64
  | .f32 => P.s.F
  | .f64 => P.d.F

/-- Binary integer instructions; the same for both widths. -/
inductive IOp where
  | add | sub | mul | divS | remS | and | or | xor
deriving DecidableEq, Repr

/-- Binary floating-point instructions. -/
inductive FOp where
  | add | sub | mul | div
deriving DecidableEq, Repr

/-- Unary instructions `::wasm::UnaryOp`. -/
inductive Un : WTy → WTy → Type where
  | eqz : Un .i32 .i32
  | extendS : Un .i32 .i64
  | negF32 : Un .f32 .f32
  | negF64 : Un .f64 .f64
  | convS32F32 : Un .i32 .f32
  | convS32F64 : Un .i32 .f64
  | convS64F32 : Un .i64 .f32
  | convS64F64 : Un .i64 .f64
  | promote : Un .f32 .f64

/-- Binary instructions `::wasm::BinaryOp`. -/
inductive Bin : WTy → WTy → Type where
  | i32 (op : IOp) : Bin .i32 .i32
  | i64 (op : IOp) : Bin .i64 .i64
  | f32 (op : FOp) : Bin .f32 .f32
  | f64 (op : FOp) : Bin .f64 .f64
  | cmpI32 (c : Cmp) : Bin .i32 .i32
  | cmpI64 (c : Cmp) : Bin .i64 .i32
  | cmpF32 (c : Cmp) : Bin .f32 .i32
  | cmpF64 (c : Cmp) : Bin .f64 .i32

/-- Wasm expressions. -/
inductive W (P : FP) : WTy → Type where
  | const {t : WTy} (v : P.Word t) : W P t
  | loc {t : WTy} (i : Nat) : W P t
  | un {s t : WTy} (op : Un s t) (a : W P s) : W P t
  | bin {s t : WTy} (op : Bin s t) (a b : W P s) : W P t

/-- The local variables of the generated function. -/
abbrev Locals (P : FP) := (t : WTy) → Nat → P.Word t

/-- Truth values are represented by 0 and 1. -/
def b2w (b : Bool) : BitVec 32 := if b then 1 else 0

/-- Integer instructions of the Wasm specification; `none` is a trap. -/
def evalI {w : Nat} : IOp → BitVec w → BitVec w → Option (BitVec w)
  | .add, a, b => some (a + b)
  | .sub, a, b => some (a - b)
  | .mul, a, b => some (a * b)
  | .divS, a, b => if b = 0 then none else if a = BitVec.intMin w ∧ b = -1 then none else some (a.sdiv b)
  | .remS, a, b => if b = 0 then none else some (a.srem b)
  | .and, a, b => some (a &&& b)
  | .or, a, b => some (a ||| b)
  | .xor, a, b => some (a ^^^ b)

def evalF (F : Fl) : FOp → F.F → F.F → F.F
  | .add => F.add
  | .sub => F.sub
  | .mul => F.mul
  | .div => F.div

/-- Signed integer comparisons. -/
def cmpBV {w : Nat} : Cmp → BitVec w → BitVec w → Bool
  | .lt, a, b => a.slt b
  | .gt, a, b => b.slt a
  | .le, a, b => a.sle b
  | .ge, a, b => b.sle a
  | .eq, a, b => a == b
  | .ne, a, b => !(a == b)

def evalUn (P : FP) : {s t : WTy} → Un s t → P.Word s → P.Word t
  | _, _, .eqz, a => b2w (a == 0)
  | _, _, .extendS, a => BitVec.signExtend 64 a
  | _, _, .negF32, a => P.s.neg a
  | _, _, .negF64, a => P.d.neg a
  | _, _, .convS32F32, a => P.s.ofInt (BitVec.toInt a)
  | _, _, .convS32F64, a => P.d.ofInt (BitVec.toInt a)
  | _, _, .convS64F32, a => P.s.ofInt (BitVec.toInt a)
  | _, _, .convS64F64, a => P.d.ofInt (BitVec.toInt a)
  | _, _, .promote, a => P.promote a

def evalBin (P : FP) : {s t : WTy} → Bin s t → P.Word s → P.Word s → Option (P.Word t)
  | _, _, .i32 op, a, b => evalI op a b
  | _, _, .i64 op, a, b => evalI op a b
  | _, _, .f32 op, a, b => some (evalF P.s op a b)
  | _, _, .f64 op, a, b => some (evalF P.d op a b)
  | _, _, .cmpI32 c, a, b => some (b2w (cmpBV c a b))
  | _, _, .cmpI64 c, a, b => some (b2w (cmpBV c a b))
  | _, _, .cmpF32 c, a, b => some (b2w (P.s.cmp c a b))
  | _, _, .cmpF64 c, a, b => some (b2w (P.d.cmp c a b))

/-- Evaluation of Wasm expressions. -/
def eval {P : FP} (σ : Locals P) : {t : WTy} → W P t → Option (P.Word t)
  | _, .const v => some v
  | t, .loc i => some (σ t i)
  | _, .un op a => do
    let x ← eval σ a
    pure (evalUn P op x)
  | _, .bin op a b => do
    let x ← eval σ a
    let y ← eval σ b
    evalBin P op x y

/-! ### SQL expressions -/

/-- `INT(1)`, `INT(2)`, `INT(4)`, `INT(8)`. -/
inductive IW where
  | w1 | w2 | w4 | w8
deriving DecidableEq, Repr

def IW.bits : IW → Nat
  | .w1 => 8
  | .w2 => 16
  | .w4 => 32
  | .w8 => 64

/-- SQL types, include/mutable/catalog/Type.hpp, without decimals, strings and bitmaps. -/
inductive Ty where
  | none | bool | int (w : IW) | float | double | date | datetime
deriving DecidableEq, Repr

/-- The wider of two integer types. -/
def IW.max : IW → IW → IW
  | .w8, _ => .w8
  | _, .w8 => .w8
  | .w4, _ => .w4
  | _, .w4 => .w4
  | .w2, _ => .w2
  | _, .w2 => .w2
  | .w1, .w1 => .w1

/-- `arithmetic_join`, src/catalog/Type.cpp:24-60: floating point if one operand is, of the larger number of bits. -/
def join : Ty → Ty → Option Ty
  | .int v, .int w => some (.int (v.max w))
  | .int v, .float => some (if v.bits ≤ 32 then .float else .double)
  | .float, .int w => some (if w.bits ≤ 32 then .float else .double)
  | .int _, .double => some .double
  | .double, .int _ => some .double
  | .float, .float => some .float
  | .float, .double => some .double
  | .double, .float => some .double
  | .double, .double => some .double
  | _, _ => .none

inductive UnOp where
  | plus | minus | tilde | not
deriving DecidableEq, Repr

/-- Expressions after semantic analysis.  `attr i ty nullable`: anything found in the environment (designators,
aggregates, results of nested queries), WasmUtil.cpp:170-172, :483-503. -/
inductive X (P : FP) where
  | attr (i : Nat) (ty : Ty) (nullable : Bool)
  | null
  | boolC (b : Bool)
  | intC (w : IW) (z : Int)
  | floatC (x : P.s.F)
  | doubleC (x : P.d.F)
  | dateC (z : Int)
  | datetimeC (z : Int)
  | un (op : UnOp) (e : X P)
  | ar (op : Arith) (l r : X P)
  | cmp (c : Cmp) (l r : X P)
  | and (l r : X P)
  | or (l r : X P)
  | isNull (e : X P)

def Ty.numeric : Ty → Bool
  | .int _ | .float | .double => true
  | _ => false

/-- Comparable types, Sema.cpp:799-908 and Type.hpp:547-554. -/
def comparable (c : Cmp) : Ty → Ty → Bool
  | .bool, .bool => c = .eq || c = .ne
  | .date, .date => true
  | .datetime, .datetime => true
  | t, t' => t.numeric && t'.numeric

/-- The type given to an expression by `Sema`, src/parse/Sema.cpp:717-955; `none` if it is rejected. -/
def X.ty {P : FP} : X P → Option Ty
  | .attr _ t _ => if t = .none then Option.none else some t
  | .null => some .none
  | .boolC _ => some .bool
  | .intC w _ => some (.int w)
  | .floatC _ => some .float
  | .doubleC _ => some .double
  | .dateC _ => some .date
  | .datetimeC _ => some .datetime
  | .un op e => do
    let t ← e.ty
    match op with
    | .not => if t = .bool then some t else Option.none                         -- :734-740
    | _ => if t.numeric then some t else Option.none                            -- :742-749
  | .ar _ l r => do                                                             -- :772-792
    let t ← l.ty
    let t' ← r.ty
    join t t'
  | .cmp c l r => do                                                            -- :814-908
    let t ← l.ty
    let t' ← r.ty
    if comparable c t t' then some .bool else Option.none
  | .and l r | .or l r => do                                                    -- :927-946
    let t ← l.ty
    let t' ← r.ty
    if t = .bool ∧ t' = .bool then some .bool else Option.none
  | .isNull e => do                                                             -- :637-660
    let _ ← e.ty
    some .bool

/-- `Expr::can_be_null`, include/mutable/parse/AST.hpp:143-374. -/
def X.canBeNull {P : FP} : X P → Bool
  | .attr _ _ n => n
  | .null => true
  | .un _ e => e.canBeNull
  | .ar _ l r | .cmp _ l r => l.canBeNull || r.canBeNull
  | .and l r =>
    !(match l with | .boolC b => !b | _ => false) && !(match r with | .boolC b => !b | _ => false) &&
      (l.canBeNull || r.canBeNull)
  | .or l r =>
    !(match l with | .boolC b => b | _ => false) && !(match r with | .boolC b => b | _ => false) &&
      (l.canBeNull || r.canBeNull)
  | _ => false

/-! ### Code generation -/

/-- The types `T` of the generator's `Expr<T, 1>`. -/
inductive DTy where
  | bool | i8 | i16 | i32 | i64 | f32 | f64
deriving DecidableEq, Repr

/-- The Wasm type of an `Expr<T, 1>`: booleans and narrow integers are stored as 32 bit integers,
WasmDSL.hpp:1565-1600. -/
@[reducible] def DTy.rep : DTy → WTy
  | .bool | .i8 | .i16 | .i32 => .i32
  | .i64 => .i64
  | .f32 => .f32
  | .f64 => .f64

/-- The generator's type of a SQL type, WasmUtil.cpp:62-108, :200-235. -/
def Ty.d : Ty → DTy
  | .none => .i32
  | .bool => .bool
  | .int .w1 => .i8
  | .int .w2 => .i16
  | .int .w4 => .i32
  | .int .w8 => .i64
  | .float => .f32
  | .double => .f64
  | .date => .i32
  | .datetime => .i64

/-- `Expr<T, 1>`, WasmDSL.hpp:4504-4530: the value and, if it can be NULL, the NULL bit. -/
structure Code (P : FP) where
  t : DTy
  val : W P t.rep
  null : Option (W P .i32)

/-- `PrimitiveExpr::convert`, WasmDSL.hpp:1633-1900, for the widening conversions: `none` stands for the other ones,
which are never requested because both operands are converted to their `arithmetic_join`. -/
def convert {P : FP} : (s t : DTy) → W P s.rep → Option (W P t.rep)
  | .bool, .bool, a => some a
  | .i8, .i8, a => some a
  | .i16, .i16, a => some a
  | .i32, .i32, a => some a
  | .i64, .i64, a => some a
  | .f32, .f32, a => some a
  | .f64, .f64, a => some a
  | .i8, .i16, a => some a                                                      -- :1711-1712
  | .i8, .i32, a => some a
  | .i16, .i32, a => some a
  | .i8, .i64, a => some (.un .extendS a)                                       -- :1700-1701
  | .i16, .i64, a => some (.un .extendS a)
  | .i32, .i64, a => some (.un .extendS a)
  | .i8, .f32, a => some (.un .convS32F32 a)                                    -- :1813-1814
  | .i16, .f32, a => some (.un .convS32F32 a)
  | .i32, .f32, a => some (.un .convS32F32 a)
  | .i8, .f64, a => some (.un .convS32F64 a)                                    -- :1815-1816
  | .i16, .f64, a => some (.un .convS32F64 a)
  | .i32, .f64, a => some (.un .convS32F64 a)
  | .i64, .f32, a => some (.un .convS64F32 a)                                   -- :1817-1818
  | .i64, .f64, a => some (.un .convS64F64 a)                                   -- :1819-1820
  | .f32, .f64, a => some (.un .promote a)                                      -- :1919-1920
  | _, _, _ => none

/-- `operator+`, ..., `operator%` of `PrimitiveExpr<T, 1>`, WasmDSL.hpp:2350-2470; `%` is not defined on floating-point
numbers (:2455-2462), and nothing is defined on booleans. -/
def arithOp : (t : DTy) → Arith → Option (Bin t.rep t.rep)
  | .bool, _ => none
  | .i8, op => some (.i32 (iop op))
  | .i16, op => some (.i32 (iop op))
  | .i32, op => some (.i32 (iop op))
  | .i64, op => some (.i64 (iop op))
  | .f32, op => (fop op).map .f32
  | .f64, op => (fop op).map .f64
where
  iop : Arith → IOp
    | .add => .add
    | .sub => .sub
    | .mul => .mul
    | .div => .divS
    | .mod => .remS
  fop : Arith → Option FOp
    | .add => some .add
    | .sub => some .sub
    | .mul => some .mul
    | .div => some .div
    | .mod => none

/-- `operator==`, ..., WasmDSL.hpp:2690-2890; the order is defined on numbers only. -/
def cmpOp : (t : DTy) → Cmp → Option (Bin t.rep .i32)
  | .bool, .eq => some (.cmpI32 .eq)
  | .bool, .ne => some (.cmpI32 .ne)
  | .bool, _ => none
  | .i8, c => some (.cmpI32 c)
  | .i16, c => some (.cmpI32 c)
  | .i32, c => some (.cmpI32 c)
  | .i64, c => some (.cmpI64 c)
  | .f32, c => some (.cmpF32 c)
  | .f64, c => some (.cmpF64 c)

/-- `BINARY`, WasmDSL.hpp:4805-4824: the result can be NULL if an operand can be, and is if one is. -/
def nullOr {P : FP} : Option (W P .i32) → Option (W P .i32) → Option (W P .i32)
  | none, none => none
  | some a, none => some a
  | none, some b => some b
  | some a, some b => some (.bin (.i32 .or) a b)

/-- A generated boolean. -/
structure BCode (P : FP) where
  val : W P .i32
  null : Option (W P .i32)

namespace BCode
variable {P : FP}

/-- `not`, WasmDSL.hpp:2240: `eqz`. -/
def lnot (a : W P .i32) : W P .i32 := .un .eqz a
def land (a b : W P .i32) : W P .i32 := .bin (.i32 .and) a b
def lor (a b : W P .i32) : W P .i32 := .bin (.i32 .or) a b

/-- `Expr::operator not`, WasmDSL.hpp:4738-4744: the NULL bit stays. -/
def not (a : BCode P) : BCode P := ⟨lnot a.val, a.null⟩

/-- `Expr::operator and`, WasmDSL.hpp:4902-4937. -/
def and (a b : BCode P) : BCode P :=
  match a.null, b.null with
  | none, none => ⟨land a.val b.val, none⟩
  | some n, none => ⟨land a.val b.val, some (land n b.val)⟩
  | none, some m => ⟨land a.val b.val, some (land m a.val)⟩
  | some n, some m => ⟨land a.val b.val, some (land (land (lor n m) (lor a.val n)) (lor b.val m))⟩

/-- `Expr::operator or`, WasmDSL.hpp:4979-5014. -/
def or (a b : BCode P) : BCode P :=
  match a.null, b.null with
  | none, none => ⟨lor a.val b.val, none⟩
  | some n, none => ⟨lor a.val b.val, some (land n (lnot b.val))⟩
  | none, some m => ⟨lor a.val b.val, some (land m (lnot a.val))⟩
  | some n, some m => ⟨lor a.val b.val, some (land (land (lor n m) (lor (lnot a.val) n)) (lor (lnot b.val) m))⟩

/-- `Expr::is_true_and_not_null`, WasmDSL.hpp:4636-4641. -/
def isTrue (a : BCode P) : W P .i32 :=
  match a.null with
  | none => a.val
  | some n => land a.val (lnot n)

/-- `Expr::is_false_and_not_null`, WasmDSL.hpp:4645-4650. -/
def isFalse (a : BCode P) : W P .i32 :=
  match a.null with
  | none => lnot a.val
  | some n => land (lnot a.val) (lnot n)

def toCode (a : BCode P) : Code P := ⟨.bool, a.val, a.null⟩

end BCode

/-- `get<_Boolx1>()`, WasmUtil.hpp:541-545: insists that the intermediate result is a boolean. -/
def Code.asBool {P : FP} : Code P → Option (BCode P)
  | ⟨.bool, v, n⟩ => some ⟨v, n⟩
  | _ => none

/-- Arithmetic of two operands of the common type `t`. -/
def binArith {P : FP} (t : DTy) (op : Arith) (l r : Code P) : Option (Code P) := do
  let a ← convert l.t t l.val
  let b ← convert r.t t r.val
  let o ← arithOp t op
  pure ⟨t, .bin o a b, nullOr l.null r.null⟩

/-- Comparison of two operands of the common type `t`. -/
def binCmp {P : FP} (t : DTy) (c : Cmp) (l r : Code P) : Option (Code P) := do
  let a ← convert l.t t l.val
  let b ← convert r.t t r.val
  let o ← cmpOp t c
  pure ⟨.bool, .bin o a b, nullOr l.null r.null⟩

/-- Unary operators, WasmDSL.hpp:2142-2190, :2240; the NULL bit stays (:4738-4744). -/
def unary {P : FP} : UnOp → Code P → Option (Code P)
  | .plus, ⟨.bool, _, _⟩ => none
  | .plus, c => some c
  | .minus, ⟨.bool, _, _⟩ => none
  | .minus, ⟨.i8, v, n⟩ => some ⟨.i8, .bin (.i32 .sub) (.const 0) v, n⟩
  | .minus, ⟨.i16, v, n⟩ => some ⟨.i16, .bin (.i32 .sub) (.const 0) v, n⟩
  | .minus, ⟨.i32, v, n⟩ => some ⟨.i32, .bin (.i32 .sub) (.const 0) v, n⟩
  | .minus, ⟨.i64, v, n⟩ => some ⟨.i64, .bin (.i64 .sub) (.const 0) v, n⟩
  | .minus, ⟨.f32, v, n⟩ => some ⟨.f32, .un .negF32 v, n⟩
  | .minus, ⟨.f64, v, n⟩ => some ⟨.f64, .un .negF64 v, n⟩
  | .tilde, ⟨.i8, v, n⟩ => some ⟨.i8, .bin (.i32 .xor) (.const (-1)) v, n⟩
  | .tilde, ⟨.i16, v, n⟩ => some ⟨.i16, .bin (.i32 .xor) (.const (-1)) v, n⟩
  | .tilde, ⟨.i32, v, n⟩ => some ⟨.i32, .bin (.i32 .xor) (.const (-1)) v, n⟩
  | .tilde, ⟨.i64, v, n⟩ => some ⟨.i64, .bin (.i64 .xor) (.const (-1)) v, n⟩
  | .tilde, _ => none
  | .not, ⟨.bool, v, n⟩ => some (BCode.toCode (BCode.not ⟨v, n⟩))
  | .not, _ => none

/-- An attribute in the environment: the local variables that hold its value and, if it can be NULL, its NULL bit. -/
def attrCode {P : FP} (i : Nat) (ty : Ty) (nullable : Bool) : Code P :=
  ⟨ty.d, .loc (2 * i), if nullable then some (.loc (2 * i + 1)) else none⟩

/-- `ExprCompiler::operator()`, WasmUtil.cpp:150-503; `none` is `M_unreachable` or a violated `M_insist`. -/
def compile {P : FP} : X P → Option (Code P)
  | .attr i ty n => some (attrCode i ty n)                                      -- :170-172
  | .null => some ⟨.i32, .const 0, some (.const 1)⟩                             -- :158-168, :177-187
  | .boolC b => some ⟨.bool, .const (b2w b), none⟩                              -- :200
  | .intC .w1 z => some ⟨.i8, .const (BitVec.ofInt 32 z), none⟩                 -- :201-220
  | .intC .w2 z => some ⟨.i16, .const (BitVec.ofInt 32 z), none⟩
  | .intC .w4 z => some ⟨.i32, .const (BitVec.ofInt 32 z), none⟩
  | .intC .w8 z => some ⟨.i64, .const (BitVec.ofInt 64 z), none⟩
  | .floatC x => some ⟨.f32, .const x, none⟩                                    -- :221-225
  | .doubleC x => some ⟨.f64, .const x, none⟩
  | .dateC z => some ⟨.i32, .const (BitVec.ofInt 32 z), none⟩                   -- :231
  | .datetimeC z => some ⟨.i64, .const (BitVec.ofInt 64 z), none⟩               -- :232
  | .un op e => do                                                              -- :248-280
    let c ← compile e
    unary op c
  | .ar op l r => do                                                            -- :282-335
    let a ← compile l
    let b ← compile r
    let tl ← l.ty
    let tr ← r.ty
    let t ← join tl tr
    binArith t.d op a b
  | .cmp c l r => do                                                            -- :337-343
    let a ← compile l
    let b ← compile r
    let tl ← l.ty
    let tr ← r.ty
    binCmp ((join tl tr).getD tl).d c a b
  | .and l r => do                                                              -- :417-435
    let a ← compile l
    let a ← a.asBool
    let b ← compile r
    let b ← b.asBool
    pure (BCode.toCode (BCode.and a b))
  | .or l r => do
    let a ← compile l
    let a ← a.asBool
    let b ← compile r
    let b ← b.asBool
    pure (BCode.toCode (BCode.or a b))
  | .isNull e => do                                                             -- :458-472
    let c ← compile e
    pure ⟨.bool, c.null.getD (.const 0), none⟩

/-- Reading a generated expression into variables for value and NULL bit (WasmOperator.cpp:2431-2440): a trap (`none`),
NULL (`some none`), or a value. -/
def run {P : FP} (σ : Locals P) (c : Code P) : Option (Option (P.Word c.t.rep)) := do
  let v ← eval σ c.val
  match c.null with
  | none => pure (some v)
  | some n => do
    let b ← eval σ n
    pure (if b = 0 then some v else none)

/-! ### Filters -/

/-- A formula in conjunctive normal form; a literal is negative if the flag is set. -/
abbrev Cnf (P : FP) := List (List (X P × Bool))

/-- `CNF::can_be_null`, include/mutable/IR/CNF.hpp:51, :111-116, :155-160. -/
def cnfNullable {P : FP} (cnf : Cnf P) : Bool := cnf.any fun C => C.any fun p => p.1.canBeNull

/-- One literal, WasmUtil.cpp:124-128; `insist_not_null` drops the NULL bit. -/
def litCode {P : FP} (nullable : Bool) (p : X P × Bool) : Option (BCode P) := do
  let c ← compile p.1
  let c ← c.asBool
  let c : BCode P := if nullable then c else ⟨c.val, none⟩
  pure (if p.2 then c.not else c)

/-- The loop over the literals of a clause, WasmUtil.cpp:122-135. -/
def orLoop {P : FP} (nullable : Bool) : BCode P → List (X P × Bool) → Option (BCode P)
  | acc, [] => some acc
  | acc, p :: ps => do
    let c ← litCode nullable p
    orLoop nullable (acc.or c) ps

def clauseCode {P : FP} (nullable : Bool) : List (X P × Bool) → Option (BCode P)
  | [] => none
  | p :: ps => do
    let c ← litCode nullable p
    orLoop nullable c ps

/-- The loop over the clauses, WasmUtil.cpp:120-143. -/
def andLoop {P : FP} (nullable : Bool) : BCode P → Cnf P → Option (BCode P)
  | acc, [] => some acc
  | acc, C :: Cs => do
    let c ← clauseCode nullable C
    andLoop nullable (acc.and c) Cs

/-- `compile_cnf`, WasmUtil.cpp:112-147, with the choice of `CanBeNull` in :505-514. -/
def cnfCode {P : FP} (cnf : Cnf P) : Option (BCode P) :=
  match cnf with
  | [] => some ⟨.const 1, none⟩
  | C :: Cs => do
    let c ← clauseCode (cnfNullable cnf) C
    andLoop (cnfNullable cnf) c Cs

/-- The branch taken on a generated condition; `none` is a trap. -/
def branch {P : FP} (σ : Locals P) (c : W P .i32) : Option Bool := (eval σ c).map fun w => !(w == 0)

/-- `Filter<false>`, WasmOperator.cpp:2266-2269: whether the tuple is passed on. -/
def keep {P : FP} (σ : Locals P) (c : BCode P) : Option Bool := branch σ c.isTrue

/-- `LazyDisjunctiveFilter`, WasmOperator.cpp:2308-2326: the literals in turn, up to the first one that holds. -/
def lazyKeep {P : FP} (σ : Locals P) : List (X P × Bool) → Option Bool
  | [] => some false
  | p :: ps => do
    let c ← compile p.1
    let c ← c.asBool
    let b ← branch σ (if p.2 then c.isFalse else c.isTrue)
    if b then pure true else lazyKeep σ ps

/-! ### A pipeline of a filter and a projection -/

/-- A result value. -/
abbrev RVal (P : FP) := (t : DTy) × Option (P.Word t.rep)

/-- The generated code of the expressions of a projection, WasmOperator.cpp:2429. -/
def compileList {P : FP} : List (X P) → Option (List (Code P))
  | [] => some []
  | e :: es => do
    let c ← compile e
    let cs ← compileList es
    pure (c :: cs)

/-- `Projection`, WasmOperator.cpp:2421-2450: all expressions are computed into variables, whatever the predicate is. -/
def project {P : FP} (σ : Locals P) : List (Code P) → Option (List (RVal P))
  | [] => some []
  | c :: cs => do
    let v ← run σ c
    let vs ← project σ cs
    pure (⟨c.t, v⟩ :: vs)

/-- A projection above `Filter<false>`: only computed for the tuples that are passed on. -/
def branching {P : FP} (σ : Locals P) (f : BCode P) (cs : List (Code P)) : Option (Option (List (RVal P))) := do
  let b ← keep σ f
  if b then
    let vs ← project σ cs
    pure (some vs)
  else pure none

/-- A projection above `Filter<true>` (predication), WasmOperator.cpp:2261-2263, :2411-2412: the projection is computed
first, the predicate is tested by the sink (:674, :717, :1137). -/
def predicated {P : FP} (σ : Locals P) (f : BCode P) (cs : List (Code P)) : Option (Option (List (RVal P))) := do
  let vs ← project σ cs
  let b ← keep σ f
  pure (if b then some vs else none)

end Mutable.WX
