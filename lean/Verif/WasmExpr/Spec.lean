import Verif.WasmExpr.Model
import Verif.SQL.Kleene

/-!
The SQL meaning of expressions: integers are mathematical integers, NULL is a value of its own, and an expression without
a meaning (a result out of range of its type, division by zero) has none.  Independent of the generated code.
-/
namespace Mutable.WX
open SQL

/-- SQL values. -/
inductive V (P : FP) where
  | null | bool (b : Bool) | int (z : Int) | date (z : Int) | float (x : P.s.F) | double (x : P.d.F)

variable {P : FP}

/-- The integers of a type of `n` bits. -/
def Fits (n : Nat) (z : Int) : Prop := -2 ^ (n - 1) ≤ z ∧ z < 2 ^ (n - 1)

instance (n : Nat) (z : Int) : Decidable (Fits n z) := inferInstanceAs (Decidable (_ ∧ _))

/-- The values of a type. -/
def V.Has : Ty → V P → Prop
  | _, .null => True
  | .bool, .bool _ => True
  | .int w, .int z => Fits w.bits z
  | .date, .date z => Fits 32 z
  | .datetime, .date z => Fits 64 z
  | .float, .float _ => True
  | .double, .double _ => True
  | _, _ => False

/-- Integer arithmetic: division truncates toward zero. -/
def intArith : Arith → Int → Int → Option Int
  | .add, x, y => some (x + y)
  | .sub, x, y => some (x - y)
  | .mul, x, y => some (x * y)
  | .div, x, y => if y = 0 then none else some (x.tdiv y)
  | .mod, x, y => if y = 0 then none else some (x.tmod y)

/-- Floating-point arithmetic. -/
def flArith (F : Fl) : Arith → F.F → F.F → Option F.F
  | .add, x, y => some (F.add x y)
  | .sub, x, y => some (F.sub x y)
  | .mul, x, y => some (F.mul x y)
  | .div, x, y => some (F.div x y)
  | .mod, _, _ => none

/-- Comparison of integers. -/
def intCmp : Cmp → Int → Int → Bool
  | .lt, a, b => decide (a < b)
  | .gt, a, b => decide (b < a)
  | .le, a, b => decide (a ≤ b)
  | .ge, a, b => decide (b ≤ a)
  | .eq, a, b => decide (a = b)
  | .ne, a, b => decide (a ≠ b)

/-- A number as a single- or double-precision number. -/
def V.toFloat : V P → Option P.s.F
  | .int z => some (P.s.ofInt z)
  | .float x => some x
  | _ => none
def V.toDouble : V P → Option P.d.F
  | .int z => some (P.d.ofInt z)
  | .float x => some (P.promote x)
  | .double x => some x
  | _ => none

/-- Arithmetic in the type `t` on values that are not NULL. -/
def arithIn (op : Arith) : Ty → V P → V P → Option (V P)
  | .int w, .int x, .int y => do
    let z ← intArith op x y
    if Fits w.bits z then some (.int z) else none
  | .float, a, b => do
    let x ← a.toFloat
    let y ← b.toFloat
    let z ← flArith P.s op x y
    some (.float z)
  | .double, a, b => do
    let x ← a.toDouble
    let y ← b.toDouble
    let z ← flArith P.d op x y
    some (.double z)
  | _, _, _ => none

/-- Comparison in the type `t` of values that are not NULL. -/
def cmpIn (c : Cmp) : Ty → V P → V P → Option Bool
  | .bool, .bool x, .bool y =>
    match c with
    | .eq => some (x == y)
    | .ne => some (x != y)
    | _ => none
  | .int _, .int x, .int y => some (intCmp c x y)
  | .date, .date x, .date y => some (intCmp c x y)
  | .datetime, .date x, .date y => some (intCmp c x y)
  | .float, a, b => do
    let x ← a.toFloat
    let y ← b.toFloat
    some (P.s.cmp c x y)
  | .double, a, b => do
    let x ← a.toDouble
    let y ← b.toDouble
    some (P.d.cmp c x y)
  | _, _, _ => none

/-- A strict binary function: NULL if an operand is NULL. -/
def strict (f : V P → V P → Option (V P)) : V P → V P → Option (V P)
  | .null, _ => some .null
  | _, .null => some .null
  | a, b => f a b

/-- Truth values. -/
def V.k3 : V P → Option K3
  | .bool true => some .T
  | .bool false => some .F
  | .null => some .N
  | _ => none
def ofK3 : K3 → V P
  | .T => .bool true
  | .F => .bool false
  | .N => .null

/-- The common type of two operands. -/
def commonTy (l r : X P) : Option Ty := do
  let tl ← l.ty
  let tr ← r.ty
  pure ((join tl tr).getD tl)

/-- Unary operators. -/
def semUn (op : UnOp) (t : Ty) (v : V P) : Option (V P) :=
  match op, v with
  | .not, v => do
    let k ← v.k3
    some (ofK3 k.not)
  | _, .null => some .null
  | .plus, v => some v
  | .minus, .int z => match t with
    | .int w => if Fits w.bits (-z) then some (.int (-z)) else none
    | _ => none
  | .minus, .float x => some (.float (P.s.neg x))
  | .minus, .double x => some (.double (P.d.neg x))
  | .tilde, .int z => some (.int (-z - 1))
  | _, _ => none

/-- The SQL value of an expression over the tuple `ρ`. -/
def sem (ρ : Nat → V P) : X P → Option (V P)
  | .attr i _ _ => some (ρ i)
  | .null => some .null
  | .boolC b => some (.bool b)
  | .intC _ z => some (.int z)
  | .floatC x => some (.float x)
  | .doubleC x => some (.double x)
  | .dateC z => some (.date z)
  | .datetimeC z => some (.date z)
  | .un op e => do
    let v ← sem ρ e
    let t ← e.ty
    semUn op t v
  | .ar op l r => do
    let a ← sem ρ l
    let b ← sem ρ r
    let t ← commonTy l r
    strict (arithIn op t) a b
  | .cmp c l r => do
    let a ← sem ρ l
    let b ← sem ρ r
    let t ← commonTy l r
    strict (fun a b => (cmpIn c t a b).map .bool) a b
  | .and l r => do
    let a ← sem ρ l
    let b ← sem ρ r
    let x ← a.k3
    let y ← b.k3
    some (ofK3 (x.and y))
  | .or l r => do
    let a ← sem ρ l
    let b ← sem ρ r
    let x ← a.k3
    let y ← b.k3
    some (ofK3 (x.or y))
  | .isNull e => do
    let v ← sem ρ e
    match v with
    | .null => some (.bool true)
    | _ => some (.bool false)

/-- The literals of the expression are values of their types. -/
def LitOK : X P → Prop
  | .intC w z => Fits w.bits z
  | .dateC z => Fits 32 z
  | .datetimeC z => Fits 64 z
  | .un _ e => LitOK e
  | .ar _ l r | .cmp _ l r | .and l r | .or l r => LitOK l ∧ LitOK r
  | .isNull e => LitOK e
  | _ => True

/-- The operators that the code generator supports: no `%` and `~` on floating-point numbers, although the semantic
analysis accepts them. -/
def Supported : X P → Prop
  | .un op e => Supported e ∧ (op = .tilde → ∃ w, e.ty = some (.int w))
  | .ar op l r => Supported l ∧ Supported r ∧
      (op = .mod → (∃ w, l.ty = some (.int w)) ∧ ∃ w, r.ty = some (.int w))
  | .cmp _ l r | .and l r | .or l r => Supported l ∧ Supported r
  | .isNull e => Supported e
  | _ => True

/-- Sub-expressions. -/
def subs : X P → List (X P)
  | .un op e => .un op e :: subs e
  | .ar op l r => .ar op l r :: (subs l ++ subs r)
  | .cmp c l r => .cmp c l r :: (subs l ++ subs r)
  | .and l r => .and l r :: (subs l ++ subs r)
  | .or l r => .or l r :: (subs l ++ subs r)
  | .isNull e => .isNull e :: subs e
  | e => [e]

/-- A division of integers with a NULL operand, the SQL value of which is NULL, but whose instruction is executed
nevertheless: the divisor is NULL, or the dividend is NULL and the divisor is one that can make the instruction trap. -/
def NullDivision (ρ : Nat → V P) : X P → Prop
  | .ar .div l r => (∃ w, commonTy l r = some (.int w)) ∧
      (sem ρ r = some .null ∨ (sem ρ l = some .null ∧ (sem ρ r = some (.int 0) ∨ sem ρ r = some (.int (-1)))))
  | .ar .mod l r => (∃ w, commonTy l r = some (.int w)) ∧
      (sem ρ r = some .null ∨ (sem ρ l = some .null ∧ sem ρ r = some (.int 0)))
  | _ => False

/-- A Wasm word of type `t` holds the SQL value `v`; of NULL, a boolean must be 0 or 1, and anything else may be any
word. -/
def Rep : (t : DTy) → P.Word t.rep → V P → Prop
  | .bool, w, v => match v with
    | .bool b => w = b2w b
    | .null => ∃ b, w = b2w b
    | _ => False
  | .i8, w, v => RepI (w : BitVec 32) v
  | .i16, w, v => RepI (w : BitVec 32) v
  | .i32, w, v => RepI (w : BitVec 32) v
  | .i64, w, v => RepI (w : BitVec 64) v
  | .f32, w, v => match v with
    | .float x => w = x
    | .null => True
    | _ => False
  | .f64, w, v => match v with
    | .double x => w = x
    | .null => True
    | _ => False
where
  RepI {n : Nat} (w : BitVec n) (v : V P) : Prop :=
    match v with
    | .int z => w.toInt = z
    | .date z => w.toInt = z
    | .null => True
    | _ => False

def V.isNull : V P → Bool
  | .null => true
  | _ => false

/-- The NULL bit of a value. -/
def nullBit (v : V P) : BitVec 32 := b2w v.isNull

/-- The local variables hold the tuple `ρ`, as far as the expression reads it: every attribute is a value of its type, an
attribute declared NOT NULL is not NULL, and the NULL bit of the others is right. -/
def Holds (σ : Locals P) (ρ : Nat → V P) : X P → Prop
  | .attr i t n => (ρ i).Has t ∧ Rep t.d (σ t.d.rep (2 * i)) (ρ i) ∧
      (if n then σ .i32 (2 * i + 1) = nullBit (ρ i) else ρ i ≠ .null)
  | .un _ e => Holds σ ρ e
  | .ar _ l r | .cmp _ l r | .and l r | .or l r => Holds σ ρ l ∧ Holds σ ρ r
  | .isNull e => Holds σ ρ e
  | _ => True

/-- The value of a formula in conjunctive normal form. -/
def semLit (ρ : Nat → V P) (p : X P × Bool) : Option K3 := do
  let v ← sem ρ p.1
  let k ← v.k3
  pure (if p.2 then k.not else k)
def semClause (ρ : Nat → V P) : List (X P × Bool) → Option K3
  | [] => some .F
  | p :: ps => do
    let a ← semLit ρ p
    let b ← semClause ρ ps
    pure (a.or b)
def semCnf (ρ : Nat → V P) : Cnf P → Option K3
  | [] => some .T
  | C :: Cs => do
    let a ← semClause ρ C
    let b ← semCnf ρ Cs
    pure (a.and b)

/-- A clause evaluated from the left, up to the first literal that is TRUE; the literals behind it need not have a
value. -/
def firstTrue (ρ : Nat → V P) : List (X P × Bool) → Option Bool
  | [] => some false
  | p :: ps => do
    let k ← semLit ρ p
    if k = .T then some true else firstTrue ρ ps

/-- An expression accepted by the semantic analysis and by the code generator, of type `τ`. -/
structure WellFormed (e : X P) (τ : Ty) : Prop where
  typed : e.ty = some τ
  supported : Supported e
  literals : LitOK e

/-- A condition: clauses of at least one literal, all of them boolean expressions. -/
def ClauseOK (C : List (X P × Bool)) : Prop := ∀ p ∈ C, WellFormed p.1 .bool
def CnfOK (cnf : Cnf P) : Prop := ∀ C ∈ cnf, C ≠ [] ∧ ClauseOK C

/-- The tuple `ρ` is in the local variables, as far as the condition reads it. -/
def ClauseHolds (σ : Locals P) (ρ : Nat → V P) (C : List (X P × Bool)) : Prop := ∀ p ∈ C, Holds σ ρ p.1
def CnfHolds (σ : Locals P) (ρ : Nat → V P) (cnf : Cnf P) : Prop := ∀ C ∈ cnf, ClauseHolds σ ρ C

/-- The expression contains a division with a NULL operand. -/
def DividesNull (ρ : Nat → V P) (e : X P) : Prop := ∃ x ∈ subs e, NullDivision ρ x
def ClauseDividesNull (ρ : Nat → V P) (C : List (X P × Bool)) : Prop := ∃ p ∈ C, DividesNull ρ p.1
def CnfDividesNull (ρ : Nat → V P) (cnf : Cnf P) : Prop := ∃ C ∈ cnf, ClauseDividesNull ρ C

/-- A result column shows the SQL value `v`. -/
def Shows (r : RVal P) (v : V P) : Prop :=
  match r.2 with
  | none => v = .null
  | some w => v ≠ .null ∧ Rep r.1 w v

/-- The values of a list of expressions. -/
def semList (ρ : Nat → V P) : List (X P) → Option (List (V P))
  | [] => some []
  | e :: es => do
    let v ← sem ρ e
    let vs ← semList ρ es
    pure (v :: vs)

end Mutable.WX
