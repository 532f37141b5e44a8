import Verif.StackMachine.Model
import Verif.SQL.Kleene
import Mathlib.Data.Rat.Floor
import Mathlib.Algebra.Order.Floor.Ring
import Mathlib.Tactic.Ring
import Mathlib.Tactic.Linarith
import Mathlib.Tactic.FieldSimp
import Mathlib.Tactic.NormNum

/-!
Specification of SQL expressions: numbers are exact rationals, NULL is `none`.  Independent of the stack machine.
-/
namespace Mutable.SM

/-- SQL values. -/
inductive SVal where
  | num (q : ℚ) | bool (b : Bool) | str (s : Str) | date (d : Int)

/-- Rounding toward zero. -/
def tr (q : ℚ) : ℤ := if 0 ≤ q then ⌊q⌋ else ⌈q⌉

/-- Truncation to `s` decimal digits after the point. -/
def truncTo (s : Nat) (q : ℚ) : ℚ := tr (q * 10 ^ s) / 10 ^ s

/-- Arithmetic in a result type of scale `s`: exact for `+` and `-`, truncated to the scale for `*` and `/`. -/
def arith (op : Arith) (s : Nat) (x y : ℚ) : ℚ :=
  match op with
  | .add => x + y
  | .sub => x - y
  | .mul => truncTo s (x * y)
  | .div => truncTo s (x / y)
  | .mod => x - y * tr (x / y)

/-- Comparison of two elements of a linear order, given by `<`. -/
def cmpSpec {α : Type} (lt : α → α → Prop) (c : Cmp) (a b : α) : Prop :=
  match c with
  | .lt => lt a b
  | .gt => lt b a
  | .le => ¬ lt b a
  | .ge => ¬ lt a b
  | .eq => a = b
  | .ne => a ≠ b

/-- Lexicographic order of byte strings. -/
def strLt (a b : Str) : Prop := List.Lex (· < ·) a b

open Classical in
/-- Comparison of SQL values; NULL if an operand is NULL. -/
noncomputable def cmpVal (c : Cmp) : Option SVal → Option SVal → Option SVal
  | some (.num a), some (.num b) => some (.bool (decide (cmpSpec (· < ·) c a b)))
  | some (.str a), some (.str b) => some (.bool (decide (cmpSpec strLt c a b)))
  | some (.date a), some (.date b) => some (.bool (decide (cmpSpec (· < ·) c a b)))
  | some (.bool a), some (.bool b) => some (.bool (decide (cmpSpec (fun x y => x = false ∧ y = true) c a b)))
  | _, _ => none

/-- Arithmetic on SQL values; NULL if an operand is NULL. -/
def arithVal (op : Arith) (s : Nat) : Option SVal → Option SVal → Option SVal
  | some (.num x), some (.num y) => some (.num (arith op s x y))
  | _, _ => none

/-- Truth value of a SQL value. -/
def k3 : Option SVal → SQL.K3
  | some (.bool true) => .T
  | some (.bool false) => .F
  | _ => .N

/-- SQL value of a truth value. -/
def ofK3 : SQL.K3 → Option SVal
  | .T => some (.bool true)
  | .F => some (.bool false)
  | .N => none

/-- The SQL value of an expression; `env t i` is field `i` of tuple `t`, `like` the meaning of `LIKE`. -/
noncomputable def sem (like : Str → Str → Bool) (env : Nat → Nat → Option SVal) : E → Option SVal
  | .attr t i _ => env t i
  | .const v ty =>
    match ty, v with
    | .num _ s, .i z => some (.num (z / 10 ^ s))
    | .bool, .b x => some (.bool x)
    | .str, .s x => some (.str x)
    | .date, .i z => some (.date z)
    | _, _ => none
  | .null => none
  | .isNull e => some (.bool (sem like env e).isNone)
  | .castInt e =>
    match sem like env e with
    | some (.bool b) => some (.num (if b then 1 else 0))
    | v => v
  | .un op e =>
    match op, sem like env e with
    | .plus, v => v
    | .minus, some (.num q) => some (.num (-q))
    | .tilde, some (.num q) => some (.num (-q - 1))
    | .not, v => ofK3 (k3 v).not
    | _, _ => none
  | .ar op l r => arithVal op (join l.ty r.ty).scale (sem like env l) (sem like env r)
  | .cat l r =>
    match sem like env l, sem like env r with
    | some (.str x), some (.str y) => some (.str (x ++ y))
    | _, _ => none
  | .cmp c l r => cmpVal c (sem like env l) (sem like env r)
  | .likeC l p =>
    match sem like env l with
    | some (.str x) => some (.bool (like x p))
    | _ => none
  | .like l r =>
    match sem like env l, sem like env r with
    | some (.str x), some (.str y) => some (.bool (like x y))
    | _, _ => none
  | .and l r => ofK3 ((k3 (sem like env l)).and (k3 (sem like env r)))
  | .or l r => ofK3 ((k3 (sem like env l)).or (k3 (sem like env r)))

/-- The checks of `Sema` (src/parse/Sema.cpp:717-955): the expressions that reach the compiler. -/
def WT : E → Prop
  | .attr _ _ t => t ≠ .none
  | .const v t =>
    match t, v with
    | .num _ _, .i _ => True
    | .bool, .b _ => True
    | .str, .s _ => True
    | .date, .i _ => True
    | _, _ => False
  | .null => True
  | .isNull e => WT e
  | .castInt e => WT e ∧ (e.ty = .bool ∨ e.ty = .num false 0)
  | .un op e => WT e ∧
    match op with
    | .not => e.ty = .bool
    | .tilde => ∃ d, e.ty = .num d 0
    | _ => ∃ d s, e.ty = .num d s
  | .ar _ l r => WT l ∧ WT r ∧ (∃ d s, l.ty = .num d s) ∧ (∃ d s, r.ty = .num d s)
  | .cat l r => WT l ∧ WT r ∧ l.ty = .str ∧ r.ty = .str
  | .cmp c l r => WT l ∧ WT r ∧
    (((∃ d s, l.ty = .num d s) ∧ (∃ d s, r.ty = .num d s)) ∨
      (l.ty = .bool ∧ r.ty = .bool ∧ (c = .eq ∨ c = .ne)) ∨ (l.ty = .str ∧ r.ty = .str) ∨
      (l.ty = .date ∧ r.ty = .date))
  | .likeC l _ => WT l ∧ l.ty = .str
  | .like l r => WT l ∧ WT r ∧ l.ty = .str ∧ r.ty = .str
  | .and l r => WT l ∧ WT r ∧ l.ty = .bool ∧ r.ty = .bool
  | .or l r => WT l ∧ WT r ∧ l.ty = .bool ∧ r.ty = .bool

/-- The sub-expressions of an expression. -/
def subs : E → List E
  | .attr t i ty => [.attr t i ty]
  | .const v ty => [.const v ty]
  | .null => [.null]
  | .isNull e => .isNull e :: subs e
  | .castInt e => .castInt e :: subs e
  | .un op e => .un op e :: subs e
  | .ar op l r => .ar op l r :: (subs l ++ subs r)
  | .cat l r => .cat l r :: (subs l ++ subs r)
  | .cmp c l r => .cmp c l r :: (subs l ++ subs r)
  | .likeC l p => .likeC l p :: subs l
  | .like l r => .like l r :: (subs l ++ subs r)
  | .and l r => .and l r :: (subs l ++ subs r)
  | .or l r => .or l r :: (subs l ++ subs r)

/-- A machine slot holds the SQL value `o` of type `ty`: the NULL bit is set iff the value is NULL, and otherwise the
value is represented; a decimal of scale `s` by the integer that is `10 ^ s` times the number. -/
def Holds (ty : ETy) (x : Slot) (o : Option SVal) : Prop :=
  x.2 = o.isNone ∧
  match ty with
  | .num _ s => ∃ z, x.1 = .i z ∧ ∀ v, o = some v → v = .num (z / 10 ^ s)
  | .bool => ∀ v, o = some v → ∃ b, x.1 = .b b ∧ v = .bool b
  | .str => ∃ t, x.1 = .s t ∧ ∀ v, o = some v → v = .str t
  | .date => ∃ z, x.1 = .i z ∧ ∀ v, o = some v → v = .date z
  | .none => o = none

/-- What the compiled code needs of one (sub-)expression: the powers of ten used for scaling fit into 64 bits, and `%`
is applied to integers only. -/
def ScaleOK : E → Prop
  | .ar .add l r | .ar .sub l r | .cmp _ l r =>
    (join l.ty r.ty).scale - l.ty.scale ≤ 18 ∧ (join l.ty r.ty).scale - r.ty.scale ≤ 18
  | .ar .mul l r => l.ty.scale + r.ty.scale - (join l.ty r.ty).scale ≤ 18
  | .ar .div l r => (join l.ty r.ty).scale + r.ty.scale - l.ty.scale ≤ 18
  | .ar .mod l r => l.ty.scale = 0 ∧ r.ty.scale = 0
  | _ => True

/-- No operand of `..` is NULL. -/
def CatOK (like : Str → Str → Bool) (env : Nat → Nat → Option SVal) : E → Prop
  | .cat l r => sem like env l ≠ none ∧ sem like env r ≠ none
  | _ => True

/-- The tuples hold the values of the attributes. -/
def AttrOK (M : Mach) (env : Nat → Nat → Option SVal) : E → Prop
  | .attr t i ty => t < 256 ∧ i < 256 ∧ Holds ty (M.tup t i) (env t i)
  | _ => True

/-- A division or modulo whose divisor is zero or NULL. -/
def DivBad (like : Str → Str → Bool) (env : Nat → Nat → Option SVal) : E → Prop
  | .ar .div _ r | .ar .mod _ r => sem like env r = none ∨ sem like env r = some (.num 0)
  | _ => False

end Mutable.SM
