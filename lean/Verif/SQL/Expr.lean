import Verif.SQL.Kleene
/-! Typed SQL expressions as they leave semantic analysis. -/
namespace Mutable.SQL

/-- Unary operators.  include/mutable/parse/AST.hpp:323-345 (`UnaryExpr`), src/parse/Parser.cpp (TK_PLUS, TK_MINUS,
TK_TILDE, TK_Not). -/
inductive UnOp | plus | minus | tilde | not
  deriving DecidableEq, Repr

/-- Binary operators.  src/parse/Sema.cpp:767-955, the cases of the switch. -/
inductive BinOp | plus | minus | asterisk | slash | percent | dotdot | less | lessEq | greater | greaterEq
  | equal | bangEqual | like | and | or
  deriving DecidableEq, Repr

/-- Expressions.  include/mutable/parse/AST.hpp:38-420.  Simplification: `ErrorExpr`, `Designator`, `Constant`,
`FnApplicationExpr` and `QueryExpr` are leaves identified by a number, since the code modelled with this type treats
them alike (as opaque atoms). -/
inductive Expr
  | leaf (id : Nat)
  | unary (op : UnOp) (e : Expr)
  | binary (op : BinOp) (lhs rhs : Expr)
  deriving DecidableEq, Repr

/-- Type classes distinguished by the analyser.  include/mutable/catalog/Type.hpp. -/
inductive Ty | bool | num | char | date | datetime
  deriving DecidableEq, Repr

/-- Type of an expression under leaf types `Γ`, or `none` when `Sema` reports an error.
src/parse/Sema.cpp:717-752 (`UnaryExpr`), :754-955 (`BinaryExpr`).  Simplification: precision, length and
scalar/vectorial category are dropped; `is_comparable` is equality of type classes (include/mutable/catalog/Type.hpp:547-554). -/
def typeOf (Γ : Nat → Ty) : Expr → Option Ty
  | .leaf i => some (Γ i)
  | .unary .not e => if typeOf Γ e = some .bool then some .bool else none
  | .unary _ e => if typeOf Γ e = some .num then some .num else none
  | .binary op l r =>
    match typeOf Γ l, typeOf Γ r with
    | some tl, some tr =>
      match op with
      | .plus | .minus | .asterisk | .slash | .percent => if tl = .num ∧ tr = .num then some .num else none
      | .dotdot => if tl = .char ∧ tr = .char then some .char else none
      | .less | .lessEq | .greater | .greaterEq => if tl = tr ∧ tl ≠ .bool then some .bool else none
      | .equal | .bangEqual => if tl = tr then some .bool else none
      | .like => if tl = .char ∧ tr = .char then some .bool else none
      | .and | .or => if tl = .bool ∧ tr = .bool then some .bool else none
    | _, _ => none

end Mutable.SQL
