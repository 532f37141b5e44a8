import Verif.WasmJoin.Model
import Verif.WasmAgg.Spec
import Verif.WasmSort.Compare

/-!
Specification of joins: all pairs of qualifying rows for which the predicate is true.  `=` is true if both sides have the same
value and are not NULL.
-/
namespace Mutable.WasmJoin
open Mutable.WasmAgg

section
variable {A B V : Type}

/-- `x = y` is true in SQL. -/
def SqlEq (x y : Option V) : Prop := x ≠ none ∧ x = y

instance [DecidableEq V] (x y : Option V) : Decidable (SqlEq x y) := inferInstanceAs (Decidable (_ ∧ _))

/-- All equalities between the keys are true. -/
def KeysEq (x y : List (Option V)) : Prop := List.Forall₂ SqlEq x y

instance [DecidableEq V] : (x y : List (Option V)) → Decidable (KeysEq x y)
  | [], [] => isTrue .nil
  | [], _ :: _ => isFalse (by intro h; cases h)
  | _ :: _, [] => isFalse (by intro h; cases h)
  | a :: x, b :: y =>
    have : Decidable (KeysEq x y) := instDecidableKeysEqOfDecidableEq x y
    if h : SqlEq a b ∧ KeysEq x y then isTrue (.cons h.1 h.2)
    else isFalse (by intro h'; cases h' with | cons h1 h2 => exact h ⟨h1, h2⟩)

/-- All pairs for which the predicate holds. -/
def pairs (p : A → B → Prop) [∀ a b, Decidable (p a b)] (L : List A) (R : List B) : List (A × B) :=
  R.flatMap fun r => (L.filter fun l => p l r).map fun l => (l, r)

/-- No two rows with the same key (rows with a NULL in the key do not count): what `UNIQUE` demands. -/
def UniqueKeys (k : A → List (Option V)) (L : List A) : Prop := L.Pairwise fun a b => ¬ KeysEq (k a) (k b)

variable [LinearOrder V]

/-- A value strictly before another one: NULL comes first. -/
def ValBefore : Option V → Option V → Prop
  | none, some _ => True
  | some a, some b => a < b
  | _, none => False

/-- Lexicographic order of keys, NULL first. -/
def KeyLe : List (Option V) → List (Option V) → Prop
  | x :: xs, y :: ys => ValBefore x y ∨ (x = y ∧ KeyLe xs ys)
  | _, _ => True

/-- The rows are ordered by their keys. -/
def SortedBy (k : A → List (Option V)) (L : List A) : Prop := L.Pairwise fun a b => KeyLe (k a) (k b)

/-- Is the key at most the other one in every component? -/
def AllLe (x y : List (Option V)) : Prop := List.Forall₂ (fun a b => ValBefore a b ∨ a = b) x y

end

/-! ### Group-join -/

section
variable {B P V C : Type}

/-- The rows of the join. -/
def joined [DecidableEq V] (bval : C → B → Option V) (pval : C → P → Option V) (on : List (C × C)) (bs : List B)
    (ps : List P) : List (B × P) :=
  (bs.flatMap fun b => ps.map fun p => (b, p)).filter fun x => ∀ xy ∈ on, SqlEq (bval xy.1 x.1) (pval xy.2 x.2)

/-- The value of an argument on a joined row: a column of one of the two relations. -/
def argOf (evB : Arg → B → Option Val) (evP : Arg → P → Option Val) (inB : Arg → Bool) (a : Arg) (x : B × P) : Option Val :=
  if inB a then evB a x.1 else evP a x.2

/-- The width of a numeric type is that of a machine integer. -/
def ValidTy : Ty → Prop
  | .int w => w = 8 ∨ w = 16 ∨ w = 32 ∨ w = 64
  | .dec w _ => w = 8 ∨ w = 16 ∨ w = 32 ∨ w = 64
  | _ => True

/-- The arguments bound in the relation have values of their types on the row, NULL only if nullable. -/
def RowOkIn {R : Type} (ev : Arg → R → Option Val) (inS : Arg → Bool) (aggs : List Agg) (r : R) : Prop :=
  ∀ g ∈ aggs, ∀ a, g.arg = some a → inS a = true →
    (a.nullable = false → ev a r ≠ none) ∧ ∀ v, ev a r = some v → Fits a.ty v

/-- The grouping key of a joined row, with the names of the columns. -/
def groupKey (bval : C → B → Option V) (groupBy : List C) (x : B × P) : List (C × Option V) :=
  groupBy.map fun c => (c, bval c x.1)

end

end Mutable.WasmJoin
