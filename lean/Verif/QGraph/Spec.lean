import Verif.QGraph.Model
import Verif.CNF.Props
import Mathlib.Data.List.Perm.Basic

/-! Specification: what FROM and WHERE mean. -/
namespace Mutable.QG
open SQL CNF

variable {Row V : Type}

/-- All combinations of one row of each data source, in the order of FROM. -/
def fromRows : List (List Row) → List (List Row)
  | [] => [[]]
  | B :: Bs => B.flatMap fun r => (fromRows Bs).map fun c => r :: c

/-- The combination as a tuple. -/
def asTuple (names : List Nat) (c : List Row) : Tup Row := names.zip c

/-- WHERE holds iff its value is TRUE (not FALSE and not NULL): connectives are those of three-valued logic. -/
def whereHolds (L : Nat → Leaf Row V) (I : Ops V) (Γ : Nat → Ty) (wher : Option Expr) (t : Tup Row) : Prop :=
  match wher with
  | none => True
  | some e => sqlVal Γ (atom L I t) e = .T

instance (L : Nat → Leaf Row V) (I : Ops V) (Γ : Nat → Ty) (wher : Option Expr) (t : Tup Row) :
    Decidable (whereHolds L I Γ wher t) := by
  cases wher <;> rw [whereHolds] <;> infer_instance

/-- The rows of a tuple in the order of FROM. -/
def rowsOf (names : List Nat) (t : Tup Row) : List (Option Row) := names.map (look t)

/-- The result of `FROM names WHERE wher`: a bag of combinations of rows. -/
def fromWhere (L : Nat → Leaf Row V) (I : Ops V) (Γ : Nat → Ty) (names : List Nat) (rows : Nat → List Row) (wher : Option Expr) :
    List (List (Option Row)) :=
  ((fromRows ((List.range names.length).map rows)).filter fun c => whereHolds L I Γ wher (asTuple names c)).map (·.map some)

/-- The statement as semantic analysis lets it pass: names of data sources are unique, WHERE is Boolean and mentions
data sources of FROM only. -/
structure Checked (L : Nat → Leaf Row V) (Γ : Nat → Ty) (names : List Nat) (wher : Option Expr) : Prop where
  nodup : names.Nodup
  bool : ∀ e ∈ wher, typeOf Γ e = some .bool
  bound : ∀ e ∈ wher, ∀ n ∈ exprSources L e, n ∈ names

end Mutable.QG
