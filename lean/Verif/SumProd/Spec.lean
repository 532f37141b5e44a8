import Verif.SumProd.Model
import Mathlib.Data.List.Dedup
/-
What sum-product networks are about: fractions of rows.
-/
namespace Mutable.SumProd

/-- A value, or NULL, meets a condition. -/
def sat (op : Op) (v : ℚ) : Option ℚ → Bool
  | none => op = .isNull
  | some x => match op with
    | .eq => decide (x = v)
    | .lt => decide (x < v)
    | .le => decide (x ≤ v)
    | .gt => decide (v < x)
    | .ge => decide (v ≤ x)
    | .isNull => false

/-- The fraction of the entries of a column that meet a condition. -/
def fracCol (col : List (Option ℚ)) (op : Op) (v : ℚ) : ℚ := (col.countP (sat op v)) / col.length

/-- The fraction of the rows whose attribute `a` meets a condition. -/
def frac (rows : List Row) (a : Nat) (op : Op) (v : ℚ) : ℚ := fracCol (rows.map fun r => r a) op v

/-- The different values, without NULL, of an attribute. -/
def values (rows : List Row) (a : Nat) : List ℚ := (rows.filterMap fun r => r a).dedup

mutual
/-- The decisions of the learning algorithm are what they are meant to be: a leaf has one variable; clusters partition the rows and are not empty;
groups of columns partition the variables. -/
def Shape.Valid (vars : List Nat) (rows : List Row) : Shape → Prop
  | .leaf => ∃ a, vars = [a]
  | .sum cs => cs.Valid vars ∧ cs.rows.Perm rows
  | .prod cs => cs.Valid rows ∧ cs.vars.Perm vars ∧ vars.Nodup
/-- The clusters. -/
def SumShape.Valid (vars : List Nat) : SumShape → Prop
  | .nil => True
  | .cons part s cs => part ≠ [] ∧ s.Valid vars part ∧ cs.Valid vars
/-- The groups. -/
def ProdShape.Valid (rows : List Row) : ProdShape → Prop
  | .nil => True
  | .cons vs s cs => s.Valid vs rows ∧ cs.Valid rows
/-- The rows of all clusters. -/
def SumShape.rows : SumShape → List Row
  | .nil => []
  | .cons part _ cs => part ++ cs.rows
/-- The variables of all groups. -/
def ProdShape.vars : ProdShape → List Nat
  | .nil => []
  | .cons vs _ cs => vs ++ cs.vars
end

/-- An insertion or a deletion. -/
inductive Upd | ins (v : ℚ) | del (v : ℚ)

/-- The column after an update. -/
def Upd.apply (col : List (Option ℚ)) : Upd → List (Option ℚ)
  | .ins v => col ++ [some v]
  | .del v => col.erase (some v)

/-- Values that are deleted are in the column, and one entry remains. -/
def UpdsOk : List (Option ℚ) → List Upd → Prop
  | _, [] => True
  | col, .ins v :: us => UpdsOk (col ++ [some v]) us
  | col, .del v :: us => some v ∈ col ∧ 2 ≤ col.length ∧ UpdsOk (col.erase (some v)) us

/-- The leaf after an update. -/
def Upd.applyLeaf (x : Node) : Upd → Node
  | .ins v => insertLeaf v x
  | .del v => deleteLeaf v x

/-- What a leaf answers. -/
def ask (x : Node) (op : Op) (v : ℚ) : ℚ := x.eval [(0, (op, v))] 0

mutual
/-- No clusters. -/
def Shape.NoSum : Shape → Prop
  | .leaf => True
  | .sum _ => False
  | .prod cs => cs.NoSum
/-- No clusters in any group. -/
def ProdShape.NoSum : ProdShape → Prop
  | .nil => True
  | .cons _ s cs => s.NoSum ∧ cs.NoSum
end

/-- A row without NULL. -/
def full (row : Nat → ℚ) : Row := fun a => some (row a)

/-- The fraction of the entries that are greater than `a` and at most `b`. -/
def fracIn (col : List (Option ℚ)) (a b : ℚ) : ℚ :=
  (col.countP fun x => match x with | some y => decide (a < y ∧ y ≤ b) | none => false) / col.length

/-- The bounds of a bin of a continuous leaf. -/
def CLeaf.HasBin (x : CLeaf) (a b : ℚ) : Prop := (a, b) ∈ (x.lower :: x.bins.map (·.upper)).zip (x.bins.map (·.upper))

/-- The leaf after an update. -/
def Upd.applyCont (x : CLeaf) : Upd → CLeaf
  | .ins v => x.insert v
  | .del v => x.delete v

/-- Values that are deleted are in the column, and are not the lower bound of the leaf, which is the least value ever inserted or learned. -/
def UpdsOkC (lo : ℚ) : List (Option ℚ) → List Upd → Prop
  | _, [] => True
  | col, .ins v :: us => UpdsOkC (min lo v) (col ++ [some v]) us
  | col, .del v :: us => some v ∈ col ∧ v ≠ lo ∧ 2 ≤ col.length ∧ UpdsOkC lo (col.erase (some v)) us

end Mutable.SumProd
