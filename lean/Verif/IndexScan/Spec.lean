import Verif.IndexScan.Model

/-!
Specification of filters, independent of indexes: which rows a condition selects.
-/
namespace Mutable.IScan

/-- The value of a literal; `none` is NULL. -/
def Lit.val : Lit → Option ℚ
  | .int z => some z
  | .flt q => some q
  | .bool b => some (if b then 1 else 0)
  | .date d => some d
  | .datetime d => some d
  | .null => none

/-- The value of an operand, given those of the attributes. -/
def Operand.sem (env : Nat → Option ℚ) : Operand → Option ℚ
  | .attr a => env a
  | .lit l => l.val
  | .sign neg l => l.val.map fun q => if neg then -q else q
  | .other _ f => f env

def Rel.holds : Rel → ℚ → ℚ → Bool
  | .eq, x, y => x = y
  | .ne, x, y => x ≠ y
  | .lt, x, y => x < y
  | .le, x, y => x ≤ y
  | .gt, x, y => x > y
  | .ge, x, y => x ≥ y

/-- The truth value of a predicate; `none` is NULL. -/
def Pred.sem (env : Nat → Option ℚ) : Pred → Option Bool
  | .cmp r x y =>
    match x.sem env, y.sem env with
    | some p, some q => some (r.holds p q)
    | _, _ => none
  | .other _ f => f env

/-- A condition is TRUE iff in every clause some literal is. -/
def passes (env : Nat → Option ℚ) (cnf : Cnf) : Bool := cnf.all fun C => C.any fun p => p.2.sem env == some (!p.1)

/-- The values of the attributes of a row. -/
def Row.env (tys : List KTy) (r : Row) (a : Nat) : Option ℚ :=
  (r.getD a none).map fun z => z / 10 ^ (tys.getD a .bool).scale

/-- What a filter over a scan of the table returns. -/
def scanFilter (T : Table) (cnf : Cnf) : List Row := T.rows.filter fun r => passes (Row.env T.tys r) cnf

/-! ### Restrictions -/

/-- Column types that exist. -/
def KTy.Valid : KTy → Prop
  | .int n | .decimal n _ => n = 1 ∨ n = 2 ∨ n = 4 ∨ n = 8
  | _ => True

/-- The values of a row fit the types of the columns. -/
def RowOK (tys : List KTy) (r : Row) : Prop :=
  ∀ a ty v, tys[a]? = some ty → r.getD a none = some v → -2 ^ (ty.bits - 1) ≤ v ∧ v < 2 ^ (ty.bits - 1)

/-- A constant a column may be compared with: a literal of the type of the column and within its range. -/
def BoundOK : KTy → Bound → Prop
  | .bool, b => ∃ x, b = ⟨.bool x, false⟩
  | .int n, b => ∃ z neg, b = ⟨.int z, neg⟩ ∧ 0 ≤ z ∧ z < 2 ^ (8 * n - 1)
  | .decimal n s, b => s = 0 ∧ ∃ z neg, b = ⟨.int z, neg⟩ ∧ 0 ≤ z ∧ z < 2 ^ (8 * n - 1)
  | .date, b => ∃ d, b = ⟨.date d, false⟩ ∧ -2 ^ 31 ≤ d ∧ d < 2 ^ 31
  | .datetime, b => ∃ d, b = ⟨.datetime d, false⟩ ∧ -2 ^ 63 ≤ d ∧ d < 2 ^ 63

/-- All attributes that occur in the condition are `a`. -/
def OnlyAttr (a : Nat) (cnf : Cnf) : Prop := ∀ C ∈ cnf, ∀ p ∈ C, ∀ a' ∈ p.2.req, a' = a

/-- All constants compared are acceptable. -/
def BoundsOK (ty : KTy) (cnf : Cnf) : Prop :=
  ∀ C ∈ cnf, ∀ p ∈ C, ∀ r x y, p.2 = Pred.cmp r x y → ∀ b, (x.bound = some b ∨ y.bound = some b) → BoundOK ty b

/-- There is a valid index on the table. -/
def DB.indexed (db : DB) (t : Nat) : Prop := ∃ e ∈ db.idxs, e.valid = true ∧ e.table = t

/-- Statements that do not make an index stale: no import into a table with a valid index, and no `INSERT` into one that
exceeds the store's capacity. -/
def Careful (db : DB) : Stmt → Prop
  | .createTable _ tys _ => ∀ ty ∈ tys, ty.Valid
  | .insert t rows => ∀ T, db.tables t = some T → (∀ r ∈ rows, RowOK T.tys r) ∧
      (T.rows.length + rows.length ≤ T.cap ∨ ¬ db.indexed t)
  | .importDSV t rows => ∀ T, db.tables t = some T → (∀ r ∈ rows, RowOK T.tys r) ∧ ¬ db.indexed t
  | _ => True

/-- The databases reachable by careful statements. -/
inductive Reach : DB → Prop where
  | init : Reach DB.init
  | step {db db'} (s : Stmt) : Reach db → Careful db s → Step db s db' → Reach db'

end Mutable.IScan
