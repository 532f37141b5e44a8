import Verif.StackMachine.Spec
import Verif.Insert.Store

/-!
Specification of `INSERT`, independent of how tuples are filled and stored: what each inserted row should contain, and
what a table contains.
-/
namespace Mutable.Ins

open SM Layout

/-- Digits after the decimal point a column keeps. -/
def Col.digits (c : Col) : Nat := match c.ty with | .decimal _ => c.scale | _ => 0

/-- Conversion of a value to the type of a column: numbers lose the digits the column has no room for. -/
def convert (c : Col) : SVal → SVal
  | .num q => .num (truncTo c.digits q)
  | v => v

/-- The value of an item of a tuple, `none` is NULL.  (There are no user-defined defaults: `DEFAULT` means NULL.) -/
noncomputable def itemVal (like : Str → Str → Bool) (c : Col) : Item → Option SVal
  | .null => none
  | .dflt => none
  | .expr e _ => (sem like (fun _ _ => none) e).map (convert c)

/-- The row for a tuple: one value per column, the hidden ones being the timestamps. -/
noncomputable def specRow (like : Str → Str → Bool) (start : Int) : List Col → List Item → List (Option SVal)
  | [], _ => []
  | c :: cs, its =>
    match c.kind with
    | .tsBegin => some (.num start) :: specRow like start cs its
    | .tsEnd => some (.num (-1)) :: specRow like start cs its
    | .user =>
      match its with
      | [] => none :: specRow like start cs []
      | it :: its => itemVal like c it :: specRow like start cs its

/-- The SQL value represented by a value of a column. -/
def toS (c : Col) : RVal → Option SVal
  | .i z =>
    match c.ty with
    | .int _ => some (.num z)
    | .decimal _ => some (.num (z / 10 ^ c.scale))
    | .date => some (.date z)
    | .datetime => some (.date z)
    | _ => none
  | .b x => some (.bool x)
  | .s x => some (.str x)
  | .z => none

/-- The contents of a table, as a full scan returns them. -/
def contents (T : Table) (st : Store) : List (List (Option SVal)) :=
  (scanTable T st).map (fun r => List.zipWith (fun c v => v.bind (toS c)) T.cols r)

/-- The column has room for the value. -/
def Fits (c : Col) : SVal → Prop
  | .num q => -2 ^ (c.ty.size - 1) ≤ tr (q * 10 ^ c.digits) ∧ tr (q * 10 ^ c.digits) < 2 ^ (c.ty.size - 1)
  | .date d => -2 ^ (c.ty.size - 1) ≤ d ∧ d < 2 ^ (c.ty.size - 1)
  | .str s => IsStr s ∧ ∀ n v, c.ty = .char n v → s.length ≤ n
  | .bool _ => True

/-- The columns of a table: those declared by the user, behind the two timestamps if the table is multi-versioned. -/
def TableCols (cols : List Col) : Prop :=
  ∃ user : List Col, (∀ c ∈ user, c.kind = .user) ∧ (cols = user ∨ cols = mvCols ++ user)

/-- The visible columns. -/
def visible (cols : List Col) : List Col := cols.filter (fun c => !c.hidden)

/-- The items a column accepts: `NULL` unless it is declared `NOT NULL`, `DEFAULT`, and expressions of its kind of type. -/
inductive Acceptable : Col → Item → Prop where
  | null {c} : c.nullable = true → Acceptable c .null
  | dflt {c} : Acceptable c .dflt
  | bool {c e dt} : c.ty = .bool → e.ty = .bool → Acceptable c (.expr e dt)
  | str {c e dt n v} : c.ty = .char n v → e.ty = .str → Acceptable c (.expr e dt)
  | date {c e} : c.ty = .date → e.ty = .date → Acceptable c (.expr e false)
  | datetime {c e} : c.ty = .datetime → e.ty = .date → Acceptable c (.expr e true)
  | int {c e dt n d s} : c.ty = .int n → e.ty = .num d s → Acceptable c (.expr e dt)
  | decimal {c e dt n d s} : c.ty = .decimal n → e.ty = .num d s → Acceptable c (.expr e dt)

/-- No attribute occurs in the expression (there is no `FROM` an `INSERT` could refer to). -/
def NoAttr (e : E) : Prop := ∀ x ∈ subs e, ∀ t i ty, x ≠ .attr t i ty

/-- The type is not an integer with a scale: integers have scale 0. -/
def IntScale : ETy → Prop
  | .num false s => s = 0
  | _ => True

/-- The restrictions of C34 on an expression, and that the power of ten of the cast fits into 64 bits. -/
structure ExprOK (like : Str → Str → Bool) (c : Col) (e : E) : Prop where
  wt : WT e
  int : IntScale e.ty
  noAttr : NoAttr e
  scale : ∀ x ∈ subs e, ScaleOK x
  cat : ∀ x ∈ subs e, CatOK like (fun _ _ => none) x
  cast : c.digits - e.ty.scale ≤ 18 ∧ e.ty.scale - c.digits ≤ 18

/-- One tuple: its expressions are covered, their values fit, and a column that is not nullable gets a value. -/
structure TupleOK (like : Str → Str → Bool) (cols : List Col) (its : List Item) : Prop where
  expr : ∀ (j : Nat) c e dt, (visible cols)[j]? = some c → its[j]? = some (Item.expr e dt) → ExprOK like c e
  fits : ∀ (j : Nat) c e dt v, (visible cols)[j]? = some c → its[j]? = some (Item.expr e dt) →
    sem like (fun _ _ => none) e = some v → Fits c v
  notNull : ∀ (j : Nat) c it, (visible cols)[j]? = some c → its[j]? = some it → c.nullable = false → itemVal like c it ≠ none
  consts : (emitItems cols ⟨[], []⟩ 0 its).ctx.length ≤ 256

/-- A column that is `DEFAULT` in a tuple is `DEFAULT` or `NULL` in all tuples before it. -/
def DefaultsOK (tuples : List (List Item)) : Prop :=
  tuples.Pairwise fun t t' => ∀ j : Nat, t'[j]? = some Item.dflt → t[j]? = some Item.dflt ∨ t[j]? = some Item.null

/-- If there are hidden columns, no tuple contains `NULL`. -/
def NullsOK (cols : List Col) (tuples : List (List Item)) : Prop :=
  (∀ c ∈ cols, c.kind = .user) ∨ ∀ t ∈ tuples, Item.null ∉ t

end Mutable.Ins
