import Verif.Deliver.Model

/-!
# What a client should see

Independent of the two back ends: the value of an expression on a row, the rows of a SELECT list, and
their text.
-/
namespace Mutable.Deliver

/-- The value of the column `id` of a row. -/
def column {α} (env : Env α) (id : Ident) : Option (Option α) :=
  (env.find? (fun p => decide (p.1 = id))).map (·.2)

/-- Compute an expression from the columns of a row: designators and aggregates name columns. -/
def compute {α} (sem : Sem α) (env : Env α) : Ex α → Option (Option α)
  | .des t a => column env ⟨t, a⟩
  | .const _ v => some v
  | .aggNil f => column env ⟨none, f ++ "()"⟩
  | .agg f e => column env ⟨none, f ++ "(" ++ e.print ++ ")"⟩
  | .call f e => (compute sem env e).map (sem.call f)
  | .un op e => (compute sem env e).map (sem.un op)
  | .bin op l r => (compute sem env l).bind fun a => (compute sem env r).map fun b => sem.bin op a b

/-- The value of an expression on a row: a constant is itself; if the row has a column that *is* this
expression (a grouping key, an expression projected below), that column; else what is computed from the
columns. -/
def value {α} (sem : Sem α) (env : Env α) : Ex α → Option (Option α)
  | .const _ v => some v
  | e =>
    match column env (exprId e) with
    | some v => some v
    | none => compute sem env e

/-- The result row: item by item, names play no role. -/
def specRow {α} (sem : Sem α) (items : List (Item α)) (env : Env α) : Option (List (Option α)) :=
  items.mapM fun it => value sem env it.e

/-- The text of a row: the values, separated by commas. -/
def rowText {α} (items : List (Item α)) (row : List (Option α)) : List (Out α) :=
  ((items.zip row).map fun p => Out.item p.1.ty p.2).intersperse Out.sep ++ [Out.nl]

/-- All rows, in order. -/
def specRows {α} (sem : Sem α) (items : List (Item α)) (envs : List (Env α)) :
    Option (List (List (Option α))) :=
  envs.mapM (specRow sem items)

/-- The text of all rows, in order. -/
def specPrint {α} (sem : Sem α) (items : List (Item α)) (envs : List (Env α)) : Option (List (Out α)) :=
  (specRows sem items envs).map fun rows => rows.flatMap (rowText items)

/-- The input rows that qualify: those of the packs whose predicate holds. -/
def kept {β} (packs : List (List β × Bool)) : List β := (packs.filter (·.2)).flatMap (·.1)

/-- An unaliased constant. -/
def Item.isConst {α} (it : Item α) : Prop :=
  match it.e, it.as_ with
  | .const _ _, none => True
  | _, _ => False

/-- Expressions that are looked up by name in the row below: designators and aggregates. -/
def Ex.isName {α} : Ex α → Prop
  | .des _ _ => True
  | .aggNil _ => True
  | .agg _ _ => True
  | _ => False

/-- Names of the SELECT list that the generated code can tell apart: columns of the same name are the same
expression; a name the row below already has is given to that very column; and an expression the row
below already has a column for is not given another name. -/
structure NoClash {α} (items : List (Item α)) (cols : List Ident) : Prop where
  same : ∀ a ∈ items, ∀ b ∈ items, ¬ a.isConst → ¬ b.isConst → projId a = projId b →
    a.e = b.e ∧ a.ty = b.ty
  below : ∀ a ∈ items, ¬ a.isConst → projId a ∈ cols → exprId a.e = projId a ∧ ∀ t v, a.e ≠ .const t v
  again : ∀ a ∈ items, a.as_ ≠ none → exprId a.e ∈ cols → a.e.isName

/-- The reserved name of constants is not used by the statement (it is no identifier of the lexer). -/
def ReservedFree {α} (items : List (Item α)) : Prop :=
  ∀ it ∈ items, it.as_ ≠ some "$const" ∧ it.e ≠ .des none "$const"

/-- Input rows of a plan: each has exactly the columns `cols`, every item of the SELECT list has a value on
it, and items of the type of NULL are NULL. -/
structure GoodRow {α} (sem : Sem α) (items : List (Item α)) (cols : List Ident) (env : Env α) : Prop where
  cols : env.map (·.1) = cols
  val : ∀ it ∈ items, (value sem env it.e).isSome
  null : ∀ it ∈ items, it.ty = .null → value sem env it.e = some none

/-- The buffer sizes for which the windows of the result set are sound: no window, or windows of a
multiple of the number `L` of rows per pack and no row rejected by predication (or no columns to store). -/
def WindowOk {β} (noCols : Prop) (w L : Nat) (packs : List (List β × Bool)) : Prop :=
  w = 0 ∨ (L ∣ w ∧ L < w ∧ ((∀ p ∈ packs, p.2 = true) ∨ noCols))

/-- The SELECT lists whose rows a callback gets right: no unaliased constant among the columns, or nothing
else, or two columns of the same name (all unaliased constants have the same name). -/
def CallbackSafe {α} (items : List (Item α)) : Prop :=
  (∀ it ∈ items, ¬ it.isConst) ∨ (∀ it ∈ items, it.isConst) ∨ ¬ (items.map projId).Nodup

/-- No column below is named like the text of a constant of the SELECT list. -/
def ConstFree {α} (items : List (Item α)) (cols : List Ident) : Prop :=
  ∀ it ∈ items, ∀ t v, it.e = .const t v → (⟨none, t⟩ : Ident) ∉ cols

end Mutable.Deliver
