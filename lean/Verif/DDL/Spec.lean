import Verif.DDL.Model
/-
What data definition statements mean: databases, tables and indexes are finite maps from names.
-/
namespace Mutable.DDL

/-- An attribute: its reference names a table and an attribute. -/
structure SAttr where
  name : Nat
  ty : Nat
  unique : Bool
  notNull : Bool
  ref : Option (Nat × Nat)

structure STbl where
  attrs : List SAttr
  pk : List Nat

/-- An index: table, attribute, method. -/
structure SDb where
  tables : Nat → Option STbl
  idxs : Nat → Option (Nat × Nat × Method)

structure SCat where
  dbs : Nat → Option SDb
  inUse : Option Nat

def SCat.init : SCat := ⟨fun _ => none, none⟩

/-- Changes a finite map at one name. -/
def upd {α : Type} (f : Nat → Option α) (n : Nat) (v : Option α) : Nat → Option α := fun m => if m = n then v else f m

/-- The table has the attribute with the type. -/
def STbl.has (T : STbl) (a ty : Nat) : Bool := T.attrs.any fun x => x.name = a && x.ty = ty

/-- The references among constraints. -/
def refsOf (cons : List Con) : List (Nat × Nat) := cons.filterMap fun | .references t a => some (t, a) | _ => none

/-- May the table be created?  Its name is new, attributes have different names, there is at most one PRIMARY KEY, each attribute has at most one
reference, to an existing attribute of the same type, conditions are valid. -/
def SDb.valid (D : SDb) (n : Nat) (attrs : List AttrDef) : Prop :=
  D.tables n = none ∧ (attrs.map (·.name)).Nodup ∧ (attrs.flatMap (·.cons)).count .primaryKey ≤ 1 ∧
  ∀ d ∈ attrs, (refsOf d.cons).length ≤ 1 ∧ (∀ e, .check e ∈ d.cons → e = 0) ∧
    ∀ t a, (t, a) ∈ refsOf d.cons → ∃ R, D.tables t = some R ∧ R.has a d.ty = true

/-- The attribute that a definition declares. -/
def declared (d : AttrDef) : SAttr := ⟨d.name, d.ty, d.cons.contains .unique, d.cons.contains .notNull, (refsOf d.cons).head?⟩

/-- The table that a statement declares. -/
def declaredTable (attrs : List AttrDef) : STbl :=
  ⟨attrs.map declared, (attrs.filter fun d => d.cons.contains .primaryKey).map (·.name)⟩

/-- Without references to dropped tables. -/
def STbl.forget (ns : List Nat) (T : STbl) : STbl :=
  { T with attrs := T.attrs.map fun a => { a with ref := a.ref.filter fun r => !ns.contains r.1 } }

/-- Dropping tables, the indexes on them and references to them. -/
def SDb.drop (D : SDb) (ns : List Nat) : SDb where
  tables := fun m => if m ∈ ns then none else (D.tables m).map (STbl.forget ns)
  idxs := fun m => (D.idxs m).filter fun e => !ns.contains e.1

/-- The statement's effect: the catalogue and whether the statement is accepted.  A statement that is not accepted has no effect. -/
inductive Spec : SCat → Stmt → SCat → Bool → Prop where
  | createDatabase {s n} : s.dbs n = none → Spec s (.createDatabase n) { s with dbs := upd s.dbs n (some ⟨fun _ => none, fun _ => none⟩) } true
  | createDatabase_exists {s n} : (s.dbs n).isSome → Spec s (.createDatabase n) s false
  | dropDatabase {s n ie} : (s.dbs n).isSome → s.inUse ≠ some n → Spec s (.dropDatabase n ie) { s with dbs := upd s.dbs n none } true
  | dropDatabase_used {s n ie} : s.inUse = some n → Spec s (.dropDatabase n ie) s false
  | dropDatabase_missing {s n ie} : s.dbs n = none → s.inUse ≠ some n → Spec s (.dropDatabase n ie) s ie
  | useDatabase {s n} : (s.dbs n).isSome → Spec s (.useDatabase n) { s with inUse := some n } true
  | useDatabase_missing {s n} : s.dbs n = none → Spec s (.useDatabase n) s false
  | no_database {s st} : s.inUse = none → (match st with | .createDatabase _ | .dropDatabase _ _ | .useDatabase _ => False | _ => True) → Spec s st s false
  | createTable {s d D n attrs} : s.inUse = some d → s.dbs d = some D → D.valid n attrs →
      Spec s (.createTable n attrs) { s with dbs := upd s.dbs d (some { D with tables := upd D.tables n (some (declaredTable attrs)) }) } true
  | createTable_invalid {s d D n attrs} : s.inUse = some d → s.dbs d = some D → ¬D.valid n attrs → Spec s (.createTable n attrs) s false
  | dropTable {s d D ns ie} : s.inUse = some d → s.dbs d = some D → (ie = true ∨ ∀ n ∈ ns, (D.tables n).isSome) →
      Spec s (.dropTable ns ie) { s with dbs := upd s.dbs d (some (D.drop ns)) } true
  | dropTable_missing {s d D ns n} : s.inUse = some d → s.dbs d = some D → n ∈ ns → D.tables n = none → Spec s (.dropTable ns false) s false
  | createIndex {s d D n ine t T m a x} : s.inUse = some d → s.dbs d = some D → D.idxs n = none → D.tables t = some T → m ≠ .other →
      x ∈ T.attrs → x.name = a →
      Spec s (.createIndex false (some n) ine t m [.attr a])
        { s with dbs := upd s.dbs d (some { D with idxs := upd D.idxs n (some (t, a, if m = .rmi then .rmi else .array)) }) } true
  | createIndex_exists {s d D n ine t m fs} : s.inUse = some d → s.dbs d = some D → (D.idxs n).isSome →
      Spec s (.createIndex false (some n) ine t m fs) s ine
  | createIndex_invalid {s d D u n ine t m fs} : s.inUse = some d → s.dbs d = some D →
      (u = true ∨ n = none ∨ (∀ k, n = some k → D.idxs k = none) ∧
        (D.tables t = none ∨ m = .other ∨ fs.length > 1 ∨ fs = [.other] ∨
          ∃ T a, D.tables t = some T ∧ fs = [.attr a] ∧ ∀ x ∈ T.attrs, x.name ≠ a)) →
      Spec s (.createIndex u n ine t m fs) s false
  | dropIndex {s d D ns ie} : s.inUse = some d → s.dbs d = some D → (ie = true ∨ ∀ n ∈ ns, (D.idxs n).isSome) →
      Spec s (.dropIndex ns ie) { s with dbs := upd s.dbs d (some { D with idxs := fun m => if m ∈ ns then none else D.idxs m }) } true
  | dropIndex_missing {s d D ns n} : s.inUse = some d → s.dbs d = some D → n ∈ ns → D.idxs n = none → Spec s (.dropIndex ns false) s false

/-- Sequences of statements. -/
inductive Specs : SCat → List Stmt → SCat → List Bool → Prop where
  | nil {s} : Specs s [] s []
  | cons {s st s' b ss s'' bs} : Spec s st s' b → Specs s' ss s'' bs → Specs s (st :: ss) s'' (b :: bs)

/-- The attribute is UNIQUE, or alone the PRIMARY KEY. -/
def STbl.isUnique (T : STbl) (a : Nat) : Bool := (T.attrs.any fun x => x.name = a && x.unique) || decide (T.pk = [a])

/-- The schema of a table. -/
def SDb.entries (D : SDb) (T : STbl) : List Entry :=
  T.attrs.map fun x => ⟨x.name, x.ty, x.notNull, T.isUnique x.name,
    match x.ref with
    | none => false
    | some (t, a) => match D.tables t with | none => false | some R => R.isUnique a⟩

/-- What the code can cope with: DROP TABLE of no table that another table refers to; no name twice; a key field and a method that the index's type
has. -/
def Fine (rmi : Nat → Bool) (s : SCat) : Stmt → Prop
  | .dropTable ns _ => ns.Nodup ∧ ∀ d D, s.inUse = some d → s.dbs d = some D → ∀ n T, D.tables n = some T → n ∉ ns →
      ∀ x ∈ T.attrs, ∀ r, x.ref = some r → r.1 ∉ ns
  | .dropIndex ns _ => ns.Nodup
  | .createIndex _ _ _ t m fs => fs ≠ [] ∧ (m = .rmi → ∀ d D, s.inUse = some d → s.dbs d = some D → ∀ T, D.tables t = some T →
      ∀ x ∈ T.attrs, fs = [.attr x.name] → rmi x.ty = true)
  | _ => True

/-- Every statement of a sequence is fine when its turn comes. -/
def FineRun (rmi : Nat → Bool) (s : SCat) (sts : List Stmt) : Prop :=
  ∀ pre st post s' bs, sts = pre ++ st :: post → Specs s pre s' bs → Fine rmi s' st

end Mutable.DDL
