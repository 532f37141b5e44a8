import Mathlib.Data.List.Basic
/-
Model of data definition statements: their semantic analysis (src/parse/Sema.cpp:1419-1789), execution
(src/catalog/DatabaseCommand.cpp:226-345) and the catalogue (include/mutable/catalog/Schema.hpp:276-322, :617-740, :867-1055,
Catalog.hpp:224-305, src/catalog/Catalog.cpp:58-75).

Databases, tables and attributes have addresses.  A database in use, an attribute's reference and an index hold addresses; following the
address of something that was deleted is undefined behaviour (`none`), as is a failed assertion.  Addresses are not reused.

Simplifications: names and (vectorial) types are numbers, types being compared as pointers; hash maps are lists without duplicate names; one
session; tables are `ConcreteTable`s; bulk-loading indexes is C50; the condition of CHECK is given as its number of errors.
-/
namespace Mutable.DDL

/-- Constraints of an attribute in CREATE TABLE. -/
inductive Con where
  | primaryKey
  | unique
  | notNull
  | check (errs : Nat)
  | references (tbl attr : Nat)
deriving DecidableEq

/-- `attribute_definition`. -/
structure AttrDef where
  name : Nat
  ty : Nat
  cons : List Con
deriving DecidableEq

/-- The method of an index: none given, `array`, `rmi`, something else. -/
inductive Method where
  | default_ | array | rmi | other
deriving DecidableEq

/-- A key field of an index: a designator, or another expression. -/
inductive Field where
  | attr (n : Nat)
  | other
deriving DecidableEq

inductive Stmt where
  | createDatabase (n : Nat)
  | dropDatabase (n : Nat) (ifExists : Bool)
  | useDatabase (n : Nat)
  | createTable (n : Nat) (attrs : List AttrDef)
  | dropTable (ns : List Nat) (ifExists : Bool)
  | createIndex (unique : Bool) (n : Option Nat) (ifNotExists : Bool) (tbl : Nat) (method : Method) (fields : List Field)
  | dropIndex (ns : List Nat) (ifExists : Bool)
deriving DecidableEq

/-! ### The catalogue -/

/-- `Attribute`, Schema.hpp:276-322: `ref` is the address of the referenced attribute: of its table and its ID. -/
structure Attr where
  name : Nat
  ty : Nat
  unique : Bool
  notNull : Bool
  ref : Option (Nat × Nat)
deriving DecidableEq

/-- `ConcreteTable`, Schema.hpp:617-740.  `pk`: the IDs in `primary_key_`. -/
structure Tbl where
  addr : Nat
  name : Nat
  attrs : List Attr
  pk : List Nat
deriving DecidableEq

/-- `index_entry_type`, Schema.hpp:871-888: the addresses of the table and of the attribute. -/
structure Idx where
  name : Nat
  tbl : Nat
  attr : Nat
  method : Method
deriving DecidableEq

/-- `Database`, Schema.hpp:890-897. -/
structure Db where
  addr : Nat
  name : Nat
  tables : List Tbl
  idxs : List Idx
deriving DecidableEq

/-- `Catalog`, Catalog.hpp:224-225; `next`: the next unused address. -/
structure Cat where
  next : Nat
  dbs : List Db
  inUse : Option Nat
deriving DecidableEq

def Cat.init : Cat := ⟨0, [], none⟩

/-- Attribute of a name, `at(name)`, Schema.hpp:674-680: its ID. -/
def Tbl.idOf (T : Tbl) (n : Nat) : Option Nat := T.attrs.findIdx? (·.name = n)

/-- `tables_.find(name)`, Schema.hpp:908-921. -/
def Db.table (D : Db) (n : Nat) : Option Tbl := D.tables.find? (·.name = n)

/-- Following the address of a table. -/
def Db.deref (D : Db) (a : Nat) : Option Tbl := D.tables.find? (·.addr = a)

/-- `has_index(name)`, Schema.hpp:977-981. -/
def Db.hasIndex (D : Db) (n : Nat) : Bool := D.idxs.any (·.name = n)

/-- `databases_.find(name)`, Catalog.hpp:283-285. -/
def Cat.db (c : Cat) (n : Nat) : Option Db := c.dbs.find? (·.name = n)

/-- Following the address of a database. -/
def Cat.deref (c : Cat) (a : Nat) : Option Db := c.dbs.find? (·.addr = a)

/-- Is the database of that name in use?  Sema.cpp:1437-1442. -/
def Cat.uses (c : Cat) (n : Nat) : Option Bool :=
  match c.inUse with
  | none => some false
  | some a => (c.deref a).map fun D => decide (D.name = n)

/-- Changes the database with the given address. -/
def Cat.set (c : Cat) (a : Nat) (D : Db) : Cat := { c with dbs := c.dbs.map fun E => if E.addr = a then D else E }

/-! ### Schema of a table -/

/-- `is_unique`, Schema.cpp:59-64, for attribute `i`. -/
def Tbl.isUnique (T : Tbl) (i : Nat) : Bool :=
  (match T.attrs[i]? with | some a => a.unique | none => false) || (decide (T.pk.length = 1) && T.pk.contains i)

/-- The constraints of an entry of a schema. -/
structure Entry where
  name : Nat
  ty : Nat
  notNull : Bool
  unique : Bool
  refsUnique : Bool
deriving DecidableEq

/-- `ConcreteTable::schema`, Schema.cpp:83-99, which follows references. -/
def Db.schema (D : Db) (T : Tbl) : Option (List Entry) :=
  T.attrs.zipIdx.mapM fun p =>
    match p.1.ref with
    | none => some ⟨p.1.name, p.1.ty, p.1.notNull, T.isUnique p.2, false⟩
    | some (a, j) => match D.deref a with
      | none => none
      | some R => some ⟨p.1.name, p.1.ty, p.1.notNull, T.isUnique p.2, R.isUnique j⟩

/-- The schema of a table of the database in use, as for `FROM t`. -/
def Cat.schema (c : Cat) (t : Nat) : Option (List Entry) :=
  match c.inUse with
  | none => none
  | some a => match c.deref a with
    | none => none
    | some D => match D.table t with
      | none => none
      | some T => D.schema T

/-! ### Semantic analysis of CREATE TABLE, Sema.cpp:1466-1578 -/

/-- The table under construction and the local variables. -/
structure Build where
  tbl : Tbl
  hasPk : Bool
  errs : Nat

/-- Changes attribute `i`. -/
def Tbl.modify (T : Tbl) (i : Nat) (f : Attr → Attr) : Tbl := { T with attrs := T.attrs.modify i f }

/-- A constraint, Sema.cpp:1521-1571; the flag: `has_reference`.  `T->at(name)` finds the first attribute of that name. -/
def addCon (D : Db) (name ty : Nat) (s : Build × Bool) (k : Con) : Build × Bool :=
  let b := s.1
  let i := (b.tbl.idOf name).getD 0
  match k with
  | .primaryKey => ({ tbl := { b.tbl with pk := if b.tbl.pk.contains i then b.tbl.pk else b.tbl.pk ++ [i] },
                      hasPk := true, errs := b.errs + (if b.hasPk then 1 else 0) }, s.2)
  | .unique => ({ b with tbl := b.tbl.modify i fun a => { a with unique := true } }, s.2)
  | .notNull => ({ b with tbl := b.tbl.modify i fun a => { a with notNull := true } }, s.2)
  | .check e => ({ b with errs := b.errs + e }, s.2)
  | .references t r =>
    let errs := b.errs + (if s.2 then 1 else 0)
    match D.table t with
    | none => ({ b with errs := errs + 1 }, true)
    | some R => match R.idOf r with
      | none => ({ b with errs := errs + 1 }, true)
      | some j =>
        let differs := match R.attrs[j]? with | some ra => decide (ra.ty ≠ ty) | none => true
        ({ b with tbl := b.tbl.modify i fun a => { a with ref := some (R.addr, j) }, errs := errs + (if differs then 1 else 0) }, true)

/-- An attribute, Sema.cpp:1495-1573; `push_back`, Schema.hpp:724-729. -/
def addAttr (D : Db) (b : Build) (d : AttrDef) : Build :=
  let b := match b.tbl.idOf d.name with
    | some _ => { b with errs := b.errs + 1 }
    | none => { b with tbl := { b.tbl with attrs := b.tbl.attrs ++ [⟨d.name, d.ty, false, false, none⟩] } }
  (d.cons.foldl (addCon D d.name d.ty) (b, false)).1

/-- The table and the number of errors. -/
def analyzeTable (D : Db) (addr n : Nat) (attrs : List AttrDef) : Build :=
  attrs.foldl (addAttr D) ⟨⟨addr, n, [], []⟩, false, if (D.table n).isSome then 1 else 0⟩

/-! ### Execution -/

/-- `drop_indexes`, Schema.hpp:965-974: each entry's table is asked for its name. -/
def dropIndexes (D : Db) (n : Nat) : List Idx → Option (List Idx)
  | [] => some []
  | e :: es => match D.deref e.tbl, dropIndexes D n es with
    | some T, some r => some (if T.name = n then r else e :: r)
    | _, _ => none

/-- `drop_table`, Schema.hpp:923-929, in `DropTable::execute`, DatabaseCommand.cpp:280-294: the number of errors. -/
def dropTables (D : Db) : List Nat → Option (Db × Nat)
  | [] => some (D, 0)
  | n :: ns => match D.table n with
    | none => (dropTables D ns).map fun r => (r.1, r.2 + 1)
    | some _ => match dropIndexes D n D.idxs with
      | none => none
      | some es => dropTables { D with idxs := es, tables := D.tables.filter (·.name ≠ n) } ns

/-- `drop_index`, Schema.hpp:954-962, in `DropIndex::execute`, DatabaseCommand.cpp:331-345. -/
def dropIdxs (D : Db) : List Nat → Db × Nat
  | [] => (D, 0)
  | n :: ns =>
    if D.hasIndex n then dropIdxs { D with idxs := D.idxs.eraseP (·.name = n) } ns
    else let r := dropIdxs D ns; (r.1, r.2 + 1)

/-- Is there an index of method `rmi` for the type of attribute `i`?  Sema.cpp:1705-1712. -/
def Tbl.hasRmi (rmi : Nat → Bool) (T : Tbl) (i : Nat) : Bool := match T.attrs[i]? with | some x => rmi x.ty | none => false

/-- Sema.cpp:1611-1758 and DatabaseCommand.cpp:296-329 (which asks for the table's schema): creating an index.  `rmi t`: is there an index of method `rmi` for keys of type `t`?  If
not, there is no command and no error either, which fails the assertion of SerialScheduler.cpp:150. -/
def createIndex (rmi : Nat → Bool) (c : Cat) (D : Db) (unique : Bool) (n : Option Nat) (ifNotExists : Bool) (tbl : Nat) (method : Method)
    (fields : List Field) : Option (Cat × Nat) :=
  if unique then some (c, 1)
  else match n with
    | none => some (c, 1)
    | some n =>
      if D.hasIndex n then some (c, if ifNotExists then 0 else 1)
      else match D.table tbl with
        | none => some (c, 1)
        | some T =>
          if method = .other then some (c, 1)
          else match fields with
            | [] => none
            | _ :: _ :: _ => some (c, 1)
            | [.other] => some (c, 1)
            | [.attr a] => match T.idOf a with
              | none => some (c, 1)
              | some i =>
                if method = .rmi ∧ T.hasRmi rmi i = false then none
                else match D.schema T with
                  | none => none
                  | some _ => some (c.set D.addr { D with idxs := D.idxs ++ [⟨n, T.addr, i, if method = .rmi then .rmi else .array⟩] }, 0)

/-- A statement with the database in use; without one: Sema.cpp:1471-1474, :1585-1588, :1616-1619, :1765-1768. -/
def withDb (c : Cat) (f : Db → Option (Cat × Nat)) : Option (Cat × Nat) :=
  match c.inUse with
  | none => some (c, 1)
  | some a => match c.deref a with
    | none => none
    | some D => f D

/-- Analysis and execution of a statement: the catalogue and the number of errors reported.  `none`: a crash. -/
def step (rmi : Nat → Bool) (c : Cat) : Stmt → Option (Cat × Nat)
  /- Sema.cpp:1419-1429; DatabaseCommand.cpp:226-235; `add_database`, Catalog.cpp:58-64. -/
  | .createDatabase n =>
    if (c.db n).isSome then some (c, 1)
    else some ({ c with next := c.next + 1, dbs := c.dbs ++ [⟨c.next, n, [], []⟩] }, 0)
  /- Sema.cpp:1431-1452; DatabaseCommand.cpp:237-246; `drop_database`, Catalog.cpp:66-75. -/
  | .dropDatabase n ifExists =>
    match c.uses n with
    | none => none
    | some true => some (c, 1)
    | some false =>
      if (c.db n).isSome then some ({ c with dbs := c.dbs.filter (·.name ≠ n) }, 0)
      else some (c, if ifExists then 0 else 1)
  /- Sema.cpp:1454-1464; DatabaseCommand.cpp:248-259. -/
  | .useDatabase n => match c.db n with
    | none => some (c, 1)
    | some D => some ({ c with inUse := some D.addr }, 0)
  /- DatabaseCommand.cpp:261-278: if the table exists, its null pointer is followed. -/
  | .createTable n attrs => withDb c fun D =>
    let b := analyzeTable D c.next n attrs
    if b.errs ≠ 0 then some ({ c with next := c.next + 1 }, b.errs)
    else if (D.table n).isSome then none
    else some (({ c with next := c.next + 1 } : Cat).set D.addr { D with tables := D.tables ++ [b.tbl] }, 0)
  /- Sema.cpp:1580-1609. -/
  | .dropTable ns ifExists => withDb c fun D =>
    let missing := ns.filter fun n => (D.table n).isNone
    if missing ≠ [] ∧ ifExists = false then some (c, missing.length)
    else match dropTables D (ns.filter fun n => (D.table n).isSome) with
      | none => none
      | some (D', e) => some (c.set D.addr D', e)
  | .createIndex u n ine t m fs => withDb c fun D => createIndex rmi c D u n ine t m fs
  /- Sema.cpp:1760-1789. -/
  | .dropIndex ns ifExists => withDb c fun D =>
    let missing := ns.filter fun n => !D.hasIndex n
    if missing ≠ [] ∧ ifExists = false then some (c, missing.length)
    else let r := dropIdxs D (ns.filter D.hasIndex); some (c.set D.addr r.1, r.2)

/-- A sequence of statements: the catalogue and, for each, the number of errors. -/
def run (rmi : Nat → Bool) (c : Cat) : List Stmt → Option (Cat × List Nat)
  | [] => some (c, [])
  | s :: ss => match step rmi c s with
    | none => none
    | some (c', e) => (run rmi c' ss).map fun r => (r.1, e :: r.2)

end Mutable.DDL
