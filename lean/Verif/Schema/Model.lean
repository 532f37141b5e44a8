/-!
# Model of `Schema` (include/mutable/catalog/Schema.hpp)

Pooled strings are texts (C39).  A type is a number: `Type`s are pooled, so that pointers are compared.
-/
namespace Mutable.Schema

inductive Err where
  | emptyPrefix | ambiguous | typeMismatch | outOfRange
deriving DecidableEq, Repr

/-- `Schema::Identifier` (Schema.hpp:40-72). -/
structure Ident where
  pre : Option String
  name : String
deriving DecidableEq, Repr

/-- The constructor with a prefix (Schema.hpp:50-55). -/
def Ident.mk? (pre : Option String) (name : String) : Except Err Ident :=
  if pre = some "" then .error .emptyPrefix else .ok ⟨pre, name⟩

/-- `GetConstant` (Schema.cpp:28-31). -/
def Ident.const : Ident := ⟨none, "$const"⟩

/-- `Schema::entry_type` (Schema.hpp:74-101). -/
structure Entry where
  id : Ident
  type : Nat
  constraints : BitVec 64
deriving DecidableEq, Repr

/-- `nullable`, `unique`, `references_unique` (Schema.hpp:98-100). -/
def Entry.nullable (e : Entry) : Bool := !(e.constraints.getLsbD 0)
def Entry.unique (e : Entry) : Bool := e.constraints.getLsbD 1
def Entry.referencesUnique (e : Entry) : Bool := e.constraints.getLsbD 2

/-- `entries_` (Schema.hpp:104). -/
abbrev Sch := List Entry

/-- `std::find_if` from position `i`; `entries.length` if there is none. -/
def findFrom (p : Entry → Bool) : Sch → Nat
  | [] => 0
  | e :: l => if p e then 0 else findFrom p l + 1

/-- `find` (Schema.hpp:125-131): a position, `num_entries()` for `end()`. -/
def find (S : Sch) (id : Ident) : Except Err Nat :=
  let p := fun e : Entry => decide (e.id = id)
  let it := findFrom p S
  if it ≠ S.length ∧ findFrom p (S.drop (it + 1)) ≠ (S.drop (it + 1)).length then .error .ambiguous else .ok it

/-- `has` (Schema.hpp:136). -/
def has (S : Sch) (id : Ident) : Except Err Bool := do
  let it ← find S id
  return it ≠ S.length

/-- `at(std::size_t)` (Schema.hpp:139-143). -/
def atIdx (S : Sch) (i : Nat) : Except Err Entry :=
  match S[i]? with
  | some e => .ok e
  | none => .error .outOfRange

/-- `at(const Identifier&)` (Schema.hpp:156-161). -/
def atId (S : Sch) (id : Ident) : Except Err (Nat × Entry) := do
  let it ← find S id
  match S[it]? with
  | some e => .ok (it, e)
  | none => .error .outOfRange

/-- The loop of `deduplicate` (Schema.hpp:188-195). -/
def dedupLoop : Sch → Sch → Except Err Sch
  | [], res => .ok res
  | e :: l, res => do
    let b ← has res e.id
    dedupLoop l (if b then res else res ++ [e])

/-- `deduplicate` (Schema.hpp:188-195). -/
def deduplicate (S : Sch) : Except Err Sch := dedupLoop S []

/-- `drop_constants` (Schema.hpp:198-205). -/
def dropConstants (S : Sch) : Sch := S.filter fun e => decide (e.id ≠ Ident.const)

/-- `operator+=` (Schema.hpp:209-213). -/
def plus (S T : Sch) : Sch := S ++ T

/-- `operator|=` (Schema.hpp:218-224): `has` is called on the schema that grows. -/
def union (S : Sch) : Sch → Except Err Sch
  | [] => .ok S
  | e :: l => do
    let b ← has S e.id
    union (if b then S else S ++ [e]) l

/-- `std::all_of` over `has` (Schema.hpp:228-229). -/
def allHas (S : Sch) : Sch → Except Err Bool
  | [] => .ok true
  | e :: l => do
    let b ← has S e.id
    if b then allHas S l else return false

/-- `operator==` (Schema.hpp:227-230). -/
def eq (S T : Sch) : Except Err Bool := do
  let b ← allHas T S
  if b then allHas S T else return false

/-- `operator&` (Schema.hpp:257-269). -/
def inter (S T : Sch) : Except Err Sch :=
  match S with
  | [] => .ok []
  | e :: l => do
    let it ← find T e.id
    match T[it]? with
    | some f =>
      if e.type ≠ f.type then .error .typeMismatch else do
        let r ← inter l T
        return ⟨e.id, e.type, e.constraints ||| f.constraints⟩ :: r
    | none => inter l T

end Mutable.Schema
