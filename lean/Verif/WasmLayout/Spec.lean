import Verif.WasmLayout.Model
/-
What a data layout means, independent of the code generator: where the entries of a tuple are, and what a row is.
-/
namespace Mutable.WLayout

/-- The bit address of every leaf for tuple `t` of a node whose first bit is at address `base`: a leaf is at its offset plus `t` times
its stride; the instances of an inner node for `n` tuples follow each other at the node's stride, tuple `t` is tuple `t % n` of
instance `t / n` (include/mutable/storage/DataLayout.hpp:25-60). -/
def Kids.addrs : Kids → (base t : Nat) → List (Nat × Nat)
  | .nil, _, _ => []
  | .leaf i o s rest, base, t => (i, base + o + t * s) :: rest.addrs base t
  | .inode n o s kids rest, base, t => kids.addrs (base + o + t / n * s) (t % n) ++ rest.addrs base t

/-- A data layout that can be built with `add_leaf` and `add_inode` (the assertions of src/storage/DataLayout.cpp:29-66,:137-157):
`num` is the number of tuples of the node (0 for the root, which is unbounded).  The assertion that leaves of nodes with one tuple have
stride 0 is not required (PAX layouts with one tuple per block violate it). -/
def Kids.WF (sch : List Attr) : Kids → (num : Nat) → Prop
  | .nil, _ => True
  | .leaf i o s rest, num =>
    (i < sch.length → (sch[i]?.map (·.ty) ≠ some .bool) → s % 8 = 0 ∧ o % 8 = 0) ∧ rest.WF sch num
  | .inode n o s kids rest, num =>
    (n ≠ 0 ∧ num % n = 0 ∧ o % 8 = 0 ∧ s % 8 = 0) ∧ kids.WF sch n ∧ rest.WF sch num

/-- The layout has no leaf directly below the root. -/
def Kids.noRootLeaf (k : Kids) : Prop := k.leaves = []

/-- Every attribute, and the NULL bitmap, occurs at most once. -/
def Kids.Once (k : Kids) : Prop := ((k.addrs 0 0).map Prod.fst).Nodup

/-- A bit of memory. -/
def bitAt (m : Mem) (a : Nat) : Bool := (m (a / 8 : Nat)).getLsbD (a % 8)

/-- The value of type `ty` at bit address `a`. -/
def cellAt (m : Mem) (ty : Ty) (a : Nat) : Cell :=
  match ty with
  | .bool => .bit (bitAt m a)
  | .num n => .num ((List.range n).map (fun i => m (a / 8 + i : Nat)))
  | .str n => .str (((List.range n).map (fun i => m (a / 8 + i : Nat))).takeWhile (· != 0#8))

/-- The value of attribute `i` of tuple `t`: NULL if the attribute may be NULL, there is a NULL bitmap, and bit `i` of it is set.
Nothing if the layout does not contain the attribute. -/
def valueAt (sch : List Attr) (lay : Kids) (m : Mem) (base : Nat) (t i : Nat) : Option (Option Cell) :=
  match sch[i]?, (lay.addrs (8 * base) t).lookup i with
  | some at_, some a =>
    match (lay.addrs (8 * base) t).lookup sch.length with
    | some nb => if at_.nullable && bitAt m (nb + i) then some none else some (some (cellAt m at_.ty a))
    | none => some (some (cellAt m at_.ty a))
  | _, _ => none

/-- A tuple, restricted to the attributes `ents`. -/
def rowAt (sch : List Attr) (ents : List Nat) (lay : Kids) (m : Mem) (base t : Nat) : Option (List (Option Cell)) :=
  ents.mapM (valueAt sch lay m base t)

/-! ### Stores -/

/-- Number of bits of an entry: the NULL bitmap has one bit per attribute. -/
def width (sch : List Attr) (i : Nat) : Nat :=
  match sch[i]? with
  | some ⟨.bool, _⟩ => 1
  | some ⟨.num n, _⟩ => 8 * n
  | some ⟨.str n, _⟩ => 8 * n
  | none => sch.length

/-- Different entries, and entries of different tuples, do not overlap. -/
def Kids.Separated (sch : List Attr) (k : Kids) : Prop :=
  ∀ i j t u a b, (k.addrs 0 t).lookup i = some a → (k.addrs 0 u).lookup j = some b → i ≠ j ∨ t ≠ u →
    a + width sch i ≤ b ∨ b + width sch j ≤ a

/-- The layout has an entry for attribute `i` (or for the NULL bitmap). -/
def Kids.Has (k : Kids) (i : Nat) : Prop := i ∈ (k.addrs 0 0).map Prod.fst

/-- What can be stored of a value: strings end at the first NUL byte and are truncated. -/
def norm : Ty → Cell → Cell
  | .str n, .str s => .str ((s.takeWhile (· != 0#8)).take n)
  | _, v => v

/-- The values of a row have the types of the attributes. -/
def Row.Typed (c : Cfg) (r : Row) : Prop :=
  ∀ i ∈ c.ents, match c.ty i, r.val i with
    | .bool, .bit _ => True
    | .num n, .num bs => bs.length = n
    | .str _, .str _ => True
    | _, _ => False

/-- The row as it is read back. -/
def Row.stored (c : Cfg) (r : Row) : List (Option Cell) :=
  c.ents.map (fun i => if r.null i then none else some (norm (c.ty i) (r.val i)))

/-- Bit `a` belongs to an entry of tuple `t`. -/
def Kids.InTuple (sch : List Attr) (k : Kids) (base t a : Nat) : Prop :=
  ∃ i b, (k.addrs (8 * base) t).lookup i = some b ∧ b ≤ a ∧ a < b + width sch i

end Mutable.WLayout
