/-
Model of the code that compiled queries use to read and write rows: `compile_data_layout_sequential` and
`compile_data_layout_point_access` (src/backend/WasmUtil.cpp:552-1735, :1936-2469), the walk over data layouts
(src/storage/DataLayout.cpp:68-94) and `setbit` (src/backend/WasmUtil.hpp:1314-1327).

The code generator emits three blocks: `inits` (executed once), `loads`/`stores` (executed per tuple or SIMD batch) and `jumps`
(advance to the next tuple).  A sibling group of leaves has variables (pointers and masks); the model keeps these variables
(`Vars`), the accesses emitted for the group (`Acc`), and executes the three blocks.

Simplifications: pointers are integers (the code: 32 bits); tuple IDs are natural numbers (64 bits); the memory maps addresses to
bytes.  Values of numbers, dates and date-times are their bytes.  `Var`s versus `Global`s are not distinguished.  Entries are
identified by their index in the layout's schema.  Addresses of entries (`tuple_addr_schema`) are not modelled.
-/
namespace Mutable.WLayout

abbrev Byte := BitVec 8
abbrev Mem := Int → Byte

/-- Types as far as data layouts matter: booleans; numbers, dates and date-times with a number of bytes
(`n.size()`, :1384-1404); character sequences with the number of bytes reserved (`cs.size() / 8`, :1413). -/
inductive Ty where
  | bool | num (bytes : Nat) | str (bytes : Nat)
deriving DecidableEq, Repr

/-- An entry of `layout_schema`. -/
structure Attr where
  ty : Ty
  nullable : Bool
deriving DecidableEq, Repr

/-- A value: a boolean, the bytes of a number, or a string. -/
inductive Cell where
  | bit (b : Bool) | num (bs : List Byte) | str (s : List Byte)
deriving DecidableEq, Repr

/-! ### Data layouts -/

/-- The children of an `INode` (include/mutable/storage/DataLayout.hpp:100-170) as a list of leaves (attribute index, offset and
stride in bits) and inner nodes (number of tuples, offset, stride and children).  The index of the NULL bitmap is the number of
attributes.  The children of the root are the data layout. -/
inductive Kids where
  | nil
  | leaf (idx off stride : Nat) (rest : Kids)
  | inode (num off stride : Nat) (kids : Kids) (rest : Kids)
deriving DecidableEq, Repr

/-- `leaf_info_t`. -/
structure Leaf where
  idx : Nat
  off : Nat
  stride : Nat
deriving DecidableEq, Repr

/-- `level_info_t`. -/
structure Level where
  stride : Nat
  num : Nat
deriving DecidableEq, Repr

/-- The arguments of one call of the callback of `for_sibling_leaves`. -/
structure Group where
  leaves : List Leaf
  levels : List Level
  ioff : Nat
deriving DecidableEq, Repr

/-- The vector `leaves` of `INode::for_sibling_leaves`, src/storage/DataLayout.cpp:74-80. -/
def Kids.leaves : Kids → List Leaf
  | .nil => []
  | .leaf i o s rest => ⟨i, o, s⟩ :: rest.leaves
  | .inode _ _ _ _ rest => rest.leaves

/-- The final call of the callback, src/storage/DataLayout.cpp:92-93. -/
def callLeaves (lvs : List Leaf) (levels : List Level) (ioff : Nat) : List Group :=
  if lvs.isEmpty then [] else [⟨lvs, levels, ioff⟩]

/-- The calls of the callback for the inner nodes below, src/storage/DataLayout.cpp:81-89. -/
def Kids.calls (levels : List Level) (ioff : Nat) : Kids → List Group
  | .nil => []
  | .leaf _ _ _ rest => rest.calls levels ioff
  | .inode n o s kids rest =>
    let lv := levels ++ [⟨s, n⟩]
    (kids.calls lv (ioff + o) ++ callLeaves kids.leaves lv (ioff + o)) ++ rest.calls levels ioff

/-- `DataLayout::for_sibling_leaves`, src/storage/DataLayout.cpp:68-94,:161-165: the calls of the callback in order. -/
def Kids.groups (k : Kids) : List Group := k.calls [] 0 ++ callLeaves k.leaves [] 0

/-! ### Tuple IDs -/

/-- `is_pow_2`. -/
def isPow2 (n : Nat) : Bool := n != 0 && (n &&& (n - 1)) == 0

/-- `compute_additional_inode_byte_offset`, WasmUtil.cpp:690-716 and :2001-2027. -/
def addInode : List Level → Nat → Nat
  | [], _ => 0
  | l :: ls, t =>
    if isPow2 l.num then (t >>> l.num.log2) * (l.stride / 8) + addInode ls (t &&& (l.num - 1))
    else t / l.num * (l.stride / 8) + addInode ls (t % l.num)

/-- `levels.back()`; for an empty stack (undefined behaviour in the code) a level of one tuple. -/
def lastLevel (ls : List Level) : Level := ls.getLastD ⟨0, 1⟩

/-- `inode_iter`, WasmUtil.cpp:724-733: absent if there is only one tuple. -/
def inodeIter (ls : List Level) (t : Nat) : Option Nat :=
  let n := (lastLevel ls).num
  if n != 1 then some (if isPow2 n then t &&& (n - 1) else t % n) else none

/-! ### Variables and accesses of a group -/

/-- `key_t` and `value_t` of `loading_context`, WasmUtil.cpp:611-628.  Entries without mask have `0` here. -/
structure Slot where
  key : Nat × Nat
  ptr : Int
  mask : BitVec 32
deriving DecidableEq, Repr

/-- The variables of a group: `loading_context`, and `null_bitmap_ptr` with `null_bitmap_mask`. -/
structure Vars where
  slots : List Slot
  null : Option (Int × BitVec 32)
deriving DecidableEq, Repr

/-- The code emitted for a leaf: NULL bitmap with bit stride; NULL bitmap without; entry with bit stride, with the value of
`leaf_byte_offset` (it is computed from `inode_iter`, which never changes); entry without.  The number is the position of the
pointer in `loading_context`. -/
inductive Acc where
  | nullDyn (f : Leaf)
  | nullStat (f : Leaf) (slot : Nat)
  | dyn (f : Leaf) (slot : Nat) (lbo : Nat)
  | stat (f : Leaf) (slot : Nat)
deriving DecidableEq, Repr

/-- What the code generator is called with: schema of the layout, entries of the tuple, options `PointerSharing` and
`remainder_removal`, number of SIMD lanes, and whether stores are predicated. -/
structure Cfg where
  sch : List Attr
  ents : List Nat
  sharing : Bool
  remRemoval : Bool
  lanes : Nat
  predicated : Bool

/-- Attribute `i` may be NULL. -/
def Cfg.nullable (c : Cfg) (i : Nat) : Bool := (c.sch[i]?.map (·.nullable)).getD false

/-- `needs_null_bitmap`, WasmUtil.cpp:640-647. -/
def Cfg.needsNull (c : Cfg) : Bool := c.ents.any c.nullable

/-- `loading_context.try_emplace(key)` resp. `emplace`, e.g. WasmUtil.cpp:974-983: the list of variables and the position of the
entry. -/
def slotFor (sharing : Bool) (slots : List Slot) (s : Slot) : List Slot × Nat :=
  if sharing then
    match slots.findIdx? (fun x => x.key == s.key) with
    | some i => (slots, i)
    | none => (slots ++ [s], slots.length)
  else (slots ++ [s], slots.length)

/-- The byte offset of accesses without bit stride, WasmUtil.cpp:954-972 and :1264-1282. -/
def byteOff (ib : Nat) (iter : Option Nat) (f : Leaf) : Nat :=
  match iter with
  | some it => if f.stride != 0 then ib + (it * f.stride) >>> 3 else ib
  | none => ib

/-- One leaf: the code emitted and the variables initialised, WasmUtil.cpp:737-1431.  `none` if nothing is emitted. -/
def visitLeaf (c : Cfg) (base : Int) (ib : Nat) (iter : Option Nat) (v : Vars) (f : Leaf) : Option Acc × Vars :=
  let it := iter.getD 0
  let bitPos := f.off + it * f.stride
  if f.idx = c.sch.length then
    if c.needsNull then
      if f.stride % 8 ≠ 0 then
        (some (.nullDyn f), { v with null := some (base + ib + (bitPos >>> 3 : Nat), 1#32 <<< (bitPos &&& 7)) })
      else
        let (sl, i) := slotFor c.sharing v.slots ⟨(f.off % 8, f.stride), base + byteOff ib iter f, 0⟩
        (some (.nullStat f i), { v with slots := sl })
    else (none, v)
  else if f.idx ∈ c.ents then
    if f.stride % 8 ≠ 0 then
      let m : BitVec 32 := if c.lanes = 1 then 1#32 <<< (bitPos &&& 7) else 0
      let (sl, i) := slotFor c.sharing v.slots ⟨(f.off % 8, f.stride), base + ib, m⟩
      (some (.dyn f i (bitPos >>> 3)), { v with slots := sl })
    else
      let (sl, i) := slotFor c.sharing v.slots ⟨(f.off % 8, f.stride), base + byteOff ib iter f, 0⟩
      (some (.stat f i), { v with slots := sl })
  else (none, v)

/-- The loop over the leaves of a group, WasmUtil.cpp:737. -/
def visitLeaves (c : Cfg) (base : Int) (ib : Nat) (iter : Option Nat) : Vars → List Leaf → List Acc × Vars
  | v, [] => ([], v)
  | v, f :: fs =>
    let (a, v') := visitLeaf c base ib iter v f
    let (as, v'') := visitLeaves c base ib iter v' fs
    (a.toList ++ as, v'')

/-- A group with its code and its variables. -/
structure GSt where
  g : Group
  accs : List Acc
  vars : Vars
deriving DecidableEq, Repr

/-- The callback: code generation and execution of the group's part of `inits`, WasmUtil.cpp:674-737. -/
def initGroup (c : Cfg) (base : Int) (t : Nat) (g : Group) : GSt :=
  let r := visitLeaves c base (g.ioff / 8 + addInode g.levels t) (inodeIter g.levels t) ⟨[], none⟩ g.leaves
  ⟨g, r.1, r.2⟩

/-- The state: tuple ID and groups. -/
structure St where
  tid : Nat
  gs : List GSt
deriving DecidableEq, Repr

/-- Execution of `inits`. -/
def init (c : Cfg) (lay : Kids) (base : Int) (t : Nat) : St := ⟨t, lay.groups.map (initGroup c base t)⟩

/-- Advancing pointer and mask by `d` bits: `advance_to_next_bit` (WasmUtil.cpp:780-803), the final advancement for the NULL bitmap
(:907-934) and the per-leaf jump (:1523-1541).  `p`: the predicate (true without predication). -/
def advance (p : Bool) (d : Int) (x : Int × BitVec 32) : Int × BitVec 32 :=
  let y :=
    if d % 8 ≠ 0 then
      let m := x.2 <<< (if p then (d % 8).toNat else 0)
      if m &&& 0xff#32 = 0#32 then (x.1 + 1, m >>> 8) else (x.1, m)
    else x
  if d / 8 ≠ 0 then (y.1 + (if p then d / 8 else 0), y.2) else y

/-! ### Loads -/

/-- `n` bytes starting at an address. -/
def rd (m : Mem) (a : Int) (n : Nat) : List Byte := (List.range n).map (fun i => m (a + (i : Nat)))

/-- `(byte bitand mask).to<bool>()` with a mask of 32 bits. -/
def testMask (b : Byte) (mask : BitVec 32) : Bool := (b.setWidth 32 &&& mask) != 0#32

/-- `(byte bitand mask).to<bool>()` with a mask of 8 bits. -/
def test8 (b : Byte) (mask : Byte) : Bool := (b &&& mask) != 0#8

/-- Loaded values and NULL bits, by index in the layout's schema. -/
structure Env where
  vals : Nat → Option Cell
  nulls : Nat → Option Bool

def Env.empty : Env := ⟨fun _ => none, fun _ => none⟩

def Env.setVal (e : Env) (i : Nat) (v : Cell) : Env := { e with vals := fun j => if j = i then some v else e.vals j }
def Env.setNull (e : Env) (i : Nat) (b : Bool) : Env := { e with nulls := fun j => if j = i then some b else e.nulls j }

/-- Pointer and mask of a slot. -/
def Vars.slot (v : Vars) (i : Nat) : Slot := v.slots.getD i ⟨(0, 0), 0, 0⟩

/-- `max(ceil_to_pow_2(tuple_value_schema.num_entries()), 8)` bytes: the width of one NULL bitmap in a SIMD vector,
WasmUtil.cpp:1000-1005.  The `switch` has cases up to 64. -/
def nullWidth (k : Nat) : Nat := if k ≤ 8 then 1 else if k ≤ 16 then 2 else if k ≤ 32 then 4 else 8

/-- The NULL bits of a bitmap with bit stride: layout entries in ascending order, WasmUtil.cpp:767-861 (loads).  Arguments:
previous index, remaining indices. -/
def loadNullDyn (c : Cfg) (m : Mem) : List Nat → Nat → Int × BitVec 32 → Env → (Int × BitVec 32) × Nat × Env
  | [], prev, x, e => (x, prev, e)
  | i :: is, prev, x, e =>
    if c.nullable i && c.ents.contains i then
      let x' := advance true ((i : Int) - prev) x
      loadNullDyn c m is i x' (e.setNull i (testMask (m x'.1) x'.2))
    else loadNullDyn c m is prev x e

/-- The NULL bits of a bitmap without bit stride, WasmUtil.cpp:985-1110 (loads); lane `j`.  The scalar code keeps loaded bytes in
variables, which has no effect on the values.  With several lanes the mask is `1U << layout_idx`, a number of 32 bits (for indices
from 32 on undefined in C++; here no bit is set). -/
def loadNullStat (c : Cfg) (m : Mem) (j : Nat) (f : Leaf) (p : Int) : List Nat → Env → Env
  | [], e => e
  | i :: is, e =>
    if c.nullable i then
      let b :=
        if c.lanes = 1 then test8 (m (p + ((f.off + i) / 8 : Nat))) (1#8 <<< ((f.off + i) % 8))
        else
          let w := nullWidth c.ents.length
          let bits := rd m (p + (f.off / 8 : Nat) + (j * w : Nat)) w
          let mask : BitVec 32 := 1#32 <<< i
          (List.range w).any (fun k => (bits.getD k 0) &&& ((mask >>> (8 * k)).setWidth 8) != 0#8)
      loadNullStat c m j f p is (e.setNull i b)
    else loadNullStat c m j f p is e

/-- The type of an attribute. -/
def Cfg.ty (c : Cfg) (i : Nat) : Ty := (c.sch[i]?.map (·.ty)).getD .bool

/-- Value of an entry without bit stride, lane `j`, WasmUtil.cpp:1321-1425.  `a`: `ptr + static_byte_offset`. -/
def loadStat (c : Cfg) (m : Mem) (j : Nat) (f : Leaf) (a : Int) : Cell :=
  match c.ty f.idx with
  | .bool => .bit (test8 (m (a + j)) (1#8 <<< (f.off % 8)))
  | .num n => .num (rd m (a + (j * n : Nat)) n)
  | .str n => .str ((rd m a n).takeWhile (· != 0#8))

/-- Value of a boolean with bit stride, lane `j`, WasmUtil.cpp:1239-1266. -/
def loadDyn (c : Cfg) (m : Mem) (j : Nat) (a : Int) (mask : BitVec 32) : Cell :=
  if c.lanes = 1 then .bit (test8 (m a) (mask.setWidth 8))
  else .bit (test8 (m (a + (j / 8 : Nat))) (1#8 <<< (j % 8)))

/-- The loads of one leaf. -/
def loadAcc (c : Cfg) (m : Mem) (j : Nat) (a : Acc) (v : Vars) (e : Env) : Vars × Env :=
  match a with
  | .nullDyn f =>
    match v.null with
    | none => (v, e)
    | some x =>
      let r := loadNullDyn c m (List.range c.sch.length) 0 x e
      -- the final advancement is in `jumps`, after all loads (WasmUtil.cpp:902-934); it only concerns this pointer
      ({ v with null := some (advance true ((f.stride : Int) - r.2.1) r.1) }, r.2.2)
  | .nullStat f i => (v, loadNullStat c m j f (v.slot i).ptr c.ents e)
  | .dyn f i lbo => (v, e.setVal f.idx (loadDyn c m j ((v.slot i).ptr + lbo) (v.slot i).mask))
  | .stat f i => (v, e.setVal f.idx (loadStat c m j f ((v.slot i).ptr + (f.off / 8 : Nat))))

def loadAccs (c : Cfg) (m : Mem) (j : Nat) : List Acc → Vars → Env → Vars × Env
  | [], v, e => (v, e)
  | a :: as, v, e => let (v', e') := loadAcc c m j a v e; loadAccs c m j as v' e'

/-- The block `loads`, lane `j`: all groups. -/
def loadGroups (c : Cfg) (m : Mem) (j : Nat) : List GSt → Env → List GSt × Env
  | [], e => ([], e)
  | s :: ss, e =>
    let (v, e') := loadAccs c m j s.accs s.vars e
    let (ss', e'') := loadGroups c m j ss e'
    ({ s with vars := v } :: ss', e'')

/-- `has_null_bitmap`. -/
def hasNull (c : Cfg) (lay : Kids) : Bool := c.needsNull && lay.groups.any (fun g => g.leaves.any (fun f => f.idx == c.sch.length))

/-- Combining values and NULL bits, WasmUtil.cpp:1638-1682: the loaded row (`none`: NULL), or nothing if some value was not loaded
(`M_unreachable`). -/
def combine (c : Cfg) (hasNull : Bool) (e : Env) : Option (List (Option Cell)) :=
  c.ents.mapM (fun i => do
    let v ← e.vals i
    if hasNull && c.nullable i then do
      let b ← e.nulls i
      pure (if b then none else some v)
    else pure (some v))

/-! ### Jumps -/

/-- Adding bytes to a pointer under the predicate. -/
def addPtr (p : Bool) (d : Int) (x : Int) : Int := x + (if p then d else 0)

/-- The per-leaf stride jump, WasmUtil.cpp:1517-1553. -/
def leafJump (c : Cfg) (p : Bool) (s : Slot) : Slot :=
  let s1 :=
    if s.key.2 % 8 ≠ 0 then
      let y := advance p ((s.key.2 % 8 : Nat) : Int) (s.ptr, s.mask)
      { s with ptr := y.1, mask := y.2 }
    else s
  if s.key.2 / 8 ≠ 0 then
    { s1 with ptr := if c.predicated then addPtr p (s.key.2 / 8 : Nat) s1.ptr else s1.ptr + (c.lanes * (s.key.2 / 8) : Nat) }
  else s1

/-- The remaining stride to the next instance of the parent node for a leaf of stride `s`, WasmUtil.cpp:1563-1566. -/
def remaining (lv : Level) (s : Nat) : Int := (lv.stride : Int) - (lv.num * s : Nat)

/-- One entry of `lowest_inode_jumps`, WasmUtil.cpp:1560-1604 and :1606-1649: `o` and `s` are bit offset and stride. -/
def lowJump (p : Bool) (lv : Level) (o s : Nat) (x : Int × BitVec 32) : Int × BitVec 32 :=
  let r := remaining lv s
  let y :=
    if r % 8 ≠ 0 then
      (addPtr p (if (o + lv.num * s) % 8 > o then 1 else 0) x.1, 1#32 <<< o)
    else x
  if r / 8 ≠ 0 then (addPtr p (r / 8) y.1, y.2) else y

/-- `lowest_inode_jumps` for all variables of the group.  `nf` is the leaf of the NULL bitmap with bit stride. -/
def lowJumps (p : Bool) (lv : Level) (nf : Option Leaf) (v : Vars) : Vars :=
  { slots := v.slots.map (fun s => let y := lowJump p lv s.key.1 s.key.2 (s.ptr, s.mask); { s with ptr := y.1, mask := y.2 })
    null := match nf, v.null with
      | some f, some x => some (lowJump p lv (f.off % 8) f.stride x)
      | _, n => n }

/-- `lowest_inode_jumps.empty()`. -/
def lowEmpty (lv : Level) (nf : Option Leaf) (v : Vars) : Bool :=
  v.slots.all (fun s => remaining lv s.key.2 == 0) && (match nf with | some f => remaining lv f.stride == 0 | none => true)

/-- The condition of a jump, WasmUtil.cpp:1461-1465 and :1655-1659. -/
def jumpCond (c : Cfg) (t n : Nat) : Bool := if isPow2 n && c.remRemoval then (t &&& (n - 1)) == 0 else t % n == 0

/-- Adding bytes to all pointers of a group, WasmUtil.cpp:1469-1486. -/
def shiftAll (p : Bool) (d : Int) (v : Vars) : Vars :=
  { slots := v.slots.map (fun s => { s with ptr := addPtr p d s.ptr }), null := v.null.map (fun x => (addPtr p d x.1, x.2)) }

/-- `emit_stride_jumps`, WasmUtil.cpp:1440-1514: the levels from the inside to the outside. -/
def upJumps (c : Cfg) (p : Bool) (t : Nat) : Level → List Level → Vars → Vars
  | _, [], v => v
  | inner, l :: ls, v =>
    let d := ((l.stride : Int) - (l.num / inner.num * inner.stride : Nat)) / 8
    if d ≠ 0 then
      if l.num ≠ 1 then
        if jumpCond c t l.num then upJumps c p t l ls (shiftAll p d v) else v
      else upJumps c p t l ls (shiftAll p d v)
    else upJumps c p t l ls v

/-- The leaf of the NULL bitmap with bit stride, if code was emitted for it. -/
def nullLeaf (as : List Acc) : Option Leaf := as.findSome? (fun a => match a with | .nullDyn f => some f | _ => none)

/-- The jumps of a group, WasmUtil.cpp:1516-1676 (without the jump of a NULL bitmap with bit stride, see `loadAcc`); `t` is the
incremented tuple ID. -/
def groupJumps (c : Cfg) (p : Bool) (t : Nat) (s : GSt) : GSt :=
  let v1 : Vars := { s.vars with slots := s.vars.slots.map (leafJump c p) }
  match s.g.levels.reverse with
  | [] => { s with vars := v1 }
  | lv :: ups =>
    let nf := nullLeaf s.accs
    if lowEmpty lv nf v1 then { s with vars := upJumps c p t lv ups v1 }
    else if lv.num ≠ 1 then
      if jumpCond c t lv.num then { s with vars := upJumps c p t lv ups (lowJumps p lv nf v1) } else { s with vars := v1 }
    else { s with vars := upJumps c p t lv ups (lowJumps p lv nf v1) }

/-- The block `jumps`, WasmUtil.cpp:659-676 and above. -/
def jumps (c : Cfg) (p : Bool) (s : St) : St :=
  let t := s.tid + (if c.predicated then (if p then 1 else 0) else c.lanes)
  ⟨t, s.gs.map (groupJumps c p t)⟩

/-- `loads` followed by `jumps`: the loaded row of lane `j`, and the next state. -/
def loadStep (c : Cfg) (lay : Kids) (m : Mem) (j : Nat) (s : St) : Option (List (Option Cell)) × St :=
  let r := loadGroups c m j s.gs Env.empty
  (combine c (hasNull c lay) r.2, jumps c true { s with gs := r.1 })

/-- The row loaded in the `k`-th iteration (lane `j`) of a loop over `loads` and `jumps`. -/
def loadAt (c : Cfg) (lay : Kids) (m : Mem) (j : Nat) : Nat → St → Option (List (Option Cell))
  | 0, s => (loadStep c lay m j s).1
  | k + 1, s => loadAt c lay m j k (loadStep c lay m j s).2

/-! ### Stores -/

/-- `setbit`, WasmUtil.hpp:1314-1327: `*bytes ^= (-value xor *bytes) bitand mask`. -/
def setbit (m : Mem) (a : Int) (v : Bool) (mask : Byte) : Mem :=
  fun x => if x = a then m a ^^^ (((-(if v then 1#8 else 0#8)) ^^^ m a) &&& mask) else m x

/-- Writing bytes. -/
def wr (m : Mem) (a : Int) (bs : List Byte) : Mem :=
  fun x => if a ≤ x ∧ x < a + bs.length then bs.getD (x - a).toNat 0 else m x

/-- The bytes `strncpy(dst, src, n)` writes, WasmUtil.cpp:3335-3341: the characters up to and including the NUL byte, at most `n`.
The source is a string followed by a NUL byte. -/
def cpy (n : Nat) (s : List Byte) : List Byte := (s.takeWhile (· != 0#8) ++ [0#8]).take n

/-- A row to be stored: values (of any entry, also if NULL) and NULL flags. -/
structure Row where
  val : Nat → Cell
  null : Nat → Bool

/-- Storing the NULL bits of a bitmap with bit stride, WasmUtil.cpp:767-861 (stores).  `p` is the predicate. -/
def storeNullDyn (c : Cfg) (p : Bool) (row : Row) : List Nat → Nat → Int × BitVec 32 → Mem → (Int × BitVec 32) × Nat × Mem
  | [], prev, x, m => (x, prev, m)
  | i :: is, prev, x, m =>
    if c.nullable i && c.ents.contains i then
      let x' := advance p ((i : Int) - prev) x
      storeNullDyn c p row is i x' (setbit m x'.1 (row.null i) (x'.2.setWidth 8))
    else storeNullDyn c p row is prev x m

/-- Storing the NULL bits of a bitmap without bit stride, WasmUtil.cpp:1008-1076 (stores, one lane). -/
def storeNullStat (c : Cfg) (row : Row) (f : Leaf) (a : Int) : List Nat → Mem → Mem
  | [], m => m
  | i :: is, m =>
    if c.nullable i then
      storeNullStat c row f a is
        (setbit m (a + ((f.off + i) / 8 : Nat)) (row.null i) (1#8 <<< ((f.off + i) % 8)))
    else storeNullStat c row f a is m

/-- Storing a value without bit stride, WasmUtil.cpp:1303-1420 (stores, one lane). -/
def storeStat (c : Cfg) (row : Row) (f : Leaf) (a : Int) (m : Mem) : Mem :=
  match c.ty f.idx, row.val f.idx with
  | .bool, .bit b => setbit m a b (1#8 <<< (f.off % 8))
  | .num n, .num bs => wr m a (bs.take n)
  | .str n, .str s => if row.null f.idx then m else wr m a (cpy n s)
  | _, _ => m

/-- The stores of one leaf, one lane. -/
def storeAcc (c : Cfg) (p : Bool) (row : Row) (a : Acc) (v : Vars) (m : Mem) : Vars × Mem :=
  match a with
  | .nullDyn f =>
    match v.null with
    | none => (v, m)
    | some x =>
      let r := storeNullDyn c p row (List.range c.sch.length) 0 x m
      ({ v with null := some (advance p ((f.stride : Int) - r.2.1) r.1) }, r.2.2)
  | .nullStat f i => (v, storeNullStat c row f (v.slot i).ptr c.ents m)
  | .dyn f i lbo =>
    match row.val f.idx with
    | .bit b => (v, setbit m ((v.slot i).ptr + lbo) b ((v.slot i).mask.setWidth 8))
    | _ => (v, m)
  | .stat f i => (v, storeStat c row f ((v.slot i).ptr + (f.off / 8 : Nat)) m)

def storeAccs (c : Cfg) (p : Bool) (row : Row) : List Acc → Vars → Mem → Vars × Mem
  | [], v, m => (v, m)
  | a :: as, v, m => let (v', m') := storeAcc c p row a v m; storeAccs c p row as v' m'

/-- The block `stores`. -/
def storeGroups (c : Cfg) (p : Bool) (row : Row) : List GSt → Mem → List GSt × Mem
  | [], m => ([], m)
  | s :: ss, m =>
    let (v, m') := storeAccs c p row s.accs s.vars m
    let (ss', m'') := storeGroups c p row ss m'
    ({ s with vars := v } :: ss', m'')

/-- `stores` followed by `jumps`. -/
def storeStep (c : Cfg) (p : Bool) (row : Row) (s : St) (m : Mem) : St × Mem :=
  let r := storeGroups c p row s.gs m
  (jumps c p { s with gs := r.1 }, r.2)

/-- Storing rows with their predicates (`true` without predication). -/
def storeAll (c : Cfg) : List (Row × Bool) → St → Mem → St × Mem
  | [], s, m => (s, m)
  | (r, p) :: rs, s, m => let (s', m') := storeStep c p r s m; storeAll c rs s' m'

/-! ### Point access -/

/-- One leaf of a point access, WasmUtil.cpp:2051-2403 (loads).  `ip` is `inode_ptr`. -/
def pointLeaf (c : Cfg) (m : Mem) (ip : Int) (iter : Option Nat) (f : Leaf) (e : Env) : Env :=
  let it := iter.getD 0
  let bitPos := f.off + it * f.stride
  let ptr : Int := ip + byteOff 0 iter f
  if f.idx = c.sch.length then
    if c.needsNull then
      if f.stride % 8 ≠ 0 then
        c.ents.foldl (fun e i => if c.nullable i then
          let o := (bitPos &&& 7) + i
          e.setNull i (test8 (m (ip + (bitPos >>> 3 : Nat) + (o >>> 3 : Nat))) (1#8 <<< (o &&& 7))) else e) e
      else
        c.ents.foldl (fun e i => if c.nullable i then
          e.setNull i (test8 (m (ptr + ((f.off + i) / 8 : Nat))) (1#8 <<< ((f.off + i) % 8))) else e) e
    else e
  else if f.idx ∈ c.ents then
    if f.stride % 8 ≠ 0 then
      e.setVal f.idx (.bit (test8 (m (ip + (bitPos >>> 3 : Nat))) (1#8 <<< (bitPos &&& 7))))
    else e.setVal f.idx (loadStat c m 0 f (ptr + (f.off / 8 : Nat)))
  else e

/-- One group of a point access, WasmUtil.cpp:1996-2050. -/
def pointGroup (c : Cfg) (m : Mem) (base : Int) (t : Nat) (g : Group) (e : Env) : Env :=
  g.leaves.foldl (fun e f => pointLeaf c m (base + (g.ioff / 8 + addInode g.levels t : Nat)) (inodeIter g.levels t) f e) e

/-- `compile_load_point_access`, WasmUtil.cpp:1942-2469: loading tuple `t`.  The code uses up the expression `tuple_id` in the first
group, so it works for layouts with one group only (the model does not need this). -/
def loadPoint (c : Cfg) (lay : Kids) (m : Mem) (base : Int) (t : Nat) : Option (List (Option Cell)) :=
  combine c (hasNull c lay) (lay.groups.foldl (fun e g => pointGroup c m base t g e) Env.empty)

end Mutable.WLayout
