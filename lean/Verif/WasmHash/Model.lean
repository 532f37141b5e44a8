import Verif.WasmStr.Model
import Mathlib.Data.List.Sort

/-!
# Hash functions, key comparison and entry layout of the hash tables of the WebAssembly backend

Models `/repo/src/backend/WasmAlgo.{hpp,cpp}`: the hash functions (`murmur3_bit_mix`, `fnv_1a`,
`str_hash`, `murmur3_64a_hash`), the references through which a table stores, loads and compares the
components of a key (`the_reference`), and the layout of an entry (`set_byte_offsets`, NULL bitmap).
The algorithms of the tables themselves are the subject of `Verif.WasmHT`.

Simplifications.
* A memory region belonging to one component of an entry is modelled on its own; that the regions of
  an entry do not overlap is a theorem (`C47_layout`).
* A value of an integer type is modelled by the number it denotes; the code keeps integers of 8 and
  16 bits in 32-bit registers and does not always normalise them after arithmetic.  Here they are
  normalised, as they are after loading them from memory.
* SIMD values are not modelled (`M_unreachable` in the code).
-/

namespace Mutable.WHash
open WStr

/-! ## Values -/

/-- A 64-bit register. -/
abbrev U64 := BitVec 64

/-- A primitive value: Boolean, integer (or decimal, date, datetime) of `w` bits, float, double.
Floating-point values are given by their IEEE 754 bits. -/
inductive Prim where
  | bool (b : Bool)
  | int (w : Nat) (x : Int)
  | f32 (bits : BitVec 32)
  | f64 (bits : BitVec 64)
deriving DecidableEq

/-- `reinterpret_to_U64`, `/repo/src/backend/WasmAlgo.cpp:257-275`, and `PrimitiveExpr::hash`,
`/repo/src/backend/WasmDSL.hpp:2271-2279`, which agree.  An integer of up to 32 bits is kept
sign-extended in a 32-bit register and is extended by zeros (`make_unsigned`, then `ExtendUInt32`,
`WasmDSL.hpp:1690-1706`, `2009`). -/
def Prim.toU64 : Prim → U64
  | .bool b => if b then 1 else 0
  | .int w x => if w = 64 then BitVec.ofInt 64 x else (BitVec.ofInt 32 x).setWidth 64
  | .f32 b => b.setWidth 64
  | .f64 b => b

/-- A value given to the hash table, `SQL_t`.  A primitive expression has a NULL flag and a value,
which is arbitrary if the flag is set; `nullable` is `can_be_null()`, which is known when the code is
generated.  A string is a pointer, which is null for NULL. -/
inductive Val where
  | prim (nullable isNull : Bool) (v : Prim)
  | str (s : Option NChar)

/-- The type of a component of the key, as far as hashing needs it: `Type::size()` of a primitive
type, `NChar::length()` of a character sequence. -/
inductive KTy where
  | prim (bits : Nat)
  | str (length : Nat)
deriving DecidableEq

/-! ## Hash functions -/

/-- `murmur3_bit_mix`, `/repo/src/backend/WasmAlgo.cpp:280-293`. -/
def bitMix (bits : U64) : U64 :=
  let res := bits
  let res := res ^^^ (res >>> 31)
  let res := res * 0x7fb5d329728ea185#64
  let res := res ^^^ (res >>> 27)
  let res := res * 0x81dadef4bc2dd44d#64
  let res := res ^^^ (res >>> 33)
  res

/-- The loop of `fnv_1a`, `/repo/src/backend/WasmAlgo.cpp:305-310`: at most `n` further bytes, and
only up to a NUL byte. -/
def fnvLoop (mem : Nat → Int) : (n i : Nat) → U64 → U64
  | 0, _, h => h
  | n + 1, i, h =>
    if mem i = 0 then h
    else fnvLoop mem n (i + 1) ((h ^^^ (BitVec.ofInt 8 (mem i)).setWidth 64) * 0x100000001b3#64)

/-- `fnv_1a`, `/repo/src/backend/WasmAlgo.cpp:298-313`. -/
def fnv1a (mem : Nat → Int) (num_bytes : Nat) : U64 := fnvLoop mem num_bytes 0 0xcbf29ce484222325#64

/-- The loop which shifts the characters of a string into a register,
`/repo/src/backend/WasmAlgo.cpp:324-328` and `390-394`.  A character is sign-extended
(`Charx1::to<uint64_t>`). -/
def packStr (mem : Nat → Int) : (n i : Nat) → U64 → U64
  | 0, _, h => h
  | n + 1, i, h => packStr mem n (i + 1) ((h <<< 8) ||| BitVec.ofInt 64 (mem i))

/-- The value that stands for NULL, `1UL << 63`. -/
def nullHash : U64 := 1#64 <<< 63

/-- `str_hash`, `/repo/src/backend/WasmAlgo.cpp:315-336`. -/
def strHash (length : Nat) (s : Option NChar) : U64 :=
  match s with
  | none => nullHash
  | some s => if length ≤ 8 then bitMix (packStr s.mem length 0 0) else fnv1a s.mem length

/-- `Expr::hash`, `/repo/src/backend/WasmDSL.hpp:4792-4797`. -/
def exprHash (nullable isNull : Bool) (v : Prim) : U64 :=
  if nullable then (if isNull then nullHash else v.toU64) else v.toU64

/-- The size of a component in bits, `/repo/src/backend/WasmAlgo.cpp:355-363`. -/
def KTy.bits : KTy → Nat
  | .prim b => b
  | .str l => 8 * l

/-- `NChar::length()`. -/
def KTy.len : KTy → Nat
  | .prim _ => 0
  | .str l => l

/-- Shifting one component into a register, `/repo/src/backend/WasmAlgo.cpp:369-401`. -/
def packOne (h : U64) : KTy × Val → U64
  | (t, .prim nullable isNull v) =>
    let h := h <<< t.bits
    if nullable then h ||| (BitVec.allOnes 64 + (if isNull then 1 else 0) &&& v.toU64)
    else h ||| v.toU64
  | (t, .str none) => h <<< t.bits
  | (t, .str (some s)) => packStr s.mem t.len 0 h

/-- One round of the general Murmur3_64a, `/repo/src/backend/WasmAlgo.cpp:410-425`. -/
def murmurOne (h : U64) : KTy × Val → U64
  | (_, .prim nullable isNull v) =>
    let k := exprHash nullable isNull v
    let k := k * 0xc6a4a7935bd1e995#64
    let k := k.rotateLeft 47
    let k := k * 0xc6a4a7935bd1e995#64
    let h := h ^^^ k
    let h := h.rotateLeft 45
    h * 5#64 + 0xe6546b64#64
  | (t, .str s) => h ^^^ strHash t.len s

/-- `murmur3_64a_hash`, `/repo/src/backend/WasmAlgo.cpp:338-432`. -/
def hashKey (values : List (KTy × Val)) : U64 :=
  match values with
  | [(_, .prim nullable isNull v)] => bitMix (exprHash nullable isNull v)
  | [(t, .str s)] => strHash t.len s
  | _ =>
    if (values.map fun p => p.1.bits).sum ≤ 64 then bitMix (values.foldl packOne 0)
    else
      let h := values.foldl murmurOne (BitVec.ofNat 64 values.length * 0xc6a4a7935bd1e995#64)
      bitMix (h ^^^ BitVec.ofNat 64 values.length)

/-! ## Comparison -/

/-- Is the float a NaN: exponent all ones, fraction not zero (`e` bits of exponent, `f` of fraction). -/
def isNaN (e f : Nat) (x : Nat) : Bool := x / 2 ^ f % 2 ^ e == 2 ^ e - 1 && x % 2 ^ f != 0

/-- Is the float a zero of either sign. -/
def isZero (e f : Nat) (x : Nat) : Bool := x % 2 ^ (e + f) == 0

/-- IEEE 754 equality, the instructions `f32.eq` and `f64.eq` of WebAssembly, on the bits. -/
def ieeeEq (e f : Nat) (x y : Nat) : Bool :=
  !isNaN e f x && !isNaN e f y && (x == y || (isZero e f x && isZero e f y))

/-- `*value_ == value` of two values of the same type; of different types the code does not
compile. -/
def Prim.eq : Prim → Prim → Bool
  | .bool a, .bool b => a == b
  | .int w a, .int w' b => w == w' && a == b
  | .f32 a, .f32 b => ieeeEq 8 23 a.toNat b.toNat
  | .f64 a, .f64 b => ieeeEq 11 52 a.toNat b.toNat
  | _, _ => false

/-- One component of a stored key: the NULL bit, present iff the entry is nullable, and the memory
of the value.  For a string the memory of the characters, the length of its type and whether it is a
`VARCHAR`. -/
inductive Cell where
  | prim (nullBit : Option Bool) (v : Prim)
  | str (nullBit : Option Bool) (buf : NChar)

/-- `the_reference::operator==`, `/repo/src/backend/WasmAlgo.hpp:163-172` and `307-325`.  The result of
`strncmp` is not looked at if one of the strings is NULL.  `strncmp` is the function of
`Verif.WasmStr.Model`; `cache` says which comparison function the module contains already. -/
def Cell.eq (fuel : Nat) (cache : Cache) (cell : Cell) (val : Val) : Bool :=
  match cell, val with
  | .prim (some isNull_) stored, .prim _ isNull v => isNull_ == isNull && (isNull_ || stored.eq v)
  | .prim none stored, .prim _ isNull v => !isNull && stored.eq v
  | .str nullBit buf, .str s =>
    let equalAddrs := match s with
      | none => false
      | some s => (strncmp fuel cache buf s buf.length false).1 == some 0
    match nullBit with
    | some isNull_ => isNull_ == s.isNone && (isNull_ || equalAddrs)
    | none => s.isSome && equalAddrs
  | _, _ => false

/-- `equal_key`, `/repo/src/backend/WasmAlgo.cpp:944-1002` and `1903-1978`. -/
def equalKey (fuel : Nat) (cache : Cache) : List Cell → List Val → Bool
  | [], [] => true
  | c :: cs, v :: vs => c.eq fuel cache v && equalKey fuel cache cs vs
  | _, _ => false

/-! ## Storing and loading -/

/-- `the_reference::operator=`, `/repo/src/backend/WasmAlgo.hpp:119-130` and `257-272`.  `none` if the
copying loop does not end within the fuel or if a NULL is written to an entry which is not nullable
(`M_insist`, `Wasm_insist`). -/
def Cell.store (fuel : Nat) (cell : Cell) (val : Val) : Option Cell :=
  match cell, val with
  | .prim (some _) _, .prim _ isNull v => some (.prim (some isNull) v)
  | .prim none _, .prim nullable _ v => if nullable then none else some (.prim none v)
  | .str (some _) buf, .str none => some (.str (some true) buf)
  | .str (some _) buf, .str (some s) =>
    (strncpy fuel buf.mem 0 s.mem s.size).map fun r => .str (some false) { buf with mem := r.1 }
  | .str none _, .str none => none
  | .str none buf, .str (some s) =>
    (strncpy fuel buf.mem 0 s.mem s.size).map fun r => .str none { buf with mem := r.1 }
  | _, _ => none

/-- `the_reference::operator T`, `/repo/src/backend/WasmAlgo.hpp:175-180` and `328-340`. -/
def Cell.load : Cell → Val
  | .prim (some isNull) v => .prim true isNull v
  | .prim none v => .prim false false v
  | .str (some true) _ => .str none
  | .str (some false) buf => .str (some buf)
  | .str none buf => .str (some buf)

/-- `insert_key`, `/repo/src/backend/WasmAlgo.cpp:1008-1075` and `1980-2055`. -/
def insertKey (fuel : Nat) : List Cell → List Val → Option (List Cell)
  | [], [] => some []
  | c :: cs, v :: vs => match c.store fuel v, insertKey fuel cs vs with
    | some c', some cs' => some (c' :: cs')
    | _, _ => none
  | _, _ => none

/-! ## Layout of an entry -/

/-- The types of which an entry consists, with `size()` and `alignment()` in bits,
`/repo/include/mutable/catalog/Type.hpp:244-245`, `275-276`, `314-321`, `349-350`, `378-379`,
`433-442`. -/
inductive Ty where
  | bool
  | bitmap (length : Nat)
  | char (length : Nat)
  | varchar (length : Nat)
  | date
  | datetime
  | int (bytes : Nat)
  | float (bits : Nat)
  | decimal (bits : Nat)

def Ty.size : Ty → Nat
  | .bool => 1
  | .bitmap n => n
  | .char n => 8 * n
  | .varchar n => 8 * (n + 1)
  | .date => 32
  | .datetime => 64
  | .int n => 8 * n
  | .float n => n
  | .decimal n => n

def Ty.alignment : Ty → Nat
  | .bool => 1
  | .bitmap _ => 1
  | .char _ => 8
  | .varchar _ => 8
  | .date => 32
  | .datetime => 64
  | .int n => 8 * n
  | .float n => n
  | .decimal n => n

/-- Bits to bytes, rounded up: `(n + 7) / 8`. -/
def toBytes (n : Nat) : Nat := (n + 7) / 8

/-- The loop of `set_byte_offsets`, `/repo/src/backend/WasmAlgo.cpp:457-464`: over the sorted indices;
the offsets are returned as a function of the index. -/
def offsetsLoop (types : List Ty) : List Nat → (Nat → Nat) × Nat × Nat → (Nat → Nat) × Nat × Nat
  | [], s => s
  | i :: is, (offs, cur, maxAlign) =>
    let t := types.getD i .bool
    offsetsLoop types is
      (fun j => if j = i then cur else offs j, cur + toBytes t.size, max maxAlign (toBytes t.alignment))

/-- `set_byte_offsets`, `/repo/src/backend/WasmAlgo.cpp:437-470`; the default initial offset is 0 and
the default initial alignment 1, `/repo/src/backend/WasmAlgo.hpp:596-600`.  `std::stable_sort` is
modelled by insertion sort, which is stable, too.  Answers offsets, size and
alignment of an entry. -/
def setByteOffsets (types : List Ty) (offset maxAlign : Nat) : (Nat → Nat) × Nat × Nat :=
  if types.isEmpty then (fun _ => 0, offset, maxAlign)
  else
    let indices := (List.range types.length).insertionSort fun l r =>
      (types.getD l .bool).alignment ≥ (types.getD r .bool).alignment
    let (offs, cur, maxAlign) := offsetsLoop types indices (fun _ => 0, offset, maxAlign)
    let rem := cur % maxAlign
    let cur := if rem ≠ 0 then cur + (maxAlign - rem) else cur
    (offs, cur, maxAlign)

/-! ## NULL bits -/

/-- The address and the mask of the NULL bit of component `idx`: the constructor of `the_reference`
takes it as `uint8_t null_bit_offset`, `/repo/src/backend/WasmAlgo.hpp:98-102` and `234-238`. -/
def nullBit (idx : Nat) : Nat × BitVec 8 := (idx % 256 / 8, 1#8 <<< (idx % 256 % 8))

/-- `setbit(bytes, value, mask)`, `/repo/src/backend/WasmUtil.hpp:1321-1327`. -/
def setbit (byte : BitVec 8) (value : Bool) (mask : BitVec 8) : BitVec 8 :=
  byte ^^^ (((-(if value then 1 else 0)) ^^^ byte) &&& mask)

/-- Writing the NULL bit of component `idx` of an entry with the given bitmap. -/
def setNull (bitmap : Nat → BitVec 8) (idx : Nat) (value : Bool) : Nat → BitVec 8 := fun a =>
  if a = (nullBit idx).1 then setbit (bitmap a) value (nullBit idx).2 else bitmap a

/-- Reading the NULL bit of component `idx`: `(**is_null_byte_ bitand *is_null_mask_).to<bool>()`. -/
def getNull (bitmap : Nat → BitVec 8) (idx : Nat) : Bool :=
  bitmap (nullBit idx).1 &&& (nullBit idx).2 != 0

end Mutable.WHash
