import Verif.WasmLayout.Model
import Verif.Layout.Model
/-
Model of the SIMDfied table scan: `supports_simd`, `get_num_simd_lanes` (src/storage/DataLayout.cpp:172-263) and `Scan::execute`
(src/backend/WasmOperator.cpp:1288-1340).
-/
namespace Mutable.WLayout

/-- `(type->size() + 7) / 8`. -/
def Ty.bytes : Ty → Nat
  | .bool => 1
  | .num n => n
  | .str n => n

/-- `is_character_sequence`. -/
def Ty.isStr : Ty → Bool
  | .str _ => true
  | _ => false

/-- The loop over the children of the innermost node in `supports_simd`, DataLayout.cpp:193-236: the number of lanes, or nothing if
SIMD is not supported. -/
def simdLeaves (c : Cfg) : Kids → Nat → Option Nat
  | .nil, l => some l
  | .inode _ _ _ _ _, _ => none
  | .leaf i o s rest, l =>
    if i = c.sch.length then
      if c.needsNull then
        if s % 8 ≠ 0 then none
        else if c.ents.length > 64 then none
        else if max (Layout.ceilPow2 c.ents.length) 8 ≠ s then none
        else if o % 8 ≠ 0 then none
        else simdLeaves c rest (max l 16)
      else simdLeaves c rest l
    else if i ∈ c.ents then
      if s % 8 ≠ 0 then
        if s ≠ 1 then none else simdLeaves c rest (max l (16 / (c.ty i).bytes))
      else if c.ty i = .bool ∧ s ≠ 8 then none
      else if (c.ty i).isStr then none
      else simdLeaves c rest (max l (16 / (c.ty i).bytes))
    else simdLeaves c rest l

/-- `supports_simd`, DataLayout.cpp:172-244; `num` is the number of tuples of the node (0 for the root). -/
def supportsSimd (c : Cfg) : Kids → (num : Nat) → Bool
  | .nil, _ => false
  | .inode n _ _ kids .nil, _ => supportsSimd c kids n
  | k, num =>
    match simdLeaves c k 1 with
    | some l => num % l == 0
    | none => false

/-- The loop of `get_num_simd_lanes`, DataLayout.cpp:252-260. -/
def numLanesGo (c : Cfg) : List Nat → Nat → Nat
  | [], l => l
  | i :: is, l => if c.nullable i then 16 else numLanesGo c is (max l (16 / (c.ty i).bytes))

/-- `get_num_simd_lanes`, DataLayout.cpp:246-263. -/
def numLanes (c : Cfg) : Nat := numLanesGo c c.ents 1

/-- The number of lanes of a scan, WasmOperator.cpp:1298-1305.  `pref`: `num_simd_lanes_preferred`. -/
def scanLanes (c : Cfg) (simd doublePumping : Bool) (pref : Nat) : Nat :=
  if simd then (if doublePumping then 2 else 1) * max pref (numLanes c) else 1

/-- What `Scan<SIMDfied>::pre_condition` requires, WasmOperator.cpp:1228-1248, for a table of `n` rows. -/
def scanPre (c : Cfg) (lay : Kids) (simd : Bool) (n : Nat) : Bool :=
  !simd || (supportsSimd c lay 0 && n % numLanes c == 0)

/-- `WHILE (tuple_id < num_rows) { loads; pipeline(); jumps }`, WasmOperator.cpp:1333-1338: the rows given to the pipeline, batch by
batch.  The first argument bounds the number of iterations (`n` suffices, each adds at least one to the tuple ID). -/
def scanLoop (c : Cfg) (lay : Kids) (m : Mem) (n : Nat) : Nat → St → List (Option (List (Option Cell)))
  | 0, _ => []
  | fuel + 1, s =>
    if s.tid < n then
      (List.range c.lanes).map (fun j => (loadStep c lay m j s).1) ++ scanLoop c lay m n fuel (loadStep c lay m 0 s).2
    else []

/-- The scan of a table of `n` rows. -/
def scan (c : Cfg) (lay : Kids) (m : Mem) (base : Nat) (n : Nat) : List (Option (List (Option Cell))) :=
  scanLoop c lay m n n (init c lay base 0)

end Mutable.WLayout
