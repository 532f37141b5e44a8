import Verif.WasmHash.Key
import Verif.WasmHash.Layout
import Verif.WasmHT.Props
import Mathlib.Data.Rat.Defs

/-!
# C47: keys of the hash tables of the WebAssembly backend

Hash functions, comparison of keys, storing keys in entries, layout of entries, NULL bits.  The vocabulary of the statements
(`Col`, `Typed`, `den`, `notDistinct`, `Canon`) is in the section "Specification" of `Verif.WasmHash.Key`.
-/

namespace Mutable.WHash
open WStr

/-! ## The bit mix -/

/-- **C47.**  The bit mix loses nothing: different inputs have different outputs. -/
theorem C47_bit_mix : Function.Injective bitMix := fun _ _ h => bitMix_inj h

example : bitMix 1 ≠ bitMix 2 := fun h => absurd (C47_bit_mix h) (by decide)

/-- **C47.**  A key of a single integer column: different values, within the range of the type, never have the same hash. -/
theorem C47_integer_no_collision (t : KTy) (n n' : Bool) (w : Nat) (hw : w = 8 ∨ w = 16 ∨ w = 32 ∨ w = 64) (x y : Int)
    (hx : -2 ^ (w - 1) ≤ x ∧ x < 2 ^ (w - 1)) (hy : -2 ^ (w - 1) ≤ y ∧ y < 2 ^ (w - 1))
    (h : hashKey [(t, .prim n false (.int w x))] = hashKey [(t, .prim n' false (.int w y))]) : x = y := by
  have h1 : Prim.toU64 (.int w x) = Prim.toU64 (.int w y) := by
    have := bitMix_inj h
    simpa [exprHash] using this
  unfold Prim.toU64 at h1
  simp only at h1
  by_cases h64 : w = 64
  · subst h64
    rw [if_pos rfl, if_pos rfl] at h1
    have := congrArg BitVec.toInt h1
    rw [BitVec.toInt_ofInt, BitVec.toInt_ofInt] at this
    norm_num at hx hy
    simp only [Int.bmod] at this
    norm_num at this
    omega
  · rw [if_neg h64, if_neg h64] at h1
    have h2 := congrArg BitVec.toNat h1
    rw [BitVec.toNat_setWidth, BitVec.toNat_setWidth] at h2
    have b1 := (BitVec.ofInt 32 x).isLt
    have b2 := (BitVec.ofInt 32 y).isLt
    rw [Nat.mod_eq_of_lt (by omega), Nat.mod_eq_of_lt (by omega)] at h2
    have h3 : BitVec.ofInt 32 x = BitVec.ofInt 32 y := BitVec.eq_of_toNat_eq h2
    have := congrArg BitVec.toInt h3
    rw [BitVec.toInt_ofInt, BitVec.toInt_ofInt] at this
    simp only [Int.bmod] at this
    norm_num at this
    clear h2 h1 h h3 b1 b2
    have hx' : -2147483648 ≤ x ∧ x < 2147483648 := by
      rcases hw with rfl | rfl | rfl | rfl
      · norm_num at hx; omega
      · norm_num at hx; omega
      · norm_num at hx; omega
      · exact absurd rfl h64
    have hy' : -2147483648 ≤ y ∧ y < 2147483648 := by
      rcases hw with rfl | rfl | rfl | rfl
      · norm_num at hy; omega
      · norm_num at hy; omega
      · norm_num at hy; omega
      · exact absurd rfl h64
    clear hx hy hw h64
    omega

example : hashKey [(.prim 8, .prim true false (.int 8 (-1)))] ≠ hashKey [(.prim 8, .prim true false (.int 8 127))] := by
  intro h
  exact absurd (C47_integer_no_collision _ _ _ 8 (Or.inl rfl) (-1) 127 (by norm_num) (by norm_num) h) (by norm_num)

/-! ## Comparison and storing -/

/-- **C47.**  Comparing a stored key with a given key answers whether they are not distinct in the sense of SQL: each component equal
or both NULL, whatever the memory behind the end of a string or behind a NULL holds, and whichever comparison function was
generated before. -/
theorem C47_equal_key (fuel : Nat) (cache : Cache) (cols : List Col) (cells : List Cell) (vs : List Val)
    (hf : ∀ c ∈ cols, c.fuelOk fuel) (hc : Each2 (fun c x => Cell.Typed c x) cols cells) (hv : Each2 (fun c v => Val.Typed c v) cols vs) :
    equalKey fuel cache cells vs = true ↔ Each2 (fun x v => notDistinct (Cell.den x) (Val.den v)) cells vs :=
  equalKey_iff cache hf hc hv

/-- **C47.**  Inserting a key succeeds, and loading the stored key gives back what was inserted, whatever was in the memory before. -/
theorem C47_insert_key (fuel : Nat) (cols : List Col) (cells : List Cell) (vs : List Val)
    (hf : ∀ c ∈ cols, c.fuelOk fuel) (hc : Each2 (fun c x => Cell.Typed c x) cols cells) (hv : Each2 (fun c v => Val.Typed c v) cols vs) :
    ∃ cells', insertKey fuel cells vs = some cells' ∧ Each2 (fun c x => Cell.Typed c x) cols cells' ∧
      Each2 (fun c v => Val.Typed c v) cols (cells'.map Cell.load) ∧
      (cells'.map Cell.load).map Val.den = vs.map Val.den := by
  obtain ⟨cells', h1, h2, h3, h4, -, -⟩ := insertKey_spec hf hc hv
  refine ⟨cells', h1, h2, h3, ?_⟩
  rw [← h4, List.map_map]
  exact List.map_congr_left fun c _ => Cell.load_den c

/-- **C47, equal keys have equal hashes.**  If a stored key and a given key are not distinct then they have the same hash.  Partial:
no negative zero, and the memory of strings of at most eight bytes is filled up with NUL bytes; without this it is false
(`C47_negative_zero`, `C47_dirty_string`). -/
theorem C47_equal_hash_partial (fuel : Nat) (cache : Cache) (cols : List Col) (cells : List Cell) (vs : List Val)
    (hf : ∀ c ∈ cols, c.fuelOk fuel) (hc : Each2 (fun c x => Cell.Typed c x) cols cells) (hv : Each2 (fun c v => Val.Typed c v) cols vs)
    (hl : Each2 (fun c v => Val.Typed c v) cols (cells.map Cell.load))
    (cc : ∀ x ∈ cells, x.load.Canon) (cv : ∀ v ∈ vs, v.Canon) (he : equalKey fuel cache cells vs = true) :
    hashKey (withTypes cols (cells.map Cell.load)) = hashKey (withTypes cols vs) := by
  rw [equalKey_iff cache hf hc hv] at he
  refine hashKey_eq hl hv ?_ cv ?_
  · intro v hv
    obtain ⟨x, hx, rfl⟩ := List.mem_map.1 hv
    exact cc x hx
  · have : ∀ (cells : List Cell) (vs : List Val), Each2 (fun x v => notDistinct (Cell.den x) (Val.den v)) cells vs →
        sameKey (cells.map Cell.load) vs := by
      intro cells
      induction cells with
      | nil => intro vs h; cases vs <;> exact h
      | cons x xs ih =>
        intro vs h
        cases vs with
        | nil => exact h
        | cons v vs => exact ⟨by show notDistinct _ _; rw [Cell.load_den]; exact h.1, ih vs h.2⟩
    exact this cells vs he

/-- **C47.**  A key inserted into zeroed memory keeps its hash when it is loaded again, as `rehash` does. -/
theorem C47_insert_hash_partial (fuel : Nat) (cols : List Col) (cells : List Cell) (vs : List Val)
    (hf : ∀ c ∈ cols, c.fuelOk fuel) (hc : Each2 (fun c x => Cell.Typed c x) cols cells) (hv : Each2 (fun c v => Val.Typed c v) cols vs)
    (cv : ∀ v ∈ vs, v.Canon) (hz : ∀ x ∈ cells, x.Zeroed) (hn : ∀ v ∈ vs, v.NotNaN) :
    ∃ cells', insertKey fuel cells vs = some cells' ∧
      hashKey (withTypes cols (cells'.map Cell.load)) = hashKey (withTypes cols vs) := by
  obtain ⟨cells', h1, h2, h3, h4, -, h6⟩ := insertKey_spec hf hc hv
  refine ⟨cells', h1, hashKey_eq h3 hv (h6 hz cv) cv ?_⟩
  have hd : (cells'.map Cell.load).map Val.den = vs.map Val.den := by
    rw [← h4, List.map_map]
    exact List.map_congr_left fun c _ => Cell.load_den c
  have refl : ∀ v : Val, v.NotNaN → notDistinct v.den v.den := by
    intro v hv
    rcases v with ⟨n, isN, v⟩ | s
    · cases isN
      · exact Prim.eq_refl (hv rfl)
      · exact trivial
    · rcases s with _ | s
      · exact trivial
      · exact rfl
  have : ∀ (as bs : List Val), (∀ v ∈ bs, v.NotNaN) → as.map Val.den = bs.map Val.den → sameKey as bs := by
    intro as
    induction as with
    | nil => intro bs _ h; cases bs with | nil => exact trivial | cons => cases h
    | cons a as ih =>
      intro bs hn h
      cases bs with
      | nil => cases h
      | cons b bs =>
        rw [List.map_cons, List.map_cons, List.cons.injEq] at h
        exact ⟨by show notDistinct _ _; rw [h.1]; exact refl b (hn b List.mem_cons_self), ih bs (fun v hv => hn v (List.mem_cons_of_mem _ hv)) h.2⟩
  exact this _ _ hn hd

/-! ### A concrete key: a nullable `INT(4)` and a `CHAR(4)`, which fit into 64 bits -/

def exCols : List Col := [⟨true, .prim 32, false⟩, ⟨false, .str 4, false⟩]
/-- The string "ab", padded. -/
def ab : NChar := ⟨fun i => [97, 98].getD i 0, 4, false⟩
def exVals : List Val := [.prim true false (.int 32 42), .str (some ab)]
/-- Zeroed memory. -/
def exCells : List Cell := [.prim (some false) (.int 32 0), .str none ⟨fun _ => 0, 4, false⟩]

theorem exTyped : Each2 (fun c v => Val.Typed c v) exCols exVals :=
  ⟨⟨⟨32, rfl⟩, rfl, fun h => by cases h⟩, ⟨rfl, rfl, fun h => by cases h⟩, trivial⟩
theorem exCellTyped : Each2 (fun c x => Cell.Typed c x) exCols exCells := ⟨⟨⟨32, rfl⟩, rfl⟩, ⟨rfl, rfl, rfl⟩, trivial⟩
theorem exFuel : ∀ c ∈ exCols, c.fuelOk 20 := by simp [exCols, Col.fuelOk, KTy.len]
theorem exCanon : ∀ v ∈ exVals, v.Canon := by
  intro v hv
  simp only [exVals, List.mem_cons, List.not_mem_nil, or_false] at hv
  rcases hv with rfl | rfl
  · exact fun _ => trivial
  · intro _ i j h1 h2 h3
    have hj : j < 4 := h2
    have : ∀ i < 4, ∀ j < 4, i ≤ j → ab.mem i = 0 → ab.mem j = 0 := by decide
    exact this i (by omega) j hj h1 h3
theorem exZero : ∀ x ∈ exCells, x.Zeroed := by
  intro x hx
  simp only [exCells, List.mem_cons, List.not_mem_nil, or_false] at hx
  rcases hx with rfl | rfl
  · exact trivial
  · exact fun _ _ _ => rfl
theorem exNaN : ∀ v ∈ exVals, v.NotNaN := by
  intro v hv
  simp only [exVals, List.mem_cons, List.not_mem_nil, or_false] at hv
  rcases hv with rfl | rfl
  · exact fun _ => trivial
  · exact trivial

example := C47_insert_hash_partial 20 exCols exCells exVals exFuel exCellTyped exTyped exCanon exZero exNaN
example := C47_insert_key 20 exCols exCells exVals exFuel exCellTyped exTyped
example : equalKey 20 none exCells exVals = false := by decide +kernel
example : (insertKey 20 exCells exVals).map (fun cs => equalKey 20 none cs exVals) = some true := by decide +kernel

/-! ## The tables -/

/-- The keys for which the hash is compatible with the comparison. -/
def GoodKey (cols : List Col) : Type :=
  { vs : List Val // Each2 (fun c v => Val.Typed c v) cols vs ∧ (∀ v ∈ vs, v.Canon) ∧ (∀ v ∈ vs, v.NotNaN) }

/-- The comparison of a key that was inserted into a fresh entry with a given key. -/
def tableEq (fuel : Nat) (cache : Cache) (fresh : List Cell) {cols : List Col} (a b : GoodKey cols) : Bool :=
  match insertKey fuel fresh a.1 with
  | some cells => equalKey fuel cache cells b.1
  | none => false

/-- The configuration of a hash table of the WebAssembly backend with key columns `cols`, for `Verif.WasmHT`. -/
def tableCfg (fuel : Nat) (cache : Cache) (fresh : List Cell) (cols : List Col) (st : WasmHT.Probing) : WasmHT.Cfg (GoodKey cols) where
  eq := tableEq fuel cache fresh
  hash a := (hashKey (withTypes cols a.1)).toNat
  strat := st

theorem Each2.swap {α β : Type} {P : α → β → Prop} : ∀ {as : List α} {bs : List β}, Each2 P as bs → Each2 (fun b a => P a b) bs as
  | [], [], _ => trivial
  | _ :: _, _ :: _, h => ⟨h.1, Each2.swap h.2⟩
  | [], _ :: _, h => h.elim
  | _ :: _, [], h => h.elim

theorem notDistinct_symm {a b : Option Datum} (h : notDistinct a b) : notDistinct b a := by
  rcases a with _ | (a | a) <;> rcases b with _ | (b | b) <;> simp only [notDistinct] at h ⊢
  · exact Prim.eq_symm h
  · exact h.symm

theorem notDistinct_trans {a b c : Option Datum} (h : notDistinct a b) (h' : notDistinct b c) : notDistinct a c := by
  rcases a with _ | (a | a) <;> rcases b with _ | (b | b) <;> simp only [notDistinct] at h <;>
    rcases c with _ | (c | c) <;> simp only [notDistinct] at h' ⊢
  · exact Prim.eq_trans h h'
  · exact h.trans h'

theorem notDistinct_refl {v : Val} (hv : v.NotNaN) : notDistinct v.den v.den := by
  rcases v with ⟨n, isN, v⟩ | s
  · cases isN
    · exact Prim.eq_refl (hv rfl)
    · exact trivial
  · rcases s with _ | s
    · exact trivial
    · exact rfl

theorem tableEq_iff {fuel : Nat} {cache : Cache} {fresh : List Cell} {cols : List Col} (hf : ∀ c ∈ cols, c.fuelOk fuel)
    (hc : Each2 (fun c x => Cell.Typed c x) cols fresh) (a b : GoodKey cols) : tableEq fuel cache fresh a b = true ↔ sameKey a.1 b.1 := by
  obtain ⟨cells, h1, h2, h3, h4, -, -⟩ := insertKey_spec hf hc a.2.1
  unfold tableEq
  rw [h1]
  simp only
  rw [equalKey_iff cache hf h2 b.2.1]
  have : ∀ (cells : List Cell) (as bs : List Val), cells.map Cell.den = as.map Val.den →
      (Each2 (fun x v => notDistinct (Cell.den x) (Val.den v)) cells bs ↔ sameKey as bs) := by
    intro cells
    induction cells with
    | nil =>
      intro as bs h
      cases as with
      | nil => cases bs <;> exact Iff.rfl
      | cons => cases h
    | cons x xs ih =>
      intro as bs h
      cases as with
      | nil => cases h
      | cons a as =>
        rw [List.map_cons, List.map_cons, List.cons.injEq] at h
        cases bs with
        | nil => exact Iff.rfl
        | cons b bs =>
          show notDistinct _ _ ∧ _ ↔ notDistinct _ _ ∧ _
          rw [h.1, ih as bs h.2]
          exact Iff.rfl
  exact this cells a.1 b.1 h4

/-- **C47.**  On canonical keys the hash function and the comparison of the code satisfy what the hash tables require
(`C46_multimap`, `C46_group`, ...): comparison is an equivalence, and equal keys have equal hashes. -/
theorem C47_respects_partial (fuel : Nat) (cache : Cache) (fresh : List Cell) (cols : List Col) (st : WasmHT.Probing)
    (hf : ∀ c ∈ cols, c.fuelOk fuel) (hc : Each2 (fun c x => Cell.Typed c x) cols fresh) :
    WasmHT.Respects (tableCfg fuel cache fresh cols st).eq (tableCfg fuel cache fresh cols st).hash := by
  have key := fun a b => tableEq_iff (cache := cache) hf hc a b
  have refl : ∀ as : List Val, (∀ v ∈ as, v.NotNaN) → sameKey as as := by
    intro as
    induction as with
    | nil => intro _; exact trivial
    | cons a as ih => exact fun h => ⟨notDistinct_refl (h a List.mem_cons_self), ih fun v hv => h v (List.mem_cons_of_mem _ hv)⟩
  have symm : ∀ as bs : List Val, sameKey as bs → sameKey bs as := by
    intro as
    induction as with
    | nil => intro bs h; cases bs <;> exact h
    | cons a as ih =>
      intro bs h
      cases bs with
      | nil => exact h
      | cons b bs => exact ⟨notDistinct_symm h.1, ih bs h.2⟩
  have trans : ∀ as bs cs : List Val, sameKey as bs → sameKey bs cs → sameKey as cs := by
    intro as
    induction as with
    | nil =>
      intro bs cs h h'
      cases bs with
      | nil => exact h'
      | cons => exact h.elim
    | cons a as ih =>
      intro bs cs h h'
      cases bs with
      | nil => exact h.elim
      | cons b bs =>
        cases cs with
        | nil => exact h'.elim
        | cons d ds => exact ⟨notDistinct_trans h.1 h'.1, ih bs ds h.2 h'.2⟩
  refine ⟨fun a => (key a a).2 (refl _ a.2.2.2), fun a b h => (key b a).2 (symm _ _ ((key a b).1 h)),
    fun a b d h h' => (key a d).2 (trans _ _ _ ((key a b).1 h) ((key b d).1 h')), fun a b h => ?_⟩
  show (hashKey _).toNat = (hashKey _).toNat
  rw [hashKey_eq a.2.1 b.2.1 a.2.2.1 b.2.2.1 ((key a b).1 h)]

/-- **C47, GROUP BY with the hash function and the key comparison of the code.**  For every sequence of rows with canonical keys the
open-addressing table ends up with exactly one entry per group, which carries the aggregate of the rows of the group. -/
theorem C47_group_partial {V X : Type} (fuel : Nat) (cache : Cache) (fresh : List Cell) (cols : List Col) (st : WasmHT.Probing)
    (hst : WasmHT.IsStrategy st)
    (hf : ∀ c ∈ cols, c.fuelOk fuel) (hc : Each2 (fun c x => Cell.Typed c x) cols fresh)
    (ic : Nat) (hic : ic < 2 ^ 31) (load : Nat × Nat) (init : X → V) (upd : X → V → V)
    (rows : List (GoodKey cols × X)) (hrows : rows.length ≤ 2 ^ 29) :
    ∃ t, WasmHT.OA.upserts (tableCfg fuel cache fresh cols st) init upd ((WasmHT.OA.init ic).setHighWatermark load) rows = some t ∧
      (WasmHT.OA.forEach t).Pairwise (fun a b => ¬ sameKey a.1.1 b.1.1) ∧
      (∀ e ∈ WasmHT.OA.forEach t, WasmHT.OA.groupValue (tableCfg fuel cache fresh cols st).eq init upd rows e.1 = some e.2) ∧
      (∀ r ∈ rows, ∃ e ∈ WasmHT.OA.forEach t, sameKey e.1.1 r.1.1) := by
  obtain ⟨t, h1, h2, h3, h4⟩ := WasmHT.C46_group (tableCfg fuel cache fresh cols st) hst
    (C47_respects_partial fuel cache fresh cols st hf hc) ic hic load init upd rows hrows
  refine ⟨t, h1, h2.imp ?_, h3, fun r hr => ?_⟩
  · intro a b h hs
    have := (tableEq_iff (cache := cache) hf hc a.1 b.1).2 hs
    rw [show tableEq fuel cache fresh a.1 b.1 = false from h] at this
    cases this
  · obtain ⟨e, he, h⟩ := h4 r hr
    exact ⟨e, he, (tableEq_iff (cache := cache) hf hc e.1 r.1).1 h⟩

def exKey : GoodKey exCols := ⟨exVals, exTyped, exCanon, exNaN⟩

example := C47_group_partial (V := Nat) (X := Nat) 20 none exCells exCols WasmHT.linear (Or.inl rfl) exFuel exCellTyped 10 (by norm_num) (4, 5)
  (fun _ => 1) (fun _ n => n + 1) [(exKey, 0), (exKey, 1)] (by norm_num)

/-! ## Where equal keys have different hashes -/

/-- **C47 is false for the two zeros.**  `0.0` and `-0.0` are equal but have different hashes: `GROUP BY` yields a group for each, and
a join on them may miss the partner. -/
theorem C47_negative_zero :
    equalKey 10 none [.prim none (.f64 0)] [.prim false false (.f64 0x8000000000000000#64)] = true ∧
      hashKey [(.prim 64, .prim false false (.f64 0))] ≠ hashKey [(.prim 64, .prim false false (.f64 0x8000000000000000#64))] := by
  refine ⟨by decide +kernel, fun h => ?_⟩
  have := bitMix_inj h
  exact absurd this (by decide +kernel)

/-- **C47 is false for NaN.**  A NaN key is not equal to itself: every row with it becomes a group of its own. -/
theorem C47_nan (fuel : Nat) (cache : Cache) (n : Bool) (b : BitVec 64) (h : isNaN 11 52 b.toNat = true) (cell : Cell) :
    ∀ cell', cell.store fuel (.prim n false (.f64 b)) = some cell' → cell'.eq fuel cache (.prim n false (.f64 b)) = false := by
  intro cell' hs
  rcases cell with ⟨_ | nb, p⟩ | ⟨_ | nb, buf⟩ <;> simp only [Cell.store] at hs
  · split at hs
    · cases hs
    · cases hs
      simp [Cell.eq, Prim.eq, ieeeEq, h]
  · cases hs
    simp [Cell.eq, Prim.eq, ieeeEq, h]
  · cases hs
  · cases hs

/-- There are NaNs. -/
example : isNaN 11 52 (0x7ff8000000000000#64).toNat = true := by decide +kernel

theorem packStr_succ (m : Nat → Int) : ∀ (n i : Nat) (h : U64), packStr m (n + 1) i h = (packStr m n i h <<< 8) ||| BitVec.ofInt 64 (m (i + n))
  | 0, i, h => rfl
  | n + 1, i, h => by
    rw [packStr, packStr_succ m n (i + 1), packStr, show i + 1 + n = i + (n + 1) from by omega]

/-- The last byte is in the lowest bits. -/
theorem packStr_low (m : Nat → Int) (n i : Nat) (h : U64) : (packStr m (n + 1) i h).setWidth 8 = BitVec.ofInt 8 (m (i + n)) := by
  rw [packStr_succ, BitVec.setWidth_or]
  have e1 : ∀ x : U64, (x <<< 8).setWidth 8 = 0#8 := by
    intro x
    apply BitVec.eq_of_getLsbD_eq
    intro j hj
    rw [BitVec.getLsbD_setWidth, BitVec.getLsbD_shiftLeft]
    simp [hj]
  have e2 : ∀ c : Int, (BitVec.ofInt 64 c).setWidth 8 = BitVec.ofInt 8 c := by
    intro c
    apply BitVec.eq_of_toNat_eq
    rw [BitVec.toNat_setWidth, BitVec.toNat_ofInt, BitVec.toNat_ofInt]
    norm_num
    omega
  rw [e1, e2, BitVec.zero_or]

/-- **C47 is false for strings in memory that is not zeroed.**  A string of at most eight bytes, shorter than its type by at least two
bytes, is stored without clearing the bytes behind its NUL byte (`strncpy` stops at the NUL byte), but `str_hash` hashes all bytes
of the type.  If the last byte was not NUL before then the stored key, although equal to the inserted one, has another hash: a
rehash moves it to a bucket where it is not found, and `GROUP BY` yields a second group. -/
theorem C47_dirty_string (fuel : Nat) (cache : Cache) (buf s : NChar) (hl : buf.length = s.length) (hv : buf.varying = s.varying) (hw : s.WF)
    (h8 : s.length ≤ 8) (hshort : s.val.length + 1 < s.length) (hp : Padded s) (hf : 2 * s.length + 3 ≤ fuel)
    (hdirty : BitVec.ofInt 8 (buf.mem (s.length - 1)) ≠ 0#8) :
    ∃ cell', Cell.store fuel (.str none buf) (.str (some s)) = some cell' ∧ cell'.eq fuel cache (.str (some s)) = true ∧
      hashKey [(.str s.length, cell'.load)] ≠ hashKey [(.str s.length, .str (some s))] := by
  obtain ⟨m, d, e1, e2, e3, e4, e5⟩ := store_str hl hv hw (fuel := fuel) (by omega)
  refine ⟨.str none { buf with mem := m }, by simp [Cell.store, e1], ?_, ?_⟩
  · have e := strncmp_eq cache { buf with mem := m } s hl fuel (by show buf.length + _ + _ ≤ _; omega)
    simp only at e
    simp [Cell.eq, e, e2]
  · intro h
    show False
    have h1 : strHash s.length (some { buf with mem := m }) = strHash s.length (some s) := h
    unfold strHash at h1
    simp only [if_pos h8] at h1
    have h2 := bitMix_inj h1
    have h3 := congrArg (BitVec.setWidth 8) h2
    obtain ⟨n, hn⟩ : ∃ n, s.length = n + 1 := ⟨s.length - 1, by omega⟩
    rw [hn, packStr_low, packStr_low, Nat.zero_add] at h3
    rw [e4 n (by omega)] at h3
    have h4 : s.mem n = 0 := by
      refine hp s.val.length n (by omega) (by omega) ?_
      rcases val_end s with h | h
      · omega
      · exact h
    rw [h4] at h3
    rw [hn, Nat.add_sub_cancel] at hdirty
    exact hdirty h3

/-- Memory that held "wxyz" before. -/
def dirty : NChar := ⟨fun i => [119, 120, 121, 122].getD i 0, 4, false⟩

theorem ab_val : ab.val = [97, 98] := by decide +kernel

/-- The string "ab" in a column of type `CHAR(4)`. -/
example : ∃ cell', Cell.store 20 (.str none dirty) (.str (some ab)) = some cell' ∧ cell'.eq 20 none (.str (some ab)) = true ∧
    hashKey [(.str 4, cell'.load)] ≠ hashKey [(.str 4, .str (some ab))] :=
  C47_dirty_string 20 none dirty ab rfl rfl (fun h => by cases h) (by decide) (by rw [ab_val]; decide) (by
    intro i j h1 h2 h3
    have : ∀ i < 4, ∀ j < 4, i ≤ j → ab.mem i = 0 → ab.mem j = 0 := by decide
    have hj : j < 4 := h2
    exact this i (by omega) j hj h1 h3) (by decide) (by decide +kernel)

/-- **C47, strings of at most eight bytes with a character that is not ASCII.**  The character is extended by its sign before it is
put into the register, which erases everything before it: all strings of a type that end in the same such byte have the same
hash. -/
theorem C47_nonascii_collide (n : Nat) (hn : n + 1 ≤ 8) (s r : NChar) (hs : s.mem n = r.mem n) (h0 : s.mem n < 0) (h1 : -128 ≤ s.mem n) :
    strHash (n + 1) (some s) = strHash (n + 1) (some r) := by
  unfold strHash
  simp only [if_pos hn]
  rw [packStr_succ, packStr_succ, Nat.zero_add, ← hs]
  have key : ∀ (x : U64) (c : Int), -128 ≤ c → c < 0 → (x <<< 8) ||| BitVec.ofInt 64 c = BitVec.ofInt 64 c := by
    intro x c c1 c2
    apply BitVec.eq_of_getLsbD_eq
    intro j hj
    rw [BitVec.getLsbD_or, BitVec.getLsbD_shiftLeft]
    by_cases h8 : j < 8
    · simp [h8]
    · have : (BitVec.ofInt 64 c).getLsbD j = true := by
        have all : ∀ k < 128, ∀ j < 64, 8 ≤ j → (BitVec.ofInt 64 (-((k : Nat) : Int) - 1)).getLsbD j = true := by decide +kernel
        have := all (-c - 1).toNat (by omega) j hj (by omega)
        rwa [show (-(((-c - 1).toNat : Nat) : Int) - 1) = c from by omega] at this
      rw [this]; simp
  rw [key _ _ h1 h0, key _ _ h1 h0]

/-- "aé" and "bé" in Latin-1. -/
example : strHash 2 (some ⟨fun i => [97, -23].getD i 0, 2, false⟩) = strHash 2 (some ⟨fun i => [98, -23].getD i 0, 2, false⟩) :=
  C47_nonascii_collide 1 (by norm_num) _ _ rfl (by decide) (by decide)

/-! ## Decimals -/

/-- What an integer with a scale denotes: an `INT` has scale 0. -/
def decimalValue (raw : Int) (scale : Nat) : Rat := (raw : Rat) / 10 ^ scale

/-- **A hash join of columns of different scale is wrong.**  The keys of a join predicate `A.x = B.y` are compared as they are, without
bringing them to a common scale (`decompose_equi_predicate`, `WasmOperator.cpp:939-962`, `SimpleHashJoin::execute`, `:5049-5060`,
`:5113-5118`): an `INT(4)` column and a `DECIMAL(9, 2)` column, both of 32 bits, compare 1 and 1.00 as different and 100 and 1.00 as
equal. -/
theorem C47_join_ignores_scale : ∃ x y z : Int, decimalValue x 0 = decimalValue y 2 ∧ decimalValue z 0 ≠ decimalValue y 2 ∧
    equalKey 10 none [.prim none (.int 32 x)] [.prim false false (.int 32 y)] = false ∧
    equalKey 10 none [.prim none (.int 32 z)] [.prim false false (.int 32 y)] = true := by
  refine ⟨1, 100, 100, ?_, ?_, by decide +kernel, by decide +kernel⟩
  · unfold decimalValue; norm_num
  · unfold decimalValue; norm_num

/-! ## Layout -/

/-- **C47, layout of entries.**  For every list of column types: each component lies within the entry, at an offset that is a multiple
of its alignment; components do not overlap; the size of an entry is a multiple of its alignment, which is a multiple of the
alignment of each component, so that all of this holds for every entry of an array of entries. -/
theorem C47_layout (types : List Ty) (hw : ∀ t ∈ types, t.WF) :
    let r := setByteOffsets types 0 1
    r.2.2 ∣ r.2.1 ∧
      (∀ i (h : i < types.length), toBytes types[i].alignment ∣ r.2.2 ∧ toBytes types[i].alignment ∣ r.1 i ∧
        r.1 i + toBytes types[i].size ≤ r.2.1) ∧
      (∀ i j (hi : i < types.length) (hj : j < types.length), i ≠ j →
        r.1 i + toBytes types[i].size ≤ r.1 j ∨ r.1 j + toBytes types[j].size ≤ r.1 i) := by
  obtain ⟨-, h2, h3, h4⟩ := layout types hw
  exact ⟨h2, h3, h4⟩

/-- An entry of reference counter, `BOOL`, `INT(8)`, `CHAR(3)`, NULL bitmap. -/
example : (let r := setByteOffsets [.int 4, .bool, .int 8, .char 3, .bitmap 3] 0 1; ((List.range 5).map r.1, r.2)) = ([8, 15, 0, 12, 16], 24, 8) := by
  decide +kernel
example := C47_layout [.int 4, .bool, .int 8, .char 3, .bitmap 3] (by simp [Ty.WF])

/-- **C47, NULL bits.**  In a table of at most 256 columns, writing the NULL bit of a column changes the NULL bit of this column and of
no other, and the byte it lies in belongs to the NULL bitmap.  Partial: for more columns it is false (`C47_null_bit_alias`). -/
theorem C47_null_bits_partial (n : Nat) (hn : n ≤ 256) (bm : Nat → BitVec 8) (i : Nat) (hi : i < n) (v : Bool) :
    getNull (setNull bm i v) i = v ∧ (∀ j, j < n → j ≠ i → getNull (setNull bm i v) j = getNull bm j) ∧
      (∀ a, toBytes (Ty.size (.bitmap n)) ≤ a → setNull bm i v a = bm a) := by
  refine ⟨by rw [getNull_setNull, if_pos rfl], fun j hj hne => ?_, fun a ha => ?_⟩
  · rw [getNull_setNull, if_neg]
    rw [Nat.mod_eq_of_lt (by omega), Nat.mod_eq_of_lt (by omega)]
    exact hne
  · unfold setNull nullBit
    simp only [Ty.size, toBytes] at ha ⊢
    rw [if_neg (by omega)]

example := C47_null_bits_partial 9 (by norm_num) (fun _ => 0) 8 (by norm_num) true

/-- **The NULL bits of column 0 and of column 256 are the same bit**: the number of the bit is passed as `uint8_t`. -/
theorem C47_null_bit_alias (bm : Nat → BitVec 8) (i : Nat) (v : Bool) : getNull (setNull bm (i + 256) v) i = v := by
  rw [getNull_setNull, if_pos (by omega)]

end Mutable.WHash
