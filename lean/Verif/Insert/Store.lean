import Verif.Insert.Model
import Verif.Layout.Props

namespace Mutable.Ins

open SM Layout

/-! ### Encoding of values -/

theorem bitsN_length (n x : Nat) : (bitsN n x).length = n := by
  induction n generalizing x with
  | zero => rfl
  | succ n ih => simp [bitsN, ih]

theorem ofBits_bitsN (n x : Nat) : ofBits (bitsN n x) = x % 2 ^ n := by
  induction n generalizing x with
  | zero => simp [bitsN, ofBits, Nat.mod_one]
  | succ n ih =>
    simp only [bitsN, ofBits, ih, decide_eq_true_eq]
    have h : x % 2 ^ (n + 1) = x % 2 + 2 * (x / 2 % 2 ^ n) := by
      rw [Nat.pow_succ, Nat.mul_comm, Nat.mod_mul]
    rw [h]
    split <;> omega

theorem encInt_length (n : Nat) (v : Int) : (encInt n v).length = n := bitsN_length _ _

/-- The value of the low `n` bits, read as a signed number. -/
def wrapN (n : Nat) (v : Int) : Int := if 2 * (v % 2 ^ n) < 2 ^ n then v % 2 ^ n else v % 2 ^ n - 2 ^ n

theorem decInt_encInt (n : Nat) (v : Int) : decInt n (encInt n v) = wrapN n v := by
  have hp : (0 : Int) < 2 ^ n := by positivity
  have h0 := Int.emod_nonneg v (ne_of_gt hp)
  have h1 := Int.emod_lt_of_pos v hp
  have hx : ((ofBits (encInt n v) : Nat) : Int) = v % 2 ^ n := by
    unfold encInt
    rw [ofBits_bitsN]
    push_cast
    rw [Int.toNat_of_nonneg h0]
    exact Int.emod_emod_of_dvd _ (dvd_refl _)
  unfold decInt wrapN
  simp only [hx]

theorem wrapN_of_range {n : Nat} {v : Int} (hn : 0 < n) (h1 : -2 ^ (n - 1) ≤ v) (h2 : v < 2 ^ (n - 1)) :
    wrapN n v = v := by
  obtain ⟨k, rfl⟩ : ∃ k, n = k + 1 := ⟨n - 1, by omega⟩
  simp only [Nat.add_sub_cancel] at h1 h2
  have hp : (2 : Int) ^ (k + 1) = 2 * 2 ^ k := by rw [pow_succ]; ring
  unfold wrapN
  rw [hp]
  have hk : (0 : Int) < 2 ^ k := by positivity
  by_cases hv : 0 ≤ v
  · have e : v % (2 * 2 ^ k) = v := Int.emod_eq_of_lt hv (by omega)
    rw [e, if_pos (by omega)]
  · have e : v % (2 * 2 ^ k) = v + 2 * 2 ^ k := by
      rw [← Int.add_emod_right]
      exact Int.emod_eq_of_lt (by omega) (by omega)
    rw [e, if_neg (by omega)]; omega

theorem encStr_length (n : Nat) (s : Str) : (encStr n s).length = 8 * n := by
  induction n generalizing s with
  | zero => cases s <;> rfl
  | succ n ih => cases s <;> simp [encStr, ih, bitsN_length] <;> omega

/-- A C string: bytes, none of them NUL. -/
def IsStr (s : Str) : Prop := ∀ b ∈ s, 0 < b ∧ b < 256

theorem decStr_encStr {n m : Nat} (h : n ≤ m) {s : Str} (hs : IsStr s) : decStr n (encStr m s) = s.take n := by
  induction n generalizing m s with
  | zero => simp [decStr]
  | succ n ih =>
    obtain ⟨m, rfl⟩ : ∃ k, m = k + 1 := ⟨m - 1, by omega⟩
    cases s with
    | nil =>
      have e : (encStr (m + 1) []).take 8 = bitsN 8 0 := by
        rw [encStr, List.take_append_of_le_length (by rw [bitsN_length]), List.take_of_length_le (by rw [bitsN_length])]
      rw [decStr, e, ofBits_bitsN]; simp
    | cons b s =>
      have hb := hs b (by simp)
      have e : (encStr (m + 1) (b :: s)).take 8 = bitsN 8 b := by
        rw [encStr, List.take_append_of_le_length (by rw [bitsN_length]), List.take_of_length_le (by rw [bitsN_length])]
      have e2 : (encStr (m + 1) (b :: s)).drop 8 = encStr m s := by
        rw [encStr, List.drop_append_of_le_length (by rw [bitsN_length]), List.drop_of_length_le (by rw [bitsN_length])]
        simp
      have e3 : b % 2 ^ 8 = b := Nat.mod_eq_of_lt (by norm_num; omega)
      rw [decStr, e, e2, ofBits_bitsN, e3, if_neg (by omega), ih (by omega) (fun x hx => hs x (by simp [hx]))]
      simp

/-- The types whose values the interpreter can store: all but decimals of one digit (whose size is 4 bits) and of more
than 19 digits, and floats (not modelled). -/
def Storable : Ty → Prop
  | .bool => True
  | .int p => p = 1 ∨ p = 2 ∨ p = 4 ∨ p = 8
  | .decimal p => 2 ≤ p ∧ p ≤ 19
  | .char _ _ => True
  | .date => True
  | .datetime => True
  | _ => False

instance (t : Ty) : Decidable (Storable t) := by unfold Storable; split <;> infer_instance

theorem Storable.valid {t : Ty} (h : Storable t) : t.Valid := by
  cases t <;> simp_all [Storable, Ty.Valid]

theorem decimal_size {p : Nat} (h1 : 2 ≤ p) (h2 : p ≤ 19) :
    (Ty.decimal p).size = 8 ∨ (Ty.decimal p).size = 16 ∨ (Ty.decimal p).size = 32 ∨ (Ty.decimal p).size = 64 := by
  revert h1 h2
  have : ∀ p < 20, 2 ≤ p → (Ty.decimal p).size = 8 ∨ (Ty.decimal p).size = 16 ∨ (Ty.decimal p).size = 32 ∨
      (Ty.decimal p).size = 64 := by
    set_option maxRecDepth 100000 in decide +kernel
  intro h1 h2
  exact this p (by omega) h1

theorem Storable.size {t : Ty} (h : Storable t) : t.size = 1 ∨ t.size % 8 = 0 := by
  cases t with
  | bool => exact Or.inl rfl
  | int p => exact Or.inr (by simp [Ty.size])
  | decimal p => right; rcases decimal_size h.1 h.2 with e | e | e | e <;> rw [e]
  | char n v => right; cases v <;> simp [Ty.size]
  | date => exact Or.inr rfl
  | datetime => exact Or.inr rfl
  | _ => exact absurd h (by simp [Storable])

theorem enc_length {t : Ty} (h : Storable t) (v : RVal) : (enc t v).length = t.size := by
  unfold enc
  split
  · rfl
  · simp [encInt_length, Ty.size]
  · simp [encInt_length]
  · simp [encInt_length, Ty.size]
  · simp [encInt_length, Ty.size]
  · rename_i n var s
    rw [encStr_length]; cases var <;> simp [Ty.size]
  · simp

/-! ### Geometry of a table -/

/-- A table whose store has one of the layouts of the factories for the types of its columns; all columns can be
stored; and the NULL bitmap is only left out if no column is nullable. -/
structure Table.OK (o : Opts) (T : Table) : Prop where
  layout : T.L = rowLayout o (T.cols.map (·.ty)) ∨
    ∃ opt, (∀ n, opt = .nTuples n → 0 < n) ∧ paxFits o opt (T.cols.map (·.ty)) ∧ T.L = paxLayout o opt (T.cols.map (·.ty))
  types : ∀ c ∈ T.cols, Storable c.ty
  nulls : o.removeNull = true → ∀ c ∈ T.cols, c.nullable = false

/-- What the proofs need of a table. -/
structure Geo (T : Table) : Prop where
  good : Good T.L
  types : ∀ c ∈ T.cols, Storable c.ty
  leaf : ∀ i < T.cols.length, ∃ f ∈ T.attrs, f.idx = i
  attr : ∀ f ∈ T.attrs, f ∈ T.L.leaves ∧ f.idx < T.cols.length ∧ f.size = (T.cols.getD f.idx noCol).ty.size
  uniq : ∀ f ∈ T.attrs, ∀ g ∈ T.attrs, f.idx = g.idx → f = g
  nodup : T.attrs.Nodup
  bitmap : (∃ c ∈ T.cols, c.nullable = true) → ∃ g, T.nullLeaf = some g
  bm : ∀ g, T.nullLeaf = some g → g ∈ T.L.leaves ∧ g.idx = T.cols.length ∧ g.size = T.cols.length
  pos : ∀ f ∈ T.attrs, ∀ r k, (Cursor.iter T k (Cursor.start T r)).pos f = T.L.addr (r + k) f
  npos : ∀ g, T.nullLeaf = some g → ∀ r k, (Cursor.iter T k (Cursor.start T r)).nullPos T = some (T.L.addr (r + k) g)

theorem iter_sc (T : Table) (r k : Nat) (f : Leaf) :
    (Cursor.iter T k (Cursor.start T r)).sc f = (Scan.start T.L f r).iter T.L f k := by
  induction k with
  | zero => rfl
  | succ k ih => simp only [Cursor.iter, Cursor.next, Scan.iter]; rw [ih]

theorem iter_ns (T : Table) (r k : Nat) {g : Leaf} (hg : T.nullLeaf = some g) :
    (Cursor.iter T k (Cursor.start T r)).ns = (NScan.start T.L g r).iter T.L g k := by
  induction k with
  | zero => simp [Cursor.iter, Cursor.start, hg, NScan.iter]
  | succ k ih => simp only [Cursor.iter, Cursor.next, NScan.iter, hg]; rw [ih]

theorem sz_cols (cols : List Col) {i : Nat} (hi : i < cols.length) :
    sz (cols.map (·.ty)) i = (cols.getD i noCol).ty.size := by
  simp [sz, List.getD_eq_getElem?_getD, hi]

theorem getD_mem {cols : List Col} {i : Nat} (hi : i < cols.length) : cols.getD i noCol ∈ cols := by
  rw [List.getD_eq_getElem?_getD, List.getElem?_eq_getElem hi]; exact List.getElem_mem hi

theorem geo_of_ok {o : Opts} {T : Table} (h : T.OK o) : Geo T := by
  obtain ⟨hL, hty, hnl⟩ := h
  set ts := T.cols.map (·.ty) with hts
  have hlen : ts.length = T.cols.length := by simp [hts]
  have hval : ∀ t ∈ ts, t.Valid := by
    intro t ht
    obtain ⟨c, hc, rfl⟩ := List.mem_map.1 ht
    exact (hty c hc).valid
  -- leaves of both layouts
  obtain ⟨off, str, noff, nstr, hleaves⟩ : ∃ (off : Nat → Nat) (str : Nat → Nat) (noff nstr : Nat), T.L.leaves =
      (if o.removeNull then (List.range ts.length).map (fun i => (⟨i, sz ts i, off i, str i⟩ : Leaf))
       else (List.range ts.length).map (fun i => (⟨i, sz ts i, off i, str i⟩ : Leaf)) ++ [⟨ts.length, ts.length, noff, nstr⟩]) := by
    rcases hL with e | ⟨opt, _, _, e⟩ <;> rw [e]
    · exact ⟨_, fun _ => 0, _, 0, rfl⟩
    · exact ⟨_, sz ts, _, _, rfl⟩
  have hattrs : T.attrs = (List.range ts.length).map (fun i => (⟨i, sz ts i, off i, str i⟩ : Leaf)) := by
    have key : ∀ f ∈ (List.range ts.length).map (fun i => (⟨i, sz ts i, off i, str i⟩ : Leaf)),
        (f.idx != T.cols.length) = true := by
      intro f hf
      obtain ⟨i, hi, rfl⟩ := List.mem_map.1 hf
      have := List.mem_range.1 hi
      simp; omega
    unfold Table.attrs
    rw [hleaves]
    split
    · exact List.filter_eq_self.2 key
    · rw [List.filter_append, List.filter_eq_self.2 key]
      simp [hlen]
  have hnull : T.nullLeaf = if o.removeNull then none else some ⟨ts.length, ts.length, noff, nstr⟩ := by
    have key : ∀ f ∈ (List.range ts.length).map (fun i => (⟨i, sz ts i, off i, str i⟩ : Leaf)),
        ¬ (f.idx == T.cols.length) = true := by
      intro f hf
      obtain ⟨i, hi, rfl⟩ := List.mem_map.1 hf
      have := List.mem_range.1 hi
      simp; omega
    unfold Table.nullLeaf
    rw [hleaves]
    split
    · exact List.find?_eq_none.2 key
    · rw [List.find?_append, List.find?_eq_none.2 key]
      simp [hlen]
  have hgood : Good T.L := by
    rcases hL with e | ⟨opt, h1, h2, e⟩ <;> rw [e]
    · exact rowLayout_good o ts
    · exact paxLayout_good (paxRows_pos o opt ts h1) h2
  have hsub : ∀ f ∈ T.attrs, f ∈ T.L.leaves := fun f hf => (List.mem_filter.1 hf).1
  have hattr : ∀ f ∈ T.attrs, f ∈ T.L.leaves ∧ f.idx < T.cols.length ∧ f.size = (T.cols.getD f.idx noCol).ty.size := by
    intro f hf
    refine ⟨hsub f hf, ?_⟩
    rw [hattrs] at hf
    obtain ⟨i, hi, rfl⟩ := List.mem_map.1 hf
    have hi := List.mem_range.1 hi
    exact ⟨by simpa [hlen] using hi, sz_cols _ (by simpa [hlen] using hi)⟩
  refine ⟨hgood, hty, ?_, hattr, ?_, ?_, ?_, ?_, ?_, ?_⟩
  · intro i hi
    rw [hattrs]
    exact ⟨_, List.mem_map.2 ⟨i, List.mem_range.2 (by omega), rfl⟩, rfl⟩
  · rw [hattrs]
    intro f hf g hg e
    obtain ⟨i, _, rfl⟩ := List.mem_map.1 hf
    obtain ⟨j, _, rfl⟩ := List.mem_map.1 hg
    simp only at e; subst e; rfl
  · rw [hattrs]
    exact List.Nodup.map (fun i j e => (congrArg Leaf.idx e)) List.nodup_range
  · rintro ⟨c, hc, hn⟩
    rw [hnull]
    cases hr : o.removeNull with
    | false => exact ⟨_, rfl⟩
    | true => have := hnl hr c hc; rw [hn] at this; cases this
  · intro g hg
    rw [hnull] at hg
    split at hg
    · cases hg
    · rename_i hr
      cases hg
      refine ⟨?_, hlen, hlen⟩
      rw [hleaves, if_neg hr]; simp
  · intro f hf r k
    unfold Cursor.pos
    rw [iter_sc]
    have hs : f.size = 1 ∨ f.size % 8 = 0 := by
      rw [(hattr f hf).2.2]
      exact (hty _ (getD_mem (hattr f hf).2.1)).size
    rcases hL with e | ⟨opt, h1, h2, e⟩
    · have hf' := hsub f hf
      rw [e] at hf' ⊢
      exact C33_scan_row hval hf' r k
    · have hf' := hsub f hf
      rw [e] at hf' ⊢
      exact C33_scan_pax hval h1 h2 hf' (by rw [hlen]; exact (hattr f hf).2.1) hs r k
  · intro g hg r k
    unfold Cursor.nullPos
    rw [hg]
    simp only [Option.some.injEq]
    have hgm : g ∈ T.L.leaves ∧ g.idx = ts.length := by
      rw [hnull] at hg
      split at hg
      · cases hg
      · rename_i hr
        cases hg
        refine ⟨?_, rfl⟩
        rw [hleaves, if_neg hr]; simp
    rcases hL with e | ⟨opt, h1, h2, e⟩
    · have hstr : g.stride = 0 := by
        have := hgm.1
        rw [e] at this
        rcases mem_rowLeaves this with ⟨_, e⟩ | ⟨_, e⟩ <;> rw [e]
      rw [if_pos hstr]
      unfold Cursor.pos
      rw [iter_sc]
      have hg' := hgm.1
      rw [e] at hg' ⊢
      exact C33_scan_row hval hg' r k
    · have hstr : g.stride ≠ 0 := by
        have := hgm.1
        rw [e] at this
        rcases mem_paxLeaves this with ⟨h, _⟩ | ⟨hr, e⟩
        · omega
        · rw [e]
          show nullSize o ts ≠ 0
          simp only [nullSize, hr]; simp
      rw [if_neg hstr, iter_ns T r k hg]
      have hg' := hgm.1
      rw [e] at hg' ⊢
      exact C33_scan_pax_nulls hval h1 h2 hg' hgm.2 r k

/-! ### Rows in memory -/

/-- Column `f` of row `r`, by address. -/
def cellAt (T : Table) (m : Mem) (r : Nat) (f : Leaf) : Option RVal :=
  let col := T.cols.getD f.idx noCol
  let isNull := col.nullable && (match T.nullLeaf with | some g => m (T.L.addr r g + f.idx) | none => false)
  if isNull then none else some (dec col.ty (m.read (T.L.addr r f) f.size))

/-- Row `r`. -/
def rowAt (T : Table) (m : Mem) (r : Nat) : List (Option RVal) :=
  (List.range T.cols.length).map fun i =>
    match T.attrs.find? (fun f => f.idx == i) with
    | some f => cellAt T m r f
    | none => none

theorem loadRow_eq {T : Table} (G : Geo T) (m : Mem) (k : Nat) :
    loadRow T (Cursor.iter T k (Cursor.start T 0)) m = rowAt T m k := by
  unfold loadRow rowAt
  apply List.map_congr_left
  intro i _
  cases hf : T.attrs.find? (fun f => f.idx == i) with
  | none => rfl
  | some f =>
    have hm := List.mem_of_find?_eq_some hf
    simp only
    unfold loadAttr cellAt
    rw [G.pos f hm 0 k, Nat.zero_add]
    cases hg : T.nullLeaf with
    | none => simp [Cursor.nullPos, hg]
    | some g => rw [G.npos g hg 0 k, Nat.zero_add]

theorem scanTable_eq {T : Table} (G : Geo T) (st : Store) :
    scanTable T st = (List.range st.rows).map (rowAt T st.mem) := by
  unfold scanTable
  exact List.map_congr_left (fun k _ => loadRow_eq G st.mem k)

/-- A cursor at row `r`. -/
def At (T : Table) (w : Cursor) (r : Nat) : Prop := w = Cursor.iter T 0 (Cursor.start T r) ∨
  ∃ q k, q + k = r ∧ w = Cursor.iter T k (Cursor.start T q)

theorem at_start (T : Table) (r : Nat) : At T (Cursor.start T r) r := Or.inl rfl

theorem At.next {T : Table} {w : Cursor} {r : Nat} (h : At T w r) : At T (w.next T) (r + 1) := by
  rcases h with rfl | ⟨q, k, rfl, rfl⟩
  · exact Or.inr ⟨r, 1, rfl, rfl⟩
  · exact Or.inr ⟨q, k + 1, rfl, rfl⟩

theorem At.pos {T : Table} (G : Geo T) {w : Cursor} {r : Nat} (h : At T w r) {f : Leaf} (hf : f ∈ T.attrs) :
    w.pos f = T.L.addr r f := by
  rcases h with rfl | ⟨q, k, rfl, rfl⟩
  · exact G.pos f hf r 0
  · exact G.pos f hf q k

theorem At.nullPos {T : Table} (G : Geo T) {w : Cursor} {r : Nat} (h : At T w r) {g : Leaf} (hg : T.nullLeaf = some g) :
    w.nullPos T = some (T.L.addr r g) := by
  rcases h with rfl | ⟨q, k, rfl, rfl⟩
  · exact G.npos g hg r 0
  · exact G.npos g hg q k

theorem attr_ne_null {T : Table} (G : Geo T) {f g : Leaf} (hf : f ∈ T.attrs) (hg : T.nullLeaf = some g) : f ≠ g := by
  intro e
  have h1 := (G.attr f hf).2.1
  have h2 := (G.bm g hg).2.1
  rw [e] at h1; omega

/-- Storing one attribute leaves the other cells alone. -/
theorem storeAttr_other {T : Table} (G : Geo T) {w : Cursor} {r : Nat} (hw : At T w r) (t : Tup) (m : Mem) {f f' : Leaf}
    (hf : f ∈ T.attrs) (hf' : f' ∈ T.attrs) {s : Nat} (hne : (r, f) ≠ (s, f')) :
    (storeAttr T w t m f).read (T.L.addr s f') f'.size = m.read (T.L.addr s f') f'.size := by
  have hsz : (enc (T.cols.getD f.idx noCol).ty (t.vals f.idx)).length = f.size := by
    rw [enc_length (G.types _ (getD_mem (G.attr f hf).2.1)), (G.attr f hf).2.2]
  have hbit : ∀ a, w.nullPos T = some a → (m.write (a + f.idx) [t.null f.idx]).read (T.L.addr s f') f'.size =
      m.read (T.L.addr s f') f'.size := by
    intro a ha
    cases hg : T.nullLeaf with
    | none => rw [Cursor.nullPos, hg] at ha; cases ha
    | some g =>
      rw [hw.nullPos G hg] at ha; cases ha
      have := G.good.disjoint (G.bm g hg).1 (G.attr f' hf').1 (r := r) (s := s)
        (fun e => attr_ne_null G hf' hg (by cases e; rfl))
      have h1 := (G.bm g hg).2.2
      have h2 := (G.attr f hf).2.1
      exact Mem.read_write_other _ (by simp only [List.length_singleton]; omega)
  have hval : ∀ m' : Mem, (m'.write (w.pos f) (enc (T.cols.getD f.idx noCol).ty (t.vals f.idx))).read (T.L.addr s f') f'.size =
      m'.read (T.L.addr s f') f'.size := by
    intro m'
    rw [hw.pos G hf]
    apply Mem.read_write_other
    rw [hsz]
    exact G.good.disjoint (G.attr f hf).1 (G.attr f' hf').1 hne
  have hb : ∀ m' : Mem, m'.read (T.L.addr s f') f'.size = m.read (T.L.addr s f') f'.size →
      (if t.null f.idx then m' else m'.write (w.pos f) (enc (T.cols.getD f.idx noCol).ty (t.vals f.idx))).read
        (T.L.addr s f') f'.size = m.read (T.L.addr s f') f'.size := by
    intro m' h
    split
    · exact h
    · rw [hval, h]
  unfold storeAttr
  simp only
  apply hb
  split
  · cases ha : w.nullPos T with
    | none => rfl
    | some a => exact hbit a ha
  · rfl

/-- ... writes its value ... -/
theorem storeAttr_same {T : Table} (G : Geo T) {w : Cursor} {r : Nat} (hw : At T w r) (t : Tup) (m : Mem) {f : Leaf}
    (hf : f ∈ T.attrs) (hn : t.null f.idx = false) :
    (storeAttr T w t m f).read (T.L.addr r f) f.size = enc (T.cols.getD f.idx noCol).ty (t.vals f.idx) := by
  have hsz : (enc (T.cols.getD f.idx noCol).ty (t.vals f.idx)).length = f.size := by
    rw [enc_length (G.types _ (getD_mem (G.attr f hf).2.1)), (G.attr f hf).2.2]
  unfold storeAttr
  simp only [hn, Bool.false_eq_true, if_false]
  rw [hw.pos G hf, ← hsz]
  exact Mem.read_write_same _ _ _

/-- ... and its NULL bit, and no other NULL bit. -/
theorem storeAttr_bit {T : Table} (G : Geo T) {w : Cursor} {r : Nat} (hw : At T w r) (t : Tup) (m : Mem) {f g : Leaf}
    (hf : f ∈ T.attrs) (hg : T.nullLeaf = some g) {s j : Nat} (hj : j < T.cols.length) :
    (storeAttr T w t m f) (T.L.addr s g + j) =
      if (r, f.idx) = (s, j) ∧ (T.cols.getD f.idx noCol).nullable = true then t.null f.idx else m (T.L.addr s g + j) := by
  have hsz : (enc (T.cols.getD f.idx noCol).ty (t.vals f.idx)).length = f.size := by
    rw [enc_length (G.types _ (getD_mem (G.attr f hf).2.1)), (G.attr f hf).2.2]
  have hval : ∀ m' : Mem, (m'.write (w.pos f) (enc (T.cols.getD f.idx noCol).ty (t.vals f.idx))) (T.L.addr s g + j) =
      m' (T.L.addr s g + j) := by
    intro m'
    rw [hw.pos G hf]
    have := G.good.disjoint (G.attr f hf).1 (G.bm g hg).1 (r := r) (s := s)
      (fun e => attr_ne_null G hf hg (by cases e; rfl))
    have h1 := (G.bm g hg).2.2
    unfold Mem.write
    rw [hsz, if_neg (by omega)]
  have hb : ∀ m' : Mem, (if t.null f.idx then m' else m'.write (w.pos f) (enc (T.cols.getD f.idx noCol).ty (t.vals f.idx)))
        (T.L.addr s g + j) = m' (T.L.addr s g + j) := by
    intro m'
    split
    · rfl
    · rw [hval]
  unfold storeAttr
  rw [hb]
  by_cases hnl : (T.cols.getD f.idx noCol).nullable = true
  · rw [if_pos hnl, hw.nullPos G hg]
    simp only [hnl, and_true]
    unfold Mem.write
    have hi := (G.attr f hf).2.1
    have h1 := (G.bm g hg).2.2
    by_cases hrs : r = s
    · subst hrs
      by_cases hij : f.idx = j
      · subst hij; simp
      · rw [if_neg (by simp; omega), if_neg (by simpa using hij)]
    · have := G.good.disjoint (G.bm g hg).1 (G.bm g hg).1 (r := r) (s := s) (by simpa using hrs)
      rw [if_neg (by simp; omega), if_neg (by simp [hrs])]
  · rw [if_neg hnl, if_neg (fun h => hnl h.2)]

theorem fold_other {T : Table} (G : Geo T) {w : Cursor} {r : Nat} (hw : At T w r) (t : Tup) {l : List Leaf}
    (hl : ∀ f ∈ l, f ∈ T.attrs) {f' : Leaf} (hf' : f' ∈ T.attrs) {s : Nat} (hne : s ≠ r ∨ f' ∉ l) (m : Mem) :
    (l.foldl (storeAttr T w t) m).read (T.L.addr s f') f'.size = m.read (T.L.addr s f') f'.size := by
  induction l generalizing m with
  | nil => rfl
  | cons f l ih =>
    rw [List.foldl_cons, ih (fun x hx => hl x (by simp [hx]))
      (hne.imp_right (fun h hx => h (by simp [hx])))]
    apply storeAttr_other G hw t m (hl f (by simp)) hf'
    intro e
    cases e
    rcases hne with h | h
    · exact h rfl
    · exact h (by simp)

theorem fold_same {T : Table} (G : Geo T) {w : Cursor} {r : Nat} (hw : At T w r) (t : Tup) {l : List Leaf}
    (hl : ∀ f ∈ l, f ∈ T.attrs) (hnd : l.Nodup) {f : Leaf} (hf : f ∈ l) (hn : t.null f.idx = false) (m : Mem) :
    (l.foldl (storeAttr T w t) m).read (T.L.addr r f) f.size = enc (T.cols.getD f.idx noCol).ty (t.vals f.idx) := by
  induction l generalizing m with
  | nil => cases hf
  | cons f0 l ih =>
    rw [List.foldl_cons]
    rw [List.nodup_cons] at hnd
    rcases List.mem_cons.1 hf with rfl | hf
    · rw [fold_other G hw t (fun x hx => hl x (by simp [hx])) (hl f (by simp)) (Or.inr hnd.1)]
      exact storeAttr_same G hw t m (hl f (by simp)) hn
    · exact ih (fun x hx => hl x (by simp [hx])) hnd.2 hf _

theorem fold_bit_other {T : Table} (G : Geo T) {w : Cursor} {r : Nat} (hw : At T w r) (t : Tup) {l : List Leaf}
    (hl : ∀ f ∈ l, f ∈ T.attrs) {g : Leaf} (hg : T.nullLeaf = some g) {s j : Nat} (hj : j < T.cols.length)
    (hne : s ≠ r ∨ ∀ f ∈ l, f.idx ≠ j) (m : Mem) :
    (l.foldl (storeAttr T w t) m) (T.L.addr s g + j) = m (T.L.addr s g + j) := by
  induction l generalizing m with
  | nil => rfl
  | cons f l ih =>
    rw [List.foldl_cons, ih (fun x hx => hl x (by simp [hx])) (hne.imp_right (fun h x hx => h x (by simp [hx]))),
      storeAttr_bit G hw t m (hl f (by simp)) hg hj, if_neg]
    rintro ⟨e, _⟩
    cases e
    rcases hne with h | h
    · exact h rfl
    · exact h f (by simp) rfl

theorem fold_bit_same {T : Table} (G : Geo T) {w : Cursor} {r : Nat} (hw : At T w r) (t : Tup) {l : List Leaf}
    (hl : ∀ f ∈ l, f ∈ T.attrs) (hnd : l.Nodup) {f g : Leaf} (hf : f ∈ l) (hg : T.nullLeaf = some g)
    (hnl : (T.cols.getD f.idx noCol).nullable = true) (m : Mem) :
    (l.foldl (storeAttr T w t) m) (T.L.addr r g + f.idx) = t.null f.idx := by
  have hj := (G.attr f (hl f hf)).2.1
  induction l generalizing m with
  | nil => cases hf
  | cons f0 l ih =>
    rw [List.foldl_cons]
    rw [List.nodup_cons] at hnd
    rcases List.mem_cons.1 hf with rfl | hf
    · rw [fold_bit_other G hw t (fun x hx => hl x (by simp [hx])) hg hj]
      · rw [storeAttr_bit G hw t m (hl f (by simp)) hg hj, if_pos ⟨rfl, hnl⟩]
      · right
        intro x hx e
        exact hnd.1 (G.uniq x (hl x (by simp [hx])) f (hl f (by simp)) e ▸ hx)
    · exact ih (fun x hx => hl x (by simp [hx])) hnd.2 hf _

/-- What a cell reads after storing a tuple; nothing is claimed about a NULL in a column that is not nullable. -/
def stored (c : Col) (v : RVal) (n : Bool) : Option RVal := if n then none else some (dec c.ty (enc c.ty v))

/-- Storing a tuple changes only its row. -/
theorem storeRow_other {T : Table} (G : Geo T) {w : Cursor} {r : Nat} (hw : At T w r) (t : Tup) (m : Mem) {s : Nat}
    (hs : s ≠ r) : rowAt T (storeRow T w t m) s = rowAt T m s := by
  unfold rowAt
  apply List.map_congr_left
  intro i hi
  cases hf : T.attrs.find? (fun f => f.idx == i) with
  | none => rfl
  | some f =>
    have hm := List.mem_of_find?_eq_some hf
    simp only
    unfold cellAt storeRow
    rw [fold_other G hw t (fun _ h => h) hm (Or.inl hs)]
    cases hg : T.nullLeaf with
    | none => rfl
    | some g =>
      simp only
      have hb := fold_bit_other G hw t (fun _ h => h) hg (G.attr f hm).2.1 (Or.inl hs) m
      simp only [hb]

/-- A column of the stored row. -/
theorem storeRow_cell {T : Table} (G : Geo T) {w : Cursor} {r : Nat} (hw : At T w r) (t : Tup) (m : Mem) {f : Leaf}
    (hf : f ∈ T.attrs) (hnn : (T.cols.getD f.idx noCol).nullable = false → t.null f.idx = false) :
    cellAt T (storeRow T w t m) r f = stored (T.cols.getD f.idx noCol) (t.vals f.idx) (t.null f.idx) := by
  unfold cellAt stored storeRow
  simp only
  cases hnl : (T.cols.getD f.idx noCol).nullable with
  | false =>
    have hn := hnn hnl
    rw [hn, fold_same G hw t (fun _ h => h) G.nodup hf hn]
    simp
  | true =>
    obtain ⟨g, hg⟩ := G.bitmap ⟨_, getD_mem (G.attr f hf).2.1, hnl⟩
    rw [hg]
    simp only [Bool.true_and]
    rw [fold_bit_same G hw t (fun _ h => h) G.nodup hf hg hnl]
    cases hn : t.null f.idx with
    | true => simp
    | false =>
      simp only [Bool.false_eq_true, if_false]
      rw [fold_same G hw t (fun _ h => h) G.nodup hf hn]

/-- The stored row, if no column that is not nullable is NULL. -/
theorem storeRow_row {T : Table} (G : Geo T) {w : Cursor} {r : Nat} (hw : At T w r) (t : Tup) (m : Mem)
    (hnn : ∀ i < T.cols.length, (T.cols.getD i noCol).nullable = false → t.null i = false) :
    rowAt T (storeRow T w t m) r =
      (List.range T.cols.length).map (fun i => stored (T.cols.getD i noCol) (t.vals i) (t.null i)) := by
  unfold rowAt
  apply List.map_congr_left
  intro i hi
  have hi := List.mem_range.1 hi
  cases hf : T.attrs.find? (fun f => f.idx == i) with
  | none =>
    obtain ⟨f, hf', e⟩ := G.leaf i hi
    have := List.find?_eq_none.1 hf f hf'
    simp [e] at this
  | some f =>
    have hm := List.mem_of_find?_eq_some hf
    have e : f.idx = i := by simpa using List.find?_some hf
    subst e
    exact storeRow_cell G hw t m hm (hnn _ hi)

end Mutable.Ins
