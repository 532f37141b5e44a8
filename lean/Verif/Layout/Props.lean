import Verif.Layout.Scan

/-!
# C33: data layouts never overlap

`rowLayout o ts` and `paxLayout o opt ts` are the data layouts the two factories make for the attribute types `ts`
under the command line options `o`.  `L.addr r f` is the bit address (relative to the address of the store) of
leaf `f` of row `r`; the leaves are the attributes (`idx` = position in the schema) and, with index
`ts.length`, the NULL bitmap, whose bit `i` is the NULL bit of attribute `i`.
-/
namespace Mutable.Layout

/-- Two bit ranges `[a, a+n)` and `[b, b+m)` have no bit in common. -/
def Apart (a n b m : Nat) : Prop := ∀ x, ¬ ((a ≤ x ∧ x < a + n) ∧ (b ≤ x ∧ x < b + m))

theorem apart_of {a n b m : Nat} (h : a + n ≤ b ∨ b + m ≤ a) : Apart a n b m := by
  intro x hx; omega

/-- The specification of a layout for schema `ts`: there is a leaf for every attribute, of the attribute's size, and
(unless removed) one NULL bitmap with a bit for every attribute, and no two of all these cells, in any two rows,
share a bit. -/
structure Separated (o : Opts) (ts : List Ty) (L : Layout) : Prop where
  complete : L.leaves.map (fun f => (f.idx, f.size)) =
    (List.range ts.length).map (fun i => (i, (ts.getD i .none).size)) ++
      (if o.removeNull then [] else [(ts.length, ts.length)])
  apart : ∀ f ∈ L.leaves, ∀ g ∈ L.leaves, ∀ r s, (r, f.idx) ≠ (s, g.idx) →
    Apart (L.addr r f) f.size (L.addr s g) g.size

theorem apart_of_good {L : Layout} (h : Good L) : ∀ f ∈ L.leaves, ∀ g ∈ L.leaves, ∀ r s,
    (r, f.idx) ≠ (s, g.idx) → Apart (L.addr r f) f.size (L.addr s g) g.size := by
  intro f hf g hg r s hne
  exact apart_of (h.disjoint hf hg (fun e => hne (by cases e; rfl)))

/-- C33: in the row layout of every schema, with and without reordering and NULL bitmap, no two cells overlap. -/
theorem C33_row_separated (o : Opts) (ts : List Ty) : Separated o ts (rowLayout o ts) := by
  refine ⟨?_, apart_of_good (rowLayout_good o ts)⟩
  unfold rowLayout
  cases h : o.removeNull <;> simp [sz, Function.comp_def]

/-- C33: in every PAX layout that passes the factory's final check, no two cells overlap. -/
theorem C33_pax_separated (o : Opts) (opt : PaxOpt) (ts : List Ty) (hn : ∀ n, opt = .nTuples n → 0 < n)
    (hfit : paxFits o opt ts) : Separated o ts (paxLayout o opt ts) := by
  refine ⟨?_, apart_of_good (paxLayout_good (paxRows_pos o opt ts hn) hfit)⟩
  unfold paxLayout
  cases h : o.removeNull <;> simp [sz, Function.comp_def]

/-- C33: PAX layouts with a fixed number of tuples per block always pass that check. -/
theorem C33_pax_tuples_fits (o : Opts) (n : Nat) (ts : List Ty) : paxFits o (.nTuples n) ts := fits_nTuples o n ts

/-- C33: PAX layouts with a block of `b` bytes pass that check whenever one row with the worst-case padding of seven
bits per sub-byte column fits into a block. -/
theorem C33_pax_bytes_fits {o : Opts} {b : Nat} {ts : List Ty}
    (hb : total (sz ts) (List.range ts.length) + nullSize o ts + numNBA o ts * 7 ≤ b * 8)
    (hpos : 0 < total (sz ts) (List.range ts.length) + nullSize o ts) : paxFits o (.nBytes b) ts := by
  have e : rowBits o ts = total (sz ts) (List.range ts.length) + nullSize o ts := by
    unfold rowBits; rw [total_perm _ (order_perm o ts)]
  exact fits_nBytes (by rw [e]; exact hb) (by rw [e]; exact hpos)

/-- C33: a schema without booleans, bitmaps and 4-bit decimals passes the check for every block size, however large
its rows are. -/
theorem C33_pax_bytes_fits_byte_sized {o : Opts} {b : Nat} {ts : List Ty} (hb : 0 < b)
    (h8 : ∀ i < ts.length, sz ts i % 8 = 0) (hn : o.removeNull = false) : paxFits o (.nBytes b) ts := by
  refine fits_byte_aligned ?_ hb ?_
  · unfold numNBA
    have := Nat.mod_eq_zero_of_dvd (nullSize_dvd o ts)
    rw [if_neg (by omega)]
    simp only [Nat.add_zero, List.length_eq_zero_iff, List.filter_eq_nil_iff, List.mem_range]
    intro i hi; simp [h8 i hi]
  · unfold rowBits nullSize
    rw [hn]; simp only [Bool.false_eq_true, if_false]; omega

theorem order_of_sorted {o : Opts} {ts : List Ty}
    (h : (List.range ts.length).Pairwise (fun l r => al ts r ≤ al ts l)) : order o ts = List.range ts.length := by
  unfold order; split
  · exact List.mergeSort_of_pairwise (h.imp (by intro a b h; simpa using h))
  · rfl

/-- A schema with one `CHAR(4080)` and 16 `BOOL` attributes. -/
def wide : List Ty := .char 4080 false :: List.replicate 16 .bool

theorem order_wide : order {} wide = List.range 17 :=
  order_of_sorted (ts := wide) (by decide +kernel)

/-- C33, a defect: the check can fail.  For `wide` and the registered layout `PAX4K`, the number of blocks per row is
computed without the padding of sub-byte columns, so the row does not fit into its block; with assertions disabled,
the NULL bitmap of row 0 overlaps the first column of row 1. -/
theorem C33_pax_bytes_overlap :
    (∀ t ∈ wide, t.Valid) ∧ ¬ paxFits {} (.nBytes 4096) wide ∧
    ∃ f ∈ (paxLayout {} (.nBytes 4096) wide).leaves, ∃ g ∈ (paxLayout {} (.nBytes 4096) wide).leaves,
      f.idx = 17 ∧ g.idx = 0 ∧
      ¬ Apart ((paxLayout {} (.nBytes 4096) wide).addr 0 f) f.size
          ((paxLayout {} (.nBytes 4096) wide).addr 1 g) g.size := by
  have hrows : paxRows {} (.nBytes 4096) wide = 1 := by
    unfold paxRows; rw [order_wide]; decide +kernel
  have hnull : paxNullOff {} (.nBytes 4096) wide = 32768 := by
    unfold paxNullOff; rw [hrows, order_wide]; decide +kernel
  have hbpr : paxBlocksPerRow {} (.nBytes 4096) wide = 1 := by
    unfold paxBlocksPerRow; rw [order_wide]; decide +kernel
  have hns : nullSize {} wide = 32 := by decide +kernel
  refine ⟨?_, ?_, ?_⟩
  · intro t ht
    simp only [wide, List.mem_cons, List.mem_replicate] at ht
    rcases ht with rfl | ⟨_, rfl⟩ <;> trivial
  · unfold paxFits; rw [hrows, hnull, hbpr, hns]; decide
  · have hl : (paxLayout {} (.nBytes 4096) wide) =
        ⟨1, 32768, (List.range 17).map (fun i => (⟨i, sz wide i,
          (spread wide 1 (List.range 17) 0 (place wide (List.range 17) 0 (fun _ => 0)).2).2 i, sz wide i⟩ : Leaf))
          ++ [⟨17, 17, 32768, 32⟩]⟩ := by
      unfold paxLayout
      simp only [hrows, hnull, hbpr, hns, order_wide]
      rfl
    rw [hl]
    refine ⟨⟨17, 17, 32768, 32⟩, by simp, ⟨0, 32640, 0, 32640⟩, ?_, rfl, rfl, ?_⟩
    · refine List.mem_append_left _ (List.mem_map.2 ⟨0, by simp, ?_⟩)
      decide +kernel
    · intro h
      refine h 32768 ⟨?_, ?_⟩ <;> simp [Layout.addr]

/-- C33: with attribute reordering (the default), every attribute cell of a row layout is aligned to its type, if the
store's base address is. -/
theorem C33_row_aligned {o : Opts} {ts : List Ty} (hre : o.reorder = true) (hv : ∀ t ∈ ts, t.Valid)
    {f : Leaf} (hf : f ∈ (rowLayout o ts).leaves) (hi : f.idx < ts.length) (r : Nat) :
    (ts.getD f.idx .none).align ∣ (rowLayout o ts).addr r f := by
  rcases mem_rowLeaves hf with ⟨_, e⟩ | ⟨_, e⟩
  · have hoff : f.off = before (sz ts) (order o ts) f.idx := by rw [e]
    have hstr : f.stride = 0 := by rw [e]
    unfold Layout.addr
    rw [hoff, hstr]
    refine Nat.dvd_add (Dvd.dvd.mul_left ?_ _) (Nat.dvd_add (row_aligned hre hv hi) (by simp))
    unfold rowLayout
    exact (al_dvd_max hv hi).trans (padTo_dvd (maxAlign_pos _ _) _)
  · rw [e] at hi; simp at hi

/-- C33: the same for PAX layouts with a fixed number of tuples per block. -/
theorem C33_pax_tuples_aligned {o : Opts} {n : Nat} {ts : List Ty} (hre : o.reorder = true)
    (hv : ∀ t ∈ ts, t.Valid) {f : Leaf} (hf : f ∈ (paxLayout o (.nTuples n) ts).leaves)
    (hi : f.idx < ts.length) (r : Nat) :
    (ts.getD f.idx .none).align ∣ (paxLayout o (.nTuples n) ts).addr r f := by
  rcases mem_paxLeaves hf with ⟨_, e⟩ | ⟨_, e⟩
  · have hoff : f.off = before (colW ts (paxRows o (.nTuples n) ts)) (order o ts) f.idx := by rw [e]
    have hstr : f.stride = sz ts f.idx := by rw [e]
    unfold Layout.addr
    rw [hoff, hstr]
    refine Nat.dvd_add (Dvd.dvd.mul_left ?_ _) (Nat.dvd_add (col_aligned hre hv _ hi)
      (Dvd.dvd.mul_left (al_dvd_sz hv hi) _))
    show _ ∣ paxBlocksPerRow o (.nTuples n) ts * paxBlockSize o (.nTuples n) ts
    exact Dvd.dvd.mul_left ((al_dvd_max hv hi).trans (padTo_dvd (maxAlign_pos _ _) _)) _
  · rw [e] at hi; simp at hi

/-- C33: and for PAX layouts with blocks of `b` bytes, if the block size is a multiple of the alignment (the registered
ones are powers of two of at least 4 KiB). -/
theorem C33_pax_bytes_aligned {o : Opts} {b : Nat} {ts : List Ty} (hre : o.reorder = true)
    (hv : ∀ t ∈ ts, t.Valid) (hb : ∀ t ∈ ts, t.align ∣ b * 8) {f : Leaf}
    (hf : f ∈ (paxLayout o (.nBytes b) ts).leaves) (hi : f.idx < ts.length) (r : Nat) :
    (ts.getD f.idx .none).align ∣ (paxLayout o (.nBytes b) ts).addr r f := by
  rcases mem_paxLeaves hf with ⟨_, e⟩ | ⟨_, e⟩
  · have hoff : f.off = before (colW ts (paxRows o (.nBytes b) ts)) (order o ts) f.idx := by rw [e]
    have hstr : f.stride = sz ts f.idx := by rw [e]
    unfold Layout.addr
    rw [hoff, hstr]
    refine Nat.dvd_add (Dvd.dvd.mul_left ?_ _) (Nat.dvd_add (col_aligned hre hv _ hi)
      (Dvd.dvd.mul_left (al_dvd_sz hv hi) _))
    show _ ∣ paxBlocksPerRow o (.nBytes b) ts * (b * 8)
    refine Dvd.dvd.mul_left (hb _ ?_) _
    have : ts.getD f.idx .none = ts[f.idx] := by simp [List.getD_eq_getElem?_getD, hi]
    rw [this]; exact List.getElem_mem hi
  · rw [e] at hi; simp at hi

/-- C33: every column of a PAX layout starts at a whole byte, even without attribute reordering. -/
theorem C33_pax_columns_byte_aligned {o : Opts} {opt : PaxOpt} {ts : List Ty} {f : Leaf}
    (hf : f ∈ (paxLayout o opt ts).leaves) : f.off % 8 = 0 := by
  apply Nat.mod_eq_zero_of_dvd
  rcases mem_paxLeaves hf with ⟨_, e⟩ | ⟨_, e⟩
  · rw [e]; exact col_byte_aligned _ _ _ _
  · rw [e]; exact total_dvd _ _ (fun j _ => padTo_dvd (by omega) _)

/-- C33, a defect: with `--no-attribute-reordering` the row layout inserts no padding, so a 4-byte integer after a
boolean is placed at bit 1. -/
theorem C33_row_misaligned_without_reordering :
    ∃ f ∈ (rowLayout { reorder := false } [.bool, .int 4]).leaves, f.idx = 1 ∧
      (rowLayout { reorder := false } [.bool, .int 4]).addr 0 f = 1 :=
  ⟨⟨1, 32, 1, 0⟩, by decide +kernel, rfl, by decide +kernel⟩

/-- C33, a defect: `DECIMAL(1, 0)` has four bits, so the second of two such attributes is not at a byte boundary in a
row layout, and its column stride in a PAX layout is half a byte; the access code supports that for booleans only. -/
theorem C33_decimal_half_byte :
    (Ty.decimal 1).size = 4 ∧
    (∃ f ∈ (rowLayout {} [.decimal 1, .decimal 1]).leaves, f.idx = 1 ∧
      (rowLayout {} [.decimal 1, .decimal 1]).addr 0 f % 8 = 4) ∧
    (∃ f ∈ (paxLayout {} (.nTuples 16) [.decimal 1, .decimal 1]).leaves, f.idx = 1 ∧ f.stride % 8 = 4) := by
  have ho : order {} [.decimal 1, .decimal 1] = List.range 2 :=
    order_of_sorted (ts := [.decimal 1, .decimal 1]) (by decide +kernel)
  have hs : (Ty.decimal 1).size = 4 := by decide +kernel
  refine ⟨hs, ⟨⟨1, 4, 4, 0⟩, ?_, rfl, ?_⟩, ?_⟩
  · simp only [rowLayout, ho]; decide +kernel
  · simp [Layout.addr, rowLayout]
  · have : sz [Ty.decimal 1, Ty.decimal 1] 1 = 4 := by decide +kernel
    refine ⟨_, List.mem_append_left _ (List.mem_map.2 ⟨1, by simp, rfl⟩), rfl, ?_⟩
    simp only [this]

/-- C33: the first `n` rows occupy only the first `⌈n / rows⌉` blocks. -/
theorem C33_bounds {o : Opts} {ts : List Ty} {L : Layout}
    (hL : L = rowLayout o ts ∨ ∃ opt, (∀ n, opt = .nTuples n → 0 < n) ∧ paxFits o opt ts ∧ L = paxLayout o opt ts)
    {f : Leaf} (hf : f ∈ L.leaves) {r n : Nat} (hr : r < n) :
    L.addr r f + f.size ≤ (n + L.rows - 1) / L.rows * L.blockStride := by
  have hg : Good L := by
    rcases hL with rfl | ⟨opt, h1, h2, rfl⟩
    · exact rowLayout_good o ts
    · exact paxLayout_good (paxRows_pos o opt ts h1) h2
  refine (hg.in_block hf r).2.trans (Nat.mul_le_mul_right _ ?_)
  have := hg.rows
  rw [← Nat.add_div_right r hg.rows]
  exact Nat.div_le_div_right (by omega)

/-- C33: reading a cell after writing it returns the written bits, and writing a cell leaves every other cell, in
whatever row, unchanged. -/
theorem C33_read_write {o : Opts} {ts : List Ty} {L : Layout}
    (hL : L = rowLayout o ts ∨ ∃ opt, (∀ n, opt = .nTuples n → 0 < n) ∧ paxFits o opt ts ∧ L = paxLayout o opt ts)
    (m : Mem) {f g : Leaf} (hf : f ∈ L.leaves) (hg : g ∈ L.leaves) (r s : Nat) (v : List Bool)
    (hv : v.length = f.size) :
    (m.write (L.addr r f) v).read (L.addr r f) f.size = v ∧
    ((r, f.idx) ≠ (s, g.idx) →
      (m.write (L.addr r f) v).read (L.addr s g) g.size = m.read (L.addr s g) g.size) := by
  have hG : Good L := by
    rcases hL with rfl | ⟨opt, h1, h2, rfl⟩
    · exact rowLayout_good o ts
    · exact paxLayout_good (paxRows_pos o opt ts h1) h2
  refine ⟨by rw [← hv]; exact Mem.read_write_same _ _ _, fun hne => ?_⟩
  apply Mem.read_write_other
  rw [hv]
  exact hG.disjoint hf hg (fun e => hne (by cases e; rfl))

/-- C33: writing the NULL bit of attribute `i` in row `r` changes no other NULL bit, of whatever row. -/
theorem C33_null_bits {o : Opts} {ts : List Ty} {L : Layout}
    (hL : L = rowLayout o ts ∨ ∃ opt, (∀ n, opt = .nTuples n → 0 < n) ∧ paxFits o opt ts ∧ L = paxLayout o opt ts)
    (m : Mem) {f : Leaf} (hf : f ∈ L.leaves) (hx : f.idx = ts.length) {r s i j : Nat} (hi : i < ts.length)
    (hj : j < ts.length) (b : Bool) :
    (m.write (L.addr r f + i) [b]) (L.addr s f + j) =
      if (r, i) = (s, j) then b else m (L.addr s f + j) := by
  have hG : Good L := by
    rcases hL with rfl | ⟨opt, h1, h2, rfl⟩
    · exact rowLayout_good o ts
    · exact paxLayout_good (paxRows_pos o opt ts h1) h2
  have hsz : f.size = ts.length := by
    rcases hL with rfl | ⟨opt, h1, h2, rfl⟩
    · rcases mem_rowLeaves hf with ⟨h, _⟩ | ⟨_, e⟩
      · omega
      · rw [e]
    · rcases mem_paxLeaves hf with ⟨h, _⟩ | ⟨_, e⟩
      · omega
      · rw [e]
  unfold Mem.write
  by_cases hrs : r = s
  · subst hrs
    by_cases hij : i = j
    · subst hij; simp
    · rw [if_neg (by simp; omega), if_neg (by simpa using hij)]
  · have := hG.disjoint hf hf (r := r) (s := s) (by simpa using hrs)
    rw [hsz] at this
    rw [if_neg (by simp; omega), if_neg (by simp [hrs])]

/-- C33: the sequential scan the interpreter generates, started at any row, is at exactly the address of row
`r + k` after `k` iterations, for every attribute of a row layout of byte-sized and boolean types. -/
theorem C33_scan_row {o : Opts} {ts : List Ty} (hv : ∀ t ∈ ts, t.Valid) {f : Leaf}
    (hf : f ∈ (rowLayout o ts).leaves) (r k : Nat) :
    ((Scan.start (rowLayout o ts) f r).iter (rowLayout o ts) f k).byte * 8 +
      ((Scan.start (rowLayout o ts) f r).iter (rowLayout o ts) f k).bit = (rowLayout o ts).addr (r + k) f := by
  have hstr : f.stride = 0 := by
    rcases mem_rowLeaves hf with ⟨_, e⟩ | ⟨_, e⟩ <;> rw [e]
  refine (scan_iter (rowLayout_good o ts).rows ?_ ?_ ?_ r k).1
  · exact (eight_dvd_max hv).trans (padTo_dvd (maxAlign_pos _ _) _)
  · right; rw [hstr]; simp
  · rw [hstr]; simp

/-- C33: the same for PAX layouts, for attributes of byte-sized types and booleans. -/
theorem C33_scan_pax {o : Opts} {opt : PaxOpt} {ts : List Ty} (hv : ∀ t ∈ ts, t.Valid)
    (hn : ∀ n, opt = .nTuples n → 0 < n) (hfit : paxFits o opt ts) {f : Leaf}
    (hf : f ∈ (paxLayout o opt ts).leaves) (hi : f.idx < ts.length)
    (hs : f.size = 1 ∨ f.size % 8 = 0) (r k : Nat) :
    ((Scan.start (paxLayout o opt ts) f r).iter (paxLayout o opt ts) f k).byte * 8 +
      ((Scan.start (paxLayout o opt ts) f r).iter (paxLayout o opt ts) f k).bit =
        (paxLayout o opt ts).addr (r + k) f := by
  have hG := paxLayout_good (paxRows_pos o opt ts hn) hfit
  have hstr : f.stride = f.size := by
    rcases mem_paxLeaves hf with ⟨_, e⟩ | ⟨_, e⟩
    · rw [e]
    · rw [e] at hi; simp at hi
  have hfits := hG.fits f hf
  refine (scan_iter hG.rows ?_ ?_ ?_ r k).1
  · show 8 ∣ paxBlocksPerRow o opt ts * paxBlockSize o opt ts
    refine Dvd.dvd.mul_left ?_ _
    cases opt with
    | nTuples n => exact (eight_dvd_max hv).trans (padTo_dvd (maxAlign_pos _ _) _)
    | nBytes b => exact Nat.dvd_mul_left 8 b
  · rw [hstr]
    rcases hs with hs | hs
    · exact Or.inl ⟨hs, Nat.dvd_of_mod_eq_zero (C33_pax_columns_byte_aligned hf)⟩
    · exact Or.inr (Nat.dvd_of_mod_eq_zero hs)
  · have hr := hG.rows
    rw [hstr] at hfits ⊢
    obtain ⟨q, hq⟩ : ∃ q, (paxLayout o opt ts).rows = q + 1 := ⟨_, (Nat.succ_pred_eq_of_pos hr).symm⟩
    rw [hq] at hfits ⊢
    rw [Nat.add_mul]; simp only [Nat.add_sub_cancel] at hfits; omega

/-- C33: the NULL bitmap column of a PAX layout, which the interpreter scans with an adjustable bit offset, is
likewise read at the address of row `r + k` in iteration `k`. -/
theorem C33_scan_pax_nulls {o : Opts} {opt : PaxOpt} {ts : List Ty} (hv : ∀ t ∈ ts, t.Valid)
    (hn : ∀ n, opt = .nTuples n → 0 < n) (hfit : paxFits o opt ts) {f : Leaf}
    (hf : f ∈ (paxLayout o opt ts).leaves) (hi : f.idx = ts.length) (r k : Nat) :
    ((NScan.start (paxLayout o opt ts) f r).iter (paxLayout o opt ts) f k).byte * 8 +
      ((NScan.start (paxLayout o opt ts) f r).iter (paxLayout o opt ts) f k).adj =
        (paxLayout o opt ts).addr (r + k) f := by
  have hG := paxLayout_good (paxRows_pos o opt ts hn) hfit
  have hfit' := hfit
  unfold paxFits at hfit'
  rcases mem_paxLeaves hf with ⟨h, _⟩ | ⟨hr, e⟩
  · omega
  · have h8 : 8 ∣ (paxLayout o opt ts).blockStride := by
      show 8 ∣ paxBlocksPerRow o opt ts * paxBlockSize o opt ts
      refine Dvd.dvd.mul_left ?_ _
      cases opt with
      | nTuples n => exact (eight_dvd_max hv).trans (padTo_dvd (maxAlign_pos _ _) _)
      | nBytes b => exact Nat.dvd_mul_left 8 b
    have hstr : f.stride = nullSize o ts := by rw [e]
    refine (nscan_iter hG.rows h8 (by rw [hstr]; exact nullSize_dvd o ts)
      (Nat.dvd_of_mod_eq_zero (C33_pax_columns_byte_aligned hf)) ?_ r k).1
    show paxRows o opt ts * f.stride ≤ paxBlocksPerRow o opt ts * paxBlockSize o opt ts
    rw [hstr, Nat.mul_comm, Nat.mul_comm (paxBlocksPerRow o opt ts)]
    omega

/-- C33: `RowStore` computes the same row as the default row layout, and its capacity fits its allocation. -/
theorem C33_rowstore (ts : List Ty) (hv : ∀ t ∈ ts, t.Valid) (alloc : Nat) :
    (rowStore ts).2.2 = (rowLayout {} ts).blockStride ∧
    (∀ f ∈ (rowLayout {} ts).leaves, f.idx < ts.length → f.off = (rowStore ts).1 f.idx) ∧
    (∀ f ∈ (rowLayout {} ts).leaves, ∀ r < rowCapacity alloc ts,
      (rowLayout {} ts).addr r f + f.size ≤ alloc * 8) := by
  have hbs : (rowStore ts).2.2 = (rowLayout {} ts).blockStride := rfl
  refine ⟨hbs, ?_, ?_⟩
  · intro f hf hi
    rcases mem_rowLeaves hf with ⟨h, e⟩ | ⟨_, e⟩
    · have h1 : f.off = before (sz ts) (order {} ts) f.idx := by rw [e]
      rw [h1]
      show _ = (place ts (order {} ts) 0 (fun _ => 0)).2 f.idx
      rw [place_snd _ _ _ (order_nodup {} ts) (mem_order.2 h), Nat.zero_add]
    · rw [e] at hi; simp at hi
  · intro f hf r hr
    have h1 := ((rowLayout_good {} ts).in_block hf r).2
    have hrows : (rowLayout {} ts).rows = 1 := rfl
    rw [hrows, Nat.div_one] at h1
    refine h1.trans ?_
    unfold rowCapacity at hr
    rw [hbs] at hr
    have h8 : 8 ∣ (rowLayout {} ts).blockStride :=
      (eight_dvd_max hv).trans (padTo_dvd (maxAlign_pos _ _) _)
    obtain ⟨c, hc⟩ := h8
    rw [hc] at hr ⊢
    rw [Nat.mul_div_cancel_left _ (by omega)] at hr
    have h2 : (r + 1) * c ≤ alloc := (Nat.mul_le_mul_right c hr).trans (Nat.div_mul_le_self _ _)
    calc (r + 1) * (8 * c) = (r + 1) * c * 8 := by ring
      _ ≤ alloc * 8 := Nat.mul_le_mul_right 8 h2

/-- C33: the column store's columns never overlap, up to its capacity, and stay inside its allocation of
`n + 1` areas (`i = ts.length` is the padded NULL bitmap column). -/
theorem C33_columnstore (ts : List Ty) (alloc : Nat) {i j r s : Nat} (hi : i ≤ ts.length) (hj : j ≤ ts.length)
    (hr : r < columnCapacity alloc ts) (hs : s < columnCapacity alloc ts) (hne : (r, i) ≠ (s, j)) :
    let w := fun k => if k = ts.length then (ts.length + 7) / 8 * 8 else sz ts k
    Apart (columnAddr alloc ts i r) (w i) (columnAddr alloc ts j s) (w j) ∧
    columnAddr alloc ts i r + w i ≤ alloc * (ts.length + 1) * 8 := by
  intro w
  have hfold : ∀ (l : List Nat) (m k : Nat), (k ∈ l → sz ts k ≤ l.foldl (fun m i => max m (sz ts i)) m) ∧
      m ≤ l.foldl (fun m i => max m (sz ts i)) m := by
    intro l
    induction l with
    | nil => intro m k; simp
    | cons x xs ih =>
      intro m k
      simp only [List.foldl_cons, List.mem_cons]
      have h1 := ih (max m (sz ts x)) k
      refine ⟨?_, by omega⟩
      rintro (rfl | h)
      · omega
      · exact h1.1 h
  have hw : ∀ k ≤ ts.length, ∀ r < columnCapacity alloc ts, (r + 1) * w k ≤ alloc * 8 := by
    intro k hk r hr
    have h1 : w k ≤ max ((List.range ts.length).foldl (fun m i => max m (sz ts i)) 0)
        ((ts.length + 7) / 8 * 8) := by
      simp only [w]; split
      · exact Nat.le_max_right _ _
      · exact Nat.le_trans ((hfold _ 0 k).1 (List.mem_range.2 (by omega))) (Nat.le_max_left _ _)
    unfold columnCapacity at hr
    simp only at hr
    exact (Nat.mul_le_mul hr h1).trans (Nat.div_mul_le_self _ _)
  have e : ∀ k r, columnAddr alloc ts k r = alloc * 8 * k + r * w k := fun k r => rfl
  have hI := hw i hi r hr
  have hJ := hw j hj s hs
  rw [Nat.add_mul] at hI hJ
  refine ⟨apart_of ?_, ?_⟩
  · rw [e, e]
    rcases Nat.lt_trichotomy i j with h | h | h
    · left
      have := Nat.mul_le_mul_left (alloc * 8) (Nat.succ_le_of_lt h)
      rw [Nat.succ_eq_add_one, Nat.mul_add] at this; omega
    · subst h
      have : r ≠ s := fun h => hne (by rw [h])
      rcases Nat.lt_or_gt_of_ne this with h | h
      · left
        have := Nat.mul_le_mul_right (w i) (Nat.succ_le_of_lt h)
        rw [Nat.succ_eq_add_one, Nat.add_mul] at this; omega
      · right
        have := Nat.mul_le_mul_right (w i) (Nat.succ_le_of_lt h)
        rw [Nat.succ_eq_add_one, Nat.add_mul] at this; omega
    · right
      have := Nat.mul_le_mul_left (alloc * 8) (Nat.succ_le_of_lt h)
      rw [Nat.succ_eq_add_one, Nat.mul_add] at this; omega
  · rw [e]
    have := Nat.mul_le_mul_left (alloc * 8) hi
    have e2 : alloc * (ts.length + 1) * 8 = alloc * 8 * ts.length + alloc * 8 := by ring
    omega

/-- C33, a defect: the capacity of a store and the space its table's layout needs are computed independently.  A
`PaxStore` of a table with one 4-byte integer admits more rows than the default layout `PAX4M` can place in the
store's memory, for both allocation sizes of the code (debug and release). -/
theorem C33_capacity_exceeds_layout (alloc : Nat) (ha : alloc = 2 ^ 30 ∨ alloc = 2 ^ 37) :
    ∃ r < paxStoreCapacity alloc 4096 [.int 4],
      ∃ f ∈ (paxLayout {} (.nBytes (2 ^ 22)) [.int 4]).leaves, f.idx = 0 ∧
      alloc * 8 < (paxLayout {} (.nBytes (2 ^ 22)) [.int 4]).addr r f + f.size := by
  have ho : order {} [Ty.int 4] = List.range 1 := order_of_sorted (ts := [Ty.int 4]) (by decide +kernel)
  have hrows : paxRows {} (.nBytes (2 ^ 22)) [Ty.int 4] = 838860 := by
    unfold paxRows; rw [ho]; decide +kernel
  have hbpr : paxBlocksPerRow {} (.nBytes (2 ^ 22)) [Ty.int 4] = 1 := by
    unfold paxBlocksPerRow; rw [ho]; decide +kernel
  have hst : paxStoreRows 4096 [Ty.int 4] = 992 := by
    unfold paxStoreRows; rw [ho]; decide +kernel
  have hf : (⟨0, 32, 0, 32⟩ : Leaf) ∈ (paxLayout {} (.nBytes (2 ^ 22)) [.int 4]).leaves := by
    refine List.mem_append_left _ (List.mem_map.2 ⟨0, by simp, ?_⟩)
    rw [hrows, ho]; decide +kernel
  have hrw : (paxLayout {} (.nBytes (2 ^ 22)) [Ty.int 4]).rows = 838860 := hrows
  have hbs : (paxLayout {} (.nBytes (2 ^ 22)) [Ty.int 4]).blockStride = 33554432 := by
    have h0 : ∀ b, (paxLayout {} (.nBytes b) [Ty.int 4]).blockStride =
        paxBlocksPerRow {} (.nBytes b) [Ty.int 4] * (b * 8) := fun _ => rfl
    rw [h0, hbpr, Nat.one_mul]; decide +kernel
  refine ⟨paxStoreCapacity alloc 4096 [.int 4] - 1, ?_, ⟨0, 32, 0, 32⟩, hf, rfl, ?_⟩
  · unfold paxStoreCapacity; rw [hst]
    rcases ha with rfl | rfl <;> decide +kernel
  · unfold Layout.addr paxStoreCapacity
    rw [hst, hrw, hbs]
    rcases ha with rfl | rfl <;> decide +kernel

/-! ### The hypotheses are satisfiable -/

/-- A schema mixing everything. -/
def demo : List Ty := [.bool, .int 4, .char 5 true, .datetime, .bool, .decimal 7, .float 64]

example : ∀ t ∈ demo, t.Valid := by
  intro t ht
  simp only [demo, List.mem_cons, List.not_mem_nil, or_false] at ht
  rcases ht with rfl | rfl | rfl | rfl | rfl | rfl | rfl <;> first | trivial | (simp [Ty.Valid])

/-- `PAX4M` on `demo` passes the check. -/
example : paxFits {} (.nBytes (2 ^ 22)) demo :=
  C33_pax_bytes_fits (by decide +kernel) (by decide +kernel)

/-- and so does every registered layout with a number of tuples. -/
example : Separated {} demo (paxLayout {} (.nTuples 128) demo) :=
  C33_pax_separated _ _ _ (by intro n h; cases h; decide) (C33_pax_tuples_fits _ _ _)

/-- The row layout of a small sorted schema, concretely. -/
example : (rowLayout {} [.int 4, .char 1 false, .bool]).blockStride = 64 := by
  have ho : order {} [Ty.int 4, .char 1 false, .bool] = List.range 3 := order_of_sorted (ts := [Ty.int 4, .char 1 false, .bool]) (by decide +kernel)
  simp only [rowLayout, ho]; decide +kernel

/-- A scan over a boolean column in blocks of 16 tuples really wraps around bytes and blocks. -/
example : (Scan.iter ⟨3, 16, [⟨0, 1, 0, 1⟩]⟩ ⟨0, 1, 0, 1⟩ 4 (Scan.start ⟨3, 16, [⟨0, 1, 0, 1⟩]⟩ ⟨0, 1, 0, 1⟩ 0))
    = ⟨2, 1, 1⟩ := by decide

end Mutable.Layout
