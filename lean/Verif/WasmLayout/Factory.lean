import Verif.WasmLayout.Props
import Verif.Layout.Props
/-
The data layouts of the two factories (src/storage/DataLayoutFactory.cpp, modelled in `Verif.Layout`) are layouts for which the
theorems about compiled accesses apply.
-/
namespace Mutable.WLayout

/-- A type of the catalog as the code generator for data layouts sees it, WasmUtil.cpp:1290-1430: booleans, character sequences, and
all others by their number of bytes. -/
def ofTy : Layout.Ty → Ty
  | .bool => .bool
  | .char n v => .str ((Layout.Ty.char n v).size / 8)
  | t => .num (t.size / 8)

/-- The types the code generator supports (`M_unreachable` for others): booleans, and types of whole bytes.  Decimals with one digit
have half a byte (see C33). -/
def Storable (t : Layout.Ty) : Prop := t = .bool ∨ (8 ∣ t.size ∧ 8 ∣ t.align)

/-- The schema of a table. -/
def schemaOf (ats : List (Layout.Ty × Bool)) : List Attr := ats.map (fun a => ⟨ofTy a.1, a.2⟩)

/-- The leaves of an inner node, in order. -/
def kidsOf : List Layout.Leaf → Kids
  | [] => .nil
  | f :: fs => .leaf f.idx f.off f.stride (kidsOf fs)

/-- The layout made by a factory, as a tree: DataLayoutFactory.cpp:113-128 and :216-227. -/
def toKids (L : Layout.Layout) : Kids := .inode L.rows 0 L.blockStride (kidsOf L.leaves) .nil

theorem kidsOf_addrs (base t : Nat) : ∀ fs : List Layout.Leaf,
    (kidsOf fs).addrs base t = fs.map (fun f => (f.idx, base + f.off + t * f.stride))
  | [] => rfl
  | f :: fs => by simp [kidsOf, Kids.addrs, kidsOf_addrs base t fs]

theorem toKids_addrs (L : Layout.Layout) (base t : Nat) :
    (toKids L).addrs base t = L.leaves.map (fun f => (f.idx, base + L.addr t f)) := by
  simp only [toKids, Kids.addrs, List.append_nil, kidsOf_addrs]
  refine List.map_congr_left (fun f _ => ?_)
  simp only [Layout.Layout.addr]
  congr 1; omega

/-- What is needed of a factory's layout. -/
structure Fits (ats : List (Layout.Ty × Bool)) (hasNull : Bool) (L : Layout.Layout) : Prop where
  good : Layout.Good L
  bytes : L.blockStride % 8 = 0
  complete : L.leaves.map (fun f => (f.idx, f.size)) =
    (List.range ats.length).map (fun i => (i, ((ats.map Prod.fst).getD i Layout.Ty.none).size)) ++
      (if hasNull then [(ats.length, ats.length)] else [])
  aligned : ∀ f ∈ L.leaves, f.idx < ats.length → (ats.map (·.1)).getD f.idx .none ≠ .bool → f.stride % 8 = 0 ∧ f.off % 8 = 0

theorem Fits.idxs {ats hn L} (h : Fits ats hn L) : L.leaves.map (·.idx) =
    List.range ats.length ++ (if hn then [ats.length] else []) := by
  have := congrArg (List.map Prod.fst) h.complete
  rw [List.map_map, List.map_append, List.map_map] at this
  have e : (Prod.fst ∘ fun f : Layout.Leaf => (f.idx, f.size)) = (·.idx) := rfl
  rw [e] at this
  rw [this]
  congr 1
  · exact List.map_id _
  · cases hn <;> rfl

theorem ofTy_bool {t : Layout.Ty} : ofTy t = .bool ↔ t = .bool := by
  cases t <;> simp [ofTy]

theorem kidsOf_wf {sch : List Attr} (n : Nat) : ∀ fs : List Layout.Leaf,
    (∀ f ∈ fs, f.idx < sch.length → (sch[f.idx]?.map (·.ty) ≠ some .bool) → f.stride % 8 = 0 ∧ f.off % 8 = 0) → (kidsOf fs).WF sch n
  | [], _ => trivial
  | f :: fs, h => ⟨h f (List.mem_cons_self ..), kidsOf_wf n fs (fun g hg => h g (List.mem_cons_of_mem _ hg))⟩

theorem getD_fst {ats : List (Layout.Ty × Bool)} {i : Nat} (hi : i < ats.length) : (ats.map (·.1)).getD i .none = ats[i].1 := by
  simp [List.getD_eq_getElem?_getD, hi]

theorem Fits.valid {ats hn L} (h : Fits ats hn L) : (toKids L).Valid (schemaOf ats) := by
  refine ⟨⟨⟨?_, Nat.zero_mod _, Nat.zero_mod _, h.bytes⟩, ?_, trivial⟩, rfl, ?_⟩
  · exact Nat.ne_of_gt h.good.rows
  · refine kidsOf_wf _ _ (fun f hf hi hb => ?_)
    have hi' : f.idx < ats.length := by simpa [schemaOf] using hi
    refine h.aligned f hf hi' (fun e => hb ?_)
    rw [getD_fst hi'] at e
    simp [schemaOf, hi', e, ofTy]
  · unfold Kids.Once
    rw [toKids_addrs, List.map_map]
    have e : (Prod.fst ∘ fun f : Layout.Leaf => (f.idx, 0 + L.addr 0 f)) = (·.idx) := rfl
    rw [e, h.idxs]
    cases hn
    · simpa using List.nodup_range
    · rw [if_pos rfl, ← List.range_succ]; exact List.nodup_range

theorem leaf_width {ats : List (Layout.Ty × Bool)} (hs : ∀ a ∈ ats, Storable a.1) {hn L} (h : Fits ats hn L) {f : Layout.Leaf}
    (hf : f ∈ L.leaves) : width (schemaOf ats) f.idx = f.size := by
  have hm : (f.idx, f.size) ∈ L.leaves.map (fun f => (f.idx, f.size)) := List.mem_map.mpr ⟨f, hf, rfl⟩
  rw [h.complete] at hm
  rcases List.mem_append.mp hm with hm | hm
  · obtain ⟨i, hi, e⟩ := List.mem_map.mp hm
    have hi : i < ats.length := List.mem_range.mp hi
    obtain ⟨rfl, e⟩ := Prod.mk.inj e
    rw [getD_fst hi] at e
    rw [← e]
    have hst := hs _ (List.getElem_mem hi)
    unfold width
    simp only [schemaOf, List.getElem?_map, List.getElem?_eq_getElem hi, Option.map_some]
    generalize ats[f.idx].1 = t at hst ⊢
    rcases hst with rfl | ⟨h8, _⟩
    · rfl
    · cases t with
      | bool => simp [Layout.Ty.size] at h8
      | char n v => simp only [ofTy]; omega
      | _ => simp only [ofTy]; omega
  · cases hn
    · simp at hm
    · simp only [if_true, List.mem_singleton, Prod.mk.injEq] at hm
      rw [hm.1, hm.2]
      simp [width, schemaOf]

theorem Fits.separated {ats : List (Layout.Ty × Bool)} (hs : ∀ a ∈ ats, Storable a.1) {hn L} (h : Fits ats hn L) :
    (toKids L).Separated (schemaOf ats) := by
  intro i j t u a b h1 h2 hne
  have m1 := mem_of_lookup h1
  have m2 := mem_of_lookup h2
  rw [toKids_addrs] at m1 m2
  obtain ⟨f, hf, e1⟩ := List.mem_map.mp m1
  obtain ⟨g, hg, e2⟩ := List.mem_map.mp m2
  obtain ⟨rfl, rfl⟩ := Prod.mk.inj e1
  obtain ⟨rfl, rfl⟩ := Prod.mk.inj e2
  rw [leaf_width hs h hf, leaf_width hs h hg, Nat.zero_add, Nat.zero_add]
  refine h.good.disjoint hf hg (fun e => ?_)
  obtain ⟨rfl, rfl⟩ := Prod.mk.inj e
  rcases hne with hne | hne <;> exact hne rfl

theorem Fits.has {ats hn L} (h : Fits ats hn L) {i : Nat} (hi : i < ats.length ∨ (hn = true ∧ i = ats.length)) : (toKids L).Has i := by
  unfold Kids.Has
  rw [toKids_addrs, List.map_map]
  have e : (Prod.fst ∘ fun f : Layout.Leaf => (f.idx, 0 + L.addr 0 f)) = (·.idx) := rfl
  rw [e, h.idxs]
  rcases hi with hi | ⟨rfl, rfl⟩
  · exact List.mem_append_left _ (List.mem_range.mpr hi)
  · simp

/-- The row layout of a table of storable types (with attribute reordering, the default). -/
theorem fits_row {o : Layout.Opts} {ats : List (Layout.Ty × Bool)} (hre : o.reorder = true) (hv : ∀ a ∈ ats, a.1.Valid)
    (hs : ∀ a ∈ ats, Storable a.1) : Fits ats (!o.removeNull) (Layout.rowLayout o (ats.map (·.1))) := by
  have hv' : ∀ t ∈ ats.map (·.1), t.Valid := by
    intro t ht
    obtain ⟨a, ha, rfl⟩ := List.mem_map.mp ht
    exact hv a ha
  refine ⟨Layout.rowLayout_good _ _, ?_, ?_, ?_⟩
  · exact Nat.mod_eq_zero_of_dvd ((Layout.eight_dvd_max hv').trans (Layout.padTo_dvd (Layout.maxAlign_pos _ _) _))
  · rw [(Layout.C33_row_separated o (ats.map (·.1))).complete]
    simp only [List.length_map]
    cases o.removeNull <;> rfl
  · intro f hf hi hb
    have hi' : f.idx < (ats.map (·.1)).length := by simpa using hi
    have hal : 8 ∣ Layout.al (ats.map (·.1)) f.idx := by
      unfold Layout.al
      rw [getD_fst hi] at hb ⊢
      exact ((hs _ (List.getElem_mem hi)).resolve_left hb).2
    rcases Layout.mem_rowLeaves hf with ⟨_, e⟩ | ⟨_, e⟩
    · have h2 : f.off = Layout.before (Layout.sz (ats.map (·.1))) (Layout.order o (ats.map (·.1))) f.idx := by rw [e]
      have h3 : f.stride = 0 := by rw [e]
      exact ⟨by rw [h3], by rw [h2]; exact Nat.mod_eq_zero_of_dvd (hal.trans (Layout.row_aligned hre hv' hi'))⟩
    · rw [e] at hi; simp at hi

/-- The PAX layout of a table of storable types. -/
theorem fits_pax {o : Layout.Opts} {opt : Layout.PaxOpt} {ats : List (Layout.Ty × Bool)} (hv : ∀ a ∈ ats, a.1.Valid)
    (hs : ∀ a ∈ ats, Storable a.1) (hn : ∀ n, opt = .nTuples n → 0 < n) (hfit : Layout.paxFits o opt (ats.map (·.1))) :
    Fits ats (!o.removeNull) (Layout.paxLayout o opt (ats.map (·.1))) := by
  have hv' : ∀ t ∈ ats.map (·.1), t.Valid := by
    intro t ht
    obtain ⟨a, ha, rfl⟩ := List.mem_map.mp ht
    exact hv a ha
  refine ⟨Layout.paxLayout_good (Layout.paxRows_pos _ _ _ hn) hfit, ?_, ?_, ?_⟩
  · refine Nat.mod_eq_zero_of_dvd (Dvd.dvd.mul_left ?_ _)
    cases opt with
    | nTuples n => exact (Layout.eight_dvd_max hv').trans (Layout.padTo_dvd (Layout.maxAlign_pos _ _) _)
    | nBytes b => exact Nat.dvd_mul_left 8 b
  · rw [(Layout.C33_pax_separated o opt (ats.map (·.1)) hn hfit).complete]
    simp only [List.length_map]
    cases o.removeNull <;> rfl
  · intro f hf hi hb
    refine ⟨?_, Layout.C33_pax_columns_byte_aligned hf⟩
    have hsz : 8 ∣ Layout.sz (ats.map (·.1)) f.idx := by
      unfold Layout.sz
      rw [getD_fst hi] at hb ⊢
      exact ((hs _ (List.getElem_mem hi)).resolve_left hb).1
    rcases Layout.mem_paxLeaves hf with ⟨_, e⟩ | ⟨_, e⟩
    · have h3 : f.stride = Layout.sz (ats.map (·.1)) f.idx := by rw [e]
      rw [h3]; exact Nat.mod_eq_zero_of_dvd hsz
    · rw [e] at hi; simp at hi

/-- The two kinds of layouts a table can get. -/
inductive FactoryLayout (ats : List (Layout.Ty × Bool)) : Bool → Layout.Layout → Prop
  | row (o : Layout.Opts) (hre : o.reorder = true) : FactoryLayout ats (!o.removeNull) (Layout.rowLayout o (ats.map (·.1)))
  | pax (o : Layout.Opts) (opt : Layout.PaxOpt) (hn : ∀ n, opt = .nTuples n → 0 < n)
      (hfit : Layout.paxFits o opt (ats.map (·.1))) : FactoryLayout ats (!o.removeNull) (Layout.paxLayout o opt (ats.map (·.1)))

theorem FactoryLayout.fits {ats : List (Layout.Ty × Bool)} {hn L} (hv : ∀ a ∈ ats, a.1.Valid) (hs : ∀ a ∈ ats, Storable a.1)
    (h : FactoryLayout ats hn L) : Fits ats hn L := by
  cases h with
  | row o hre => exact fits_row hre hv hs
  | pax o opt hn hfit => exact fits_pax hv hs hn hfit

/-- **C63**: for a table with any storable attribute types in its row or PAX layout, rows written by a compiled loop from row `t0` on
are what a compiled loop from row `t0` on, or a compiled point access, reads. -/
theorem C63_factory_store_load {ats : List (Layout.Ty × Bool)} {hn : Bool} {L : Layout.Layout} (hv : ∀ a ∈ ats, a.1.Valid)
    (hs : ∀ a ∈ ats, Storable a.1) (h : FactoryLayout ats hn L) {c c' : Cfg} (hsch : c.sch = schemaOf ats) (hents : c.EntsOK)
    (hnd : c.ents.Nodup) (h1 : c.lanes = 1) (hnb : c.needsNull = true → hn = true)
    (rows : List (Row × Bool)) (hrows : ∀ r ∈ rows, r.1.OK c) (hp : c.predicated = false → ∀ r ∈ rows, r.2 = true)
    (hc : c' = { c with sharing := c'.sharing, remRemoval := c'.remRemoval, predicated := false })
    (m : Mem) (base t0 : Nat) {k : Nat} {row : Row} (hk : (committed rows)[k]? = some row) :
    loadAt c' (toKids L) (storeAll c rows (init c (toKids L) base t0) m).2 0 k (init c' (toKids L) base t0) = some (row.stored c) ∧
    loadPoint c' (toKids L) (storeAll c rows (init c (toKids L) base t0) m).2 base (t0 + k) = some (row.stored c) := by
  have F := h.fits hv hs
  have hlen : c.sch.length = ats.length := by rw [hsch]; simp [schemaOf]
  refine C63_store_load (by rw [hsch]; exact F.valid) (by rw [hsch]; exact F.separated hs) hents hnd h1
    (fun i hi => F.has (Or.inl (by rw [← hlen]; exact hents i hi))) (fun hb => F.has (Or.inr ⟨hnb hb, hlen⟩)) rows hrows hp hc m base t0 hk

/-- **C63**: and the scan of a table in one of these layouts reads in iteration `k` the cells at the addresses that C33 is about. -/
theorem C63_factory_load {ats : List (Layout.Ty × Bool)} {hn : Bool} {L : Layout.Layout} (hv : ∀ a ∈ ats, a.1.Valid)
    (hs : ∀ a ∈ ats, Storable a.1) (h : FactoryLayout ats hn L) {c : Cfg} (hsch : c.sch = schemaOf ats) (hents : c.EntsOK)
    (h1 : c.lanes = 1) (hp : c.predicated = false) (m : Mem) (base t0 k : Nat) :
    loadAt c (toKids L) m 0 k (init c (toKids L) base t0) = rowAt c.sch c.ents (toKids L) m base (t0 + k) ∧
    ∀ t i a, ((toKids L).addrs (8 * base) t).lookup i = some a → ∃ f ∈ L.leaves, f.idx = i ∧ a = 8 * base + L.addr t f := by
  have F := h.fits hv hs
  refine ⟨C63_load (by rw [hsch]; exact F.valid) hents h1 hp m base t0 k, fun t i a ha => ?_⟩
  have := mem_of_lookup ha
  rw [toKids_addrs] at this
  obtain ⟨f, hf, e⟩ := List.mem_map.mp this
  obtain ⟨rfl, rfl⟩ := Prod.mk.inj e
  exact ⟨f, hf, rfl, rfl⟩

/-! A table with all kinds of attributes, in the default layout (blocks of 4 MiB) and in a row layout. -/

def exAts : List (Layout.Ty × Bool) := [(.bool, true), (.int 4, false), (.char 5 true, true), (.datetime, true), (.bool, false),
  (.decimal 7, true), (.float 64, false)]

theorem exAts_valid : ∀ a ∈ exAts, a.1.Valid := by
  intro t ht
  simp only [exAts, List.mem_cons, List.not_mem_nil, or_false] at ht
  rcases ht with rfl | rfl | rfl | rfl | rfl | rfl | rfl <;> first | trivial | (simp [Layout.Ty.Valid])

theorem exAts_storable : ∀ a ∈ exAts, Storable a.1 := by unfold Storable; decide +kernel

example : FactoryLayout exAts true (Layout.rowLayout {} (exAts.map (·.1))) := .row {} rfl
example : FactoryLayout exAts true (Layout.paxLayout {} (.nBytes (2 ^ 22)) (exAts.map (·.1))) :=
  .pax {} _ (by intro n h; cases h) (Layout.C33_pax_bytes_fits (by decide +kernel) (by decide +kernel))
example : (schemaOf exAts).length = 7 ∧ (schemaOf exAts)[5]? = some ⟨.num 4, true⟩ := by decide +kernel

end Mutable.WLayout
