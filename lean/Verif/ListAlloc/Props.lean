import Verif.ListAlloc.Steps
/-! C24, C25: `list_allocator` hands out disjoint memory and leaks nothing. -/
namespace Mutable.ListAlloc

/-! ### Histories -/

/-- `F0` is the memory mapped by others, `st` the allocator, `live` the allocations (address, size) that have been handed
out and not been given back. -/
inductive Hist : Set Nat → St → List (Nat × Nat) → Prop
  /-- the constructor, with or without an initial chunk; pages are a power of two of at least 16 bytes -/
  | init {F0 k expo initial mem raw st} : 4 ≤ k →
      (initial ≠ 0 → MmapOK (2 ^ k) F0 raw (ceilMul (max 9 (ceilMul initial (2 ^ k))) (2 ^ k))) →
      construct (2 ^ k) expo initial mem F0 raw = some st → Hist F0 st []
  /-- a successful allocation -/
  | alloc {F0 st live size al raw st' p} : Hist F0 st live → AlignOK al → 0 < size → size + 8 < 2 ^ 64 →
      MmapOK st.pg st.mapped raw (mmapLen st size al) → allocate st size al raw = some (st', p) →
      Hist F0 st' ((p, size) :: live)
  /-- a deallocation of a live allocation with its size -/
  | dealloc {F0 st live p s} : Hist F0 st live → (p, s) ∈ live → Hist F0 (deallocate st p s) (live.erase (p, s))
  /-- clients write to their memory, and the link words of the free list change -/
  | write {F0 st live mem'} : Hist F0 st live →
      (∀ b, 8 ∣ b → b ∉ st.free → (∀ x ∈ live, ¬ (b < x.1 + x.2 ∧ x.1 < b + 8)) → mem' b = st.mem b) →
      Hist F0 { st with mem := mem' } live
  /-- others map and unmap memory, but not that of the allocator -/
  | other {F0 F1 st live} : Hist F0 st live → Disjoint F1 (st.mapped \ F0) →
      Hist F1 { st with mapped := (st.mapped \ F0) ∪ F1 } live

/-! ### Specification -/

/-- Two address ranges have no address in common. -/
def Apart (a n b m : Nat) : Prop := a + n ≤ b ∨ b + m ≤ a

/-- The live allocations are pairwise disjoint, lie in memory mapped by the allocator, and overlap neither the size words behind
live allocations nor the 16 byte headers of the free chunks. -/
structure Safe (F0 : Set Nat) (st : St) (live : List (Nat × Nat)) : Prop where
  disjoint : live.Pairwise fun x y => Apart x.1 x.2 y.1 y.2
  mapped : ∀ x ∈ live, ∀ a, x.1 ≤ a → a < x.1 + x.2 → a ∈ st.mapped ∧ a ∉ F0
  nonnull : ∀ x ∈ live, x.1 ≠ 0
  sizeWord : ∀ x ∈ live, ∀ y ∈ live, Apart (sizeAddr x.1 x.2) 8 y.1 y.2
  sizeWords : live.Pairwise fun x y => Apart (sizeAddr x.1 x.2) 8 (sizeAddr y.1 y.2) 8
  header : ∀ h ∈ st.free, ∀ x ∈ live, Apart h 16 x.1 x.2 ∧ Apart h 16 (sizeAddr x.1 x.2) 8
  bookkeeping : ∀ a, ((∃ h ∈ st.free, h ≤ a ∧ a < h + 16) ∨ (∃ x ∈ live, sizeAddr x.1 x.2 ≤ a ∧ a < sizeAddr x.1 x.2 + 8)) →
    a ∈ st.mapped ∧ a ∉ F0

/-! ### Lemmas -/

theorem Apart.symm {a n b m} (h : Apart a n b m) : Apart b m a n := Or.symm h

theorem get_apart {l : List Chunk} (P : l.Pairwise fun c d => c.fin ≤ d.addr) {c d} (hc : c ∈ l) (hd : d ∈ l) (hne : c ≠ d) :
    c.fin ≤ d.addr ∨ d.fin ≤ c.addr := by
  rcases List.mem_iff_getElem.1 hc with ⟨i, hi, rfl⟩
  rcases List.mem_iff_getElem.1 hd with ⟨j, hj, rfl⟩
  have hij : i ≠ j := by rintro rfl; exact hne rfl
  rcases Nat.lt_or_gt_of_ne hij with h | h
  · exact Or.inl (List.pairwise_iff_getElem.1 P i j hi hj h)
  · exact Or.inr (List.pairwise_iff_getElem.1 P j i hj hi h)

attribute [local irreducible] sizeAddr in
theorem safe_of_inv {F0 st live l} (I : Inv F0 st live l) : Safe F0 st live := by
  have P := inv_sorted I
  have mapped : ∀ c ∈ l, ∀ a, c.addr ≤ a → a < c.fin → a ∈ st.mapped ∧ a ∉ F0 := by
    intro c hc a h1 h2
    refine ⟨by rw [I.mapped]; exact Or.inr ⟨c, hc, h1, h2⟩, fun h => I.foreign a h c hc ⟨h1, h2⟩⟩
  have get : ∀ x ∈ live, ∃ c ∈ l, c.use = some x.2 ∧ c.addr = x.1 := fun x hx => mem_liveOf.1 (I.live.mem_iff.1 hx)
  have used : ∀ c ∈ l, ∀ s, c.use = some s → c.addr + s ≤ sizeAddr c.addr s ∧ sizeAddr c.addr s + 8 ≤ c.fin := by
    intro c hc s hs
    have := sizeAddr_eq (I.wf c hc) hs
    unfold Chunk.fin; omega
  have pw : (liveOf l).Pairwise fun x y => Apart x.1 x.2 y.1 y.2 ∧ Apart (sizeAddr x.1 x.2) 8 (sizeAddr y.1 y.2) 8 := by
    refine List.pairwise_filterMap.2 (List.Pairwise.imp_of_mem ?_ P)
    intro c d hc hd h x hx y hy
    obtain ⟨s, hs, rfl⟩ := by simpa using hx
    obtain ⟨t, ht, rfl⟩ := by simpa using hy
    have h1 := used c hc s hs
    have h2 := used d hd t ht
    exact ⟨Or.inl (by simp only; omega), Or.inl (by simp only; omega)⟩
  have pwl := (I.live.symm.pairwise_iff (R := fun x y => Apart x.1 x.2 y.1 y.2 ∧ Apart (sizeAddr x.1 x.2) 8 (sizeAddr y.1 y.2) 8)
    (fun h => ⟨h.1.symm, h.2.symm⟩)).1 pw
  have hhead : ∀ h ∈ st.free, ∃ c ∈ l, c.use = none ∧ c.addr = h := fun h hh => mem_freeOf.1 (I.free ▸ hh)
  constructor
  · exact pwl.imp fun h => h.1
  · intro x hx a h1 h2
    obtain ⟨c, hc, hu, ha⟩ := get x hx
    have := used c hc _ hu
    exact mapped c hc a (by omega) (by omega)
  · intro x hx
    obtain ⟨c, hc, hu, ha⟩ := get x hx
    rw [← ha]; exact (I.wf c hc).nz
  · intro x hx y hy
    obtain ⟨c, hc, hu, ha⟩ := get x hx
    obtain ⟨d, hd, hu', ha'⟩ := get y hy
    have h1 := used c hc _ hu
    have h2 := used d hd _ hu'
    rw [← ha, ← ha']
    unfold Apart
    by_cases hcd : c = d
    · subst hcd
      rw [hu] at hu'
      obtain hxy : x.2 = y.2 := by simpa using hu'
      rw [hxy] at *
      omega
    · have h3 := get_apart P hc hd hcd
      rcases h3 with h3 | h3 <;> omega
  · exact pwl.imp fun h => h.2
  · intro h hh x hx
    obtain ⟨c, hc, hu, rfl⟩ := hhead h hh
    obtain ⟨d, hd, hu', ha'⟩ := get x hx
    have h2 := used d hd _ hu'
    have h4 := (I.wf c hc).big
    have hcd : c ≠ d := by rintro rfl; rw [hu] at hu'; simp at hu'
    have h3 := get_apart P hc hd hcd
    rw [← ha']
    unfold Apart Chunk.fin at *
    omega
  · rintro a (⟨h, hh, h1, h2⟩ | ⟨x, hx, h1, h2⟩)
    · obtain ⟨c, hc, hu, rfl⟩ := hhead h hh
      have h4 := (I.wf c hc).big
      exact mapped c hc a h1 (by unfold Chunk.fin; omega)
    · obtain ⟨c, hc, hu, ha⟩ := get x hx
      have := used c hc _ hu
      rw [← ha] at h1 h2
      exact mapped c hc a (by omega) (by omega)

/-- `allocate` succeeds in every state that satisfies the invariant. -/
theorem alloc_spec {F0 st live l} (I : Inv F0 st live l) {size al raw : Nat} (hal : AlignOK al) (h0 : 0 < size)
    (hs : size + 8 < 2 ^ 64) (hmm : MmapOK st.pg st.mapped raw (mmapLen st size al)) :
    ∃ st' p l', allocate st size al raw = some (st', p) ∧ Inv F0 st' ((p, size) :: live) l' ∧ ¬ unaligned p al ∧
      Frame st st' l 0 := by
  have hfit := findFit_spec (mem := st.mem) (size := size) (al := al) (fs := st.free) (by
    intro a ha
    obtain ⟨c, hc, hu, rfl⟩ := mem_freeOf.1 (I.free ▸ ha)
    have := I.mem c hc
    simp only [MemOK, hu] at this
    rw [this]; exact (I.wf c hc).big)
  unfold allocate
  rw [if_neg (by omega)]
  rcases hfit with e | ⟨p, e, h1, h2, h3⟩
  · obtain ⟨st1, p, l1, e1, I1, f1, f2, f3, f4, f5, -⟩ := fresh_spec I hal hs hmm
    obtain ⟨st2, l2, e2, I2, F2, -⟩ := take_spec I1 f1 h0 f2
    refine ⟨st2, p.cur, l2, by rw [e]; simp only [e1]; exact e2, I2, f3, ?_⟩
    intro c hc hu hne b hb1 hb2
    rw [F2 c (f4 c hc) hu hne b hb1 hb2]
    exact f5 b (by rw [I.mapped]; exact Or.inr ⟨c, hc, hb1, hb2⟩)
  · obtain ⟨st2, l2, e2, I2, F2, -⟩ := take_spec I h1 h0 h2
    exact ⟨st2, p.cur, l2, by rw [e]; exact e2, I2, h3, F2⟩

theorem hist_inv {F0 st live} (h : Hist F0 st live) : ∃ l, Inv F0 st live l := by
  induction h with
  | @init F0 k expo initial mem raw st hk hmm e =>
    have I0 : ∀ ms, Inv F0 { pg := 2 ^ k, expo := expo, free := [], mem := mem, mapped := F0, minSize := ms } [] [] := by
      intro ms
      exact ⟨⟨k, rfl, hk⟩, by simp, trivial, by simp, by simp, rfl, by simp [liveOf], by simp, by simp⟩
    unfold construct at e
    simp only at e
    split at e
    · obtain rfl := by simpa using e
      exact ⟨[], I0 _⟩
    · next hi =>
      obtain ⟨st', p, l', e', I', -⟩ := fresh_spec (size := 1) (al := 0) (raw := raw) (I0 (ceilMul initial (2 ^ k))) (Or.inl rfl)
        (by omega) (by
          have := hmm hi
          have e9 : add64 1 8 = 9 := rfl
          simpa [mmapLen, freshSize, e9] using this)
      rw [e'] at e
      obtain rfl := by simpa using e
      exact ⟨l', I'⟩
  | alloc _ hal h0 hs hmm e ih =>
    obtain ⟨l, I⟩ := ih
    obtain ⟨st', p, l', e', I', -⟩ := alloc_spec I hal h0 hs hmm
    rw [e] at e'
    obtain ⟨rfl, rfl⟩ := by simpa using e'
    exact ⟨l', I'⟩
  | dealloc _ hp ih =>
    obtain ⟨l, I⟩ := ih
    obtain ⟨l', I', -⟩ := dealloc_spec I hp
    exact ⟨l', I'⟩
  | @write F0 st live mem' _ hw ih =>
    obtain ⟨l, I⟩ := ih
    refine ⟨l, ⟨I.pgpos, I.wf, I.tiled, I.headMark, ?_, I.free, I.live, I.mapped, I.foreign⟩⟩
    intro c hc
    have w := I.wf c hc
    have S := safe_of_inv I
    have hm := I.mem c hc
    rw [memOK_iff] at hm ⊢
    show mem' (wordAddr c) = _
    rw [hw, hm]
    · unfold wordAddr
      have := w.al
      split
      · omega
      · exact ceilMul_dvd _ _
    · intro hf
      cases hu : c.use with
      | none =>
        obtain ⟨d, hd, hdu, hda⟩ := mem_freeOf.1 (I.free ▸ hf)
        have hne : c ≠ d := by
          rintro rfl
          simp [wordAddr, hu] at hda
        have := get_apart (inv_sorted I) hc hd hne
        have h1 := w.big
        have h2 := (I.wf d hd).big
        simp only [wordAddr, hu] at hda
        unfold Chunk.fin at this
        omega
      | some s =>
        have hl : (c.addr, s) ∈ live := I.live.mem_iff.2 (mem_liveOf.2 ⟨c, hc, hu, rfl⟩)
        have := (S.header _ hf _ hl).2
        simp only [wordAddr, hu] at this
        unfold Apart at this
        omega
    · intro x hx
      cases hu : c.use with
      | none =>
        have hf : c.addr ∈ st.free := by rw [I.free]; exact mem_freeOf.2 ⟨c, hc, hu, rfl⟩
        have := (S.header _ hf _ hx).1
        simp only [wordAddr, hu]
        have h0 : 0 < x.2 := by
          obtain ⟨d, hd, hdu, -⟩ := mem_liveOf.1 (I.live.mem_iff.1 hx)
          exact ((I.wf d hd).use _ hdu).1
        unfold Apart at this
        omega
      | some s =>
        have hl : (c.addr, s) ∈ live := I.live.mem_iff.2 (mem_liveOf.2 ⟨c, hc, hu, rfl⟩)
        have := S.sizeWord _ hl _ hx
        simp only [wordAddr, hu]
        have h0 : 0 < x.2 := by
          obtain ⟨d, hd, hdu, -⟩ := mem_liveOf.1 (I.live.mem_iff.1 hx)
          exact ((I.wf d hd).use _ hdu).1
        unfold Apart at this
        simp only at this
        omega
  | @other F0 F1 st live _ hd ih =>
    obtain ⟨l, I⟩ := ih
    have hcov : st.mapped \ F0 = {a | ∃ c ∈ l, c.addr ≤ a ∧ a < c.fin} := by
      ext a
      rw [I.mapped]
      simp only [Set.mem_sdiff, Set.mem_union, Set.mem_ofPred_eq]
      constructor
      · rintro ⟨h | h, h'⟩
        · exact absurd h h'
        · exact h
      · intro h
        exact ⟨Or.inr h, fun hf => by obtain ⟨c, hc, hc'⟩ := h; exact I.foreign a hf c hc hc'⟩
    refine ⟨l, ⟨I.pgpos, I.wf, I.tiled, I.headMark, I.mem, I.free, I.live, ?_, ?_⟩⟩
    · simp only [hcov, Set.union_comm]
    · intro a ha c hc hcc
      rw [hcov] at hd
      exact Set.disjoint_left.1 hd ha ⟨c, hc, hcc⟩

/-! ### C24 -/

/-- In every history the live allocations are disjoint from each other and from the bookkeeping, inside mapped memory. -/
theorem C24_live_allocations_disjoint {F0 st live} (h : Hist F0 st live) : Safe F0 st live := by
  obtain ⟨l, I⟩ := hist_inv h
  exact safe_of_inv I

/-- In every history, an allocation succeeds without a failed assertion, is aligned as requested, is disjoint from all live
allocations (by `C24_live_allocations_disjoint` for the extended history) and leaves their contents unchanged. -/
theorem C24_allocate {F0 st live} (h : Hist F0 st live) {size al raw : Nat} (hal : AlignOK al) (h0 : 0 < size)
    (hs : size + 8 < 2 ^ 64) (hmm : MmapOK st.pg st.mapped raw (mmapLen st size al)) :
    ∃ st' p, allocate st size al raw = some (st', p) ∧ p ≠ 0 ∧ (al ≠ 0 → al ∣ p) ∧
      Hist F0 st' ((p, size) :: live) ∧ Safe F0 st' ((p, size) :: live) ∧
      ∀ x ∈ live, ∀ b, x.1 ≤ b → b < x.1 + x.2 → st'.mem b = st.mem b := by
  obtain ⟨l, I⟩ := hist_inv h
  obtain ⟨st', p, l', e, I', hu, F⟩ := alloc_spec I hal h0 hs hmm
  have S := safe_of_inv I'
  refine ⟨st', p, e, S.nonnull (p, size) (by simp), ?_, .alloc h hal h0 hs hmm e, S, ?_⟩
  · intro hne
    by_contra hd
    exact hu ⟨hne, fun h => hd (Nat.dvd_of_mod_eq_zero h)⟩
  · intro x hx b h1 h2
    obtain ⟨c, hc, hcu, hca⟩ := mem_liveOf.1 (I.live.mem_iff.1 hx)
    have := sizeAddr_eq (I.wf c hc) hcu
    exact F c hc (by simp [hcu]) (I.wf c hc).nz b (by omega) (by unfold Chunk.fin; omega)

/-- A request of 0 bytes returns the null pointer and changes nothing. -/
theorem C24_allocate_zero (st : St) (al raw : Nat) : allocate st 0 al raw = some (st, 0) := rfl

/-- Giving back an allocation leaves the contents of all other live allocations unchanged. -/
theorem C24_deallocate {F0 st live} (h : Hist F0 st live) {p s : Nat} (hp : (p, s) ∈ live) :
    Safe F0 (deallocate st p s) (live.erase (p, s)) ∧
      ∀ x ∈ live.erase (p, s), ∀ b, x.1 ≤ b → b < x.1 + x.2 → (deallocate st p s).mem b = st.mem b := by
  obtain ⟨l, I⟩ := hist_inv h
  obtain ⟨l', I', F, -⟩ := dealloc_spec I hp
  refine ⟨safe_of_inv I', ?_⟩
  intro x hx b h1 h2
  have hx' := List.mem_of_mem_erase hx
  obtain ⟨c, hc, hcu, hca⟩ := mem_liveOf.1 (I.live.mem_iff.1 hx')
  have := sizeAddr_eq (I.wf c hc) hcu
  refine F c hc (by simp [hcu]) ?_ b (by omega) (by unfold Chunk.fin; omega)
  intro hcp
  -- two live allocations at the same address would overlap
  have hperm := List.perm_cons_erase hp
  have S := (safe_of_inv I).disjoint
  have S' := (hperm.pairwise_iff (R := fun x y => Apart x.1 x.2 y.1 y.2) (fun h => h.symm)).1 S
  have := (List.pairwise_cons.1 S').1 x hx
  have hps : 0 < s := by
    obtain ⟨d, hd, hdu, -⟩ := mem_liveOf.1 (I.live.mem_iff.1 hp)
    exact ((I.wf d hd).use _ hdu).1
  have hxs := ((I.wf c hc).use _ hcu).1
  unfold Apart at this
  simp only at this
  omega

/-- The size argument is assumed to leave room for the size word: a request of `2^64 - 4` bytes wraps around and is "satisfied" with a
single page. -/
theorem C24_huge_request_wraps : ∃ F0 st st' p, Hist F0 st [] ∧ MmapOK st.pg st.mapped 65536 4096 ∧
    allocate st (2 ^ 64 - 4) 0 65536 = some (st', p) ∧ p = 65536 ∧ st'.mapped = Set.Ico 65536 (65536 + 4096) := by
  refine ⟨∅, ⟨4096, 4096, false, [], fun _ => ⟨0, false⟩, ∅⟩,
    ⟨4096, 4096, false, [], setW (setW (fun _ => ⟨0, false⟩) (65536 + 8) ⟨4096, true⟩) 65536 ⟨4096, true⟩, Set.Ico 65536 (65536 + 4096)⟩,
    65536, ?_, ?_, ?_, rfl, rfl⟩
  · exact Hist.init (k := 12) (expo := false) (mem := fun _ => ⟨0, false⟩) (initial := 0) (raw := 0) (by omega) (by simp) (by simp [construct, ceilMul])
  · simp [MmapOK]
  · have e1 : add64 18446744073709551612 8 = 4 := rfl
    have e2 : sizeAddr 65536 18446744073709551612 = 65536 := rfl
    have e3 : mul64 18446744073709551612 2 = 18446744073709551608 := rfl
    have e4 : add64 (add64 16 18446744073709551612) 8 = 20 := rfl
    simp [allocate, findFit, addFresh, freshSize, alignedMmap, unaligned, insertSorted, take, e1, e3, e4, ceilMul, setW]
    simp [setW, e2]

/-! ### C25 -/

theorem mem_destroy {fs : List Nat} {mem : Nat → Word} {pg : Nat} {m : Set Nat} {a : Nat} :
    a ∈ fs.foldl (fun m h => if (mem (h + 8)).marked then m \ Set.Ico h (ceilMul (h + (mem (h + 8)).size) pg) else m) m ↔
      a ∈ m ∧ ∀ h ∈ fs, (mem (h + 8)).marked = true → ¬ (h ≤ a ∧ a < ceilMul (h + (mem (h + 8)).size) pg) := by
  induction fs generalizing m with
  | nil => simp
  | cons x xs ih =>
    rw [List.foldl_cons, ih]
    by_cases hx : (mem (x + 8)).marked = true
    · simp [hx, Set.mem_sdiff, and_assoc]
    · simp [hx]

theorem rounded_covered {pg} (hpg : 0 < pg) {c : Chunk} {t : List Chunk} (wf : ∀ d ∈ c :: t, Wf pg d) (T : Tiled pg (c :: t) none) {a : Nat}
    (h1 : c.addr ≤ a) (h2 : a < ceilMul c.fin pg) : Covers (c :: t) a := by
  induction t generalizing c with
  | nil =>
    have : pg ∣ c.fin := T.1
    rw [ceilMul_self hpg this] at h2
    exact ⟨c, by simp, h1, h2⟩
  | cons d t ih =>
    have L : Link pg c (some d) := by simpa using T.1
    by_cases hf : a < c.fin
    · exact ⟨c, by simp, h1, hf⟩
    · cases hdm : d.mark with
      | true => rw [ceilMul_self hpg (L.2.2.1 hdm)] at h2; exact absurd h2 hf
      | false =>
        have e := L.2.1 hdm
        have hd := wf_pos (wf d (by simp))
        have : ceilMul c.fin pg ≤ ceilMul d.fin pg :=
          ceilMul_le_of_dvd hpg (ceilMul_dvd _ _) (le_trans (by omega) (le_ceilMul hpg))
        obtain ⟨e, he, he'⟩ := ih (c := d) (fun x hx => wf x (by simp [hx])) T.2 (by omega) (by omega)
        exact ⟨e, by simp [he], he'⟩

theorem destroy_foreign {F0 st live} (h : Hist F0 st live) {a} (ha : a ∈ F0) : a ∈ destroy st := by
  obtain ⟨l, I⟩ := hist_inv h
  obtain ⟨k, hk, -⟩ := I.pgpos
  have hpg : 0 < st.pg := by rw [hk]; exact Nat.pow_pos (by omega)
  unfold destroy
  rw [mem_destroy]
  refine ⟨by rw [I.mapped]; exact Or.inl ha, ?_⟩
  rintro f hf hm ⟨h1, h2⟩
  obtain ⟨c, hc, hu, rfl⟩ := mem_freeOf.1 (I.free ▸ hf)
  have hmem := I.mem c hc
  simp only [MemOK, hu] at hmem
  rw [hmem] at h2
  obtain ⟨xs, ys, rfl⟩ := List.append_of_mem hc
  obtain ⟨e, he, he'⟩ := rounded_covered hpg (fun d hd => I.wf d (by simp at hd ⊢; tauto)) (tiled_append.1 I.tiled).2 h1 h2
  exact I.foreign a ha e (by simp at he ⊢; tauto) he'

/-- When everything has been given back, destroying the allocator unmaps exactly the memory it mapped: what remains mapped is what
others mapped. -/
theorem C25_no_leak {F0 st} (h : Hist F0 st []) : destroy st = F0 := by
  ext a
  refine ⟨fun hd => ?_, fun ha => destroy_foreign h ha⟩
  obtain ⟨l, I⟩ := hist_inv h
  obtain ⟨k, hk, -⟩ := I.pgpos
  have hpg : 0 < st.pg := by rw [hk]; exact Nat.pow_pos (by omega)
  unfold destroy at hd
  rw [mem_destroy] at hd
  obtain ⟨hm, hd⟩ := hd
  rw [I.mapped] at hm
  rcases hm with hm | ⟨c, hc, h1, h2⟩
  · exact hm
  exfalso
  have hnone : ∀ c ∈ l, c.use = none := by
    intro c hc
    cases hu : c.use with
    | none => rfl
    | some s =>
      have := mem_liveOf.2 ⟨c, hc, hu, rfl⟩
      rw [← I.live.mem_iff] at this
      simp at this
  have hmark : c.mark = true := by
    obtain ⟨xs, ys, rfl⟩ := List.append_of_mem hc
    rcases List.eq_nil_or_concat xs with rfl | ⟨xs', q, rfl⟩
    · exact I.headMark c (by simp)
    · rw [List.concat_eq_append] at *
      have T := (tiled_append.1 I.tiled).1
      have L : Link st.pg q (some c) := by simpa using tiled_last T (x := q) (by simp)
      exact L.2.2.2 (hnone q (by simp)) (hnone c (by simp))
  have hu := hnone c hc
  have hmem := I.mem c hc
  simp only [MemOK, hu] at hmem
  refine hd c.addr (by rw [I.free]; exact mem_freeOf.2 ⟨c, hc, hu, rfl⟩) (by rw [hmem]; exact hmark) ⟨h1, ?_⟩
  rw [hmem]
  exact lt_of_lt_of_le h2 (le_ceilMul hpg)

/-- Even with allocations outstanding, destroying the allocator never unmaps memory that others mapped. -/
theorem C25_only_own_memory {F0 st live} (h : Hist F0 st live) : F0 ⊆ destroy st := fun _ ha => destroy_foreign h ha

/-- When everything has been given back, the free list has been coalesced to one chunk per mapping: every free chunk starts a
mapping and ends at a page boundary. -/
theorem C25_fully_coalesced {F0 st} (h : Hist F0 st []) : ∀ f ∈ st.free, (st.mem (f + 8)).marked = true ∧
    st.pg ∣ f ∧ st.pg ∣ f + (st.mem (f + 8)).size := by
  obtain ⟨l, I⟩ := hist_inv h
  have hnone : ∀ c ∈ l, c.use = none := by
    intro c hc
    cases hu : c.use with
    | none => rfl
    | some s =>
      have := mem_liveOf.2 ⟨c, hc, hu, rfl⟩
      rw [← I.live.mem_iff] at this
      simp at this
  have hmark : ∀ c ∈ l, c.mark = true := by
    intro c hc
    obtain ⟨xs, ys, rfl⟩ := List.append_of_mem hc
    rcases List.eq_nil_or_concat xs with rfl | ⟨xs', q, rfl⟩
    · exact I.headMark c (by simp)
    · rw [List.concat_eq_append] at *
      have T := (tiled_append.1 I.tiled).1
      have L : Link st.pg q (some c) := by simpa using tiled_last T (x := q) (by simp)
      exact L.2.2.2 (hnone q (by simp)) (hnone c (by simp))
  intro f hf
  obtain ⟨c, hc, hu, rfl⟩ := mem_freeOf.1 (I.free ▸ hf)
  have hmem := I.mem c hc
  simp only [MemOK, hu] at hmem
  rw [hmem]
  refine ⟨hmark c hc, (I.wf c hc).mrk (hmark c hc), ?_⟩
  obtain ⟨xs, ys, rfl⟩ := List.append_of_mem hc
  have L := (tiled_append.1 I.tiled).2.1
  rw [Option.or_none] at L
  cases hy : ys.head? with
  | none => rw [hy] at L; exact L
  | some d =>
    rw [hy] at L
    exact L.2.2.1 (hmark d (by simp [List.mem_of_head? hy]))

/-! ### Witness: a history with a split, an over-aligned allocation and deallocations. -/

example : ∃ st p q, Hist ∅ st [(q, 100), (p, 24)] ∧ ∃ st', Hist ∅ st' [] ∧ st'.mapped.Nonempty := by
  have h0 : Hist ∅ ⟨4096, 4096, false, [], fun _ => ⟨0, false⟩, ∅⟩ [] :=
    Hist.init (k := 12) (expo := false) (mem := fun _ => ⟨0, false⟩) (initial := 0) (raw := 0) (by omega) (by simp) (by simp [construct, ceilMul])
  obtain ⟨st1, p, e1, -, -, h1, S1, -⟩ := C24_allocate h0 (size := 24) (al := 0) (raw := 4096) (Or.inl rfl) (by omega) (by omega)
    (by simp [MmapOK, mmapLen, freshSize, add64, ceilMul])
  have hx : ∃ raw, MmapOK st1.pg st1.mapped raw (mmapLen st1 100 8192) := by
    have e1' := e1
    simp [allocate, findFit, addFresh, freshSize, alignedMmap, unaligned, insertSorted, take, split, add64, mul64, ceilMul, setW] at e1'
    obtain ⟨rfl, rfl⟩ := e1'
    refine ⟨2 ^ 20, by norm_num, by norm_num, ?_, ?_⟩
    · simp [mmapLen, freshSize, add64, ceilMul]
    · intro a ha
      simp only [Set.mem_Ico] at ha
      omega
  obtain ⟨raw, hraw⟩ := hx
  obtain ⟨st2, q, e2, -, -, h2, S2, -⟩ := C24_allocate h1 (size := 100) (al := 8192) (Or.inr ⟨13, rfl⟩) (by omega) (by omega) hraw
  refine ⟨st2, p, q, h2, ?_⟩
  have h3 := Hist.dealloc h2 (p := q) (s := 100) (by simp)
  have h4 := Hist.dealloc h3 (p := p) (s := 24) (by simp)
  simp at h4
  refine ⟨_, h4, p, ?_⟩
  obtain ⟨l, I⟩ := hist_inv h2
  obtain ⟨l3, I3, -, m3, -⟩ := dealloc_spec I (p := q) (s := 100) (by simp)
  obtain ⟨l4, I4, -, m4, -⟩ := dealloc_spec I3 (p := p) (s := 24) (by simp)
  rw [m4, m3]
  exact (S2.mapped (p, 24) (by simp) p le_rfl (by simp)).1

end Mutable.ListAlloc
