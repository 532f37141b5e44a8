import Verif.Layout.Lemmas

namespace Mutable.Layout

/-! ### Alignment -/

/-- A type whose alignment is a power of two dividing its size (true of every type, see `Ty.Valid.wf`). -/
def WF (t : Ty) : Prop := (∃ k, t.align = 2 ^ k) ∧ t.align ∣ t.size

/-- The parameters with which the type factories create types: integers of 1, 2, 4 or 8 bytes (Parser.cpp:1125-1143,
Sema), floats of 32 or 64 bits; everything else is unrestricted. -/
def Ty.Valid : Ty → Prop
  | .int p => p = 1 ∨ p = 2 ∨ p = 4 ∨ p = 8
  | .float p => p = 32 ∨ p = 64
  | _ => True

theorem Ty.Valid.wf {t : Ty} (h : t.Valid) : WF t := by
  cases t with
  | none => exact ⟨⟨0, rfl⟩, by decide⟩
  | bool => exact ⟨⟨0, rfl⟩, by decide⟩
  | bitmap n => exact ⟨⟨0, rfl⟩, Nat.one_dvd n⟩
  | char n v =>
    refine ⟨⟨3, rfl⟩, ?_⟩
    cases v
    · exact Nat.dvd_mul_right 8 n
    · exact Nat.dvd_mul_right 8 (n + 1)
  | date => exact ⟨⟨5, rfl⟩, by decide⟩
  | datetime => exact ⟨⟨6, rfl⟩, by decide⟩
  | int p =>
    refine ⟨?_, Nat.dvd_refl _⟩
    rcases h with rfl | rfl | rfl | rfl
    · exact ⟨3, rfl⟩
    · exact ⟨4, rfl⟩
    · exact ⟨5, rfl⟩
    · exact ⟨6, rfl⟩
  | float p =>
    refine ⟨?_, Nat.dvd_refl _⟩
    rcases h with rfl | rfl
    · exact ⟨5, rfl⟩
    · exact ⟨6, rfl⟩
  | decimal p => exact ⟨⟨_, rfl⟩, Nat.dvd_refl _⟩

theorem wf_getD {ts : List Ty} (h : ∀ t ∈ ts, t.Valid) {i : Nat} (hi : i < ts.length) : WF (ts.getD i .none) := by
  have : ts.getD i .none = ts[i] := by simp [List.getD_eq_getElem?_getD, hi]
  rw [this]; exact (h _ (List.getElem_mem hi)).wf

theorem al_dvd_sz {ts : List Ty} (h : ∀ t ∈ ts, t.Valid) {i : Nat} (hi : i < ts.length) :
    al ts i ∣ sz ts i := (wf_getD h hi).2

theorem al_pow {ts : List Ty} (h : ∀ t ∈ ts, t.Valid) {i : Nat} (hi : i < ts.length) :
    ∃ k, al ts i = 2 ^ k := (wf_getD h hi).1

theorem pow_dvd_of_le {a b : Nat} (ha : ∃ k, a = 2 ^ k) (hb : ∃ k, b = 2 ^ k) (h : a ≤ b) : a ∣ b := by
  obtain ⟨k, rfl⟩ := ha
  obtain ⟨l, rfl⟩ := hb
  exact Nat.pow_dvd_pow 2 ((Nat.pow_le_pow_iff_right (by omega)).1 h)

/-- Offsets in a row are aligned. -/
theorem row_aligned {o : Opts} {ts : List Ty} (hre : o.reorder = true) (h : ∀ t ∈ ts, t.Valid) {i : Nat}
    (hi : i < ts.length) : al ts i ∣ before (sz ts) (order o ts) i := by
  refine before_dvd _ _ _ (order_sorted hre ts) (mem_order.2 hi) (fun j hj hle => ?_)
  have hj := mem_order.1 hj
  exact (pow_dvd_of_le (al_pow h hi) (al_pow h hj) hle).trans (al_dvd_sz h hj)

/-- Column offsets are aligned. -/
theorem col_aligned {o : Opts} {ts : List Ty} (hre : o.reorder = true) (h : ∀ t ∈ ts, t.Valid) (rows : Nat)
    {i : Nat} (hi : i < ts.length) : al ts i ∣ before (colW ts rows) (order o ts) i := by
  refine before_dvd _ _ _ (order_sorted hre ts) (mem_order.2 hi) (fun j hj hle => ?_)
  have hj := mem_order.1 hj
  have e8 : ∃ k, 8 = 2 ^ k := ⟨3, rfl⟩
  by_cases h8 : al ts i ≤ 8
  · exact (pow_dvd_of_le (al_pow h hi) e8 h8).trans (padTo_dvd (by omega) _)
  · have d8 : 8 ∣ sz ts j := (pow_dvd_of_le e8 (al_pow h hj) (by omega)).trans (al_dvd_sz h hj)
    have : colW ts rows j = sz ts j * rows := padTo_of_dvd (Dvd.dvd.mul_right d8 _)
    rw [this]
    exact Dvd.dvd.mul_right ((pow_dvd_of_le (al_pow h hi) (al_pow h hj) hle).trans (al_dvd_sz h hj)) _

theorem col_byte_aligned (ts : List Ty) (rows : Nat) (ord : List Nat) (i : Nat) :
    8 ∣ before (colW ts rows) ord i := by
  induction ord with
  | nil => simp [before]
  | cons j js ih =>
    simp only [before]; split
    · simp
    · exact Nat.dvd_add (padTo_dvd (by omega) _) ih

theorem maxAlign_ge (ts : List Ty) : ∀ (ord : List Nat) (m : Nat), m ≤ maxAlign ts ord m
  | [], m => Nat.le_refl m
  | i :: is, m => Nat.le_trans (Nat.le_max_left m (al ts i)) (maxAlign_ge ts is _)

theorem maxAlign_mem (ts : List Ty) {i : Nat} : ∀ (ord : List Nat) (m : Nat), i ∈ ord → al ts i ≤ maxAlign ts ord m
  | [], _, h => by simp at h
  | j :: js, m, h => by
    simp only [maxAlign]
    by_cases e : i = j
    · subst e; exact Nat.le_trans (Nat.le_max_right _ _) (maxAlign_ge ts js _)
    · exact maxAlign_mem ts js _ (by simpa [e] using h)

theorem maxAlign_pow {ts : List Ty} (h : ∀ t ∈ ts, t.Valid) : ∀ (ord : List Nat) (m : Nat),
    (∀ i ∈ ord, i < ts.length) → (∃ k, m = 2 ^ k) → ∃ k, maxAlign ts ord m = 2 ^ k
  | [], m, _, hm => hm
  | i :: is, m, hi, hm => by
    simp only [maxAlign]
    refine maxAlign_pow h is _ (fun j hj => hi j (by simp [hj])) ?_
    rcases Nat.le_total m (al ts i) with hle | hle
    · rw [Nat.max_eq_right hle]; exact al_pow h (hi i (by simp))
    · rw [Nat.max_eq_left hle]; exact hm

theorem al_dvd_max {o : Opts} {ts : List Ty} (h : ∀ t ∈ ts, t.Valid) {i : Nat} (hi : i < ts.length) :
    al ts i ∣ maxAlign ts (order o ts) 8 :=
  pow_dvd_of_le (al_pow h hi) (maxAlign_pow h _ _ (fun _ hj => mem_order.1 hj) ⟨3, rfl⟩)
    (maxAlign_mem ts _ _ (mem_order.2 hi))

theorem eight_dvd_max {o : Opts} {ts : List Ty} (h : ∀ t ∈ ts, t.Valid) : 8 ∣ maxAlign ts (order o ts) 8 :=
  pow_dvd_of_le ⟨3, rfl⟩ (maxAlign_pow h _ _ (fun _ hj => mem_order.1 hj) ⟨3, rfl⟩) (maxAlign_ge ts _ _)

theorem maxAlign_pos (ts : List Ty) (ord : List Nat) : 0 < maxAlign ts ord 8 := by
  have := maxAlign_ge ts ord 8; omega

/-! ### The scan -/

theorem scan_start (L : Layout) (f : Leaf) (r : Nat) (hb : 8 ∣ L.blockStride) :
    (Scan.start L f r).byte * 8 + (Scan.start L f r).bit = L.addr r f ∧ (Scan.start L f r).bit < 8 ∧
      (Scan.start L f r).ctr = r % L.rows := by
  unfold Scan.start Layout.addr
  simp only
  obtain ⟨c, hc⟩ := hb
  rw [hc]
  generalize f.off + r % L.rows * f.stride = x
  have : r / L.rows * (8 * c) / 8 = r / L.rows * c := by
    rw [show r / L.rows * (8 * c) = 8 * (r / L.rows * c) by ring, Nat.mul_div_cancel_left _ (by omega)]
  rw [this]
  have e : r / L.rows * (8 * c) = 8 * (r / L.rows * c) := by ring
  rw [e]
  refine ⟨by omega, by omega, ?_⟩; trivial

theorem succ_mod_div (r n : Nat) (h : 0 < n) :
    (r % n + 1 = n → (r + 1) % n = 0 ∧ (r + 1) / n = r / n + 1) ∧
    (r % n + 1 ≠ n → (r + 1) % n = r % n + 1 ∧ (r + 1) / n = r / n) := by
  have e := Nat.div_add_mod r n
  have l := Nat.mod_lt r h
  constructor
  · intro h1
    have : r + 1 = n * (r / n + 1) := by rw [Nat.mul_add]; omega
    rw [this]
    exact ⟨Nat.mul_mod_right _ _, Nat.mul_div_cancel_left _ h⟩
  · intro h1
    have : r + 1 = n * (r / n) + (r % n + 1) := by omega
    rw [this, Nat.mul_add_mod, Nat.mod_eq_of_lt (by omega), Nat.mul_add_div h,
      Nat.div_eq_of_lt (show r % n + 1 < n by omega)]
    simp

theorem scan_next {L : Layout} {f : Leaf} (hr : 0 < L.rows) (hb : 8 ∣ L.blockStride)
    (hs : f.stride = 1 ∧ 8 ∣ f.off ∨ 8 ∣ f.stride) (hle : L.rows * f.stride ≤ L.blockStride)
    {r : Nat} {s : Scan} (h1 : s.byte * 8 + s.bit = L.addr r f) (h2 : s.bit < 8) (h3 : s.ctr = r % L.rows) :
    (s.next L f).byte * 8 + (s.next L f).bit = L.addr (r + 1) f ∧ (s.next L f).bit < 8 ∧
      (s.next L f).ctr = (r + 1) % L.rows := by
  have hadv : (s.advance f).byte * 8 + (s.advance f).bit = L.addr r f + f.stride ∧ (s.advance f).bit < 8 ∧
      (s.advance f).ctr = s.ctr := by
    unfold Scan.advance
    rcases hs with ⟨hs, _⟩ | hs
    · rw [hs, if_pos (by decide)]
      split
      · refine ⟨?_, ?_, rfl⟩ <;> simp only <;> omega
      · refine ⟨?_, ?_, rfl⟩ <;> simp only <;> omega
    · rw [if_neg (by omega)]
      refine ⟨?_, h2, rfl⟩
      simp only; omega
  obtain ⟨a1, a2, a3⟩ := hadv
  unfold Scan.next
  generalize s.advance f = t at *
  obtain ⟨m1, m2⟩ := succ_mod_div r L.rows hr
  unfold Scan.gap
  simp only [a3, h3]
  by_cases hc : r % L.rows + 1 = L.rows
  · obtain ⟨e1, e2⟩ := m1 hc
    rw [if_pos hc]
    have hA : L.addr (r + 1) f = r / L.rows * L.blockStride + L.blockStride + f.off := by
      unfold Layout.addr; rw [e1, e2, Nat.add_mul]; omega
    have hB : L.addr r f + f.stride = r / L.rows * L.blockStride + f.off + L.rows * f.stride := by
      unfold Layout.addr
      have : (r % L.rows + 1) * f.stride = L.rows * f.stride := by rw [hc]
      rw [Nat.add_mul] at this; omega
    rw [hB] at a1
    rw [hA, e1]
    have hd : 8 ∣ r / L.rows * L.blockStride := Dvd.dvd.mul_left hb _
    by_cases hm : (L.blockStride - L.rows * f.stride) % 8 ≠ 0
    · rw [if_pos hm]
      rcases hs with ⟨hs, ho⟩ | hs
      · simp only [hs, Nat.mul_one] at a1 hle hm ⊢
        refine ⟨?_, by omega, trivial⟩
        omega
      · exfalso
        have : 8 ∣ L.rows * f.stride := Dvd.dvd.mul_left hs _
        omega
    · rw [if_neg hm]
      simp only
      refine ⟨?_, a2, trivial⟩
      omega
  · obtain ⟨e1, e2⟩ := m2 hc
    rw [if_neg hc]
    simp only
    refine ⟨?_, a2, e1.symm⟩
    rw [a1]
    unfold Layout.addr
    rw [e1, e2, Nat.add_mul]; omega

theorem scan_iter {L : Layout} {f : Leaf} (hr : 0 < L.rows) (hb : 8 ∣ L.blockStride)
    (hs : f.stride = 1 ∧ 8 ∣ f.off ∨ 8 ∣ f.stride) (hle : L.rows * f.stride ≤ L.blockStride) (r k : Nat) :
    ((Scan.start L f r).iter L f k).byte * 8 + ((Scan.start L f r).iter L f k).bit = L.addr (r + k) f ∧
      ((Scan.start L f r).iter L f k).bit < 8 ∧
      ((Scan.start L f r).iter L f k).ctr = (r + k) % L.rows := by
  induction k with
  | zero => exact scan_start L f r hb
  | succ k ih =>
    obtain ⟨i1, i2, i3⟩ := ih
    exact scan_next hr hb hs hle i1 i2 i3

theorem nscan_iter {L : Layout} {f : Leaf} (hr : 0 < L.rows) (hb : 8 ∣ L.blockStride)
    (hs : 8 ∣ f.stride) (ho : 8 ∣ f.off) (hle : L.rows * f.stride ≤ L.blockStride) (r k : Nat) :
    ((NScan.start L f r).iter L f k).byte * 8 + ((NScan.start L f r).iter L f k).adj = L.addr (r + k) f ∧
      8 ∣ ((NScan.start L f r).iter L f k).adj ∧
      ((NScan.start L f r).iter L f k).ctr = (r + k) % L.rows := by
  induction k with
  | zero =>
    obtain ⟨h1, h2, h3⟩ := scan_start L f r hb
    refine ⟨h1, ?_, h3⟩
    show 8 ∣ (f.off + r % L.rows * f.stride) % 8
    have : 8 ∣ f.off + r % L.rows * f.stride := Nat.dvd_add ho (Dvd.dvd.mul_left hs _)
    omega
  | succ k ih =>
    obtain ⟨i1, i2, i3⟩ := ih
    simp only [NScan.iter]
    generalize (NScan.start L f r).iter L f k = s at *
    rw [show r + (k + 1) = r + k + 1 by omega]
    generalize r + k = q at *
    obtain ⟨m1, m2⟩ := succ_mod_div q L.rows hr
    unfold NScan.next
    simp only [i3]
    by_cases hc : q % L.rows + 1 = L.rows
    · obtain ⟨e1, e2⟩ := m1 hc
      rw [if_pos hc]
      have hA : L.addr (q + 1) f = q / L.rows * L.blockStride + L.blockStride + f.off := by
        unfold Layout.addr; rw [e1, e2, Nat.add_mul]; omega
      have hB : L.addr q f + f.stride = q / L.rows * L.blockStride + f.off + L.rows * f.stride := by
        unfold Layout.addr
        have : (q % L.rows + 1) * f.stride = L.rows * f.stride := by rw [hc]
        rw [Nat.add_mul] at this; omega
      have hd : 8 ∣ L.rows * f.stride := Dvd.dvd.mul_left hs _
      rw [if_neg (by omega)]
      refine ⟨?_, Nat.dvd_zero 8, e1.symm⟩
      simp only; omega
    · obtain ⟨e1, e2⟩ := m2 hc
      rw [if_neg hc]
      refine ⟨?_, Nat.dvd_add i2 hs, e1.symm⟩
      simp only
      have : L.addr (q + 1) f = L.addr q f + f.stride := by
        unfold Layout.addr; rw [e1, e2, Nat.add_mul]; omega
      omega

/-! ### Memory -/

/-- Memory as a sequence of bits. -/
abbrev Mem := Nat → Bool

/-- Read `n` bits at address `a`. -/
def Mem.read (m : Mem) (a n : Nat) : List Bool := (List.range n).map (fun i => m (a + i))

/-- Write the bits `v` at address `a`. -/
def Mem.write (m : Mem) (a : Nat) (v : List Bool) : Mem :=
  fun x => if a ≤ x ∧ x < a + v.length then v.getD (x - a) false else m x

theorem Mem.read_write_same (m : Mem) (a : Nat) (v : List Bool) : (m.write a v).read a v.length = v := by
  unfold Mem.read Mem.write
  apply List.ext_getElem
  · simp
  · intro i h1 h2
    simp only [List.getElem_map, List.getElem_range]
    rw [if_pos (by omega), Nat.add_sub_cancel_left, List.getD_eq_getElem?_getD]
    simp [h2]

theorem Mem.read_write_other (m : Mem) {a b n : Nat} {v : List Bool} (h : a + v.length ≤ b ∨ b + n ≤ a) :
    (m.write a v).read b n = m.read b n := by
  unfold Mem.read Mem.write
  apply List.map_congr_left
  intro i hi
  rw [List.mem_range] at hi
  rw [if_neg (by omega)]

end Mutable.Layout
