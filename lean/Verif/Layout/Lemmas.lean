import Verif.Layout.Model
import Mathlib.Tactic.Ring
import Mathlib.Tactic.Linarith
import Mathlib.Data.Nat.Basic
import Mathlib.Data.List.Nodup
import Mathlib.Data.List.Range
import Mathlib.Algebra.BigOperators.Group.List.Basic

namespace Mutable.Layout

/-! ### Prefix sums -/

/-- Sum of the widths of the elements in front of `i`. -/
def before (w : Nat → Nat) : List Nat → Nat → Nat
  | [], _ => 0
  | j :: js, i => if j = i then 0 else w j + before w js i

def total (w : Nat → Nat) : List Nat → Nat
  | [] => 0
  | j :: js => w j + total w js

theorem before_le_total (w : Nat → Nat) {ord : List Nat} {i : Nat} (hi : i ∈ ord) :
    before w ord i + w i ≤ total w ord := by
  induction ord with
  | nil => simp at hi
  | cons j js ih =>
    simp only [before, total]
    by_cases h : j = i
    · subst h; simp
    · have := ih (by simpa [Ne.symm h] using hi)
      simp only [if_neg h]; omega

theorem before_disjoint (w : Nat → Nat) {ord : List Nat} {i j : Nat} (hi : i ∈ ord)
    (hj : j ∈ ord) (hij : i ≠ j) :
    before w ord i + w i ≤ before w ord j ∨ before w ord j + w j ≤ before w ord i := by
  induction ord with
  | nil => simp at hi
  | cons k ks ih =>
    simp only [before]
    by_cases h1 : k = i
    · subst h1
      have h2 : k ≠ j := hij
      simp [h2]
    · by_cases h2 : k = j
      · subst h2
        simp [h1]
      · have := ih (by simpa [Ne.symm h1] using hi) (by simpa [Ne.symm h2] using hj)
        simp only [if_neg h1, if_neg h2]; omega

theorem before_dvd (w : Nat → Nat) (d : Nat) {ord : List Nat} {i : Nat} 
    (R : Nat → Nat → Prop) (hR : ord.Pairwise R) (hi : i ∈ ord) (h : ∀ j ∈ ord, R j i → d ∣ w j) :
    d ∣ before w ord i := by
  induction ord with
  | nil => simp [before]
  | cons j js ih =>
    simp only [before]
    rw [List.pairwise_cons] at hR
    by_cases h1 : j = i
    · simp [h1]
    · have hi' : i ∈ js := by simpa [Ne.symm h1] using hi
      simp only [if_neg h1]
      exact Nat.dvd_add (h j (by simp) (hR.1 i hi')) (ih hR.2 hi' (fun k hk => h k (by simp [hk])))

theorem total_dvd (w : Nat → Nat) (d : Nat) {ord : List Nat} (h : ∀ j ∈ ord, d ∣ w j) :
    d ∣ total w ord := by
  induction ord with
  | nil => simp [total]
  | cons j js ih =>
    exact Nat.dvd_add (h j (by simp)) (ih (fun k hk => h k (by simp [hk])))

theorem total_le (w v : Nat → Nat) {ord : List Nat} (h : ∀ j ∈ ord, w j ≤ v j) :
    total w ord ≤ total v ord := by
  induction ord with
  | nil => simp [total]
  | cons j js ih =>
    exact Nat.add_le_add (h j (by simp)) (ih (fun k hk => h k (by simp [hk])))

theorem total_perm (w : Nat → Nat) {l m : List Nat} (h : l.Perm m) : total w l = total w m := by
  induction h with
  | nil => rfl
  | cons x _ ih => simp [total, ih]
  | swap x y l => simp only [total]; omega
  | trans _ _ ih1 ih2 => exact ih1.trans ih2

theorem before_congr {w v : Nat → Nat} {ord : List Nat} (h : ∀ j ∈ ord, w j = v j) (i : Nat) :
    before w ord i = before v ord i := by
  induction ord with
  | nil => rfl
  | cons j js ih => simp only [before]; rw [h j (by simp), ih (fun k hk => h k (by simp [hk]))]

/-! ### The order -/

theorem order_perm (o : Opts) (ts : List Ty) : (order o ts).Perm (List.range ts.length) := by
  unfold order; split
  · exact List.mergeSort_perm _ _
  · exact List.Perm.refl _

theorem order_nodup (o : Opts) (ts : List Ty) : (order o ts).Nodup :=
  (order_perm o ts).nodup_iff.2 List.nodup_range

theorem mem_order {o : Opts} {ts : List Ty} {i : Nat} : i ∈ order o ts ↔ i < ts.length := by
  rw [(order_perm o ts).mem_iff, List.mem_range]

theorem order_sorted {o : Opts} (h : o.reorder = true) (ts : List Ty) :
    (order o ts).Pairwise (fun l r => al ts r ≤ al ts l) := by
  unfold order; rw [if_pos h]
  have := List.pairwise_mergeSort (le := fun l r => decide (al ts r ≤ al ts l))
    (by intro a b c; simp only [decide_eq_true_eq]; omega)
    (by intro a b; simp only [Bool.or_eq_true, decide_eq_true_eq]; omega) (List.range ts.length)
  exact this.imp (by intro a b h; simpa using h)

/-! ### The two loops -/

theorem place_fst (ts : List Ty) (ord : List Nat) (off : Nat) (a : Nat → Nat) :
    (place ts ord off a).1 = off + total (sz ts) ord := by
  induction ord generalizing off a with
  | nil => simp [place, total]
  | cons i is ih => simp only [place, total, ih]; omega

theorem place_notMem (ts : List Ty) {ord : List Nat} (off : Nat) (a : Nat → Nat) {i : Nat} (hi : i ∉ ord) :
    (place ts ord off a).2 i = a i := by
  induction ord generalizing off a with
  | nil => simp [place]
  | cons j js ih =>
    simp only [List.mem_cons, not_or] at hi
    simp only [place, ih _ _ hi.2, upd, if_neg hi.1]

theorem place_snd (ts : List Ty) {ord : List Nat} (off : Nat) (a : Nat → Nat) (hn : ord.Nodup) {i : Nat}
    (hi : i ∈ ord) : (place ts ord off a).2 i = off + before (sz ts) ord i := by
  induction ord generalizing off a with
  | nil => simp at hi
  | cons j js ih =>
    rw [List.nodup_cons] at hn
    simp only [place, before]
    by_cases h : j = i
    · subst h; rw [place_notMem _ _ _ hn.1]; simp [upd]
    · rw [ih _ _ hn.2 (by simpa [Ne.symm h] using hi)]; simp only [if_neg h]; omega

theorem padTo_dvd {a : Nat} (h : 0 < a) (x : Nat) : a ∣ padTo a x := by
  unfold padTo; split
  · have := Nat.mod_lt x h
    have e := Nat.div_add_mod x a
    refine ⟨x / a + 1, ?_⟩
    rw [Nat.mul_add]; omega
  · rename_i h'; exact Nat.dvd_of_mod_eq_zero (by omega)

theorem le_padTo (a x : Nat) : x ≤ padTo a x := by unfold padTo; split <;> omega

theorem padTo_lt {a : Nat} (h : 0 < a) (x : Nat) : padTo a x < x + a := by
  unfold padTo; have := Nat.mod_lt x h; split <;> omega

theorem padTo_of_dvd {a x : Nat} (h : a ∣ x) : padTo a x = x := by
  unfold padTo; rw [if_neg]; simp [Nat.mod_eq_zero_of_dvd h]

/-- Width of the column of attribute `i`. -/
def colW (ts : List Ty) (rows i : Nat) : Nat := padTo 8 (sz ts i * rows)

def padW (ts : List Ty) (rows i : Nat) : Nat := colW ts rows i - sz ts i * rows

theorem padW_eq (ts : List Ty) (rows i pad : Nat) :
    (if (sz ts i * rows) % 8 ≠ 0 then pad + (8 - (sz ts i * rows) % 8) else pad) = pad + padW ts rows i := by
  unfold padW colW padTo; split <;> omega

theorem spread_fst (ts : List Ty) (rows : Nat) (ord : List Nat) (pad : Nat) (a : Nat → Nat) :
    (spread ts rows ord pad a).1 = pad + total (padW ts rows) ord := by
  induction ord generalizing pad a with
  | nil => simp [spread, total]
  | cons i is ih => simp only [spread, total, padW_eq, ih]; omega

theorem spread_notMem (ts : List Ty) (rows : Nat) {ord : List Nat} (pad : Nat) (a : Nat → Nat) {i : Nat}
    (hi : i ∉ ord) : (spread ts rows ord pad a).2 i = a i := by
  induction ord generalizing pad a with
  | nil => simp [spread]
  | cons j js ih =>
    simp only [List.mem_cons, not_or] at hi
    simp only [spread, ih _ _ hi.2, upd, if_neg hi.1]

theorem spread_snd (ts : List Ty) (rows : Nat) {ord : List Nat} (pad : Nat) (a : Nat → Nat) (hn : ord.Nodup)
    {i : Nat} (hi : i ∈ ord) :
    (spread ts rows ord pad a).2 i = a i * rows + pad + before (padW ts rows) ord i := by
  induction ord generalizing pad a with
  | nil => simp at hi
  | cons j js ih =>
    rw [List.nodup_cons] at hn
    simp only [spread, before, padW_eq]
    by_cases h : j = i
    · subst h; rw [spread_notMem _ _ _ _ hn.1]; simp [upd]
    · rw [ih _ _ hn.2 (by simpa [Ne.symm h] using hi)]
      simp only [if_neg h, upd, if_neg (Ne.symm h)]; omega

theorem before_combine (ts : List Ty) (rows : Nat) (ord : List Nat) (i : Nat) :
    before (sz ts) ord i * rows + before (padW ts rows) ord i = before (colW ts rows) ord i := by
  induction ord with
  | nil => simp [before]
  | cons j js ih =>
    simp only [before]; split
    · simp
    · have := le_padTo 8 (sz ts j * rows)
      have e : padW ts rows j + sz ts j * rows = colW ts rows j := by unfold padW colW; omega
      rw [← ih, ← e, Nat.add_mul]; omega

theorem total_combine (ts : List Ty) (rows : Nat) (ord : List Nat) :
    total (sz ts) ord * rows + total (padW ts rows) ord = total (colW ts rows) ord := by
  induction ord with
  | nil => simp [total]
  | cons j js ih =>
    simp only [total]
    have := le_padTo 8 (sz ts j * rows)
    have e : padW ts rows j + sz ts j * rows = colW ts rows j := by unfold padW colW; omega
    rw [← ih, ← e, Nat.add_mul]; omega

/-- Column offsets of the PAX layout. -/
theorem spread_off (o : Opts) (ts : List Ty) (rows : Nat) {i : Nat} (hi : i < ts.length) :
    (spread ts rows (order o ts) 0 (place ts (order o ts) 0 (fun _ => 0)).2).2 i
      = before (colW ts rows) (order o ts) i := by
  rw [spread_snd _ _ _ _ (order_nodup o ts) (mem_order.2 hi),
    place_snd _ _ _ (order_nodup o ts) (mem_order.2 hi), ← before_combine]; simp only [Nat.zero_add, Nat.add_zero]

theorem paxNullOff_eq (o : Opts) (opt : PaxOpt) (ts : List Ty) :
    paxNullOff o opt ts = total (colW ts (paxRows o opt ts)) (order o ts) := by
  unfold paxNullOff; simp only [place_fst, spread_fst, ← total_combine, Nat.zero_add]

/-! ### Rows per block -/

theorem lanes_pos (ts : List Ty) : 0 < lanes ts := by unfold lanes; omega

theorem floorLanes_le (l r : Nat) : floorLanes l r ≤ r := by
  unfold floorLanes; split
  · exact Nat.div_mul_le_self r l
  · exact Nat.le_refl r

theorem floorLanes_pos {l r : Nat} (hl : 0 < l) (hr : 0 < r) : 0 < floorLanes l r := by
  unfold floorLanes; split
  · exact Nat.mul_pos (Nat.div_pos (by omega) hl) hl
  · exact hr

theorem paxRows_pos (o : Opts) (opt : PaxOpt) (ts : List Ty) (h : ∀ n, opt = .nTuples n → 0 < n) :
    0 < paxRows o opt ts := by
  unfold paxRows
  cases opt with
  | nTuples n => exact floorLanes_pos (lanes_pos ts) (h n rfl)
  | nBytes b =>
    simp only
    split
    · omega
    · exact floorLanes_pos (lanes_pos ts) (by omega)

theorem clog2From_spec (x : Nat) : ∀ f k, x ≤ 2 ^ (k + f) → x ≤ 2 ^ clog2From x f k
  | 0, k, h => by simpa [clog2From] using h
  | f + 1, k, h => by
    unfold clog2From; split
    · assumption
    · exact clog2From_spec x f (k + 1) (by rwa [show k + 1 + f = k + (f + 1) by omega])

theorem le_ceilPow2 (x : Nat) : x ≤ ceilPow2 x :=
  clog2From_spec x x 0 (by rw [Nat.zero_add]; exact Nat.le_of_lt Nat.lt_two_pow_self)

theorem le_nullSize {o : Opts} (h : o.removeNull = false) (ts : List Ty) : ts.length ≤ nullSize o ts := by
  unfold nullSize; rw [h]; have := le_ceilPow2 ts.length; simp; omega

theorem nullSize_dvd (o : Opts) (ts : List Ty) : 8 ∣ nullSize o ts := by
  unfold nullSize; split
  · simp
  · unfold ceilPow2
    generalize clog2 ts.length = k
    by_cases h : k ≤ 3
    · have : k = 0 ∨ k = 1 ∨ k = 2 ∨ k = 3 := by omega
      rcases this with rfl | rfl | rfl | rfl <;> decide
    · obtain ⟨d, rfl⟩ : ∃ d, k = 3 + d := ⟨k - 3, by omega⟩
      have : 8 ≤ 2 ^ (3 + d) := by rw [Nat.pow_add]; have := Nat.two_pow_pos d; omega
      rw [Nat.max_eq_left this, Nat.pow_add]
      exact ⟨2 ^ d, by norm_num⟩

/-! ### Non-overlapping columns imply non-overlapping cells -/

/-- What the factories establish. -/
structure Good (L : Layout) : Prop where
  rows : 0 < L.rows
  fits : ∀ f ∈ L.leaves, f.off + (L.rows - 1) * f.stride + f.size ≤ L.blockStride
  step : 1 < L.rows → ∀ f ∈ L.leaves, f.size ≤ f.stride
  cols : ∀ f ∈ L.leaves, ∀ g ∈ L.leaves, f ≠ g →
    f.off + (L.rows - 1) * f.stride + f.size ≤ g.off ∨ g.off + (L.rows - 1) * g.stride + g.size ≤ f.off

theorem Good.in_block {L : Layout} (h : Good L) {f : Leaf} (hf : f ∈ L.leaves) (r : Nat) :
    r / L.rows * L.blockStride ≤ L.addr r f ∧
    L.addr r f + f.size ≤ (r / L.rows + 1) * L.blockStride := by
  have h1 := h.fits f hf
  have h2 : r % L.rows * f.stride ≤ (L.rows - 1) * f.stride :=
    Nat.mul_le_mul_right _ (by have := Nat.mod_lt r h.rows; omega)
  unfold Layout.addr
  rw [Nat.add_mul]
  constructor <;> omega

theorem Good.disjoint {L : Layout} (h : Good L) {f g : Leaf} (hf : f ∈ L.leaves) (hg : g ∈ L.leaves)
    {r s : Nat} (hne : (r, f) ≠ (s, g)) :
    L.addr r f + f.size ≤ L.addr s g ∨ L.addr s g + g.size ≤ L.addr r f := by
  have F := h.in_block hf r
  have G := h.in_block hg s
  by_cases hb : r / L.rows = s / L.rows
  · unfold Layout.addr at *
    rw [← hb]
    generalize r / L.rows * L.blockStride = B
    have lr : r % L.rows ≤ L.rows - 1 := by have := Nat.mod_lt r h.rows; omega
    have ls : s % L.rows ≤ L.rows - 1 := by have := Nat.mod_lt s h.rows; omega
    by_cases hfg : f = g
    · subst hfg
      have hrs : r ≠ s := fun e => hne (by rw [e])
      have hm : r % L.rows ≠ s % L.rows := by
        intro e
        have a := Nat.div_add_mod r L.rows
        have b := Nat.div_add_mod s L.rows
        rw [hb, e] at a; omega
      have st := h.step (by omega) f hf
      rcases Nat.lt_or_gt_of_ne hm with hlt | hlt
      · have := Nat.mul_le_mul_right f.stride (Nat.succ_le_of_lt hlt)
        rw [Nat.succ_mul] at this; omega
      · have := Nat.mul_le_mul_right f.stride (Nat.succ_le_of_lt hlt)
        rw [Nat.succ_mul] at this; omega
    · have a1 := Nat.mul_le_mul_right f.stride lr
      have a2 := Nat.mul_le_mul_right g.stride ls
      have := h.cols f hf g hg hfg
      omega
  · rcases Nat.lt_or_gt_of_ne hb with hlt | hlt
    · have := Nat.mul_le_mul_right L.blockStride (Nat.succ_le_of_lt hlt)
      rw [Nat.succ_eq_add_one] at this; omega
    · have := Nat.mul_le_mul_right L.blockStride (Nat.succ_le_of_lt hlt)
      rw [Nat.succ_eq_add_one] at this; omega

/-! ### The factories produce good layouts -/

theorem mem_rowLeaves {o : Opts} {ts : List Ty} {f : Leaf} (hf : f ∈ (rowLayout o ts).leaves) :
    (f.idx < ts.length ∧ f = ⟨f.idx, sz ts f.idx, before (sz ts) (order o ts) f.idx, 0⟩) ∨
    (o.removeNull = false ∧ f = ⟨ts.length, ts.length, total (sz ts) (order o ts), 0⟩) := by
  have key : f ∈ (List.range ts.length).map (fun i =>
        (⟨i, sz ts i, (place ts (order o ts) 0 (fun _ => 0)).2 i, 0⟩ : Leaf)) →
      f.idx < ts.length ∧ f = ⟨f.idx, sz ts f.idx, before (sz ts) (order o ts) f.idx, 0⟩ := by
    intro h
    simp only [List.mem_map, List.mem_range] at h
    obtain ⟨i, hi, rfl⟩ := h
    refine ⟨hi, ?_⟩
    simp only [Leaf.mk.injEq, true_and, and_true]
    rw [place_snd _ _ _ (order_nodup o ts) (mem_order.2 hi), Nat.zero_add]
  unfold rowLayout at hf
  simp only at hf
  by_cases h : o.removeNull = true
  · rw [if_pos h] at hf; exact Or.inl (key hf)
  · rw [if_neg h] at hf
    rcases List.mem_append.1 hf with hf | hf
    · exact Or.inl (key hf)
    · right
      refine ⟨by simpa using h, ?_⟩
      simpa [place_fst] using hf

theorem rowLayout_good (o : Opts) (ts : List Ty) : Good (rowLayout o ts) := by
  have hfit : ∀ i, i < ts.length → before (sz ts) (order o ts) i + sz ts i ≤ total (sz ts) (order o ts) :=
    fun i hi => before_le_total _ (mem_order.2 hi)
  have hbs : (rowLayout o ts).blockStride =
      padTo (maxAlign ts (order o ts) 8) (if o.removeNull then total (sz ts) (order o ts)
        else total (sz ts) (order o ts) + ts.length) := by
    simp only [rowLayout, place_fst, Nat.zero_add]
  have hle := le_padTo (maxAlign ts (order o ts) 8) (if o.removeNull then total (sz ts) (order o ts)
        else total (sz ts) (order o ts) + ts.length)
  rw [← hbs] at hle
  have hr : (rowLayout o ts).rows = 1 := rfl
  refine ⟨by rw [hr]; omega, ?_, by rw [hr]; omega, ?_⟩
  · intro f hf
    rw [hr]
    rcases mem_rowLeaves hf with ⟨hi, e⟩ | ⟨hn, e⟩
    · have := hfit _ hi
      rw [e]; simp only
      split at hle <;> omega
    · rw [if_neg (by simp [hn])] at hle
      rw [e]; simp only; omega
  · intro f hf g hg hne
    rw [hr]
    rcases mem_rowLeaves hf with ⟨hi, e⟩ | ⟨hn, e⟩ <;> rcases mem_rowLeaves hg with ⟨hi', e'⟩ | ⟨hn', e'⟩
    · have : f.idx ≠ g.idx := fun h => hne (by rw [e, e', h])
      have := before_disjoint (sz ts) (ord := order o ts) (mem_order.2 hi) (mem_order.2 hi') this
      rw [e, e']; simp only; omega
    · left; rw [e, e']; simp only; have := hfit _ hi; omega
    · right; rw [e, e']; simp only; have := hfit _ hi'; omega
    · exact absurd (e.trans e'.symm) hne

theorem mem_paxLeaves {o : Opts} {opt : PaxOpt} {ts : List Ty} {f : Leaf}
    (hf : f ∈ (paxLayout o opt ts).leaves) :
    (f.idx < ts.length ∧ f = ⟨f.idx, sz ts f.idx, before (colW ts (paxRows o opt ts)) (order o ts) f.idx,
      sz ts f.idx⟩) ∨
    (o.removeNull = false ∧ f = ⟨ts.length, ts.length, total (colW ts (paxRows o opt ts)) (order o ts),
      nullSize o ts⟩) := by
  have key : f ∈ (List.range ts.length).map (fun i =>
        (⟨i, sz ts i, (spread ts (paxRows o opt ts) (order o ts) 0
          (place ts (order o ts) 0 (fun _ => 0)).2).2 i, sz ts i⟩ : Leaf)) →
      f.idx < ts.length ∧ f = ⟨f.idx, sz ts f.idx, before (colW ts (paxRows o opt ts)) (order o ts) f.idx,
        sz ts f.idx⟩ := by
    intro h
    simp only [List.mem_map, List.mem_range] at h
    obtain ⟨i, hi, rfl⟩ := h
    refine ⟨hi, ?_⟩
    simp only [Leaf.mk.injEq, true_and, and_true]
    exact spread_off o ts _ hi
  unfold paxLayout at hf
  simp only at hf
  by_cases h : o.removeNull = true
  · rw [if_pos h] at hf; exact Or.inl (key hf)
  · rw [if_neg h] at hf
    rcases List.mem_append.1 hf with hf | hf
    · exact Or.inl (key hf)
    · right
      refine ⟨by simpa using h, ?_⟩
      simpa [paxNullOff_eq] using hf

theorem col_fits {s rows : Nat} (h : 0 < rows) : (rows - 1) * s + s ≤ padTo 8 (s * rows) := by
  have := le_padTo 8 (s * rows)
  obtain ⟨k, rfl⟩ : ∃ k, rows = k + 1 := ⟨rows - 1, by omega⟩
  have e : s * (k + 1) = k * s + s := by ring
  simp only [Nat.add_sub_cancel]; omega

theorem paxLayout_good {o : Opts} {opt : PaxOpt} {ts : List Ty} (hr : 0 < paxRows o opt ts)
    (hfit : paxFits o opt ts) : Good (paxLayout o opt ts) := by
  have hrows : (paxLayout o opt ts).rows = paxRows o opt ts := rfl
  have hbs : (paxLayout o opt ts).blockStride = paxBlocksPerRow o opt ts * paxBlockSize o opt ts := rfl
  unfold paxFits at hfit
  rw [paxNullOff_eq, Nat.mul_comm (paxBlockSize o opt ts), ← hbs] at hfit
  generalize hR : paxRows o opt ts = rows at *
  have hcol : ∀ i, i < ts.length → before (colW ts rows) (order o ts) i + colW ts rows i ≤
      total (colW ts rows) (order o ts) := fun i hi => before_le_total _ (mem_order.2 hi)
  have hone : ∀ i, (rows - 1) * sz ts i + sz ts i ≤ colW ts rows i := fun i => col_fits hr
  have hnull : o.removeNull = false → (rows - 1) * nullSize o ts + ts.length ≤ nullSize o ts * rows := by
    intro h
    have := le_nullSize h ts
    obtain ⟨k, rfl⟩ : ∃ k, rows = k + 1 := ⟨rows - 1, by omega⟩
    rw [Nat.mul_add, Nat.mul_comm (nullSize o ts) k]; simp only [Nat.add_sub_cancel]; omega
  refine ⟨by rw [hrows]; exact hr, ?_, ?_, ?_⟩
  · intro f hf
    rw [hrows]
    rcases mem_paxLeaves hf with ⟨hi, e⟩ | ⟨hn, e⟩ <;> rw [hR] at e
    · have := hcol _ hi; have := hone f.idx
      rw [e]; simp only; omega
    · have := hnull hn
      rw [e]; simp only; omega
  · intro _ f hf
    rcases mem_paxLeaves hf with ⟨hi, e⟩ | ⟨hn, e⟩
    · rw [e]
    · rw [e]; exact le_nullSize hn ts
  · intro f hf g hg hne
    rw [hrows]
    rcases mem_paxLeaves hf with ⟨hi, e⟩ | ⟨hn, e⟩ <;> rcases mem_paxLeaves hg with ⟨hi', e'⟩ | ⟨hn', e'⟩ <;>
      rw [hR] at e e'
    · have : f.idx ≠ g.idx := fun h => hne (by rw [e, e', h])
      have := before_disjoint (colW ts rows) (ord := order o ts) (mem_order.2 hi) (mem_order.2 hi') this
      have := hone f.idx; have := hone g.idx
      rw [e, e']; simp only; omega
    · left; rw [e, e']; simp only; have := hcol _ hi; have := hone f.idx; omega
    · right; rw [e, e']; simp only; have := hcol _ hi'; have := hone g.idx; omega
    · exact absurd (e.trans e'.symm) hne

/-! ### When the block fits -/

theorem fits_nTuples (o : Opts) (n : Nat) (ts : List Ty) : paxFits o (.nTuples n) ts := by
  unfold paxFits paxBlocksPerRow paxBlockSize
  simp only [Nat.mul_one]
  exact le_padTo _ _

theorem total_colW_le (ts : List Ty) (rows : Nat) (ord : List Nat) :
    total (colW ts rows) ord ≤ total (sz ts) ord * rows
      + (ord.filter (fun i => decide (sz ts i % 8 ≠ 0))).length * 7 := by
  induction ord with
  | nil => simp [total]
  | cons j js ih =>
    simp only [total, Nat.add_mul]
    by_cases h : sz ts j % 8 = 0
    · have : colW ts rows j = sz ts j * rows :=
        padTo_of_dvd (Dvd.dvd.mul_right (Nat.dvd_of_mod_eq_zero h) _)
      rw [List.filter_cons_of_neg (by simp [h])]; omega
    · have : colW ts rows j < sz ts j * rows + 8 := padTo_lt (by omega) _
      rw [List.filter_cons_of_pos (by simp [h]), List.length_cons, Nat.add_mul]; omega

theorem numNBA_order (o : Opts) (ts : List Ty) :
    ((order o ts).filter (fun i => decide (sz ts i % 8 ≠ 0))).length ≤ numNBA o ts := by
  unfold numNBA
  have := ((order_perm o ts).filter (fun i => decide (sz ts i % 8 ≠ 0))).length_eq
  omega

/-- Size of the virtual row. -/
def rowBits (o : Opts) (ts : List Ty) : Nat := total (sz ts) (order o ts) + nullSize o ts

theorem paxRows_nBytes_le (o : Opts) (b : Nat) (ts : List Ty) :
    paxRows o (.nBytes b) ts ≤ max 1 (sub64 (b * 8) (numNBA o ts * 7) / rowBits o ts) := by
  unfold paxRows rowBits
  simp only [place_fst, Nat.zero_add]
  have := floorLanes_le (lanes ts)
    (max 1 (sub64 (b * 8) (numNBA o ts * 7) / (total (sz ts) (order o ts) + nullSize o ts)))
  split <;> omega

theorem used_le (o : Opts) (opt : PaxOpt) (ts : List Ty) :
    paxNullOff o opt ts + nullSize o ts * paxRows o opt ts ≤
      rowBits o ts * paxRows o opt ts + numNBA o ts * 7 := by
  rw [paxNullOff_eq]
  have h1 := total_colW_le ts (paxRows o opt ts) (order o ts)
  have h2 := numNBA_order o ts
  unfold rowBits
  rw [Nat.add_mul]; omega

theorem fits_nBytes {o : Opts} {b : Nat} {ts : List Ty} (hb : rowBits o ts + numNBA o ts * 7 ≤ b * 8)
    (hpos : 0 < rowBits o ts) : paxFits o (.nBytes b) ts := by
  have hu := used_le o (.nBytes b) ts
  have hr := paxRows_nBytes_le o b ts
  have hs : sub64 (b * 8) (numNBA o ts * 7) = b * 8 - numNBA o ts * 7 := by
    unfold sub64; rw [if_pos (by omega)]
  rw [hs] at hr
  have hq : 1 ≤ (b * 8 - numNBA o ts * 7) / rowBits o ts := Nat.div_pos (by omega) hpos
  rw [Nat.max_eq_right hq] at hr
  have h3 := Nat.mul_le_mul_left (rowBits o ts) hr
  have h4 := Nat.mul_div_le (b * 8 - numNBA o ts * 7) (rowBits o ts)
  have h5 : 1 ≤ paxBlocksPerRow o (.nBytes b) ts := by
    unfold paxBlocksPerRow
    simp only [place_fst, Nat.zero_add]
    apply Nat.div_pos _ (by omega)
    unfold rowBits at hpos; omega
  unfold paxFits
  have h6 : b * 8 ≤ paxBlockSize o (.nBytes b) ts * paxBlocksPerRow o (.nBytes b) ts :=
    Nat.le_mul_of_pos_right (b * 8) h5
  omega

theorem fits_byte_aligned {o : Opts} {b : Nat} {ts : List Ty} (hn : numNBA o ts = 0) (hb : 0 < b)
    (hpos : 0 < rowBits o ts) : paxFits o (.nBytes b) ts := by
  by_cases h : rowBits o ts ≤ b * 8
  · exact fits_nBytes (by omega) hpos
  · have hu := used_le o (.nBytes b) ts
    have hr := paxRows_nBytes_le o b ts
    rw [hn] at hr hu
    have hs : sub64 (b * 8) (0 * 7) = b * 8 := by unfold sub64; simp
    rw [hs, Nat.div_eq_of_lt (by omega)] at hr
    have h3 := Nat.mul_le_mul_left (rowBits o ts) hr
    unfold paxFits
    have h5 : rowBits o ts ≤ b * 8 * paxBlocksPerRow o (.nBytes b) ts := by
      unfold paxBlocksPerRow
      simp only [place_fst, Nat.zero_add]
      unfold rowBits
      generalize total (sz ts) (order o ts) + nullSize o ts = t
      have e := Nat.div_add_mod (t + b * 8 - 1) (b * 8)
      have := Nat.mod_lt (t + b * 8 - 1) (show b * 8 > 0 by omega)
      omega
    have h6 : paxBlockSize o (.nBytes b) ts = b * 8 := rfl
    rw [h6]
    rw [show max 1 0 = 1 from rfl, Nat.mul_one] at h3
    omega

end Mutable.Layout
