import Verif.StoreManip.Lemmas
import Verif.StoreManip.Bitmap
import Verif.Grid.Props
import Mathlib.Data.Finset.Card
import Mathlib.Order.Interval.Finset.Basic
import Mathlib.Data.Int.Interval
/-!
# C72 — Generated columns

> The generators of data write exactly the rows they are asked to write: `set_all_null` and `set_all_not_null` change the NULL bits of
> these rows and no others; primary keys are the row numbers; filling a column with values uses every value equally often, up to one;
> distinct numbers are distinct, and correlated columns have exactly the requested numbers of distinct values and of common values.
-/
namespace Mutable.StoreManip

/-! ## NULL bits -/

/-- `set_all_null` sets the bits of all attributes of the rows `b … e - 1` and changes no other bit — when the first bit of the range is
the first or the fifth of a byte, and the range does not begin and end within one byte. -/
theorem C72_set_all_null_partial (m : Bytes) (k b e : ℕ) (h : b < e) (hne : k * b / 8 ≠ k * e / 8)
    (hb : k * b % 8 = 0 ∨ k * b % 8 = 4) :
    ∃ m', setAllNull m k b e = .ok m' ∧ ∀ i, bit m' i = if k * b ≤ i ∧ i < k * e then true else bit m i :=
  setAllNull_eq h hne hb

/-- In every other case it is wrong on a memory without NULLs: the mask selects the wrong end of the byte. -/
theorem C72_bug_set_all_null (k b e : ℕ) (h : b < e) (hne : k * b / 8 ≠ k * e / 8) (h0 : k * b % 8 ≠ 0) (h4 : k * b % 8 ≠ 4) :
    ∃ m', setAllNull (fun _ => 0#8) k b e = .ok m' ∧ ∃ i, bit m' i ≠ decide (k * b ≤ i ∧ i < k * e) := by
  obtain ⟨m', h1, h2⟩ := setAllNull_first (m := fun _ => 0#8) h hne h0
  have hBE : k * b ≤ k * e := Nat.mul_le_mul_left k h.le
  obtain ⟨t, ht, hbad⟩ := badBegin (k * b % 8) (Nat.mod_lt _ (by omega)) h0 h4
  refine ⟨m', h1, 8 * (k * b / 8) + t, ?_⟩
  unfold bit
  rw [show (8 * (k * b / 8) + t) / 8 = k * b / 8 by omega, show (8 * (k * b / 8) + t) % 8 = t by omega, h2]
  intro hc
  apply hbad
  rw [hc]
  generalize k * b = B at *
  generalize k * e = E at *
  by_cases hx : B % 8 ≤ t
  · simp only [hx, decide_true, decide_eq_true_eq]; omega
  · simp only [hx, decide_false, decide_eq_false_iff_not]; omega

/-- `set_all_not_null` likewise clears exactly the bits of the rows — when the bit after the range is the first or the fifth of a byte. -/
theorem C72_set_all_not_null_partial (m : Bytes) (k b e : ℕ) (h : b < e) (hne : k * b / 8 ≠ k * e / 8)
    (he : k * e % 8 = 0 ∨ k * e % 8 = 4) :
    ∃ m', setAllNotNull m k b e = .ok m' ∧ ∀ i, bit m' i = if k * b ≤ i ∧ i < k * e then false else bit m i :=
  setAllNotNull_eq h hne he

/-- In every other case it is wrong on a memory full of NULLs. -/
theorem C72_bug_set_all_not_null (k b e : ℕ) (h : b < e) (hne : k * b / 8 ≠ k * e / 8) (h0 : k * e % 8 ≠ 0) (h4 : k * e % 8 ≠ 4) :
    ∃ m', setAllNotNull (fun _ => 255#8) k b e = .ok m' ∧ ∃ i, bit m' i ≠ !decide (k * b ≤ i ∧ i < k * e) := by
  obtain ⟨m', h1, h2⟩ := setAllNotNull_last (m := fun _ => 255#8) h hne h0
  have hBE : k * b ≤ k * e := Nat.mul_le_mul_left k h.le
  obtain ⟨t, ht, hbad⟩ := badEnd (k * e % 8) (Nat.mod_lt _ (by omega)) h0 h4
  refine ⟨m', h1, 8 * (k * e / 8) + t, ?_⟩
  unfold bit
  rw [show (8 * (k * e / 8) + t) / 8 = k * e / 8 by omega, show (8 * (k * e / 8) + t) % 8 = t by omega, h2]
  intro hc
  apply hbad
  rw [hc]
  generalize k * b = B at *
  generalize k * e = E at *
  by_cases hx : E % 8 ≤ t
  · simp only [hx, decide_true, Bool.not_eq_true', decide_eq_false_iff_not]; omega
  · simp only [hx, decide_false, Bool.not_eq_false', decide_eq_true_eq]; omega

/-- Rows whose bits begin and end in the same byte are rejected by an assertion: two attributes, row 0 only. -/
theorem C72_bug_same_byte (m : Bytes) : setAllNull m 2 0 1 = .insist ∧ setAllNotNull m 2 0 1 = .insist := by
  constructor <;> rfl

/-- The unit test's case: 9 attributes, rows 0 to 256. -/
example : 9 * 0 / 8 ≠ 9 * 257 / 8 ∧ (9 * 0 % 8 = 0 ∨ 9 * 0 % 8 = 4) := by decide
/-- Two attributes from row 2 on, as in the training of the cost model. -/
example : 2 * 2 / 8 ≠ 2 * 1000000 / 8 ∧ (2 * 2 % 8 = 0 ∨ 2 * 2 % 8 = 4) ∧ (2 * 1000000 % 8 = 0 ∨ 2 * 1000000 % 8 = 4) := by decide
/-- Rows 1 to 3 of two attributes are a case of the bug. -/
example : 2 * 1 / 8 ≠ 2 * 4 / 8 ∧ 2 * 1 % 8 ≠ 0 ∧ 2 * 1 % 8 ≠ 4 := by decide

/-! ## Primary keys -/

/-- Primary keys of 32 or 64 bits are the row numbers (hence all different), as far as the type reaches; other rows keep their values. -/
theorem C72_primary_keys_partial (bits : ℕ) (hb : bits = 32 ∨ bits = 64) (m : ℕ → ℤ) (b e : ℕ) (h : b < e) (he : e ≤ 2 ^ (bits - 1)) :
    ∃ m', primaryKeys bits m b e = .ok m' ∧ (∀ x, b ≤ x → x < e → m' x = x) ∧ ∀ x, x < b ∨ e ≤ x → m' x = m x := by
  have hbits : 0 < bits := by omega
  have hp : ((2 ^ (bits - 1) : ℕ) : ℤ) = 2 ^ (bits - 1) := by push_cast; rfl
  have hconv : ∀ v : ℕ, v < e → (Grid.IntTy.mk bits true).conv v = v := by
    intro v hv
    have : (v : ℤ) < 2 ^ (bits - 1) := by rw [← hp]; exact_mod_cast lt_of_lt_of_le hv he
    refine Grid.conv_id hbits ?_ ?_
    · unfold Grid.IntTy.lo; simp only [if_true]
      have : (0 : ℤ) < 2 ^ (bits - 1) := by positivity
      omega
    · unfold Grid.IntTy.hi; simp only [if_true]; omega
  unfold primaryKeys
  rw [if_neg (by omega), if_pos hb]
  refine ⟨_, rfl, ?_, ?_⟩
  · intro x h1 h2
    unfold iota
    rw [if_pos ⟨h1, h2⟩, hconv b h]
    rw [show (b : ℤ) + ((x - b : ℕ) : ℤ) = (x : ℕ) by omega]
    exact hconv x h2
  · intro x hx
    unfold iota
    rw [if_neg (by omega)]

/-- Columns named `id` of other integral types — 8 and 16 bits — reach `M_unreachable`, though the assertion admits them. -/
theorem C72_bug_primary_key_types (m : ℕ → ℤ) (b e : ℕ) : primaryKeys 8 m b e = .insist ∧ primaryKeys 16 m b e = .insist := by
  unfold primaryKeys
  simp

/-! ## Filling -/

/-- `fill_uniform`, in a release build: whatever the shuffles do, the call returns, writes the rows `b … e - 1` only, each run of as many rows as there are
values contains every value once, the incomplete last run contains no value more than once … -/
theorem C72_fill_uniform {T : Type} (shuf : ℕ → List T → List T) (hs : ∀ k l, (shuf k l).Perm l) (m : ℕ → T) (vals : List T)
    (hv : vals ≠ []) (b e : ℕ) (h : b < e) :
    ∃ m', (∀ fuel, e - b < fuel → fillUniform shuf fuel m vals b e = some (m', e)) ∧
      (∀ x, x < b ∨ e ≤ x → m' x = m x) ∧
      (∀ j, b + (j + 1) * vals.length ≤ e → ((List.range' (b + j * vals.length) vals.length).map m').Perm vals) ∧
      ((List.range' (b + (e - b) / vals.length * vals.length) ((e - b) % vals.length)).map m').Subperm vals := by
  have mono : ∀ (fuel : ℕ) (k : ℕ) (m : ℕ → T) (p left : ℕ) (vals : List T) r, fillLoop shuf fuel k m p left vals = some r →
      fillLoop shuf (fuel + 1) k m p left vals = some r := by
    intro fuel
    induction fuel with
    | zero => intro k m p left vals r hr; simp [fillLoop] at hr
    | succ f ih =>
      intro k m p left vals r hr
      unfold fillLoop at hr ⊢
      split_ifs at hr ⊢ with h1
      · exact hr
      · simp only at hr ⊢
        split_ifs at hr ⊢ with h2
        · exact hr
        · exact ih _ _ _ _ _ _ hr
  obtain ⟨m', h1, h2, h3, h4⟩ := fillLoop_spec hs (e - b + 1) 0 m b (e - b) vals hv (by omega)
  have he : b + (e - b) = e := by omega
  rw [he] at h1 h2
  refine ⟨m', ?_, h2, fun j hj => h3 j (by omega), h4⟩
  intro fuel hf
  unfold fillUniform
  obtain ⟨d, rfl⟩ : ∃ d, fuel = e - b + 1 + d := ⟨fuel - (e - b + 1), by omega⟩
  clear hf
  induction d with
  | zero => exact h1
  | succ d ih => rw [show e - b + 1 + (d + 1) = e - b + 1 + d + 1 by omega]; exact mono _ _ _ _ _ _ _ ih

/-- … so that, of different values, each occurs `⌊rows / values⌋` or one more times. -/
theorem C72_fill_balanced {T : Type} [DecidableEq T] (shuf : ℕ → List T → List T) (hs : ∀ k l, (shuf k l).Perm l) (m : ℕ → T)
    (vals : List T) (hv : vals ≠ []) (hnd : vals.Nodup) (b e : ℕ) (h : b < e) :
    ∃ m', (∀ fuel, e - b < fuel → fillUniform shuf fuel m vals b e = some (m', e)) ∧
      (∀ v ∈ vals, ((List.range' b (e - b)).map m').count v = (e - b) / vals.length ∨
        ((List.range' b (e - b)).map m').count v = (e - b) / vals.length + 1) ∧
      ∀ x, b ≤ x → x < e → m' x ∈ vals := by
  obtain ⟨m', h1, h2, h3, h4⟩ := C72_fill_uniform shuf hs m vals hv b e h
  have hn : 0 < vals.length := List.length_pos_iff.2 hv
  have hcnt := fun v => count_blocks (m := m') hn v ((e - b) / vals.length) b ((e - b) % vals.length)
    (fun j hj => h3 j (by
      have : (j + 1) * vals.length ≤ (e - b) / vals.length * vals.length := Nat.mul_le_mul_right _ hj
      have := Nat.div_mul_le_self (e - b) vals.length
      omega)) h4
  have hsum : (e - b) / vals.length * vals.length + (e - b) % vals.length = e - b := Nat.div_add_mod' _ _
  rw [hsum] at hcnt
  refine ⟨m', h1, ?_, ?_⟩
  · intro v hmem
    have := hcnt v
    rw [List.count_eq_one_of_mem hnd hmem, Nat.mul_one, Nat.mul_one] at this
    unfold seg at this
    omega
  · intro x hx1 hx2
    by_contra hc
    have h0 := (hcnt (m' x)).2
    rw [List.count_eq_zero_of_not_mem hc, Nat.mul_zero] at h0
    have : m' x ∈ seg m' b (e - b) := List.mem_map.2 ⟨x, List.mem_range'_1.2 ⟨hx1, by omega⟩, rfl⟩
    have := List.count_pos_iff.2 this
    omega

/-- In a debug build, filling from a row other than the first fails an assertion after all rows are written: the pointer is compared to
the number of rows, but it began at row `b`.  From row 0, the assertion holds. -/
theorem C72_bug_fill_assertion {T : Type} (shuf : ℕ → List T → List T) (hs : ∀ k l, (shuf k l).Perm l) (m : ℕ → T) (vals : List T)
    (hv : vals ≠ []) (b e fuel : ℕ) (h : b < e) (hf : e - b < fuel) :
    (0 < b → fillUniformDebug shuf fuel m vals b e = some .insist) ∧
    (b = 0 → ∃ m', fillUniformDebug shuf fuel m vals b e = some (.ok m')) := by
  obtain ⟨m', h1, _⟩ := C72_fill_uniform shuf hs m vals hv b e h
  unfold fillUniformDebug
  rw [if_neg (by omega), h1 fuel hf]
  simp only
  constructor
  · intro hb; rw [if_neg (by omega)]
  · rintro rfl; exact ⟨m', by rw [if_pos (by omega)]⟩

/-- Without any value the loop does not end. -/
theorem C72_bug_fill_nothing {T : Type} (shuf : ℕ → List T → List T) (hs : ∀ k l, (shuf k l).Perm l) (m : ℕ → T) (b e : ℕ) (h : b < e)
    (fuel : ℕ) : fillUniform shuf fuel m [] b e = none := by
  unfold fillUniform
  have key : ∀ fuel k, fillLoop shuf fuel k m b (e - b) [] = none := by
    intro fuel
    induction fuel with
    | zero => intro k; rfl
    | succ f ih =>
      intro k
      have : shuf k [] = [] := List.Perm.eq_nil (hs k [])
      unfold fillLoop
      rw [if_neg (by omega), this]
      simp only
      rw [show fillPass m b (e - b) [] = (m, b, e - b) from rfl]
      rw [if_neg (show ¬ (m, b, e - b).2.2 = 0 by simp only; omega)]
      exact ih _
  exact key fuel 0

example : ∃ m', fillUniform (fun _ l => l.reverse) 10 (fun _ => 0) [1, 2, 3] 2 9 = some (m', 9) ∧
    (List.range' 0 11).map m' = [0, 0, 3, 2, 1, 1, 2, 3, 3, 0, 0] := ⟨_, rfl, by decide⟩

/-! ## Distinct numbers -/

/-- The draws of a distribution lie in its bounds. -/
def DrawsOk (draw : ℤ → ℤ → ℕ → ℤ) : Prop := ∀ lo hi i, lo ≤ hi → lo ≤ draw lo hi i ∧ draw lo hi i ≤ hi

theorem conv_add (ty : Grid.IntTy) (x y : ℤ) : ty.conv (x - ty.conv y) = ty.conv (x - y) := by
  have h : ty.conv y % 2 ^ ty.bits = y % 2 ^ ty.bits := by
    unfold Grid.IntTy.conv
    simp only
    split_ifs
    · rw [Int.sub_emod_right, Int.emod_emod]
    · rw [Int.emod_emod]
  unfold Grid.IntTy.conv at *
  simp only at *
  have e : (x - (if (ty.signed && decide (2 ^ (ty.bits - 1) ≤ y % 2 ^ ty.bits)) = true then y % 2 ^ ty.bits - 2 ^ ty.bits
      else y % 2 ^ ty.bits)) % 2 ^ ty.bits = (x - y) % 2 ^ ty.bits := by
    rw [Int.sub_emod, h, ← Int.sub_emod]
  rw [e]

/-- `generate_distinct_numbers`: if the range has more than `count` numbers, the result has `count` different numbers of the range,
whatever numbers are drawn. -/
theorem C72_distinct_numbers_partial (ty : Grid.IntTy) (hb : 0 < ty.bits) (draw : ℤ → ℤ → ℕ → ℤ) (hd : DrawsOk draw) (min max : ℤ)
    (count : ℕ) (h1 : ty.lo ≤ min) (h2 : max ≤ ty.hi) (hw : (count : ℤ) < max - min) :
    ∃ l, distinctNumbers ty draw min max count = .ok l ∧ l.length = count ∧ l.Nodup ∧ ∀ v ∈ l, min ≤ v ∧ v ≤ max := by
  have hc : ty.conv (max - count) = max - count := Grid.conv_id hb (by omega) (by omega)
  unfold distinctNumbers
  rw [conv_add, hc, if_neg (by omega)]
  simp only
  obtain ⟨a, b, c⟩ := distinctLoop_spec (ty := ty) (draw := draw min (max - count)) (lo := min) (c0 := max - count) (hi := max)
    (fun i => hd _ _ i (by omega)) (fun v hv1 hv2 => Grid.conv_id hb (by omega) (by omega)) (by omega) count 0 [] (max - count) []
    (le_refl _) (by omega) (by simp) (by simp) (by simp)
  exact ⟨_, rfl, by simpa using b, a, c⟩

/-- The assertion does not ensure that the range is wide enough: it accepts 300 numbers of 8 bits, which cannot be different. -/
theorem C72_bug_distinct_assertion (draw : ℤ → ℤ → ℕ → ℤ) (hd : DrawsOk draw) :
    ∃ l, distinctNumbers ⟨8, true⟩ draw (-128) 127 300 = .ok l ∧ ¬ l.Nodup := by
  have e1 : (Grid.IntTy.mk 8 true).conv (127 - (300 : ℕ)) = 83 := by decide
  have e2 : (Grid.IntTy.mk 8 true).conv (127 - (Grid.IntTy.mk 8 true).conv (300 : ℕ)) = 83 := by decide
  unfold distinctNumbers
  rw [e1, e2, if_neg (by omega)]
  refine ⟨_, rfl, fun hnd => ?_⟩
  have hlen := distinctLoop_length ⟨8, true⟩ (draw (-128) 83) 300 0 [] 83 []
  have hmem := distinctLoop_mem ⟨8, true⟩ (draw (-128) 83) (P := fun v => -128 ≤ v ∧ v ≤ 127)
    (fun i => by have := hd (-128) 83 i (by omega); omega)
    (fun v => by
      unfold Grid.IntTy.conv
      simp only
      have h1 := Int.emod_nonneg v (show (2 ^ 8 : ℤ) ≠ 0 by norm_num)
      have h2 := Int.emod_lt_of_pos v (show (0 : ℤ) < 2 ^ 8 by norm_num)
      norm_num at h1 h2 ⊢
      split_ifs <;> omega) 300 0 [] 83 [] (by simp)
  have hsub : (distinctLoop ⟨8, true⟩ (draw (-128) 83) 300 0 [] 83 []).toFinset ⊆ Finset.Icc (-128) 127 := by
    intro v hv
    rw [Finset.mem_Icc]
    exact hmem v (List.mem_toFinset.1 hv)
  have := Finset.card_le_card hsub
  rw [List.toFinset_card_of_nodup hnd, hlen, Int.card_Icc] at this
  simp at this

/-- And it rejects 255 numbers of the 256 there are. -/
theorem C72_bug_distinct_too_strict (draw : ℤ → ℤ → ℕ → ℤ) : distinctNumbers ⟨8, true⟩ draw (-128) 127 255 = .insist := by
  unfold distinctNumbers
  rw [if_pos (by decide)]

/-! ## Correlated columns -/

/-- `generate_correlated_numeric_columns`: when there are as many rows as distinct values, the left column has exactly `nl` distinct
values, the right one `nr`, and exactly `nm` values occur in both. -/
theorem C72_correlated_partial (ty : Grid.IntTy) (hb : 0 < ty.bits) (draw : ℤ → ℤ → ℕ → ℤ) (hd : DrawsOk draw)
    (sl sr : ℕ → List ℤ → List ℤ) (hsl : ∀ k l, (sl k l).Perm l) (hsr : ∀ k l, (sr k l).Perm l) (l r : ℕ → ℤ)
    (nl nr nm cl cr fuel : ℕ) (h1 : nm ≤ nl) (h2 : nm ≤ nr) (h3 : 0 < nl) (h4 : 0 < nr) (h5 : nl ≤ cl) (h6 : nr ≤ cr)
    (hw : ((nl + nr - nm : ℕ) : ℤ) < ty.hi - ty.lo) (hf : cl < fuel ∧ cr < fuel) :
    ∃ l' r', correlatedColumns ty draw sl sr fuel l r nl nr cl cr nm = some (.ok (l', r')) ∧
      ((Finset.range cl).image l').card = nl ∧ ((Finset.range cr).image r').card = nr ∧
      ((Finset.range cl).image l' ∩ (Finset.range cr).image r').card = nm ∧
      (∀ x, cl ≤ x → l' x = l x) ∧ (∀ x, cr ≤ x → r' x = r x) := by
  obtain ⟨vals, e1, e2, e3, _⟩ := C72_distinct_numbers_partial ty hb draw hd ty.lo ty.hi (nl + nr - nm) (le_refl _) (le_refl _) hw
  have image_eq : ∀ (s : ℕ → List ℤ → List ℤ) (hs : ∀ k l, (s k l).Perm l) (m : ℕ → ℤ) (vs : List ℤ) (c : ℕ), vs ≠ [] → vs.Nodup →
      vs.length ≤ c → ∃ m', (∀ fuel, c < fuel → fillUniform s fuel m vs 0 c = some (m', c)) ∧
        (Finset.range c).image m' = vs.toFinset ∧ ∀ x, c ≤ x → m' x = m x := by
    intro s hs m vs c hv hnd hc
    have hpos : 0 < vs.length := List.length_pos_iff.2 hv
    obtain ⟨m', a1, a2, a3⟩ := C72_fill_balanced s hs m vs hv hnd 0 c (by omega)
    obtain ⟨m'', b1, b2, _⟩ := C72_fill_uniform s hs m vs hv 0 c (by omega)
    have hmm : m' = m'' := by
      have x1 := a1 (c + 1) (by omega)
      have x2 := b1 (c + 1) (by omega)
      rw [x1] at x2
      simpa using x2
    subst hmm
    refine ⟨m', fun fuel hf => a1 fuel (by omega), ?_, fun x hx => b2 x (by omega)⟩
    ext v
    rw [Finset.mem_image, List.mem_toFinset]
    constructor
    · rintro ⟨x, hx, rfl⟩
      exact a3 x (by omega) (Finset.mem_range.1 hx)
    · intro hv
      have hq : 1 ≤ (c - 0) / vs.length := (Nat.le_div_iff_mul_le hpos).2 (by omega)
      have := a2 v hv
      have hmem : v ∈ (List.range' 0 (c - 0)).map m' := List.count_pos_iff.1 (by omega)
      obtain ⟨x, hx, hxv⟩ := List.mem_map.1 hmem
      rw [List.mem_range'_1] at hx
      exact ⟨x, Finset.mem_range.2 (by omega), hxv⟩
  have nd1 : (vals.take nl).Nodup := e3.sublist (List.take_sublist _ _)
  have nd2 : (vals.reverse.take nr).Nodup := (List.nodup_reverse.2 e3).sublist (List.take_sublist _ _)
  have len1 : (vals.take nl).length = nl := by rw [List.length_take]; omega
  have len2 : (vals.reverse.take nr).length = nr := by rw [List.length_take, List.length_reverse]; omega
  obtain ⟨l', p1, p2, p3⟩ := image_eq sl hsl l (vals.take nl) cl (by intro h; rw [h] at len1; simp at len1; omega) nd1 (by omega)
  obtain ⟨r', q1, q2, q3⟩ := image_eq sr hsr r (vals.reverse.take nr) cr (by intro h; rw [h] at len2; simp at len2; omega) nd2 (by omega)
  refine ⟨l', r', ?_, ?_, ?_, ?_, p3, q3⟩
  · unfold correlatedColumns correlatedValues
    rw [if_neg (by omega), if_neg (by omega), e1]
    simp only
    rw [p1 fuel hf.1, q1 fuel hf.2]
  · rw [p2, List.toFinset_card_of_nodup nd1, len1]
  · rw [q2, List.toFinset_card_of_nodup nd2, len2]
  · rw [p2, q2]
    have hu : (vals.take nl).toFinset ∪ (vals.reverse.take nr).toFinset = vals.toFinset := by
      ext v
      simp only [Finset.mem_union, List.mem_toFinset]
      constructor
      · rintro (h | h)
        · exact List.mem_of_mem_take h
        · exact List.mem_reverse.1 (List.mem_of_mem_take h)
      · intro h
        rw [← List.take_append_drop nl vals] at h
        rcases List.mem_append.1 h with h' | h'
        · exact Or.inl h'
        · right
          rw [List.take_reverse, List.mem_reverse]
          have : vals.drop nl = (vals.drop (vals.length - nr)).drop (nl - (vals.length - nr)) := by
            rw [List.drop_drop]; congr 1; omega
          rw [this] at h'
          exact List.mem_of_mem_drop h'
    have hc := Finset.card_union_add_card_inter (vals.take nl).toFinset (vals.reverse.take nr).toFinset
    rw [hu, List.toFinset_card_of_nodup nd1, List.toFinset_card_of_nodup nd2, List.toFinset_card_of_nodup e3, len1, len2, e2] at hc
    omega

/-- 32-bit columns with 10 and 20 distinct values, 5 of them common. -/
example : ((10 + 20 - 5 : ℕ) : ℤ) < (Grid.IntTy.mk 32 true).hi - (Grid.IntTy.mk 32 true).lo := by decide
/-- There are draws within the bounds. -/
example : DrawsOk (fun lo _ _ => lo) := fun _ _ _ h => ⟨le_refl _, h⟩

end Mutable.StoreManip
