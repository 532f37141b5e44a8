import Verif.Grid.Space
import Verif.Grid.Search
import Mathlib.Data.List.Perm.Basic
import Mathlib.Data.List.Nodup
/-!
# C71 — Linear spaces, grid search and generated distinct numbers

> A `LinearSpace` of an integral type from `lo` to `hi` yields, for every number of steps, `num_steps() + 1` evenly spaced points inside
> `[lo, hi]`, the first being one end and the last the other, in order, and distinct when the interval has enough integers; `GridSearch`
> calls its function for every point of the grid exactly once, in lexicographic order, and `num_points()` says how often;
> `generate_uniform_distinct_numbers(min, max, count)` returns `count` distinct numbers of `[min, max]`.
-/
namespace Mutable.Grid

/-- The bounds fit the type and are small enough for the arithmetic in `double` to resolve single integers. -/
def Fits (ty : IntTy) (lo hi : ℤ) : Prop :=
  ty.lo ≤ lo ∧ lo ≤ hi ∧ hi ≤ ty.hi ∧ -(2 ^ 49) ≤ lo ∧ hi ≤ 2 ^ 49 ∧ 0 < ty.bits

/-- For types of at most 32 bits all bounds are small enough. -/
theorem fits_of_small {ty : IntTy} {lo hi : ℤ} (h0 : 0 < ty.bits) (h32 : ty.bits ≤ 32) (h1 : ty.lo ≤ lo) (h2 : lo ≤ hi)
    (h3 : hi ≤ ty.hi) : Fits ty lo hi := by
  have p1 : (2 : ℤ) ^ (ty.bits - 1) ≤ 2 ^ 31 := pow_le_pow_right₀ (by norm_num) (by omega)
  have p2 : (2 : ℤ) ^ ty.bits ≤ 2 ^ 32 := pow_le_pow_right₀ (by norm_num) h32
  refine ⟨h1, h2, h3, ?_, ?_, h0⟩
  · unfold IntTy.lo at h1; split_ifs at h1 <;> norm_num at * <;> omega
  · unfold IntTy.hi at h3; split_ifs at h3 <;> norm_num at * <;> omega

theorem pow_split {b : ℕ} (h : 0 < b) : (2 : ℤ) ^ b = 2 * 2 ^ (b - 1) := by
  obtain ⟨k, rfl⟩ : ∃ k, b = k + 1 := ⟨b - 1, by omega⟩
  simp [pow_succ]; ring

/-- The conversion to the value type does not change a value of the type. -/
theorem conv_id {ty : IntTy} (hb : 0 < ty.bits) {v : ℤ} (h1 : ty.lo ≤ v) (h2 : v ≤ ty.hi) : ty.conv v = v := by
  have hs := pow_split hb
  have hp : (0 : ℤ) < 2 ^ (ty.bits - 1) := by positivity
  unfold IntTy.lo at h1
  unfold IntTy.hi at h2
  unfold IntTy.conv
  simp only
  rcases hsg : ty.signed with _ | _
  · simp only [hsg] at h1 h2 ⊢
    simp only [Bool.false_and]
    simp at h1 h2 ⊢
    exact Int.emod_eq_of_lt h1 (by omega)
  · simp only [hsg, if_true] at h1 h2 ⊢
    rcases lt_or_ge v 0 with hv | hv
    · have hm : v % 2 ^ ty.bits = v + 2 ^ ty.bits := by
        rw [← Int.add_emod_right, Int.emod_eq_of_lt (by omega) (by omega)]
      rw [hm]
      have : (2 : ℤ) ^ (ty.bits - 1) ≤ v + 2 ^ ty.bits := by omega
      simp [this]
    · have hm : v % 2 ^ ty.bits = v := Int.emod_eq_of_lt hv (by omega)
      rw [hm]
      have : ¬ (2 : ℤ) ^ (ty.bits - 1) ≤ v := by omega
      simp [this]

theorem step_eq {ty : IntTy} {lo hi : ℤ} {N : ℕ} {asc : Bool} (h : Fits ty lo hi) :
    (⟨ty, lo, hi, N, asc⟩ : LinSp).step = rz ((((hi - lo).toNat : ℕ) : ℚ) / N) := by
  obtain ⟨_, h2, _, h4, h5, _⟩ := h
  unfold LinSp.step
  simp only
  rw [rz_int (z := hi) (by rw [abs_lt]; constructor <;> norm_num at * <;> omega),
    rz_int (z := lo) (by rw [abs_lt]; constructor <;> norm_num at * <;> omega), ← Int.cast_sub,
    rz_int (z := hi - lo) (by rw [abs_lt]; constructor <;> norm_num at * <;> omega)]
  have : ((hi - lo).toNat : ℤ) = hi - lo := Int.toNat_of_nonneg (by omega)
  rw [← this]
  push_cast
  rfl

/-- The point after `n` steps of `N` in an interval of length `hi - lo`. -/
theorem at_eq {ty : IntTy} {lo hi : ℤ} {N : ℕ} {asc : Bool} (h : Fits ty lo hi) (hN : 0 < N) {n : ℕ} (hn : n ≤ N) :
    (⟨ty, lo, hi, N, asc⟩ : LinSp).at n =
      .ok (if asc then lo + dist (hi - lo).toNat N n else hi - dist (hi - lo).toNat N n) := by
  have hD : (hi - lo).toNat ≤ 2 ^ 50 := by
    obtain ⟨_, h2, _, h4, h5, _⟩ := h; norm_num at *; omega
  have d0 := dist_nonneg (D := (hi - lo).toNat) (N := N) n
  have d1 := dist_le hN hD hn
  have hl : (((hi - lo).toNat : ℕ) : ℤ) = hi - lo := Int.toNat_of_nonneg (by have := h.2.1; omega)
  rw [hl] at d1
  have hr : hi - lo < 2 ^ ty.bits := by
    obtain ⟨h1, h2, h3, _, _, hb⟩ := h
    have hs := pow_split hb
    unfold IntTy.lo at h1; unfold IntTy.hi at h3
    split_ifs at h1 h3 <;> omega
  unfold LinSp.at LinSp.delta
  simp only
  rw [if_neg (by omega), step_eq h]
  have e : cround (rn ((n : ℚ) * rz ((((hi - lo).toNat : ℕ) : ℚ) / N))) = dist (hi - lo).toNat N n := rfl
  rw [e, if_pos ⟨d0, by omega⟩]
  simp only
  obtain ⟨h1, h2, h3, _, _, hb⟩ := h
  rw [conv_id hb (by omega) (by omega), conv_id hb (by omega) (by omega)]

/-- A linear space of integers with bounds between `-2^49` and `2^49` (hence: every linear space over a type of up to 32 bits): `at` is
defined for `0 … num_steps()`, begins at one bound and ends at the other, stays inside, moves in one direction only, is less than one from
the exact evenly spaced point, and never repeats a value if the interval has more integers than there are steps. -/
theorem C71_linear_space_partial (ty : IntTy) (lo hi : ℤ) (N : ℕ) (asc : Bool) (h : Fits ty lo hi) (hN : 0 < N) :
    LinSp.mk? ty lo hi N asc = .ok ⟨ty, lo, hi, N, asc⟩ ∧
    ∃ f : ℕ → ℤ, (∀ n, n ≤ N → (⟨ty, lo, hi, N, asc⟩ : LinSp).at n = .ok (f n)) ∧
      (∀ n, N < n → (⟨ty, lo, hi, N, asc⟩ : LinSp).at n = .outOfRange) ∧
      f 0 = (if asc then lo else hi) ∧ f N = (if asc then hi else lo) ∧
      (∀ n, n ≤ N → lo ≤ f n ∧ f n ≤ hi) ∧
      (∀ n m, n ≤ m → m ≤ N → if asc then f n ≤ f m else f m ≤ f n) ∧
      (∀ n, n ≤ N → |(f n : ℚ) - (if asc then lo + n * (((hi - lo : ℤ) : ℚ) / N) else hi - n * (((hi - lo : ℤ) : ℚ) / N))| < 1) ∧
      ((N : ℤ) ≤ hi - lo → ∀ n m, n < m → m ≤ N → if asc then f n < f m else f m < f n) := by
  have hD : (hi - lo).toNat ≤ 2 ^ 50 := by
    obtain ⟨_, h2, _, h4, h5, _⟩ := h; norm_num at *; omega
  have hl : (((hi - lo).toNat : ℕ) : ℤ) = hi - lo := Int.toNat_of_nonneg (by have := h.2.1; omega)
  have hlq : (((hi - lo).toNat : ℕ) : ℚ) = ((hi - lo : ℤ) : ℚ) := by exact_mod_cast congrArg (Int.cast : ℤ → ℚ) hl
  refine ⟨?_, fun n => if asc then lo + dist (hi - lo).toNat N n else hi - dist (hi - lo).toNat N n, ?_, ?_, ?_, ?_, ?_, ?_, ?_, ?_⟩
  · unfold LinSp.mk?
    rw [if_neg (by have := h.2.1; omega), if_neg (by omega)]
  · intro n hn; exact at_eq h hN hn
  · intro n hn; unfold LinSp.at; rw [if_pos hn]
  · simp only [dist_zero]; split_ifs <;> omega
  · simp only [dist_last hN hD, hl]; split_ifs <;> omega
  · intro n hn
    have a := dist_nonneg (D := (hi - lo).toNat) (N := N) n
    have b := dist_le hN hD hn
    simp only
    split_ifs <;> omega
  · intro n m hnm hm
    have := dist_mono (D := (hi - lo).toNat) (N := N) hnm
    cases asc <;> simp <;> omega
  · intro n hn
    have e := dist_err hN hD hn
    rw [hlq] at e
    rw [abs_lt] at e ⊢
    cases asc <;> simp only [if_true, if_false, Bool.false_eq_true] <;> push_cast at e ⊢ <;> constructor <;> linarith [e.1, e.2]
  · intro hw n m hnm hm
    have key : ∀ k, n + k + 1 ≤ N → dist (hi - lo).toNat N n < dist (hi - lo).toNat N (n + k + 1) := by
      intro k hk
      have a := dist_mono (D := (hi - lo).toNat) (N := N) (show n ≤ n + k by omega)
      have b := dist_strict hN hD (by omega : N ≤ (hi - lo).toNat) (n := n + k) (by omega)
      omega
    have := key (m - n - 1) (by omega)
    rw [show n + (m - n - 1) + 1 = m by omega] at this
    cases asc <;> simp <;> omega

example : Fits ⟨32, true⟩ (-500) 500 := by unfold Fits IntTy.lo IntTy.hi; norm_num
example : Fits ⟨8, false⟩ 0 255 := by unfold Fits IntTy.lo IntTy.hi; norm_num

theorem seqLoop_spec (s : LinSp) (h : s.steps < UMAX) : ∀ (k i fuel : ℕ) (vec : List (Res ℤ)), s.steps + 1 = i + k → k < fuel →
    s.seqLoop fuel i vec = some (vec ++ (List.range' i k).map s.at)
  | 0, i, fuel + 1, vec, hk, _ => by
    unfold LinSp.seqLoop
    rw [if_neg (by omega)]; simp
  | k + 1, i, fuel + 1, vec, hk, hf => by
    have hi : (i + 1) % 2 ^ 32 = i + 1 := Nat.mod_eq_of_lt (by unfold UMAX at h; norm_num at *; omega)
    unfold LinSp.seqLoop
    rw [if_pos (by omega), hi, seqLoop_spec s h k (i + 1) fuel _ (by omega) (by omega)]
    simp [List.range'_succ]
  | 0, _, 0, _, _, hf => by omega
  | _ + 1, _, 0, _, _, hf => by omega

/-- `sequence()` returns the points `at(0), …, at(num_steps())`, for fewer than `2^32 - 1` steps. -/
theorem C71_sequence_partial (s : LinSp) (h : s.steps < UMAX) (fuel : ℕ) (hf : s.steps + 2 ≤ fuel) :
    s.sequence fuel = some ((List.range (s.steps + 1)).map s.at) := by
  unfold LinSp.sequence
  rw [seqLoop_spec s h (s.steps + 1) 0 fuel [] (by omega) (by omega)]
  simp [List.range_eq_range']

/-- With `2^32 - 1` steps `sequence()` does not terminate: `i <= num_steps()` holds for every `unsigned`. -/
theorem C71_bug_sequence_diverges (s : LinSp) (h : s.steps = UMAX) (fuel : ℕ) : s.sequence fuel = none := by
  have key : ∀ fuel i vec, i < 2 ^ 32 → s.seqLoop fuel i vec = none := by
    intro fuel
    induction fuel with
    | zero => intros; rfl
    | succ fuel ih =>
      intro i vec hi
      unfold LinSp.seqLoop
      rw [if_pos (by rw [h]; unfold UMAX; omega)]
      exact ih _ _ (Nat.mod_lt _ (by norm_num))
  exact key fuel 0 [] (by norm_num)

/-- `generate_uniform_distinct_numbers`, for types of up to 32 bits (or bounds up to `2^49`), if the range is wide enough and fewer than
`2^32` numbers are asked for: the result, in whatever order `std::shuffle` leaves it, has `count` numbers, all different, all in
`[min, max]`, and the two bounds are among them. -/
theorem C71_distinct_numbers_partial (ty : IntTy) (min max : ℤ) (count fuel : ℕ) (h : Fits ty min max) (h1 : 1 ≤ count)
    (hw : (count : ℤ) ≤ max - min + 1) (hc : count < 2 ^ 32) (hf : count + 1 ≤ fuel) :
    ∃ l : List ℤ, uniformDistinct ty min max count fuel = .ok (l.map .ok) ∧
      ∀ l' : List ℤ, l'.Perm l → l'.length = count ∧ l'.Nodup ∧ (∀ v ∈ l', min ≤ v ∧ v ≤ max) ∧ min ∈ l' ∧ (2 ≤ count → max ∈ l') := by
  suffices hs : ∃ l : List ℤ, uniformDistinct ty min max count fuel = .ok (l.map .ok) ∧ l.length = count ∧ l.Nodup ∧
      (∀ v ∈ l, min ≤ v ∧ v ≤ max) ∧ min ∈ l ∧ (2 ≤ count → max ∈ l) by
    obtain ⟨l, a, b, c, d, e, f⟩ := hs
    refine ⟨l, a, fun l' hp => ⟨hp.length_eq.trans b, hp.nodup_iff.2 c, fun v hv => d v (hp.mem_iff.1 hv), hp.mem_iff.2 e,
      fun g => hp.mem_iff.2 (f g)⟩⟩
  unfold uniformDistinct
  by_cases h1' : count = 1
  · rw [if_pos h1']
    refine ⟨[min], rfl, by simp [h1'], by simp, ?_, by simp, by omega⟩
    intro v hv
    have := h.2.1
    simp at hv; omega
  · have hmod : (count + (2 ^ 64 - 1)) % 2 ^ 64 % 2 ^ 32 = count - 1 := by
      have e : (count + (2 ^ 64 - 1)) % 2 ^ 64 = count - 1 := by norm_num at *; omega
      rw [e, Nat.mod_eq_of_lt (by norm_num at *; omega)]
    rw [if_neg h1', hmod]
    have hN : 0 < count - 1 := by omega
    obtain ⟨hm, f, f1, _, f3, f4, f5, _, _, f8⟩ := C71_linear_space_partial ty min max (count - 1) true h hN
    rw [hm]
    simp only
    rw [C71_sequence_partial _ (by unfold UMAX; simp only; norm_num at *; omega) fuel (by simp only; omega)]
    simp only
    have hst := f8 (by omega)
    simp only [if_true] at hst f3 f4
    refine ⟨(List.range (count - 1 + 1)).map f, ?_, by simp; omega, ?_, ?_, ?_, ?_⟩
    · rw [List.map_map]
      refine congrArg Res.ok (List.map_congr_left ?_)
      intro n hn
      rw [List.mem_range] at hn
      exact f1 n (by omega)
    · rw [List.nodup_map_iff_inj_on (List.nodup_range)]
      intro x hx y hy he
      rw [List.mem_range] at hx hy
      rcases lt_trichotomy x y with hl | hl | hl
      · have := hst x y hl (by omega); omega
      · exact hl
      · have := hst y x hl (by omega); omega
    · intro v hv
      obtain ⟨n, hn, rfl⟩ := List.mem_map.1 hv
      rw [List.mem_range] at hn
      exact f5 n (by omega)
    · exact List.mem_map.2 ⟨0, by simp, f3⟩
    · intro _
      exact List.mem_map.2 ⟨count - 1, by simp, f4⟩

/-- All the values of an 8-bit type can be generated. -/
example : ∃ l : List ℤ, uniformDistinct ⟨8, true⟩ (-128) 127 256 300 = .ok (l.map .ok) ∧ l.length = 256 ∧ l.Nodup := by
  obtain ⟨l, h1, h2⟩ := C71_distinct_numbers_partial ⟨8, true⟩ (-128) 127 256 300
    (fits_of_small (by decide) (by decide) (by decide) (by decide) (by decide)) (by decide) (by decide) (by decide) (by decide)
  exact ⟨l, h1, (h2 l (List.Perm.refl _)).1, (h2 l (List.Perm.refl _)).2.1⟩

/-- With wide 64-bit bounds the "distinct" numbers repeat: `2^60` and `2^60 + 1` have the same `double`, so both points are `2^60`.
(The caller's check that the range is wide enough passes.) -/
theorem C71_bug_wide_duplicates :
    uniformDistinct ⟨64, true⟩ (2 ^ 60) (2 ^ 60 + 1) 2 5 = .ok [.ok (2 ^ 60), .ok (2 ^ 60)] := by
  decide +kernel

/-- The last point of a linear space over all of `int64_t` is not its upper bound but 2046 below it. -/
theorem C71_bug_wide_end :
    (⟨⟨64, true⟩, -(2 ^ 63) + 1, 2 ^ 63 - 1, 1, true⟩ : LinSp).at 1 = .ok (2 ^ 63 - 1 - 2046) := by
  decide +kernel

/-- The number of steps is a 32-bit `unsigned`: asked for `2^32 + 2` distinct 64-bit numbers the function returns two, and asked for
`2^32 + 1` it throws. -/
theorem C71_bug_count_truncated (fuel : ℕ) :
    uniformDistinct ⟨64, true⟩ 0 (2 ^ 40) (2 ^ 32 + 2) 5 = .ok [.ok 0, .ok (2 ^ 40)] ∧
    uniformDistinct ⟨64, true⟩ 0 (2 ^ 40) (2 ^ 32 + 1) fuel = .invalidArgument := by
  refine ⟨by decide +kernel, ?_⟩
  unfold uniformDistinct
  rw [if_neg (by norm_num)]
  rfl

/-- Asked for no number at all — for which the check of the range passes — the function does not terminate. -/
theorem C71_bug_count_zero (ty : IntTy) (min max : ℤ) (h : min ≤ max) (fuel : ℕ) :
    uniformDistinct ty min max 0 fuel = .diverges := by
  unfold uniformDistinct LinSp.mk?
  rw [if_neg (by norm_num), if_neg (by omega), if_neg (by norm_num)]
  simp only
  rw [C71_bug_sequence_diverges _ (by unfold UMAX; norm_num)]

/-- `LinearSpace<double>`: every point is inside the bounds, the points move in one direction only, and the first is a bound. -/
theorem C71_double_space (s : DblSp) (h : s.lo ≤ s.hi) (hlo : rn s.lo = s.lo) (hhi : rn s.hi = s.hi) :
    (∀ n, s.lo ≤ s.at n ∧ s.at n ≤ s.hi) ∧
    (∀ n m, n ≤ m → if s.asc then s.at n ≤ s.at m else s.at m ≤ s.at n) ∧
    s.at 0 = (if s.asc then s.lo else s.hi) := by
  have hst : 0 ≤ s.step := rz_nonneg (div_nonneg (rz_nonneg (by linarith)) (by positivity))
  have cl_mono : ∀ v w, v ≤ w → clamp v s.lo s.hi ≤ clamp w s.lo s.hi := by
    intro v w hvw; unfold clamp; split_ifs <;> linarith
  refine ⟨?_, ?_, ?_⟩
  · intro n
    unfold DblSp.at clamp
    split_ifs <;> constructor <;> linarith
  · intro n m hnm
    have hm : rn ((n : ℚ) * s.step) ≤ rn ((m : ℚ) * s.step) :=
      rn_mono (mul_le_mul_of_nonneg_right (by exact_mod_cast hnm) hst)
    unfold DblSp.at
    rcases s.asc with _ | _
    · exact cl_mono _ _ (rn_mono (by linarith))
    · exact cl_mono _ _ (rn_mono (by linarith))
  · have r0 : rn 0 = 0 := by simp [rn]
    unfold DblSp.at
    simp only [Nat.cast_zero, zero_mul, r0, add_zero, sub_zero, hlo, hhi]
    unfold clamp
    split_ifs <;> first | rfl | linarith | (exfalso; linarith)

/-- A linear space of doubles need not reach its end: with 5 steps from 0 to 1, the last point is `1 - 2^-53` … -/
theorem C71_bug_double_end : (⟨0, 1, 5, true⟩ : DblSp).at 5 < 1 := by
  decide +kernel

/-- … and the space of selectivities with which the cost model of filters is trained ("from 0 to 1 (0% to 100%)") stays below 1, too. -/
theorem C71_bug_double_end_cost_model : (⟨0, 1, 25, true⟩ : DblSp).at 25 < 1 := by
  decide +kernel

/-- `GridSearch::search`: the callback is called for every point of the grid, exactly once, in lexicographic order; so it is called as
often as there are points. -/
theorem C71_grid_search (num : List ℕ) (hne : num ≠ []) :
    ∃ calls, (∀ fuel, (num.map (· + 1)).prod ≤ fuel → search num fuel = some calls) ∧
      (∀ c, c ∈ calls ↔ c.length = num.length ∧ ∀ i, (h : i < c.length) → (h' : i < num.length) → c[i] ≤ num[i]) ∧
      calls.Nodup ∧ calls.Pairwise (· < ·) ∧ calls.length = (num.map (· + 1)).prod := by
  obtain ⟨l, h1, h2, h3⟩ := search_spec hne (num.map (· + 1)).prod (le_refl _)
  have hval : ∀ c, Valid num c ↔ c.length = num.length ∧ ∀ i, (h : i < c.length) → (h' : i < num.length) → c[i] ≤ num[i] := by
    intro c
    unfold Valid
    rw [List.forall₂_iff_get]
    constructor
    · rintro ⟨a, b⟩
      exact ⟨a.symm, fun i h h' => b i h' h⟩
    · rintro ⟨a, b⟩
      exact ⟨a.symm, fun i h h' => b i h' h⟩
  have hnd : l.Nodup := by
    have : (l.map (val num)).Nodup := by rw [h3]; exact List.nodup_range
    exact List.Nodup.of_map _ this
  refine ⟨l, ?_, ?_, hnd, sorted_of_vals h2 h3, ?_⟩
  · intro fuel hf
    obtain ⟨l', h1', h2', h3'⟩ := search_spec hne fuel hf
    rw [h1']
    congr 1
    refine List.ext_getElem ?_ ?_
    · have a := congrArg List.length h3; have b := congrArg List.length h3'
      simp only [List.length_map, List.length_range] at a b; omega
    · intro i hi hi'
      refine val_inj (h2' _ (List.getElem_mem hi)) (h2 _ (List.getElem_mem hi')) ?_
      have e := h3'.trans h3.symm
      have := congrArg (fun x => x[i]?) e
      simpa [hi, hi'] using this
  · intro c
    rw [← hval]
    exact ⟨h2 c, map_mem_exists h2 h3⟩
  · have := congrArg List.length h3
    simpa using this

/-- Hence the callback gets every combination of the points of the spaces. -/
theorem C71_grid_args {α : Type} (spaces : List (ℕ → α)) (num : List ℕ) (hne : num ≠ []) (hl : spaces.length = num.length) :
    ∃ calls, search num (num.map (· + 1)).prod = some calls ∧
      ∀ a : List α, a ∈ calls.map (makeArgs spaces) ↔
        ∃ c : List ℕ, c.length = num.length ∧ a.length = num.length ∧
          ∀ i (h1 : i < num.length) (h2 : i < c.length) (h3 : i < a.length) (h4 : i < spaces.length),
            c[i] ≤ num[i] ∧ a[i] = spaces[i] c[i] := by
  obtain ⟨calls, h1, h2, _⟩ := C71_grid_search num hne
  refine ⟨calls, h1 _ (le_refl _), fun a => ?_⟩
  rw [List.mem_map]
  constructor
  · rintro ⟨c, hc, rfl⟩
    obtain ⟨hcl, hb⟩ := (h2 c).1 hc
    refine ⟨c, hcl, by simp [makeArgs]; omega, ?_⟩
    intro i a1 a2 a3 a4
    exact ⟨hb i a2 a1, by simp [makeArgs]⟩
  · rintro ⟨c, hcl, hal, hb⟩
    refine ⟨c, (h2 c).2 ⟨hcl, fun i b1 b2 => (hb i b2 b1 (by omega) (by omega)).1⟩, ?_⟩
    refine List.ext_getElem (by simp [makeArgs]; omega) ?_
    intro i b1 b2
    have := (hb i (by omega) (by omega) b2 (by omega)).2
    simp [makeArgs, this]

/-- `num_points()` is the number of calls, if that fits 32 bits. -/
theorem C71_num_points_partial (num : List ℕ) (hne : num ≠ []) (hb : (num.map (· + 1)).prod < 2 ^ 32) :
    ∃ calls, search num (num.map (· + 1)).prod = some calls ∧ numPoints num = calls.length := by
  obtain ⟨calls, h1, _, _, _, h5⟩ := C71_grid_search num hne
  exact ⟨calls, h1 _ (le_refl _), by rw [numPoints_eq num hne, Nat.mod_eq_of_lt hb, h5]⟩

/-- Otherwise it is not, although its type `std::size_t` could hold it: a grid of two spaces of 65536 points has `num_points() = 0`. -/
theorem C71_bug_num_points : numPoints [65535, 65535] = 0 ∧ (([65535, 65535] : List ℕ).map (· + 1)).prod = 2 ^ 32 := by
  decide

/-- A concrete run. -/
example : search [1, 2] 6 = some [[0, 0], [0, 1], [0, 2], [1, 0], [1, 1], [1, 2]] := by decide

end Mutable.Grid
