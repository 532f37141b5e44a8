import Verif.Common
import Mathlib.Data.Set.Basic
import Mathlib.Data.Set.Card
import Verif.Bitset.Gosper
/-!
# Properties C01–C04 of `SmallBitset`, its iterators and the subset enumerations

Specification: `elems S` is the mathematical set of the `i < 64` for which the API call `S[i]` returns `true`.
-/
namespace Mutable
namespace SB

/-- The set denoted by a `SmallBitset`, observed through `operator[]`. -/
def elems (S : SB) : Set Nat := {i | i < 64 ∧ get S i = true}

theorem mem_elems (S : SB) (i : Nat) : i ∈ elems S ↔ Mem S i := by
  simp only [elems, Set.mem_setOf_eq, get_iff]
  exact ⟨fun h => h.2, fun h => ⟨mem_lt h, h⟩⟩

theorem sub_iff_elems (S T : SB) : Sub S T ↔ elems S ⊆ elems T :=
  ⟨fun h i hi => (mem_elems T i).2 (h i ((mem_elems S i).1 hi)),
   fun h i hi => (mem_elems T i).1 (h ((mem_elems S i).2 hi))⟩

theorem elems_eq_toFin (S : SB) : elems S = ↑(toFin S) := by
  ext i; simp [mem_elems]

/-! ## C01 -/

/-- Two bitsets are equal (`operator==`) iff they denote the same set. -/
theorem C01_eq (S T : SB) : S = T ↔ elems S = elems T := by
  constructor
  · rintro rfl; rfl
  · intro h; apply ext; intro i; rw [← mem_elems, h, mem_elems]

theorem C01_all (n : Nat) (h : n ≤ 64) : elems (all n) = {i | i < n} := by
  ext i; rw [mem_elems, mem_all h]; rfl
example : (64 : Nat) ≤ 64 ∧ elems (all 64) = {i | i < 64} := ⟨by decide, C01_all 64 (by decide)⟩
example : elems (all 0) = {i | i < 0} := C01_all 0 (by decide)

theorem C01_singleton (n : Nat) (h : n < 64) : elems (singleton n) = {n} := by
  ext i; rw [mem_elems, mem_singleton]; simp; omega
example : elems (singleton 63) = {63} := C01_singleton 63 (by decide)

/-- `S[i] = v` changes exactly element `i`. -/
theorem C01_assign (S : SB) (i : Nat) (h : i < 64) (v : Bool) :
    elems (set S i v) = if v then insert i (elems S) else elems S \ {i} := by
  ext j
  rw [mem_elems, mem_setOp S i h]
  cases v
  · simp only [Bool.false_eq_true, if_false, Set.mem_diff, mem_elems, Set.mem_singleton_iff]
    split <;> simp_all
  · simp only [if_true, Set.mem_insert_iff, mem_elems]
    split <;> simp_all
example : elems (set (singleton 3) 5 true) = insert 5 (elems (singleton 3)) := C01_assign _ 5 (by decide) true

theorem C01_union (S T : SB) : elems (union S T) = elems S ∪ elems T := by
  ext i; simp [mem_elems, union]
theorem C01_inter (S T : SB) : elems (inter S T) = elems S ∩ elems T := by
  ext i; simp [mem_elems, inter]
theorem C01_diff (S T : SB) : elems (diff S T) = elems S \ elems T := by
  ext i; simp [mem_elems]
theorem C01_compl (S : SB) : elems (compl S) = {i | i < 64 ∧ i ∉ elems S} := by
  ext i; simp only [mem_elems, compl, mem_not, Set.mem_setOf_eq]

theorem C01_subset (S T : SB) : isSubset S T = true ↔ elems S ⊆ elems T := by
  rw [isSubset_iff, sub_iff_elems]

theorem C01_size (S : SB) : size S = (elems S).ncard := by
  rw [size_eq_card, elems_eq_toFin, Set.ncard_coe_finset]

theorem C01_empty (S : SB) : isEmpty S = true ↔ elems S = ∅ := by
  rw [isEmpty_iff, Set.eq_empty_iff_forall_notMem]
  simp only [mem_elems]

theorem C01_isSingleton (S : SB) : isSingleton S = true ↔ ∃ n, elems S = {n} := by
  rw [isSingleton_iff]
  constructor
  · rintro ⟨n, hn, rfl⟩; exact ⟨n, C01_singleton n hn⟩
  · rintro ⟨n, h⟩
    have hn : n < 64 := by
      have : n ∈ elems S := by rw [h]; rfl
      exact this.1
    refine ⟨n, hn, ?_⟩
    rw [C01_eq, h, C01_singleton n hn]

/-- `hi()` is the singleton of the maximum. -/
theorem C01_hi (S : SB) (h : elems S ≠ ∅) :
    ∃ z, z ∈ elems S ∧ (∀ j ∈ elems S, j ≤ z) ∧ elems (hi S) = {z} := by
  have h0 : S ≠ 0#64 := by rintro rfl; apply h; ext i; simp [mem_elems]
  obtain ⟨z, hz⟩ := exists_greatest h0
  refine ⟨z, (mem_elems _ _).2 hz.1, fun j hj => hz.2 j ((mem_elems _ _).1 hj), ?_⟩
  ext i; rw [mem_elems, mem_hi hz]; rfl
example : elems (singleton 7) ≠ ∅ := by rw [C01_singleton 7 (by decide)]; simp

/-- `mask_to_lo()` is the set of all indices up to and including the minimum. -/
theorem C01_maskToLo (S : SB) (h : elems S ≠ ∅) :
    ∃ z, z ∈ elems S ∧ (∀ j ∈ elems S, z ≤ j) ∧ elems (maskToLo S) = {i | i ≤ z} := by
  have h0 : S ≠ 0#64 := by rintro rfl; apply h; ext i; simp [mem_elems]
  obtain ⟨z, hz⟩ := exists_least h0
  refine ⟨z, (mem_elems _ _).2 hz.1, fun j hj => hz.2 j ((mem_elems _ _).1 hj), ?_⟩
  ext i; rw [mem_elems, mem_maskToLo hz]; rfl

/-- `singleton_to_lo_mask()` of `{n}` is the set of all smaller indices. -/
theorem C01_singletonToLoMask (n : Nat) (h : n < 64) : elems (singletonToLoMask (singleton n)) = {i | i < n} := by
  ext i; rw [mem_elems, singletonToLoMask]
  exact mem_lowMask h i

/-- `operator++`/`operator--` step through the power set in numeric order. -/
theorem C01_succ (S : SB) (h : elems S ≠ {i | i < 64}) : (succ S).toNat = S.toNat + 1 := by
  have : S ≠ ~~~ 0#64 := by
    rintro rfl; apply h; ext i; rw [mem_elems, mem_not]; simp
  have h2 : S.toNat ≠ 2^64 - 1 := by
    intro hc
    apply this
    apply BitVec.eq_of_toNat_eq
    rw [hc]; decide
  have := S.isLt
  simp only [succ, BitVec.toNat_add, BitVec.toNat_ofNat]
  omega
theorem C01_pred (S : SB) (h : elems S ≠ ∅) : (pred S).toNat + 1 = S.toNat := by
  have h0 : S ≠ 0#64 := by rintro rfl; apply h; ext i; simp [mem_elems]
  have : S.toNat ≠ 0 := fun hc => h0 (BitVec.eq_of_toNat_eq (by simpa using hc))
  have := S.isLt
  simp only [pred, BitVec.toNat_sub, BitVec.toNat_ofNat]
  omega

/-! ## C02 -/

/-- Forward iteration: strictly increasing, exactly the elements (hence each once), and `as_set()` is the singleton. -/
theorem C02_forward (S : SB) :
    ((iterate S).map Prod.fst).Pairwise (· < ·) ∧
    (∀ i, i ∈ (iterate S).map Prod.fst ↔ i ∈ elems S) ∧
    (∀ p ∈ iterate S, elems p.2 = {p.1}) := by
  obtain ⟨h1, h2, h3⟩ := iterLoop_spec 64 S (size_le S)
  refine ⟨h2, fun i => by rw [mem_elems]; exact h3 i, fun p hp => ?_⟩
  rw [h1 p hp, C01_singleton]
  exact mem_lt ((h3 p.1).1 (List.mem_map_of_mem hp))

/-- Reverse iteration: strictly decreasing, exactly the elements. -/
theorem C02_reverse (S : SB) :
    ((riterate S).map Prod.fst).Pairwise (· > ·) ∧
    (∀ i, i ∈ (riterate S).map Prod.fst ↔ i ∈ elems S) ∧
    (∀ p ∈ riterate S, elems p.2 = {p.1}) := by
  obtain ⟨h1, h2, h3⟩ := riterLoop_spec 64 S (size_le S)
  refine ⟨h2, fun i => by rw [mem_elems]; exact h3 i, fun p hp => ?_⟩
  rw [h1 p hp, C01_singleton]
  exact mem_lt ((h3 p.1).1 (List.mem_map_of_mem hp))

/-- Termination: running the loop for more than 64 iterations changes nothing. -/
theorem C02_terminates (S : SB) (n : Nat) (h : 64 ≤ n) : iterLoop n S = iterate S :=
  iterLoop_fuel n 64 S (le_trans (size_le S) h) (size_le S)

example : iterate (0x8000000000000012#64) = [(1, 2#64), (4, 16#64), (63, 0x8000000000000000#64)] := by decide
example : (riterate (0x8000000000000012#64)).map Prod.fst = [63, 4, 1] := by decide

/-! ## C03 -/

/-- The subset loop enumerates exactly the non-empty subsets, in strictly increasing numeric order. -/
theorem C03_subsets (S : SB) :
    (subsets S).Pairwise (fun A B => A.toNat < B.toNat) ∧
    ∀ U, U ∈ subsets S ↔ elems U ⊆ elems S ∧ elems U ≠ ∅ := by
  refine ⟨subsets_sorted S, fun U => ?_⟩
  rw [mem_subsets, sub_iff_elems]
  have : U ≠ 0#64 ↔ elems U ≠ ∅ := by
    rw [not_iff_not, C01_eq]
    have : elems (0#64) = ∅ := by ext i; simp [mem_elems]
    rw [this]
  rw [this]

/-- Every subset is enumerated exactly once. -/
theorem C03_nodup (S : SB) : (subsets S).Nodup :=
  (C03_subsets S).1.imp (fun h he => by subst he; omega)

/-- A strict subset is enumerated before its superset. -/
theorem C03_subset_first (S A B : SB) (hA : elems A ≠ ∅) (hB : elems B ⊆ elems S) (hAB : elems A ⊂ elems B) :
    ∃ l₁ l₂ l₃, subsets S = l₁ ++ A :: l₂ ++ B :: l₃ := by
  have hBne : elems B ≠ ∅ := by
    intro hc; rw [hc] at hAB; exact hA (Set.subset_empty_iff.1 hAB.1)
  have hmB : B ∈ subsets S := ((C03_subsets S).2 B).2 ⟨hB, hBne⟩
  have hmA : A ∈ subsets S := ((C03_subsets S).2 A).2 ⟨hAB.1.trans hB, hA⟩
  obtain ⟨m₁, m₂, hm⟩ := List.append_of_mem hmB
  have hlt : A.toNat < B.toNat := by
    have := lt_of_ssub ((sub_iff_elems A B).2 hAB.1) (by rintro rfl; exact hAB.2 subset_rfl)
    rwa [BitVec.lt_def] at this
  have hs := (C03_subsets S).1
  rw [hm] at hmA hs
  rw [List.pairwise_append] at hs
  rcases List.mem_append.1 hmA with h | h
  · obtain ⟨n₁, n₂, hn⟩ := List.append_of_mem h
    exact ⟨n₁, n₂, m₂, by rw [hm, hn]⟩
  · rcases List.mem_cons.1 h with h | h
    · subst h; omega
    · have := (List.pairwise_cons.1 hs.2.1).1 A h
      omega
example : subsets 0b10110#64 = [0b10#64, 0b100#64, 0b110#64, 0b10000#64, 0b10010#64, 0b10100#64, 0b10110#64] := by decide

/-- Termination: `S + 1` loop iterations suffice. -/
theorem C03_terminates (S : SB) (n : Nat) (h : S.toNat + 1 ≤ n) : subsetLoop S n (leastSubset S) = subsets S :=
  subsetLoop_of_le S n _ _ (leastSubset_sub S) (by omega) (by omega)

/-- When all subsets have been seen the loop variable becomes the empty set. -/
theorem C03_last (S : SB) : elems (nextSubset S S) = ∅ := by
  rw [nextSubset_self]; ext i; simp [mem_elems]

/-! ## C04 -/

/-- `GospersHack::enumerate_all(k, n)` enumerates exactly the `k`-element subsets of `{0..n-1}` in increasing order. -/
theorem C04_gosper (k n : Nat) (hk : 1 ≤ k) (hkn : k ≤ n) (hn : n < 64) :
    (gosperAll k n).Pairwise (fun A B => A.toNat < B.toNat) ∧
    ∀ U, U ∈ gosperAll k n ↔ elems U ⊆ {i | i < n} ∧ (elems U).ncard = k := by
  obtain ⟨h1, h2⟩ := gosperAll_spec hk hkn hn
  refine ⟨h1, fun U => ?_⟩
  rw [h2, C01_size]
  have : (∀ i, Mem U i → i < n) ↔ elems U ⊆ {i | i < n} := by
    constructor
    · intro h i hi; exact h i ((mem_elems U i).1 hi)
    · intro h i hi; exact h ((mem_elems U i).2 hi)
  rw [this]
example : gosperAll 2 4 = [3#64, 5#64, 6#64, 9#64, 10#64, 12#64] := by decide

/-- `GospersHack::enumerate_from(s, n)` enumerates exactly the remaining sets of the same size, i.e. those not
smaller than `s`, in increasing order. -/
theorem C04_gosper_from (s : SB) (n : Nat) (hs : elems s ≠ ∅) (hn : n < 64) :
    (gosperFrom s n).Pairwise (fun A B => A.toNat < B.toNat) ∧
    ∀ U, U ∈ gosperFrom s n ↔ elems U ⊆ {i | i < n} ∧ (elems U).ncard = (elems s).ncard ∧ s.toNat ≤ U.toNat := by
  have h0 : s ≠ 0#64 := by rintro rfl; apply hs; ext i; simp [mem_elems]
  have hk : 1 ≤ size s := by
    have := mt (size_eq_zero_iff s).1 h0; omega
  obtain ⟨h1, h2⟩ := gosperLoop_spec hn hk (2^n) s rfl (by omega)
  refine ⟨h1, fun U => ?_⟩
  rw [gosperFrom, h2, C01_size, C01_size, BitVec.le_def]
  have : (∀ i, Mem U i → i < n) ↔ elems U ⊆ {i | i < n} := by
    constructor
    · intro h i hi; exact h i ((mem_elems U i).1 hi)
    · intro h i hi; exact h ((mem_elems U i).2 hi)
  rw [this]
example : gosperFrom 5#64 4 = [5#64, 6#64, 9#64, 10#64, 12#64] := by decide

/-- Termination of Gosper's loop: `2^n` iterations suffice. -/
theorem C04_terminates (k n : Nat) (hk : 1 ≤ k) (hkn : k ≤ n) (hn : n < 64) (f : Nat) (hf : 2^n ≤ f) :
    gosperLoop (1#64 <<< n) f (all k) = gosperAll k n :=
  gosperLoop_fuel hn hk f (2^n) (all k) (size_all (by omega)) (by omega) (by omega)

/-- `SubsetEnumerator(S, k)` enumerates exactly the `k`-element subsets of `S`, in increasing order. -/
theorem C04_subsetEnumerator (S : SB) (k : Nat) (hk : 1 ≤ k) (hkn : k ≤ (elems S).ncard) (hn : (elems S).ncard < 64) :
    (subsetsOfSize S k).Pairwise (fun A B => A.toNat < B.toNat) ∧
    ∀ U, U ∈ subsetsOfSize S k ↔ elems U ⊆ elems S ∧ (elems U).ncard = k := by
  rw [← C01_size] at hkn hn
  obtain ⟨h1, h2⟩ := subsetsOfSize_spec hk hkn hn
  refine ⟨h1, fun U => ?_⟩
  rw [h2, C01_size, sub_iff_elems]
example : subsetsOfSize 0b11010#64 2 = [0b1010#64, 0b10010#64, 0b11000#64] := by decide

/-- The side condition `1 ≤ k` is needed: for `k = 0` the loop never leaves the empty set (it does not terminate although
`enumerate_all(0, n)` passes its assertions). -/
theorem C04_zero_diverges (n fuel : Nat) (hn : n < 64) :
    gosperLoop (1#64 <<< n) fuel (all 0) = List.replicate fuel (0#64) := by
  have ha : all 0 = 0#64 := by decide
  have hnext : gosperNext 0#64 = 0#64 := by decide
  rw [ha]
  induction fuel with
  | zero => rfl
  | succ f ih =>
    rw [gosperLoop, if_pos, hnext, ih, List.replicate_succ]
    rw [BitVec.lt_def, toNat_limit hn]
    exact Nat.two_pow_pos n

/-- On hardware without BMI2 the step agrees with the BMI2 step while the affected bits stay below 32 ... -/
theorem C04_portable_ok (s : SB) (h0 : elems s ≠ ∅) (h : elems s ⊆ {i | i < 31}) :
    gosperNextPortable s = gosperNext s := by
  have h0 : s ≠ 0#64 := by rintro rfl; apply h0; ext i; simp [mem_elems]
  obtain ⟨z, hh, H, hle⟩ := exists_lowBlock h0 (n := 31) (by omega) (fun i hi => h ((mem_elems s i).2 hi))
  exact gosperNextPortable_eq H (by omega)
example : elems (0b110#64) ⊆ {i | i < 31} ∧ gosperNextPortable 0b110#64 = 0b1001#64 := by
  refine ⟨?_, by decide⟩
  intro i hi
  rw [mem_elems] at hi
  by_contra hc
  simp only [Set.mem_setOf_eq, not_lt] at hc
  have : Mem (0b110#64) i → i < 31 := by
    rw [← not_imp_not]; intro h
    simp only [Mem, BitVec.getLsbD_ofNat]
    intro h2
    simp only [Bool.and_eq_true, decide_eq_true_eq] at h2
    have h3 := Nat.lt_of_lt_of_le (show 6 < 2^3 by decide) (Nat.pow_le_pow_right (show 0 < 2 by decide) (show 3 ≤ i by omega))
    rw [Nat.testBit_lt_two_pow h3] at h2
    simp at h2
  exact absurd (this hi) (by omega)

/-- ... and is wrong beyond: `{30,31}` is followed by the one-element set `{32}`, because `__builtin_popcount` truncates
its argument to 32 bits (ADT.hpp:871). -/
theorem C04_portable_wrong : size (gosperNextPortable 0xC0000000#64) = 1 ∧ size (0xC0000000#64) = 2 := by
  decide

end SB
end Mutable
