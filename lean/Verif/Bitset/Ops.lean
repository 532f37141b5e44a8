import Verif.Common
import Verif.Bitset.Arith
/-! Lemmas about `SmallBitset`: remaining operations, cardinality, iteration, subset loop. -/
namespace Mutable
namespace SB

theorem mem_setOp (S : SB) (i : Nat) (hi : i < 64) (v : Bool) (j : Nat) :
    Mem (set S i v) j ↔ if j = i then v = true else Mem S j := by
  have hs : (1#64 <<< i) = singleton i := rfl
  have hone : -(1#64) = ~~~ 0#64 := by decide
  have hz : -(0#64) = 0#64 := by decide
  rw [set, hs]
  simp only [mem_xor, mem_and, mem_singleton]
  cases v
  · simp only [Bool.false_eq_true, if_false, hz, not_mem_zero]
    split
    · subst j; simp [hi]
    · rename_i h; simp [h]
  · simp only [if_true, hone, mem_not, not_mem_zero, not_false_eq_true, and_true]
    split
    · subst j; simp [hi]
    · rename_i h; simp [h]

theorem mem_all {n : Nat} (h : n ≤ 64) (i : Nat) : Mem (all n) i ↔ i < n := by
  unfold all
  split
  · subst n; rw [mem_not]; simp
  · rw [mem_lowMask (by omega)]

theorem isEmpty_iff (S : SB) : isEmpty S = true ↔ ∀ i, ¬ Mem S i := by
  have := ne_zero_iff S
  simp only [isEmpty, beq_iff_eq]
  constructor
  · rintro rfl i; simp
  · intro h
    by_contra hc
    obtain ⟨i, hi⟩ := this.1 hc
    exact h i hi

/-- The Finset of elements. -/
def toFin (S : SB) : Finset Nat := (Finset.range 64).filter (fun i => Mem S i)

@[simp] theorem mem_toFin (S : SB) (i : Nat) : i ∈ toFin S ↔ Mem S i := by
  simp only [toFin, Finset.mem_filter, Finset.mem_range]
  exact ⟨fun h => h.2, fun h => ⟨mem_lt h, h⟩⟩

theorem rank_eq (S : SB) (n : Nat) : rank S n = ((Finset.range n).filter (fun i => Mem S i)).card := by
  rw [rank, List.countP_eq_length_filter]
  rw [Finset.card_def, Finset.filter_val, Finset.range_val, Multiset.range, Multiset.filter_coe, Multiset.coe_card]
  congr 1
  apply List.filter_congr
  intro i _
  exact Bool.decide_eq_true.symm

theorem size_eq_card (S : SB) : size S = (toFin S).card := rank_eq S 64

theorem size_le_of_sub {S T : SB} (h : Sub S T) : size S ≤ size T := by
  rw [size_eq_card, size_eq_card]
  apply Finset.card_le_card
  intro i; simpa using h i

theorem size_lt_of_ssub {S T : SB} (h : Sub S T) (hne : S ≠ T) : size S < size T := by
  rw [size_eq_card, size_eq_card]
  apply Finset.card_lt_card
  rw [Finset.ssubset_iff_subset_ne]
  refine ⟨fun i => by simpa using h i, fun hc => hne ?_⟩
  apply ext; intro i
  rw [← mem_toFin, hc, mem_toFin]

theorem size_le (S : SB) : size S ≤ 64 := by
  rw [size_eq_card]
  calc _ ≤ (Finset.range 64).card := Finset.card_filter_le _ _
    _ = 64 := by simp

theorem size_zero : size (0#64) = 0 := by decide

theorem size_eq_zero_iff (S : SB) : size S = 0 ↔ S = 0#64 := by
  constructor
  · intro h
    by_contra hc
    have := size_lt_of_ssub (S := 0#64) (T := S) (fun i hi => absurd hi (not_mem_zero i)) (Ne.symm hc)
    omega
  · rintro rfl; exact size_zero

theorem size_singleton {n : Nat} (h : n < 64) : size (singleton n) = 1 := by
  rw [size_eq_card, Finset.card_eq_one]
  refine ⟨n, ?_⟩
  ext i; simp; omega

theorem isSingleton_iff (S : SB) : isSingleton S = true ↔ ∃ n, n < 64 ∧ S = singleton n := by
  simp only [isSingleton, beq_iff_eq]
  constructor
  · intro h
    rw [size_eq_card, Finset.card_eq_one] at h
    obtain ⟨n, hn⟩ := h
    have hm : ∀ i, Mem S i ↔ i = n := by
      intro i; rw [← mem_toFin, hn]; simp
    have hn' : n < 64 := mem_lt ((hm n).2 rfl)
    refine ⟨n, hn', ext fun i => ?_⟩
    rw [hm, mem_singleton]
    constructor
    · rintro rfl; exact ⟨hn', rfl⟩
    · exact fun h => h.2
  · rintro ⟨n, hn, rfl⟩; exact size_singleton hn

theorem ctz_eq {S : SB} {z : Nat} (h : IsLeast S z) : ctz S = z := by
  have : (List.range 64).find? (fun i => S.getLsbD i) = some z := by
    rw [List.find?_range_eq_some]
    refine ⟨h.1, by simpa using mem_lt h.1, fun j hj => ?_⟩
    by_contra hc
    have := h.2 j (by simpa [Mem] using hc)
    omega
  rw [ctz, this]; rfl

theorem find_reverse_range (p : Nat → Bool) (n z : Nat) (hz : z < n) (hp : p z = true)
    (hmax : ∀ j, j < n → p j = true → j ≤ z) : (List.range n).reverse.find? p = some z := by
  induction n with
  | zero => omega
  | succ n ih =>
    rw [List.range_succ, List.reverse_append]
    simp only [List.reverse_cons, List.reverse_nil, List.nil_append, List.singleton_append, List.find?_cons]
    by_cases h : z = n
    · subst h; simp [hp]
    · have : p n = false := by
        by_contra hc
        have := hmax n (by omega) (by simpa using hc)
        omega
      rw [this]
      exact ih (by omega) (fun j hj => hmax j (by omega))

theorem hiIdx_eq {S : SB} {z : Nat} (h : IsGreatest S z) : hiIdx S = z := by
  rw [hiIdx, find_reverse_range _ 64 z (mem_lt h.1) h.1 (fun j _ hj => h.2 j hj)]; rfl

theorem mem_hi {S : SB} {z : Nat} (h : IsGreatest S z) (i : Nat) : Mem (hi S) i ↔ i = z := by
  rw [hi, hiIdx_eq h, mem_singleton]
  have := mem_lt h.1
  constructor
  · exact fun h => h.2
  · rintro rfl; exact ⟨this, rfl⟩

theorem mem_dropHi {S : SB} {z : Nat} (h : IsGreatest S z) (i : Nat) : Mem (dropHi S) i ↔ Mem S i ∧ i ≠ z := by
  have hs : (1#64 <<< z) = singleton z := rfl
  rw [dropHi, hiIdx_eq h, mem_and, hs, mem_not, mem_singleton]
  constructor
  · rintro ⟨h1, h2, h3⟩
    exact ⟨h1, fun hc => h3 ⟨h2, hc⟩⟩
  · rintro ⟨h1, h2⟩
    exact ⟨h1, mem_lt h1, fun hc => h2 hc.2⟩

theorem isLeast_singleton {n : Nat} (h : n < 64) : IsLeast (singleton n) n :=
  ⟨by simp [h], fun j hj => by simp at hj; omega⟩

theorem size_dropLo {S : SB} (h : S ≠ 0#64) : size (dropLo S) + 1 = size S := by
  obtain ⟨z, hz⟩ := exists_least h
  have : toFin (dropLo S) = (toFin S).erase z := by
    ext i; simp [mem_dropLo hz, and_comm]
  rw [size_eq_card, size_eq_card, this]
  exact Finset.card_erase_add_one (by simpa using hz.1)

theorem size_dropHi {S : SB} (h : S ≠ 0#64) : size (dropHi S) + 1 = size S := by
  obtain ⟨z, hz⟩ := exists_greatest h
  have : toFin (dropHi S) = (toFin S).erase z := by
    ext i; simp [mem_dropHi hz, and_comm]
  rw [size_eq_card, size_eq_card, this]
  exact Finset.card_erase_add_one (by simpa using hz.1)

/-! ### iteration -/

theorem iterLoop_spec (fuel : Nat) (S : SB) (h : size S ≤ fuel) :
    (∀ p ∈ iterLoop fuel S, p.2 = singleton p.1) ∧
    ((iterLoop fuel S).map Prod.fst).Pairwise (· < ·) ∧
    ∀ i, i ∈ (iterLoop fuel S).map Prod.fst ↔ Mem S i := by
  induction fuel generalizing S with
  | zero =>
    have : S = 0#64 := (size_eq_zero_iff S).1 (by omega)
    subst this; simp [iterLoop]
  | succ n ih =>
    unfold iterLoop
    split
    · subst S; simp
    · rename_i hne
      obtain ⟨z, hz⟩ := exists_least hne
      obtain ⟨h1, h2, h3⟩ := ih (dropLo S) (by have := size_dropLo hne; omega)
      refine ⟨?_, ?_, ?_⟩
      · intro p hp
        rcases List.mem_cons.1 hp with rfl | hp
        · simp only [ctz_eq hz, lo_eq_singleton hz]
        · exact h1 p hp
      · rw [List.map_cons, List.pairwise_cons]
        refine ⟨fun j hj => ?_, h2⟩
        have := (mem_dropLo hz j).1 ((h3 j).1 hj)
        have := hz.2 j this.1
        simp only [ctz_eq hz]; omega
      · intro i
        rw [List.map_cons, List.mem_cons, h3, mem_dropLo hz]
        simp only [ctz_eq hz]
        constructor
        · rintro (rfl | h)
          · exact hz.1
          · exact h.1
        · intro hi
          by_cases i = z
          · left; assumption
          · right; exact ⟨hi, by assumption⟩

theorem riterLoop_spec (fuel : Nat) (S : SB) (h : size S ≤ fuel) :
    (∀ p ∈ riterLoop fuel S, p.2 = singleton p.1) ∧
    ((riterLoop fuel S).map Prod.fst).Pairwise (· > ·) ∧
    ∀ i, i ∈ (riterLoop fuel S).map Prod.fst ↔ Mem S i := by
  induction fuel generalizing S with
  | zero =>
    have : S = 0#64 := (size_eq_zero_iff S).1 (by omega)
    subst this; simp [riterLoop]
  | succ n ih =>
    unfold riterLoop
    split
    · subst S; simp
    · rename_i hne
      obtain ⟨z, hz⟩ := exists_greatest hne
      obtain ⟨h1, h2, h3⟩ := ih (dropHi S) (by have := size_dropHi hne; omega)
      refine ⟨?_, ?_, ?_⟩
      · intro p hp
        rcases List.mem_cons.1 hp with rfl | hp
        · rfl
        · exact h1 p hp
      · rw [List.map_cons, List.pairwise_cons]
        refine ⟨fun j hj => ?_, h2⟩
        have := (mem_dropHi hz j).1 ((h3 j).1 hj)
        have := hz.2 j this.1
        simp only [hiIdx_eq hz]; omega
      · intro i
        rw [List.map_cons, List.mem_cons, h3, mem_dropHi hz]
        simp only [hiIdx_eq hz]
        constructor
        · rintro (rfl | h)
          · exact hz.1
          · exact h.1
        · intro hi
          by_cases i = z
          · left; assumption
          · right; exact ⟨hi, by assumption⟩

theorem iterLoop_fuel (n m : Nat) (S : SB) (hn : size S ≤ n) (hm : size S ≤ m) : iterLoop n S = iterLoop m S := by
  induction n generalizing S m with
  | zero =>
    have : S = 0#64 := (size_eq_zero_iff S).1 (by omega)
    subst this; cases m <;> simp [iterLoop]
  | succ n ih =>
    cases m with
    | zero =>
      have : S = 0#64 := (size_eq_zero_iff S).1 (by omega)
      subst this; simp [iterLoop]
    | succ m =>
      unfold iterLoop
      split
      · rfl
      · rename_i hne
        have := size_dropLo hne
        rw [ih m (dropLo S) (by omega) (by omega)]

/-! ### subset loop -/

theorem subsetLoop_spec (S : SB) (fuel : Nat) (sub : SB) (h : Sub sub S)
    (hf : S.toNat + 1 ≤ fuel + sub.toNat) (h0 : sub ≠ 0#64) :
    (subsetLoop S fuel sub).Pairwise (· < ·) ∧
    ∀ U, U ∈ subsetLoop S fuel sub ↔ Sub U S ∧ sub ≤ U := by
  induction fuel generalizing sub with
  | zero =>
    have := le_of_sub h
    rw [BitVec.le_def] at this; omega
  | succ n ih =>
    rw [subsetLoop, if_neg h0]
    by_cases hS : sub = S
    · subst hS
      rw [nextSubset_self]
      have : subsetLoop sub n 0#64 = [] := by cases n <;> simp [subsetLoop]
      rw [this]
      refine ⟨by simp, fun U => ?_⟩
      simp only [List.mem_singleton]
      constructor
      · rintro rfl; exact ⟨h, by rw [BitVec.le_def]⟩
      · rintro ⟨h1, h2⟩
        by_contra hc
        have := lt_of_ssub h1 hc
        rw [BitVec.lt_def] at this; rw [BitVec.le_def] at h2; omega
    · have hlt := lt_nextSubset h hS
      have hlt' := hlt
      rw [BitVec.lt_def] at hlt'
      have hn0 : nextSubset sub S ≠ 0#64 := by
        intro hc; rw [hc] at hlt'; simp at hlt'
      obtain ⟨h1, h2⟩ := ih (nextSubset sub S) (nextSubset_sub sub S) (by omega) hn0
      refine ⟨?_, ?_⟩
      · rw [List.pairwise_cons]
        refine ⟨fun U hU => ?_, h1⟩
        have := ((h2 U).1 hU).2
        rw [BitVec.lt_def]; rw [BitVec.le_def] at this; omega
      · intro U
        rw [List.mem_cons, h2]
        constructor
        · rintro (rfl | ⟨h3, h4⟩)
          · exact ⟨h, by rw [BitVec.le_def]⟩
          · refine ⟨h3, ?_⟩
            rw [BitVec.le_def] at *; omega
        · rintro ⟨h3, h4⟩
          by_cases hU : U = sub
          · left; exact hU
          · right
            refine ⟨h3, nextSubset_le h h3 ?_⟩
            rw [BitVec.le_def] at h4
            rw [BitVec.lt_def]
            have : U.toNat ≠ sub.toNat := fun hc => hU (BitVec.eq_of_toNat_eq hc)
            omega

theorem leastSubset_zero : leastSubset 0#64 = 0#64 := by decide

theorem leastSubset_le {S U : SB} (h : Sub U S) (hU : U ≠ 0#64) : leastSubset S ≤ U := by
  have hS : S ≠ 0#64 := by
    rintro rfl
    obtain ⟨i, hi⟩ := (ne_zero_iff U).1 hU
    exact not_mem_zero i (h i hi)
  obtain ⟨z, hz⟩ := exists_least hS
  obtain ⟨w, hw⟩ := (ne_zero_iff U).1 hU
  by_contra hc
  have hlt : U < leastSubset S := by
    rw [BitVec.le_def] at hc; rw [BitVec.lt_def]; omega
  obtain ⟨v, h1, h2, h3⟩ := (lt_iff _ _).1 hlt
  have hv : v = z := (mem_lo hz v).1 h2
  subst hv
  have hvw : v < w := by
    have := hz.2 w (h w hw)
    rcases Nat.eq_or_lt_of_le this with rfl | h
    · contradiction
    · exact h
  have := (mem_lo hz w).1 ((h3 w hvw).1 hw)
  omega

theorem leastSubset_sub (S : SB) : Sub (leastSubset S) S := by
  intro i hi
  rw [leastSubset, mem_and] at hi
  exact hi.1

theorem leastSubset_ne_zero {S : SB} (h : S ≠ 0#64) : leastSubset S ≠ 0#64 := by
  obtain ⟨z, hz⟩ := exists_least h
  rw [ne_zero_iff]
  exact ⟨z, (mem_lo hz z).2 rfl⟩

theorem subsetLoop_of_le (S : SB) (n m : Nat) (sub : SB) (h : Sub sub S)
    (hn : S.toNat + 1 ≤ n + sub.toNat) (hm : S.toNat + 1 ≤ m + sub.toNat) : subsetLoop S n sub = subsetLoop S m sub := by
  induction n generalizing m sub with
  | zero =>
    have := le_of_sub h
    rw [BitVec.le_def] at this; omega
  | succ n ih =>
    cases m with
    | zero =>
      have := le_of_sub h
      rw [BitVec.le_def] at this; omega
    | succ m =>
      unfold subsetLoop
      split
      · rfl
      · congr 1
        by_cases hS : sub = S
        · subst hS
          rw [nextSubset_self]
          cases n <;> cases m <;> simp [subsetLoop]
        · have hlt := lt_nextSubset h hS
          rw [BitVec.lt_def] at hlt
          exact ih m _ (nextSubset_sub sub S) (by omega) (by omega)

theorem mem_subsets (S U : SB) : U ∈ subsets S ↔ Sub U S ∧ U ≠ 0#64 := by
  by_cases hS : S = 0#64
  · subst hS
    constructor
    · intro h; simp [subsets, subsetLoop, leastSubset_zero] at h
    · rintro ⟨h1, h2⟩
      obtain ⟨i, hi⟩ := (ne_zero_iff U).1 h2
      exact absurd (h1 i hi) (not_mem_zero i)
  · have := (subsetLoop_spec S (S.toNat + 1) (leastSubset S) (leastSubset_sub S) (by omega) (leastSubset_ne_zero hS)).2 U
    rw [subsets, this]
    constructor
    · rintro ⟨h1, h2⟩
      refine ⟨h1, ?_⟩
      rintro rfl
      have h3 := leastSubset_ne_zero hS
      apply h3
      apply BitVec.eq_of_toNat_eq
      rw [BitVec.le_def] at h2
      simpa using h2
    · rintro ⟨h1, h2⟩; exact ⟨h1, leastSubset_le h1 h2⟩

theorem subsets_sorted (S : SB) : (subsets S).Pairwise (· < ·) := by
  by_cases hS : S = 0#64
  · subst hS; simp [subsets, subsetLoop, leastSubset_zero]
  · exact (subsetLoop_spec S (S.toNat + 1) (leastSubset S) (leastSubset_sub S) (by omega) (leastSubset_ne_zero hS)).1

end SB
end Mutable
