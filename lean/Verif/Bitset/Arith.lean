import Verif.Common
import Verif.Bitset.Basic
/-! Arithmetic lemmas on `SmallBitset`: the lowest-set-bit tricks and numeric order. -/
namespace Mutable
namespace SB

/-- Least element of a non-empty set. -/
def IsLeast (S : SB) (z : Nat) : Prop := Mem S z ∧ ∀ j, Mem S j → z ≤ j
/-- Greatest element of a non-empty set. -/
def IsGreatest (S : SB) (z : Nat) : Prop := Mem S z ∧ ∀ j, Mem S j → j ≤ z

theorem exists_least {S : SB} (h : S ≠ 0#64) : ∃ z, IsLeast S z := by
  obtain ⟨i, hi⟩ := (ne_zero_iff S).1 h
  refine ⟨Nat.find ⟨i, hi⟩, Nat.find_spec ⟨i, hi⟩, fun j hj => Nat.find_min' _ hj⟩

theorem exists_greatest_of (P : Nat → Prop) (hP : ∀ i, P i → i < 64) (h : ∃ i, P i) :
    ∃ z, P z ∧ ∀ j, P j → j ≤ z := by
  classical
  have h' : ∃ k, P (63 - k) ∧ k ≤ 63 := by
    obtain ⟨i, hi⟩ := h
    have := hP i hi
    exact ⟨63 - i, by rwa [show 63 - (63 - i) = i by omega], by omega⟩
  refine ⟨63 - Nat.find h', (Nat.find_spec h').1, fun j hj => ?_⟩
  have h1 := hP j hj
  have := Nat.find_min' h' (m := 63 - j) ⟨by rwa [show 63 - (63 - j) = j by omega], by omega⟩
  have h2 := (Nat.find_spec h').2
  omega

theorem exists_greatest {S : SB} (h : S ≠ 0#64) : ∃ z, IsGreatest S z :=
  exists_greatest_of (Mem S) (fun _ => mem_lt) ((ne_zero_iff S).1 h)

theorem mem_iff_testBit (S : SB) (i : Nat) : Mem S i ↔ S.toNat.testBit i = true := by
  simp [Mem, BitVec.getLsbD]

theorem mem_lowMask {z : Nat} (hz : z < 64) (i : Nat) : Mem ((1#64 <<< z) - 1#64) i ↔ i < z := by
  rw [mem_iff_testBit]
  have h1 : ((1#64 <<< z) - 1#64).toNat = 2^z - 1 := by
    have : 2^z < 2^64 := Nat.pow_lt_pow_right (by omega) hz
    have hp : 0 < 2^z := Nat.two_pow_pos z
    rw [BitVec.toNat_sub, BitVec.toNat_shiftLeft]
    simp only [BitVec.toNat_ofNat, Nat.shiftLeft_eq]
    generalize 2^z = q at *
    omega
  rw [h1, Nat.testBit_two_pow_sub_one]
  simp

theorem mem_sub_one {S : SB} {z : Nat} (h : IsLeast S z) (i : Nat) :
    Mem (S - 1#64) i ↔ i < z ∨ (z < i ∧ Mem S i) := by
  have hz := mem_lt h.1
  let T := S &&& ~~~ (singleton z)
  have hTz : T &&& singleton z = 0#64 := by
    apply ext; intro j; simp [T]
  have hTm : T &&& ((1#64 <<< z) - 1#64) = 0#64 := by
    apply ext; intro j
    simp only [mem_and, mem_lowMask hz, not_mem_zero, iff_false, T]
    rintro ⟨⟨hj, _⟩, hlt⟩
    have := h.2 j hj
    omega
  have hS : S = T + singleton z := by
    rw [BitVec.add_eq_or_of_and_eq_zero _ _ hTz]
    apply ext; intro j
    simp only [mem_or, mem_and, mem_not, mem_singleton, T]
    constructor
    · intro hj
      have := mem_lt hj
      by_cases j = z <;> simp_all
    · rintro (⟨hj, _⟩ | ⟨_, rfl⟩)
      · exact hj
      · exact h.1
  have hU : S - 1#64 = T ||| ((1#64 <<< z) - 1#64) := by
    rw [← BitVec.add_eq_or_of_and_eq_zero _ _ hTm]
    conv_lhs => rw [hS]
    simp only [singleton, BitVec.sub_eq_add_neg, BitVec.add_assoc]
  rw [hU]
  simp only [mem_or, mem_lowMask hz, T, mem_and, mem_not, mem_singleton]
  constructor
  · rintro (⟨hj, h2, h3⟩ | hlt)
    · have := h.2 i hj
      right
      exact ⟨by omega, hj⟩
    · left; exact hlt
  · rintro (hlt | ⟨hlt, hi⟩)
    · right; exact hlt
    · left
      have := mem_lt hi
      exact ⟨hi, this, by omega⟩

theorem neg_eq (S : SB) : -S = ~~~ (S - 1#64) := by
  rw [BitVec.not_sub_one_eq_not_add_one, ← BitVec.neg_eq_not_add]

theorem mem_neg {S : SB} {z : Nat} (h : IsLeast S z) (i : Nat) :
    Mem (-S) i ↔ i < 64 ∧ (i = z ∨ (z < i ∧ ¬ Mem S i)) := by
  rw [neg_eq, mem_not, mem_sub_one h]
  constructor
  · rintro ⟨h1, h2⟩
    refine ⟨h1, ?_⟩
    by_cases hi : i = z
    · exact Or.inl hi
    · right
      push Not at h2
      exact ⟨by omega, h2.2 (by omega)⟩
  · rintro ⟨h1, h2⟩
    refine ⟨h1, ?_⟩
    rintro (h3 | ⟨h3, h4⟩) <;> rcases h2 with h2 | ⟨h2, h5⟩ <;> first | omega | contradiction

theorem mem_lo {S : SB} {z : Nat} (h : IsLeast S z) (i : Nat) : Mem (lo S) i ↔ i = z := by
  have := mem_lt h.1
  rw [lo, mem_and, mem_neg h]
  constructor
  · rintro ⟨h1, _, h3 | ⟨_, h3⟩⟩
    · exact h3
    · contradiction
  · rintro rfl; exact ⟨h.1, this, Or.inl rfl⟩

theorem lo_eq_singleton {S : SB} {z : Nat} (h : IsLeast S z) : lo S = singleton z := by
  apply ext; intro i
  rw [mem_lo h, mem_singleton]
  have := mem_lt h.1
  constructor
  · rintro rfl; exact ⟨this, rfl⟩
  · rintro ⟨_, rfl⟩; rfl

theorem mem_dropLo {S : SB} {z : Nat} (h : IsLeast S z) (i : Nat) :
    Mem (dropLo S) i ↔ Mem S i ∧ i ≠ z := by
  rw [dropLo, mem_and, mem_sub_one h]
  constructor
  · rintro ⟨h1, h2 | ⟨h2, _⟩⟩
    · have := h.2 i h1; omega
    · exact ⟨h1, by omega⟩
  · rintro ⟨h1, h2⟩
    have := h.2 i h1
    exact ⟨h1, Or.inr ⟨by omega, h1⟩⟩

theorem mem_maskToLo {S : SB} {z : Nat} (h : IsLeast S z) (i : Nat) : Mem (maskToLo S) i ↔ i ≤ z := by
  rw [maskToLo, mem_xor, mem_sub_one h]
  by_cases h1 : Mem S i
  · have := h.2 i h1
    simp only [h1, true_iff, and_true]; omega
  · have : i ≠ z := by rintro rfl; exact h1 h.1
    simp only [h1, false_iff, and_false, or_false, not_not]; omega

/-! ### numeric order -/

theorem lt_iff (S T : SB) : S < T ↔ ∃ z, ¬ Mem S z ∧ Mem T z ∧ ∀ j, z < j → (Mem S j ↔ Mem T j) := by
  have key : ∀ A B : SB, (∃ z, ¬ Mem A z ∧ Mem B z ∧ ∀ j, z < j → (Mem A j ↔ Mem B j)) → A < B := by
    rintro A B ⟨z, h1, h2, h3⟩
    rw [BitVec.lt_def]
    apply Nat.lt_of_testBit z
    · have := mt (mem_iff_testBit A z).2 h1; simpa using this
    · exact (mem_iff_testBit B z).1 h2
    · intro j hj
      have := h3 j hj
      rw [mem_iff_testBit, mem_iff_testBit] at this
      cases ha : A.toNat.testBit j <;> cases hb : B.toNat.testBit j <;> simp_all
  refine ⟨fun hlt => ?_, key S T⟩
  have hne : ∃ i, ¬ (Mem S i ↔ Mem T i) := by
    by_contra hc
    push Not at hc
    have := ext hc
    subst this
    exact absurd hlt (by simp [BitVec.lt_def])
  obtain ⟨z, hz, hmax⟩ := exists_greatest_of (fun i => ¬ (Mem S i ↔ Mem T i))
    (fun i hi => by
      by_contra hc
      apply hi
      constructor <;> intro h <;> exact absurd (mem_lt h) hc) hne
  have hagree : ∀ j, z < j → (Mem S j ↔ Mem T j) := by
    intro j hj
    by_contra hc
    have := hmax j hc
    omega
  by_cases hS : Mem S z
  · have hT : ¬ Mem T z := fun h => hz ⟨fun _ => h, fun _ => hS⟩
    have := key T S ⟨z, hT, hS, fun j hj => (hagree j hj).symm⟩
    rw [BitVec.lt_def] at this hlt
    omega
  · have hT : Mem T z := by
      by_contra hT
      exact hz ⟨fun h => absurd h hS, fun h => absurd h hT⟩
    exact ⟨z, hS, hT, hagree⟩

/-- subset -/
def Sub (S T : SB) : Prop := ∀ i, Mem S i → Mem T i

theorem sub_antisymm {S T : SB} (h : Sub S T) (h' : Sub T S) : S = T :=
  ext fun i => ⟨h i, h' i⟩
theorem Sub.refl (S : SB) : Sub S S := fun _ h => h
theorem Sub.trans {S T U : SB} (h : Sub S T) (h' : Sub T U) : Sub S U := fun i hi => h' i (h i hi)

theorem isSubset_iff (S T : SB) : isSubset S T = true ↔ Sub S T := by
  simp only [isSubset, beq_iff_eq]
  constructor
  · intro h i hi
    rw [h] at hi
    exact ((mem_and _ _ _).1 hi).1
  · intro h
    apply ext; intro i
    rw [mem_and]
    exact ⟨fun hi => ⟨h i hi, hi⟩, fun hi => hi.2⟩

theorem lt_of_ssub {S T : SB} (h : Sub S T) (hne : S ≠ T) : S < T := by
  rcases Nat.lt_trichotomy S.toNat T.toNat with h1 | h1 | h1
  · exact h1
  · exact absurd (BitVec.eq_of_toNat_eq h1) hne
  · obtain ⟨z, h2, h3, _⟩ := (lt_iff T S).1 (by rw [BitVec.lt_def]; exact h1)
    exact absurd (h z h3) h2

theorem le_of_sub {S T : SB} (h : Sub S T) : S ≤ T := by
  by_cases he : S = T
  · rw [he, BitVec.le_def]
  · have := lt_of_ssub h he
    rw [BitVec.le_def]; rw [BitVec.lt_def] at this; omega

/-! ### `next_subset` -/

theorem nextSubset_eq {sub S : SB} (h : Sub sub S) : nextSubset sub S = S &&& ~~~ (diff S sub - 1#64) := by
  have h1 : sub - S = ~~~ (diff S sub - 1#64) := by
    rw [← neg_eq]
    have : S = diff S sub + sub := by
      rw [BitVec.add_eq_or_of_and_eq_zero]
      · apply ext; intro i
        have := h i
        simp only [mem_or, mem_diff]; tauto
      · apply ext; intro i; simp
    conv_lhs => rw [this]
    rw [BitVec.sub_eq_add_neg, BitVec.neg_add, BitVec.sub_eq_add_neg, BitVec.add_comm (-diff S sub), ← BitVec.add_assoc,
      BitVec.add_right_neg, BitVec.zero_add]
  rw [nextSubset, h1, BitVec.and_comm]

theorem nextSubset_self (S : SB) : nextSubset S S = 0#64 := by
  simp [nextSubset]

theorem mem_nextSubset {sub S : SB} {z : Nat} (h : Sub sub S) (hz : IsLeast (diff S sub) z) (i : Nat) :
    Mem (nextSubset sub S) i ↔ i = z ∨ (z < i ∧ Mem sub i) := by
  rw [nextSubset_eq h, mem_and, mem_not, mem_sub_one hz]
  have hz1 := (mem_diff _ _ _).1 hz.1
  constructor
  · rintro ⟨h1, h2, h3⟩
    push Not at h3
    rw [mem_diff] at h3
    by_cases hi : i = z
    · exact Or.inl hi
    · have h4 : z < i := by omega
      have := h3.2 h4
      right; exact ⟨h4, by tauto⟩
  · rintro (rfl | ⟨h1, h2⟩)
    · exact ⟨hz1.1, mem_lt hz1.1, by omega⟩
    · refine ⟨h i h2, mem_lt h2, ?_⟩
      rintro (h3 | ⟨_, h3⟩)
      · omega
      · exact ((mem_diff _ _ _).1 h3).2 h2

theorem diff_ne_zero {sub S : SB} (h : Sub sub S) (hne : sub ≠ S) : diff S sub ≠ 0#64 := by
  intro hc
  apply hne
  apply sub_antisymm h
  intro i hi
  by_contra hn
  have : Mem (diff S sub) i := (mem_diff _ _ _).2 ⟨hi, hn⟩
  rw [hc] at this
  exact not_mem_zero i this

theorem nextSubset_sub (sub S : SB) : Sub (nextSubset sub S) S := by
  intro i hi
  rw [nextSubset, mem_and] at hi
  exact hi.2

theorem lt_nextSubset {sub S : SB} (h : Sub sub S) (hne : sub ≠ S) : sub < nextSubset sub S := by
  obtain ⟨z, hz⟩ := exists_least (diff_ne_zero h hne)
  rw [lt_iff]
  have hz1 := (mem_diff _ _ _).1 hz.1
  refine ⟨z, hz1.2, (mem_nextSubset h hz z).2 (Or.inl rfl), fun j hj => ?_⟩
  rw [mem_nextSubset h hz]
  constructor
  · intro h1; exact Or.inr ⟨hj, h1⟩
  · rintro (h1 | h1)
    · omega
    · exact h1.2

theorem nextSubset_le {sub S U : SB} (h : Sub sub S) (hU : Sub U S) (hlt : sub < U) : nextSubset sub S ≤ U := by
  have hne : sub ≠ S := by
    rintro rfl
    have := le_of_sub hU
    rw [BitVec.le_def] at this; rw [BitVec.lt_def] at hlt; omega
  obtain ⟨z, hz⟩ := exists_least (diff_ne_zero h hne)
  obtain ⟨w, hw1, hw2, hw3⟩ := (lt_iff _ _).1 hlt
  have hwz : z ≤ w := hz.2 w ((mem_diff _ _ _).2 ⟨hU w hw2, hw1⟩)
  rcases Nat.eq_or_lt_of_le hwz with rfl | hlt2
  · apply le_of_sub
    intro i hi
    rcases (mem_nextSubset h hz i).1 hi with rfl | ⟨h1, h2⟩
    · exact hw2
    · exact (hw3 i h1).1 h2
  · have : nextSubset sub S < U := by
      rw [lt_iff]
      refine ⟨w, ?_, hw2, ?_⟩
      · rw [mem_nextSubset h hz]
        rintro (h1 | h1)
        · omega
        · exact hw1 h1.2
      · intro j hj
        rw [mem_nextSubset h hz, ← hw3 j hj]
        constructor
        · rintro (h1 | h1)
          · omega
          · exact h1.2
        · intro h1; exact Or.inr ⟨by omega, h1⟩
    rw [BitVec.le_def]; rw [BitVec.lt_def] at this; omega

end SB
end Mutable
