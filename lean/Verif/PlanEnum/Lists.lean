import Verif.PlanEnum.BottomUp
/-! The candidate lists of the bottom-up enumerators. -/
namespace Mutable
open SB
namespace PE

theorem untilLoop_mem (S limit : SB) (hl : Sub limit S) (fuel : Nat) (sub : SB) (h : Sub sub S)
    (hle : sub ≤ limit) (hf : limit.toNat + 1 ≤ fuel + sub.toNat) (U : SB) :
    U ∈ untilLoop S limit fuel sub ↔ Sub U S ∧ sub ≤ U ∧ U < limit := by
  induction fuel generalizing sub with
  | zero => rw [BitVec.le_def] at hle; omega
  | succ k ih =>
    rw [untilLoop]
    by_cases he : sub = limit
    · rw [if_pos he]
      simp only [List.not_mem_nil, false_iff]
      rintro ⟨_, h2, h3⟩
      rw [← he, BitVec.lt_def] at h3
      rw [BitVec.le_def] at h2
      omega
    · rw [if_neg he]
      have hlt : sub < limit := by
        rw [BitVec.lt_def]; rw [BitVec.le_def] at hle
        have : sub.toNat ≠ limit.toNat := fun hc => he (BitVec.eq_of_toNat_eq hc)
        omega
      have hneS : sub ≠ S := by
        rintro rfl
        have := le_of_sub hl
        rw [BitVec.le_def] at this; rw [BitVec.lt_def] at hlt; omega
      have h1 := nextSubset_le h hl hlt
      have h2 := lt_nextSubset h hneS
      rw [List.mem_cons, ih _ (nextSubset_sub sub S) h1 (by rw [BitVec.lt_def] at h2; omega)]
      constructor
      · rintro (rfl | ⟨h3, h4, h5⟩)
        · exact ⟨h, by rw [BitVec.le_def], hlt⟩
        · refine ⟨h3, ?_, h5⟩
          rw [BitVec.le_def] at h4 ⊢; rw [BitVec.lt_def] at h2; omega
      · rintro ⟨h3, h4, h5⟩
        by_cases hU : U = sub
        · exact Or.inl hU
        · right
          refine ⟨h3, nextSubset_le h h3 ?_, h5⟩
          rw [BitVec.le_def] at h4; rw [BitVec.lt_def]
          have : sub.toNat ≠ U.toNat := fun hc => hU (BitVec.eq_of_toNat_eq hc.symm)
          omega

theorem mem_subsetsUntil {S limit : SB} (hl : Sub limit S) (h0 : limit ≠ 0#64) (U : SB) :
    U ∈ subsetsUntil S limit ↔ Sub U S ∧ U ≠ 0#64 ∧ U < limit := by
  have hS : S ≠ 0#64 := by
    obtain ⟨i, hi⟩ := (ne_zero_iff _).1 h0
    exact (ne_zero_iff _).2 ⟨i, hl i hi⟩
  rw [subsetsUntil, untilLoop_mem S limit hl _ _ (leastSubset_sub S) (leastSubset_le hl h0) (by
    have := le_of_sub hl
    rw [BitVec.le_def] at this; omega)]
  constructor
  · rintro ⟨h1, h2, h3⟩
    refine ⟨h1, ?_, h3⟩
    rintro rfl
    apply leastSubset_ne_zero hS
    apply BitVec.eq_of_toNat_eq
    rw [BitVec.le_def] at h2
    simpa using h2
  · rintro ⟨h1, h2, h3⟩; exact ⟨h1, leastSubset_le h1 h2, h3⟩

/-- with `limit = S`: the non-empty strict subsets -/
theorem mem_until_self {S : SB} (h0 : S ≠ 0#64) (U : SB) :
    U ∈ subsetsUntil S S ↔ Sub U S ∧ U ≠ 0#64 ∧ U ≠ S := by
  rw [mem_subsetsUntil (Sub.refl S) h0]
  constructor
  · rintro ⟨h1, h2, h3⟩
    refine ⟨h1, h2, ?_⟩
    rintro rfl
    rw [BitVec.lt_def] at h3; omega
  · rintro ⟨h1, h2, h3⟩; exact ⟨h1, h2, lt_of_ssub h1 h3⟩

/-- with `limit = hi S`: the non-empty subsets without the greatest element -/
theorem mem_until_hi {S : SB} {z : Nat} (hz : IsGreatest S z) (U : SB) :
    U ∈ subsetsUntil S (hi S) ↔ Sub U S ∧ U ≠ 0#64 ∧ ¬ Mem U z := by
  have hm := mem_hi hz
  have hs : Sub (hi S) S := by intro i hi; rw [hm] at hi; rw [hi]; exact hz.1
  have h0 : hi S ≠ 0#64 := (ne_zero_iff _).2 ⟨z, (hm z).2 rfl⟩
  rw [mem_subsetsUntil hs h0]
  refine and_congr_right fun h1 => and_congr_right fun h2 => ?_
  constructor
  · intro h hc
    have : Sub (hi S) U := by intro i hi; rw [hm] at hi; rw [hi]; exact hc
    have := le_of_sub this
    rw [BitVec.lt_def] at h; rw [BitVec.le_def] at this; omega
  · intro hc
    rw [lt_iff]
    refine ⟨z, hc, (hm z).2 rfl, fun j hj => ?_⟩
    rw [hm]
    constructor
    · intro h; have := hz.2 j (h1 j h); omega
    · intro h; omega

theorem mem_numbers {n : Nat} (hn : n < 64) (S : SB) : S ∈ numbers n ↔ S ≠ 0#64 ∧ Sub S (all n) := by
  have hpow : (2:Nat)^n < 2^64 := Nat.pow_lt_pow_right (by decide) hn
  have hs : Sub S (all n) ↔ S.toNat < 2^n := by
    have := lt_limit_iff hn S
    rw [BitVec.lt_def, toNat_limit hn] at this
    rw [this]
    constructor
    · intro h i hi; exact (mem_all (by omega) i).1 (h i hi)
    · intro h i hi; exact (mem_all (by omega) i).2 (h i hi)
  have h0 : S ≠ 0#64 ↔ S.toNat ≠ 0 := by
    constructor
    · intro h hc; exact h (BitVec.eq_of_toNat_eq (by simpa using hc))
    · rintro h rfl; exact h rfl
  rw [hs, h0, numbers, List.mem_map]
  constructor
  · rintro ⟨k, hk, rfl⟩
    rw [List.mem_range'_1] at hk
    rw [BitVec.toNat_ofNat, Nat.mod_eq_of_lt (by omega)]
    omega
  · intro h
    refine ⟨S.toNat, ?_, by simp⟩
    rw [List.mem_range'_1]
    omega

theorem numbers_sorted {n : Nat} (hn : n < 64) : (numbers n).Pairwise (· < ·) := by
  have hpow : (2:Nat)^n < 2^64 := Nat.pow_lt_pow_right (by decide) hn
  rw [numbers, List.pairwise_map]
  have := List.pairwise_lt_range' (s := 1) (n := 2^n - 1)
  refine List.Pairwise.imp_of_mem ?_ this
  intro a b ha hb hab
  rw [List.mem_range'_1] at ha hb
  rw [BitVec.lt_def, BitVec.toNat_ofNat, BitVec.toNat_ofNat, Nat.mod_eq_of_lt (by omega), Nat.mod_eq_of_lt (by omega)]
  exact hab

theorem foldlM_flatMap {α β σ : Type} (l : List α) (f : α → List β) (g : σ → β → Option σ) (T : σ) :
    (l.flatMap f).foldlM g T = l.foldlM (fun T a => (f a).foldlM g T) T := by
  induction l generalizing T with
  | nil => rfl
  | cons a l ih =>
    rw [List.flatMap_cons, List.foldlM_append, List.foldlM_cons]
    congr 1; funext T'; exact ih T'

theorem foldlM_congr {α σ : Type} {l : List α} {g h : σ → α → Option σ} (H : ∀ a ∈ l, ∀ T, g T a = h T a) (T : σ) :
    l.foldlM g T = l.foldlM h T := by
  induction l generalizing T with
  | nil => rfl
  | cons a l ih =>
    rw [List.foldlM_cons, List.foldlM_cons, H a (by simp)]
    congr 1; funext T'; exact ih (fun b hb => H b (by simp [hb])) T'

theorem foldlM_filter {α σ : Type} (p : α → Bool) (l : List α) (g : σ → α → Option σ) (T : σ) :
    (l.filter p).foldlM g T = l.foldlM (fun T a => if p a then g T a else some T) T := by
  induction l generalizing T with
  | nil => rfl
  | cons a l ih =>
    rw [List.filter_cons, List.foldlM_cons]
    split
    · rw [List.foldlM_cons]; congr 1; funext T'; exact ih T'
    · rw [ih]; rfl

theorem foldlM_map' {α β σ : Type} (l : List α) (f : α → β) (g : σ → β → Option σ) (T : σ) :
    (l.map f).foldlM g T = l.foldlM (fun T a => g T (f a)) T := by
  induction l generalizing T with
  | nil => rfl
  | cons a l ih =>
    rw [List.map_cons, List.foldlM_cons, List.foldlM_cons]
    congr 1; funext T'; exact ih T'

/-- Candidate list from a sorted list of unions. -/
theorem before_of_rank {f : SB → Nat} (hf : ∀ A B, Sub A B → A ≠ B → f A < f B) {n : Nat} {may : SB → SB → Prop}
    {ps : List (SB × SB)} (hps : ∀ p ∈ ps, PairOK n may p)
    (h : ps.Pairwise (fun p q => f (p.1 ||| p.2) ≤ f (q.1 ||| q.2))) : ps.Pairwise Before := by
  refine h.imp_of_mem ?_
  intro p q hp hq hle
  have o := hps p hp
  have h1 := hf p.1 (p.1 ||| p.2) (sub_left _ _) (fun h => union_ne_left o.dis o.ne2 h.symm)
  have h2 := hf p.2 (p.1 ||| p.2) (sub_right _ _) (fun h => union_ne_right o.dis o.ne1 h.symm)
  constructor
  · intro hc; rw [hc] at hle; omega
  · intro hc; rw [hc] at hle; omega

theorem union_diff {U S : SB} (h : Sub U S) : U ||| diff S U = S := by
  apply ext; intro i; simp only [mem_or, mem_diff]
  constructor
  · rintro (h1 | h1); exacts [h i h1, h1.1]
  · intro h1; by_cases hU : Mem U i; exacts [Or.inl hU, Or.inr ⟨h1, hU⟩]

theorem inter_diff (U S : SB) : U &&& diff S U = 0#64 := by
  rw [disj_iff]; intro i h1 h2; rw [mem_diff] at h2; exact h2.2 h1

theorem diff_union {A B : SB} (hd : A &&& B = 0#64) : diff (A ||| B) A = B := by
  apply ext; intro i; simp only [mem_or, mem_diff]
  constructor
  · rintro ⟨h1 | h1, h2⟩; exacts [absurd h1 h2, h1]
  · intro h1; exact ⟨Or.inr h1, fun ha => (disj_iff A B).1 hd i ha h1⟩

/-- Pairs `(O, S - O)` for all `S` in `sets`, `O` in `os S`. -/
def subPairs (sets : List SB) (os : SB → List SB) : List (SB × SB) :=
  sets.flatMap fun S => (os S).map fun O => (O, diff S O)

theorem mem_subPairs {sets : List SB} {os : SB → List SB} {p : SB × SB} :
    p ∈ subPairs sets os ↔ ∃ S ∈ sets, p.1 ∈ os S ∧ p.2 = diff S p.1 := by
  simp only [subPairs, List.mem_flatMap, List.mem_map]
  constructor
  · rintro ⟨S, hS, O, hO, rfl⟩; exact ⟨S, hS, hO, rfl⟩
  · rintro ⟨S, hS, h1, h2⟩; exact ⟨S, hS, p.1, h1, by rw [← h2]⟩

theorem subPairs_before {f : SB → Nat} (hf : ∀ A B, Sub A B → A ≠ B → f A < f B) {n : Nat} {may : SB → SB → Prop}
    {sets : List SB} {os : SB → List SB} (hos : ∀ S ∈ sets, ∀ O ∈ os S, Sub O S)
    (hps : ∀ p ∈ subPairs sets os, PairOK n may p) (h : sets.Pairwise (fun A B => f A ≤ f B)) :
    (subPairs sets os).Pairwise Before := by
  refine before_of_rank hf hps ?_
  rw [subPairs, List.pairwise_flatMap]
  constructor
  · intro S hS
    rw [List.pairwise_map]
    apply List.pairwise_of_forall_mem_list
    intro a ha b hb
    rw [union_diff (hos S hS a ha), union_diff (hos S hS b hb)]
  · refine h.imp_of_mem ?_
    intro S S' hS hS' hle x hx y hy
    rw [List.mem_map] at hx hy
    obtain ⟨a, ha, rfl⟩ := hx
    obtain ⟨b, hb, rfl⟩ := hy
    rw [union_diff (hos S hS a ha), union_diff (hos S' hS' b hb)]
    exact hle

theorem toNat_rank (A B : SB) (h : Sub A B) (hne : A ≠ B) : A.toNat < B.toNat := by
  have := lt_of_ssub h hne; rwa [BitVec.lt_def] at this

end PE
end Mutable
