import Mathlib.Algebra.Group.End
import Mathlib.Logic.Equiv.Basic
import Mathlib.Data.List.Perm.Basic
import Mathlib.Data.List.Range
import Mathlib.Data.List.Nodup
import Mathlib.Tactic.NormNum
import Mathlib.Tactic.Linarith
import Verif.WasmSort.Model
/-! # Quicksort: termination, permutation, order -/
namespace Mutable.WSort
variable {R : Type}

/-- `a'` is obtained from `a` by permuting the places from `b` to `e`. -/
def PermOn (b e : Nat) (a a' : Mem R) : Prop :=
  ∃ σ : Equiv.Perm Nat, (∀ i, ¬ (b ≤ i ∧ i < e) → σ i = i) ∧ ∀ i, a' i = a (σ i)

theorem PermOn.refl (b e : Nat) (a : Mem R) : PermOn b e a a := ⟨1, fun _ _ => rfl, fun _ => rfl⟩

theorem perm_in {b e : Nat} {σ : Equiv.Perm Nat} (h : ∀ i, ¬ (b ≤ i ∧ i < e) → σ i = i) {i : Nat} (hi : b ≤ i ∧ i < e) : b ≤ σ i ∧ σ i < e := by
  by_contra hn
  have := h _ hn
  have := σ.injective this
  rw [this] at hn
  exact hn hi

theorem PermOn.trans {b e : Nat} {a a' a'' : Mem R} (h : PermOn b e a a') (h' : PermOn b e a' a'') : PermOn b e a a'' := by
  obtain ⟨σ, s1, s2⟩ := h
  obtain ⟨τ, t1, t2⟩ := h'
  refine ⟨σ * τ, fun i hi => ?_, fun i => ?_⟩
  · rw [Equiv.Perm.mul_apply, t1 i hi, s1 i hi]
  · rw [Equiv.Perm.mul_apply, t2, s2]

theorem PermOn.mono {b e b' e' : Nat} {a a' : Mem R} (h : PermOn b e a a') (hb : b' ≤ b) (he : e ≤ e') : PermOn b' e' a a' := by
  obtain ⟨σ, s1, s2⟩ := h
  exact ⟨σ, fun i hi => s1 i (fun h => hi ⟨hb.trans h.1, h.2.trans_le he⟩), s2⟩

theorem swp_permOn {b e i j : Nat} (a : Mem R) (hi : b ≤ i ∧ i < e) (hj : b ≤ j ∧ j < e) : PermOn b e a (swp a i j) := by
  refine ⟨Equiv.swap i j, fun k hk => ?_, fun k => ?_⟩
  · refine Equiv.swap_apply_of_ne_of_ne ?_ ?_ <;> rintro rfl
    · exact hk hi
    · exact hk hj
  · unfold swp
    rw [Equiv.swap_apply_def]
    by_cases h1 : k = j <;> by_cases h2 : k = i
    · subst h1; subst h2; simp
    · subst h1; simp [h2]
    · subst h2; simp [h1]
    · simp [h1, h2]

theorem PermOn.out {b e : Nat} {a a' : Mem R} (h : PermOn b e a a') {i : Nat} (hi : ¬ (b ≤ i ∧ i < e)) : a' i = a i := by
  obtain ⟨σ, s1, s2⟩ := h
  rw [s2, s1 i hi]

/-- What holds of all places holds after permuting. -/
theorem PermOn.all {b e : Nat} {a a' : Mem R} (h : PermOn b e a a') {P : R → Prop} (hP : ∀ i, b ≤ i → i < e → P (a i)) :
    ∀ i, b ≤ i → i < e → P (a' i) := by
  obtain ⟨σ, s1, s2⟩ := h
  intro i h1 h2
  rw [s2]
  obtain ⟨h3, h4⟩ := perm_in s1 ⟨h1, h2⟩
  exact hP _ h3 h4

theorem PermOn.list {n : Nat} {a a' : Mem R} (h : PermOn 0 n a a') : ((List.range n).map a').Perm ((List.range n).map a) := by
  obtain ⟨σ, s1, s2⟩ := h
  have e1 : (List.range n).map a' = ((List.range n).map σ).map a := by
    rw [List.map_map]
    exact List.map_congr_left fun i _ => s2 i
  rw [e1]
  refine List.Perm.map _ ?_
  rw [List.perm_ext_iff_of_nodup (List.Nodup.map σ.injective List.nodup_range) List.nodup_range]
  intro i
  simp only [List.mem_map, List.mem_range]
  constructor
  · rintro ⟨j, hj, rfl⟩
    exact (perm_in s1 ⟨Nat.zero_le _, hj⟩).2
  · intro hi
    refine ⟨σ.symm i, ?_, by simp⟩
    by_contra hn
    have h2 := s1 (σ.symm i) (by omega)
    rw [Equiv.apply_symm_apply] at h2
    rw [← h2] at hn
    exact hn hi

variable (c : Cfg R)

/-! ### Partition -/

/-- Does the round advance one of the two ends? -/
def stuck (p : R) (a : Mem R) (b e : Nat) : Prop := (partStep c p a b e).2 = (b, e)

theorem swp_left (a : Mem R) (i j : Nat) : swp a i j i = a j := by
  unfold swp; split <;> simp_all

theorem swp_right (a : Mem R) (i j : Nat) : swp a i j j = a i := by simp [swp]

theorem swp_other (a : Mem R) {i j k : Nat} (h1 : k ≠ i) (h2 : k ≠ j) : swp a i j k = a k := by simp [swp, h1, h2]

/-- After a round without progress comes one with progress, whatever the comparison. -/
theorem not_stuck_twice {p : R} {a : Mem R} {b e : Nat} (he : 0 < e) (h : stuck c p a b e) : ¬ stuck c p (partStep c p a b e).1 b e := by
  intro h2
  unfold stuck partStep at h h2
  simp only [swp_left, swp_right, Prod.mk.injEq] at h h2
  obtain ⟨h1, h3⟩ := h
  obtain ⟨h4, h5⟩ := h2
  have z : ∀ x : Bool, b + x.toNat = b → x = false := by intro x; cases x <;> simp
  have z' : ∀ x : Bool, e - x.toNat = e → x = false := by intro x; cases x <;> simp; omega
  have h1 := z _ h1
  have h3 := z' _ h3
  have h4 := z _ h4
  have h5 := z' _ h5
  cases hh : c.hard <;> simp [hh] at h1 h3 h4 h5 <;> omega

/-- The rows for which the environments are adapted correctly. -/
def Good (P : R → Prop) : Prop := ∀ x y, P x → P y → c.adapt x y = y

theorem part_spec (p : R) {lo hi : Nat} : ∀ (k : Nat) (a : Mem R) (b e : Nat), lo ≤ b → b < e → e ≤ hi →
    2 * (e - b) + 1 ≤ k ∨ (2 * (e - b) ≤ k ∧ ¬ stuck c p a b e) →
    ∃ a' m, (∀ f, k ≤ f → part c p f a b e = some (a', m)) ∧ PermOn b e a a' ∧ b ≤ m ∧ m ≤ e ∧
      ∀ P : R → Prop, Good c P → (∀ i, lo ≤ i → i < hi → P (a i)) →
        (∀ i, lo ≤ i → i < b → c.cmp (a i) p ≤ 0) → (∀ i, e ≤ i → i < hi → 0 ≤ c.cmp (a i) p) →
        (∀ i, lo ≤ i → i < m → c.cmp (a' i) p ≤ 0) ∧ (∀ i, m ≤ i → i < hi → 0 ≤ c.cmp (a' i) p) := by
  intro k
  induction k with
  | zero => intro a b e _ h1 _ h2; omega
  | succ k ih =>
    intro a b e hlo hbe hhi hk
    have hstep : ∀ f, part c p (f + 1) a b e =
        if (partStep c p a b e).2.1 < (partStep c p a b e).2.2 then
          part c p f (partStep c p a b e).1 (partStep c p a b e).2.1 (partStep c p a b e).2.2
        else some ((partStep c p a b e).1, (partStep c p a b e).2.1) := fun f => rfl
    obtain ⟨bb, hbb⟩ : ∃ x : Bool, x = if c.hard then decide (c.cmp (c.adapt (a b) (a (e - 1))) p < 0) else decide (c.cmp (c.adapt (a b) (a (e - 1))) p ≤ 0) := ⟨_, rfl⟩
    obtain ⟨ll, hll⟩ : ∃ x : Bool, x = decide (0 ≤ c.cmp (c.adapt (a (e - 1)) (a b)) p) := ⟨_, rfl⟩
    have hr : partStep c p a b e = (swp a b (e - 1), b + bb.toNat, e - ll.toNat) := by rw [hbb, hll]; rfl
    have hbt : bb.toNat ≤ 1 := by cases bb <;> simp
    have hlt : ll.toNat ≤ 1 := by cases ll <;> simp
    have hperm : PermOn b e a (swp a b (e - 1)) := swp_permOn a ⟨le_rfl, hbe⟩ ⟨by omega, by omega⟩
    -- the invariant after the round
    have hinv : ∀ P : R → Prop, Good c P → (∀ i, lo ≤ i → i < hi → P (a i)) →
        (∀ i, lo ≤ i → i < b → c.cmp (a i) p ≤ 0) → (∀ i, e ≤ i → i < hi → 0 ≤ c.cmp (a i) p) →
        (∀ i, lo ≤ i → i < b + bb.toNat → c.cmp (swp a b (e - 1) i) p ≤ 0) ∧
        (∀ i, e - ll.toNat ≤ i → i < hi → 0 ≤ c.cmp (swp a b (e - 1) i) p) := by
      intro P hG hP h1 h2
      have g1 := hG _ _ (hP b hlo (by omega)) (hP (e - 1) (by omega) (by omega))
      have g2 := hG _ _ (hP (e - 1) (by omega) (by omega)) (hP b hlo (by omega))
      rw [g1] at hbb
      rw [g2] at hll
      constructor
      · intro i hi1 hi2
        by_cases hib : i < b
        · rw [swp_other a (by omega) (by omega)]; exact h1 i hi1 hib
        · have : i = b := by omega
          subst this
          rw [swp_left]
          have hb1 : bb = true := by cases bb with
            | true => rfl
            | false => simp at hi2
          rw [hb1] at hbb
          by_cases hh : c.hard <;> simp [hh] at hbb <;> omega
      · intro i hi1 hi2
        by_cases hie : e ≤ i
        · rw [swp_other a (by omega) (by omega)]; exact h2 i hie hi2
        · have h3 : ll = true := by cases ll with
            | true => rfl
            | false => simp at hi1; omega
          have : i = e - 1 := by simp [h3] at hi1; omega
          subst this
          rw [swp_right]
          rw [h3] at hll
          simpa using hll.symm
    by_cases hlt2 : b + bb.toNat < e - ll.toNat
    · -- another round
      have hk' : 2 * ((e - ll.toNat) - (b + bb.toNat)) + 1 ≤ k ∨
          (2 * ((e - ll.toNat) - (b + bb.toNat)) ≤ k ∧ ¬ stuck c p (swp a b (e - 1)) (b + bb.toNat) (e - ll.toNat)) := by
        by_cases hs : stuck c p a b e
        · have hs' := hs
          unfold stuck at hs'
          rw [hr] at hs'
          simp only [Prod.mk.injEq] at hs'
          have hn := not_stuck_twice c (by omega) hs
          rw [hr] at hn
          rw [hs'.1, hs'.2]
          refine Or.inr ⟨?_, hn⟩
          rcases hk with hk | hk
          · omega
          · exact absurd hs hk.2
        · refine Or.inl ?_
          have : ¬ (bb.toNat = 0 ∧ ll.toNat = 0) := by
            rintro ⟨h1, h2⟩
            apply hs
            unfold stuck
            rw [hr, h1, h2]
            simp
          rcases hk with hk | hk <;> omega
      obtain ⟨a', m, r1, r2, r3, r4, r5⟩ := ih (swp a b (e - 1)) (b + bb.toNat) (e - ll.toNat) (by omega) hlt2 (by omega) hk'
      refine ⟨a', m, fun f hf => ?_, hperm.trans (r2.mono (by omega) (by omega)), by omega, by omega, ?_⟩
      · obtain ⟨f', rfl⟩ : ∃ f', f = f' + 1 := ⟨f - 1, by omega⟩
        rw [hstep, hr]
        simp only [hlt2, if_true]
        exact r1 f' (by omega)
      · intro P hG hP h1 h2
        obtain ⟨i1, i2⟩ := hinv P hG hP h1 h2
        exact r5 P hG ((hperm.mono hlo hhi).all hP) i1 i2
    · refine ⟨swp a b (e - 1), b + bb.toNat, fun f hf => ?_, hperm, by omega, by omega, ?_⟩
      · obtain ⟨f', rfl⟩ : ∃ f', f = f' + 1 := ⟨f - 1, by omega⟩
        rw [hstep, hr]
        simp only [hlt2, if_false]
      · intro P hG hP h1 h2
        obtain ⟨i1, i2⟩ := hinv P hG hP h1 h2
        exact ⟨i1, fun i hi1 hi2 => i2 i (by omega) hi2⟩

/-! ### The whole sort -/

theorem median_permOn (a : Mem R) {b e : Nat} (h : 2 ≤ e - b) : PermOn b e a (median c a b e) := by
  have h1 : b ≤ b ∧ b < e := ⟨le_rfl, by omega⟩
  have h2 : b ≤ (b + e) / 2 ∧ (b + e) / 2 < e := by omega
  have h3 : b ≤ e - 1 ∧ e - 1 < e := by omega
  unfold median
  dsimp only
  split_ifs <;> first | exact PermOn.refl _ _ _ | exact swp_permOn a h1 h2 | exact swp_permOn a h1 h3

/-- On the rows with `P` the comparison is that of the preorder `le`. -/
structure Preord (P : R → Prop) (le : R → R → Prop) : Prop where
  le_iff : ∀ x y, P x → P y → (c.cmp x y ≤ 0 ↔ le x y)
  ge_iff : ∀ x y, P x → P y → (0 ≤ c.cmp x y ↔ le y x)
  rfl : ∀ x, le x x
  trans : ∀ x y z, le x y → le y z → le x z

/-- Sorted from `b` to `e`. -/
def SortedOn (le : R → R → Prop) (b e : Nat) (a : Mem R) : Prop := ∀ i j, b ≤ i → i ≤ j → j < e → le (a i) (a j)

theorem qsort_spec : ∀ (k : Nat) (a : Mem R) (b e : Nat), e - b ≤ k →
    ∃ a', (∀ f, 2 * k + 2 ≤ f → qsort c f a b e = some a') ∧ PermOn b e a a' ∧
      ∀ (P : R → Prop) (le : R → R → Prop), Good c P → Preord c P le → (∀ i, b ≤ i → i < e → P (a i)) → SortedOn le b e a' := by
  intro k
  induction k using Nat.strong_induction_on with
  | _ k ih =>
    intro a b e hk
    have hsmall : ∀ (P : R → Prop) (le : R → R → Prop), Preord c P le → e - b ≤ 1 → SortedOn le b e a := by
      intro P le hle h1 i j hi hij hj
      have : i = j := by omega
      subst this
      exact hle.rfl _
    by_cases hcond : (if c.two then decide (2 < e - b) else decide (2 ≤ e - b)) = true
    · have h2 : 2 ≤ e - b := by
        by_cases ht : c.two <;> simp [ht] at hcond <;> omega
      have hm := median_permOn c a h2
      obtain ⟨a1, ha1⟩ : ∃ x, x = median c a b e := ⟨_, rfl⟩
      rw [← ha1] at hm
      obtain ⟨a2, mid, p1, p2, p3, p4, p5⟩ := part_spec c (a1 b) (lo := b + 1) (hi := e) (2 * (e - (b + 1)) + 1) a1 (b + 1) e le_rfl (by omega) le_rfl (Or.inl le_rfl)
      have p2' : PermOn b e a1 a2 := p2.mono (by omega) le_rfl
      have ha2b : a2 b = a1 b := p2.out (by omega)
      have hs : PermOn b e a2 (swp a2 b (mid - 1)) := swp_permOn a2 ⟨le_rfl, by omega⟩ ⟨by omega, by omega⟩
      obtain ⟨a3, ha3⟩ : ∃ x, x = swp a2 b (mid - 1) := ⟨_, rfl⟩
      rw [← ha3] at hs
      -- the right part
      have hright : ∃ a4, (∀ f, 2 * k + 1 ≤ f → (if 2 ≤ e - mid then qsort c f a3 mid e else some a3) = some a4) ∧ PermOn mid e a3 a4 ∧
          ∀ (P : R → Prop) (le : R → R → Prop), Good c P → Preord c P le → (∀ i, mid ≤ i → i < e → P (a3 i)) → SortedOn le mid e a4 := by
        by_cases h3 : 2 ≤ e - mid
        · obtain ⟨a4, q1, q2, q3⟩ := ih (e - mid) (by omega) a3 mid e le_rfl
          refine ⟨a4, fun f hf => ?_, q2, q3⟩
          rw [if_pos h3]
          exact q1 f (by omega)
        · refine ⟨a3, fun f hf => by rw [if_neg h3], PermOn.refl _ _ _, ?_⟩
          intro P le hG hle hP i j hi hij hj
          have : i = j := by omega
          subst this
          exact hle.rfl _
      obtain ⟨a4, q1, q2, q3⟩ := hright
      obtain ⟨a5, r1, r2, r3⟩ := ih (mid - 1 - b) (by omega) a4 b (mid - 1) le_rfl
      have hperm3 : PermOn b e a a3 := (hm.trans p2').trans hs
      have hperm4 : PermOn b e a a4 := hperm3.trans (q2.mono (by omega) le_rfl)
      refine ⟨a5, fun f hf => ?_, hperm4.trans (r2.mono le_rfl (by omega)), ?_⟩
      · obtain ⟨f', rfl⟩ : ∃ f', f = f' + 1 := ⟨f - 1, by omega⟩
        rw [qsort, if_pos hcond]
        dsimp only
        rw [← ha1, p1 f' (by omega)]
        dsimp only
        rw [← ha3, q1 f' (by omega)]
        dsimp only
        exact r1 f' (by omega)
      · intro P le hG hle hP
        have hP1 := hm.all hP
        obtain ⟨l1, l2⟩ := p5 P hG (fun i h1 h2 => hP1 i (by omega) h2) (fun i h1 h2 => by omega) (fun i h1 h2 => by omega)
        obtain ⟨piv, hpiv⟩ : ∃ x, x = a1 b := ⟨_, rfl⟩
        rw [← hpiv] at l1 l2 ha2b
        have hP2 : ∀ i, b ≤ i → i < e → P (a2 i) := p2'.all hP1
        have hPp : P piv := by rw [hpiv]; exact hP1 b le_rfl (by omega)
        -- after moving the pivot
        have e1 : a3 (mid - 1) = piv := by rw [ha3, swp_right, ha2b]
        have e2 : ∀ i, b ≤ i → i < mid - 1 → le (a3 i) piv := by
          intro i h1 h2
          rw [ha3]
          by_cases hib : i = b
          · subst hib
            rw [swp_left]
            exact (hle.le_iff _ _ (hP2 _ (by omega) (by omega)) hPp).1 (l1 _ (by omega) (by omega))
          · rw [swp_other a2 hib (by omega)]
            exact (hle.le_iff _ _ (hP2 _ (by omega) (by omega)) hPp).1 (l1 _ (by omega) (by omega))
        have e3 : ∀ i, mid ≤ i → i < e → le piv (a3 i) := by
          intro i h1 h2
          rw [ha3, swp_other a2 (by omega) (by omega)]
          exact (hle.ge_iff _ _ (hP2 _ (by omega) (by omega)) hPp).1 (l2 i h1 h2)
        have s4 := q3 P le hG hle (fun i h1 h2 => hperm3.all hP i (by omega) h2)
        have e3' : ∀ i, mid ≤ i → i < e → le piv (a4 i) := q2.all e3
        have e4 : ∀ i, i < mid → a4 i = a3 i := fun i h => q2.out (by omega)
        have s5 := r3 P le hG hle (fun i h1 h2 => hperm4.all hP i h1 (by omega))
        have e5 : ∀ i, b ≤ i → i < mid - 1 → le (a5 i) piv := r2.all (P := fun r => le r piv) (fun i h1 h2 => by rw [e4 i (by omega)]; exact e2 i h1 h2)
        have e6 : ∀ i, mid - 1 ≤ i → a5 i = a4 i := fun i h => r2.out (by omega)
        have e7 : a5 (mid - 1) = piv := by rw [e6 _ le_rfl, e4 _ (by omega), e1]
        have lo : ∀ i, b ≤ i → i ≤ mid - 1 → le (a5 i) piv := by
          intro i h1 h2
          rcases Nat.lt_or_eq_of_le h2 with h3 | h3
          · exact e5 i h1 h3
          · rw [h3, e7]; exact hle.rfl _
        have hi : ∀ i, mid - 1 ≤ i → i < e → le piv (a5 i) := by
          intro i h1 h2
          rcases Nat.lt_or_eq_of_le h1 with h3 | h3
          · rw [e6 i h1]; exact e3' i (by omega) h2
          · rw [← h3, e7]; exact hle.rfl _
        intro i j h1 h2 h3
        by_cases c1 : j < mid - 1
        · exact s5 i j h1 h2 c1
        · by_cases c2 : i ≤ mid - 1
          · exact hle.trans _ _ _ (lo i h1 c2) (hi j (by omega) h3)
          · rw [e6 i (by omega), e6 j (by omega)]
            exact s4 i j (by omega) h2 h3
    · -- at most two tuples
      have hf : ∀ f, 2 * k + 2 ≤ f → qsort c f a b e =
          if (c.two && decide (e - b = 2)) = true then (if 0 < c.cmp (a b) (a (e - 1)) then some (swp a b (e - 1)) else some a) else some a := by
        intro f hf
        obtain ⟨f', rfl⟩ : ∃ f', f = f' + 1 := ⟨f - 1, by omega⟩
        rw [qsort, if_neg hcond]
      by_cases h2 : (c.two && decide (e - b = 2)) = true
      · have h3 : e - b = 2 := by simp at h2; exact h2.2
        by_cases h4 : 0 < c.cmp (a b) (a (e - 1))
        · refine ⟨swp a b (e - 1), fun f hf' => by rw [hf f hf', if_pos h2, if_pos h4], swp_permOn a ⟨le_rfl, by omega⟩ ⟨by omega, by omega⟩, ?_⟩
          intro P le hG hle hP i j h5 h6 h7
          rcases Nat.lt_or_eq_of_le h6 with h8 | h8
          · have : i = b := by omega
            have : j = e - 1 := by omega
            subst i; subst j
            rw [swp_left, swp_right]
            exact (hle.ge_iff _ _ (hP _ (by omega) (by omega)) (hP _ (by omega) (by omega))).1 (by omega)
          · rw [h8]; exact hle.rfl _
        · refine ⟨a, fun f hf' => by rw [hf f hf', if_pos h2, if_neg h4], PermOn.refl _ _ _, ?_⟩
          intro P le hG hle hP i j h5 h6 h7
          rcases Nat.lt_or_eq_of_le h6 with h8 | h8
          · have : i = b := by omega
            have : j = e - 1 := by omega
            subst i; subst j
            exact (hle.le_iff _ _ (hP _ (by omega) (by omega)) (hP _ (by omega) (by omega))).1 (by omega)
          · rw [h8]; exact hle.rfl _
      · refine ⟨a, fun f hf' => by rw [hf f hf', if_neg h2], PermOn.refl _ _ _, ?_⟩
        intro P le hG hle hP
        refine hsmall P le hle ?_
        by_cases ht : c.two <;> simp [ht] at hcond h2 <;> omega

end Mutable.WSort
