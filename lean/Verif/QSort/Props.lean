import Verif.QSort.Model
import Verif.WasmSort.Quick
/-!
# C73 — The generic quicksort sorts

> `qsort` terminates for every sequence, however the elements are arranged and however many are equal, leaves a permutation of the range
> in ascending order, touches nothing outside of it, and none of its assertions fails; `partition_predicated_naive` splits any range into
> elements not greater and elements not less than the pivot; `verify_partition` decides whether a position splits a range.
-/
namespace Mutable.QSort
open Mutable.WSort (Mem swp PermOn swp_permOn swp_left swp_right swp_other)
variable {α : Type} (o : Ops α)

/-- On the elements with `P` the operators are those of a total preorder, and the limits are limits. -/
structure Lawful (P : α → Prop) : Prop where
  total : ∀ x y, P x → P y → o.le x y = true ∨ o.le y x = true
  trans : ∀ x y z, P x → P y → P z → o.le x y = true → o.le y z = true → o.le x z = true
  ge : ∀ x y, P x → P y → o.ge x y = o.le y x
  gt : ∀ x y, P x → P y → o.gt x y = !o.le x y
  lt : ∀ x y, P x → P y → o.lt x y = !o.le y x
  lowest : P o.lowest ∧ ∀ x, P x → o.le o.lowest x = true
  highest : P o.highest ∧ ∀ x, P x → o.le x o.highest = true
  wide : o.lt o.lowest o.highest = true

/-- The integers of 32 bits are lawful. -/
def intOps : Ops ℤ := ⟨fun x y => decide (x ≤ y), fun x y => decide (y ≤ x), fun x y => decide (y < x), fun x y => decide (x < y), -(2 ^ 31), 2 ^ 31 - 1⟩

theorem intOps_lawful : Lawful intOps (fun x => -(2 ^ 31) ≤ x ∧ x ≤ 2 ^ 31 - 1) := by
  refine ⟨?_, ?_, ?_, ?_, ?_, ?_, ?_, ?_⟩ <;> simp only [intOps]
  · intro x y _ _; simp; omega
  · intro x y z _ _ _; simp; omega
  · intro x y _ _; trivial
  · intro x y _ _; by_cases h : y < x <;> simp [h] <;> omega
  · intro x y _ _; by_cases h : x < y <;> simp [h] <;> omega
  · refine ⟨by norm_num, fun x hx => by simpa using hx.1⟩
  · refine ⟨by norm_num, fun x hx => by simpa using hx.2⟩
  · norm_num

variable {o} {P : α → Prop}

theorem Lawful.refl (h : Lawful o P) {x : α} (hx : P x) : o.le x x = true := by
  rcases h.total x x hx hx with h | h <;> exact h

/-! ## Partition -/

/-- Neither end would advance in the next round. -/
def stuck (o : Ops α) (p : α) (a : Mem α) (b e : ℕ) : Prop := o.le (a (e - 1)) p = false ∧ o.ge (a b) p = false

theorem partLoop_spec (hL : Lawful o P) {p : α} (hp : P p) {lo hi : ℕ} : ∀ (k : ℕ) (a : Mem α) (b e : ℕ), lo ≤ b → b ≤ hi → b ≤ e + 1 → e ≤ hi →
    (∀ i, lo ≤ i → i < hi → P (a i)) →
    (∀ i, lo ≤ i → i < b → o.le (a i) p = true) → (∀ i, e ≤ i → i < hi → o.le p (a i) = true) →
    2 * (e - b) + 1 < k ∨ (2 * (e - b) < k ∧ ¬ stuck o p a b e) ∨ (e ≤ b ∧ 0 < k) →
    ∃ a' m, (∀ f, k ≤ f → partLoop o p f a b e = some (a', m)) ∧ PermOn lo hi a a' ∧ b ≤ m ∧ m ≤ hi ∧
      (∀ i, lo ≤ i → i < m → o.le (a' i) p = true) ∧ (∀ i, m ≤ i → i < hi → o.le p (a' i) = true) := by
  intro k
  induction k with
  | zero => intro a b e _ _ _ _ _ _ _ h; omega
  | succ k ih =>
    intro a b e hlo hbhi hbe hhi hP h1 h2 hk
    have hstep : ∀ f, partLoop o p (f + 1) a b e =
        if b < e then partLoop o p f (swp a b (e - 1)) (b + (o.le (a (e - 1)) p).toNat) (e - (o.ge (a b) p).toNat) else some (a, b) :=
      fun f => rfl
    by_cases hlt : b < e
    · obtain ⟨bb, hbb⟩ : ∃ x, x = o.le (a (e - 1)) p := ⟨_, rfl⟩
      obtain ⟨ll, hll⟩ : ∃ x, x = o.ge (a b) p := ⟨_, rfl⟩
      rw [← hbb, ← hll] at hstep
      have hperm : PermOn lo hi a (swp a b (e - 1)) := swp_permOn a ⟨by omega, by omega⟩ ⟨by omega, by omega⟩
      have hP' := hperm.all hP
      have i1 : ∀ i, lo ≤ i → i < b + bb.toNat → o.le (swp a b (e - 1) i) p = true := by
        intro i hi1 hi2
        by_cases hib : i < b
        · rw [swp_other a (by omega) (by omega)]; exact h1 i hi1 hib
        · cases hbv : bb with
          | false => rw [hbv] at hi2; simp at hi2; omega
          | true =>
            rw [hbv] at hi2 hbb
            have : i = b := by simp at hi2; omega
            subst this
            rw [swp_left]; exact hbb.symm
      have i2 : ∀ i, e - ll.toNat ≤ i → i < hi → o.le p (swp a b (e - 1) i) = true := by
        intro i hi1 hi2
        by_cases hie : e ≤ i
        · rw [swp_other a (by omega) (by omega)]; exact h2 i hie hi2
        · cases hlv : ll with
          | false => rw [hlv] at hi1; simp at hi1; omega
          | true =>
            rw [hlv] at hi1 hll
            have : i = e - 1 := by simp at hi1; omega
            subst this
            rw [swp_right, ← hL.ge _ _ (hP b hlo (by omega)) hp]; exact hll.symm
      have hbt : bb.toNat ≤ 1 := by cases bb <;> simp
      have hltt : ll.toNat ≤ 1 := by cases ll <;> simp
      have hk' : 2 * ((e - ll.toNat) - (b + bb.toNat)) + 1 < k ∨
          (2 * ((e - ll.toNat) - (b + bb.toNat)) < k ∧ ¬ stuck o p (swp a b (e - 1)) (b + bb.toNat) (e - ll.toNat)) ∨
          (e - ll.toNat ≤ b + bb.toNat ∧ 0 < k) := by
        by_cases hs : bb = false ∧ ll = false
        · -- no progress: then the next round makes some
          obtain ⟨s1, s2⟩ := hs
          have hst : stuck o p a b e := ⟨by rw [← hbb, s1], by rw [← hll, s2]⟩
          refine Or.inr (Or.inl ⟨?_, ?_⟩)
          · rw [s1, s2]
            simp only [Bool.toNat_false]
            rcases hk with h | h | h
            · omega
            · exact absurd hst h.2
            · omega
          · rw [s1, s2]
            simp only [Bool.toNat_false, Nat.sub_zero, Nat.add_zero]
            rintro ⟨u1, u2⟩
            rw [swp_right] at u1
            have hx := hP b hlo (by omega)
            have u3 : o.le p (a b) = false := by rw [← hL.ge _ _ hx hp]; exact hst.2
            rcases hL.total _ _ hx hp with t | t
            · rw [u1] at t; simp at t
            · rw [u3] at t; simp at t
        · have : 1 ≤ bb.toNat + ll.toNat := by
            cases hbv : bb <;> cases hlv : ll <;> simp_all
          by_cases hend : e - ll.toNat ≤ b + bb.toNat
          · refine Or.inr (Or.inr ⟨hend, ?_⟩)
            rcases hk with h | h | h <;> omega
          · refine Or.inl ?_
            rcases hk with h | h | h <;> omega
      obtain ⟨a', m, r1, r2, r3, r4, r5, r6⟩ := ih (swp a b (e - 1)) (b + bb.toNat) (e - ll.toNat) (by omega) (by omega) (by omega) (by omega)
        hP' i1 i2 hk'
      refine ⟨a', m, fun f hf => ?_, hperm.trans r2, by omega, r4, r5, r6⟩
      obtain ⟨f', rfl⟩ : ∃ f', f = f' + 1 := ⟨f - 1, by omega⟩
      rw [hstep, if_pos hlt]
      exact r1 f' (by omega)
    · refine ⟨a, b, fun f hf => ?_, PermOn.refl _ _ _, le_rfl, hbhi, h1, fun i hi1 hi2 => h2 i (by omega) hi2⟩
      obtain ⟨f', rfl⟩ : ∃ f', f = f' + 1 := ⟨f - 1, by omega⟩
      rw [hstep, if_neg hlt]

/-- `partition_predicated_naive`: for every range, every pivot: terminates, permutes the range, and the returned position
separates elements not greater than the pivot from elements not less; its assertion holds. -/
theorem C73_partition (hL : Lawful o P) (p : α) (hp : P p) (a : Mem α) (b e : ℕ) (hbe : b ≤ e) (hP : ∀ i, b ≤ i → i < e → P (a i)) :
    ∃ a' m, (∀ fuel, 2 * (e - b) + 2 ≤ fuel → partition o p fuel a b e = some (.ok (a', m))) ∧ PermOn b e a a' ∧ b ≤ m ∧ m ≤ e ∧
      (∀ i, b ≤ i → i < m → o.le (a' i) p = true) ∧ (∀ i, m ≤ i → i < e → o.le p (a' i) = true) := by
  obtain ⟨a', m, r1, r2, r3, r4, r5, r6⟩ := partLoop_spec hL hp (lo := b) (hi := e) (2 * (e - b) + 2) a b e le_rfl hbe (by omega) le_rfl hP
    (fun i h1 h2 => by omega) (fun i h1 h2 => by omega) (Or.inl (by omega))
  refine ⟨a', m, fun fuel hf => ?_, r2, r3, r4, r5, r6⟩
  unfold partition
  rw [r1 fuel hf]
  simp only
  rw [if_pos]
  by_cases h : m = e
  · exact Or.inl h
  · right
    rw [hL.ge _ _ (r2.all hP m r3 (by omega)) hp]
    exact r6 m le_rfl (by omega)

/-! ## `verify_partition` -/

theorem maxLo_spec (hL : Lawful o P) (a : Mem α) : ∀ (n p : ℕ) (acc : α), P acc → (∀ i, p ≤ i → i < p + n → P (a i)) →
    P (maxLo o a n p acc) ∧ ∀ y, P y → (o.le (maxLo o a n p acc) y = true ↔ o.le acc y = true ∧ ∀ i, p ≤ i → i < p + n → o.le (a i) y = true)
  | 0, p, acc, hacc, _ => ⟨hacc, fun y _ => ⟨fun h => ⟨h, fun i h1 h2 => by omega⟩, fun h => h.1⟩⟩
  | n + 1, p, acc, hacc, hP => by
    have hp := hP p le_rfl (by omega)
    have hm : P (smax o acc (a p)) ∧ ∀ y, P y → (o.le (smax o acc (a p)) y = true ↔ o.le acc y = true ∧ o.le (a p) y = true) := by
      unfold smax
      rw [hL.lt _ _ hacc hp]
      by_cases h : o.le (a p) acc = true
      · simp only [h, Bool.not_true, Bool.false_eq_true, if_false]
        exact ⟨hacc, fun y hy => ⟨fun h' => ⟨h', hL.trans _ _ _ hp hacc hy h h'⟩, fun h' => h'.1⟩⟩
      · have h' : o.le acc (a p) = true := by
          rcases hL.total _ _ hacc hp with t | t
          · exact t
          · exact absurd t h
        simp only [h, Bool.not_false, if_true]
        exact ⟨hp, fun y hy => ⟨fun h2 => ⟨hL.trans _ _ _ hacc hp hy h' h2, h2⟩, fun h2 => h2.2⟩⟩
    obtain ⟨r1, r2⟩ := maxLo_spec hL a n (p + 1) (smax o acc (a p)) hm.1 (fun i h1 h2 => hP i (by omega) (by omega))
    refine ⟨r1, fun y hy => ?_⟩
    rw [maxLo, r2 y hy, hm.2 y hy]
    constructor
    · rintro ⟨⟨u1, u2⟩, u3⟩
      refine ⟨u1, fun i h1 h2 => ?_⟩
      rcases Nat.lt_or_eq_of_le h1 with h3 | h3
      · exact u3 i h3 (by omega)
      · exact h3 ▸ u2
    · rintro ⟨u1, u2⟩
      exact ⟨⟨u1, u2 p le_rfl (by omega)⟩, fun i h1 h2 => u2 i (by omega) (by omega)⟩

theorem minHi_spec (hL : Lawful o P) (a : Mem α) : ∀ (n p : ℕ) (acc : α), P acc → (∀ i, p ≤ i → i < p + n → P (a i)) →
    P (minHi o a n p acc) ∧ ∀ y, P y → (o.le y (minHi o a n p acc) = true ↔ o.le y acc = true ∧ ∀ i, p ≤ i → i < p + n → o.le y (a i) = true)
  | 0, p, acc, hacc, _ => ⟨hacc, fun y _ => ⟨fun h => ⟨h, fun i h1 h2 => by omega⟩, fun h => h.1⟩⟩
  | n + 1, p, acc, hacc, hP => by
    have hp := hP p le_rfl (by omega)
    have hm : P (smin o acc (a p)) ∧ ∀ y, P y → (o.le y (smin o acc (a p)) = true ↔ o.le y acc = true ∧ o.le y (a p) = true) := by
      unfold smin
      rw [hL.lt _ _ hp hacc]
      by_cases h : o.le acc (a p) = true
      · simp only [h, Bool.not_true, Bool.false_eq_true, if_false]
        exact ⟨hacc, fun y hy => ⟨fun h' => ⟨h', hL.trans _ _ _ hy hacc hp h' h⟩, fun h' => h'.1⟩⟩
      · have h' : o.le (a p) acc = true := by
          rcases hL.total _ _ hacc hp with t | t
          · exact absurd t h
          · exact t
        simp only [h, Bool.not_false, if_true]
        exact ⟨hp, fun y hy => ⟨fun h2 => ⟨hL.trans _ _ _ hy hp hacc h2 h', h2⟩, fun h2 => h2.2⟩⟩
    obtain ⟨r1, r2⟩ := minHi_spec hL a n (p + 1) (smin o acc (a p)) hm.1 (fun i h1 h2 => hP i (by omega) (by omega))
    refine ⟨r1, fun y hy => ?_⟩
    rw [minHi, r2 y hy, hm.2 y hy]
    constructor
    · rintro ⟨⟨u1, u2⟩, u3⟩
      refine ⟨u1, fun i h1 h2 => ?_⟩
      rcases Nat.lt_or_eq_of_le h1 with h3 | h3
      · exact u3 i h3 (by omega)
      · exact h3 ▸ u2
    · rintro ⟨u1, u2⟩
      exact ⟨⟨u1, u2 p le_rfl (by omega)⟩, fun i h1 h2 => u2 i (by omega) (by omega)⟩

/-- `verify_partition` is true iff no element before `mid` is greater than any element from `mid` on. -/
theorem C73_verify_partition (hL : Lawful o P) (a : Mem α) (b mid e : ℕ) (h1 : b ≤ mid) (h2 : mid ≤ e) (hP : ∀ i, b ≤ i → i < e → P (a i)) :
    ∃ r, verifyPartition o a b mid e = .ok r ∧
      (r = true ↔ ∀ i j, b ≤ i → i < mid → mid ≤ j → j < e → o.le (a i) (a j) = true) := by
  unfold verifyPartition
  rw [if_pos hL.wide]
  refine ⟨_, rfl, ?_⟩
  obtain ⟨p1, p2⟩ := maxLo_spec hL a (mid - b) b o.lowest hL.lowest.1 (fun i h3 h4 => hP i h3 (by omega))
  obtain ⟨q1, q2⟩ := minHi_spec hL a (e - mid) mid o.highest hL.highest.1 (fun i h3 h4 => hP i (by omega) (by omega))
  rw [q2 _ p1]
  constructor
  · rintro ⟨_, u⟩ i j i1 i2 j1 j2
    exact ((p2 _ (hP j (by omega) j2)).1 (u j j1 (by omega))).2 i i1 (by omega)
  · intro u
    refine ⟨hL.highest.2 _ p1, fun j j1 j2 => ?_⟩
    rw [p2 _ (hP j (by omega) (by omega))]
    exact ⟨hL.lowest.2 _ (hP j (by omega) (by omega)), fun i i1 i2 => u i j i1 (by omega) j1 (by omega)⟩

/-! ## Median -/

theorem median_permOn (a : Mem α) {b e : ℕ} (h : 2 < e - b) : PermOn b e a (median o a b e) := by
  have h1 : b ≤ b ∧ b < e := ⟨le_rfl, by omega⟩
  have h2 : b ≤ b + (e - b) / 2 ∧ b + (e - b) / 2 < e := by omega
  have h3 : b ≤ e - 1 ∧ e - 1 < e := by omega
  unfold median
  dsimp only
  split_ifs <;> first | exact PermOn.refl _ _ _ | exact swp_permOn a h1 h2 | exact swp_permOn a h1 h3

/-- The pivot is a median of the first, the middle and the last element. -/
theorem C73_median (hL : Lawful o P) (a : Mem α) (b e : ℕ) (h : 2 < e - b) (hP : ∀ i, b ≤ i → i < e → P (a i)) :
    ∃ u v, [median o a b e b, u, v].Perm [a b, a (b + (e - b) / 2), a (e - 1)] ∧
      o.le u (median o a b e b) = true ∧ o.le (median o a b e b) v = true := by
  have hx := hP b le_rfl (by omega)
  have hy := hP (b + (e - b) / 2) (by omega) (by omega)
  have hz := hP (e - 1) (by omega) (by omega)
  have t1 := hL.total _ _ hx hy
  have t2 := hL.total _ _ hx hz
  have t3 := hL.total _ _ hy hz
  unfold median
  generalize hxx : a b = x at *
  generalize hyy : a (b + (e - b) / 2) = y at *
  generalize hzz : a (e - 1) = z at *
  have s1 : swp a b (b + (e - b) / 2) b = y := by rw [swp_left, hyy]
  have s2 : swp a b (e - 1) b = z := by rw [swp_left, hzz]
  split_ifs with c1 c2 c3 c3 c2
  · rw [s1]; exact ⟨x, z, List.Perm.swap _ _ _, c1, c3⟩
  · rw [s2]; exact ⟨x, y, (List.perm_append_comm (l₁ := [z]) (l₂ := [x, y])), c2, t3.resolve_left c3⟩
  · rw [hxx]; exact ⟨z, y, (List.Perm.swap y z []).cons x, t2.resolve_left c2, c1⟩
  · rw [hxx]; exact ⟨y, z, List.Perm.refl _, t1.resolve_left c1, c2⟩
  · rw [s2]; exact ⟨y, x, (List.reverse_perm [x, y, z]), c3, t2.resolve_left (by assumption)⟩
  · rw [s1]; exact ⟨z, x, (List.perm_append_comm (l₁ := [y, z]) (l₂ := [x])), t3.resolve_left (by assumption), t1.resolve_left c1⟩

/-! ## Sorting -/

/-- Ascending from `b` to `e`. -/
def SortedOn (o : Ops α) (b e : ℕ) (a : Mem α) : Prop := ∀ i j, b ≤ i → i ≤ j → j < e → o.le (a i) (a j) = true

theorem isSorted_of (hL : Lawful o P) (a : Mem α) : ∀ (n p : ℕ), (∀ i, p ≤ i → i < p + n + 1 → P (a i)) → SortedOn o p (p + n + 1) a →
    isSorted o a n p = true
  | 0, _, _, _ => rfl
  | n + 1, p, hP, h => by
    unfold isSorted
    rw [hL.lt _ _ (hP _ (by omega) (by omega)) (hP _ (by omega) (by omega)), h p (p + 1) le_rfl (by omega) (by omega)]
    simp only [Bool.not_true, Bool.not_false, Bool.true_and]
    exact isSorted_of hL a n (p + 1) (fun i h1 h2 => hP i (by omega) (by omega)) (fun i j h1 h2 h3 => h i j (by omega) h2 (by omega))

theorem qsort_spec (hL : Lawful o P) : ∀ (k : ℕ) (a : Mem α) (b e : ℕ), b ≤ e → e - b ≤ k → (∀ i, b ≤ i → i < e → P (a i)) →
    ∃ a', (∀ f, 2 * k + 2 ≤ f → qsort o f a b e = some (.ok a')) ∧ PermOn b e a a' ∧ SortedOn o b e a' := by
  intro k
  induction k using Nat.strong_induction_on with
  | _ k ih =>
    intro a b e hbe hk hP
    by_cases hcond : 2 < e - b
    · have hm := median_permOn (o := o) a hcond
      obtain ⟨a1, ha1⟩ : ∃ x, x = median o a b e := ⟨_, rfl⟩
      rw [← ha1] at hm
      have hP1 := hm.all hP
      have hPp := hP1 b le_rfl (by omega)
      obtain ⟨a2, mid, p1, p2, p3, p4, l1, l2⟩ := C73_partition hL (a1 b) hPp a1 (b + 1) e (by omega) (fun i h1 h2 => hP1 i (by omega) h2)
      have p2' : PermOn b e a1 a2 := p2.mono (by omega) le_rfl
      have ha2b : a2 b = a1 b := p2.out (by omega)
      have hP2 : ∀ i, b ≤ i → i < e → P (a2 i) := p2'.all hP1
      have hs : PermOn b e a2 (swp a2 b (mid - 1)) := swp_permOn a2 ⟨le_rfl, by omega⟩ ⟨by omega, by omega⟩
      obtain ⟨a3, ha3⟩ : ∃ x, x = swp a2 b (mid - 1) := ⟨_, rfl⟩
      rw [← ha3] at hs
      obtain ⟨piv, hpiv⟩ : ∃ x, x = a1 b := ⟨_, rfl⟩
      rw [← hpiv] at l1 l2 ha2b hPp p1
      have hver : verifyPartition o a2 (b + 1) mid e = .ok true := by
        obtain ⟨r, v1, v2⟩ := C73_verify_partition hL a2 (b + 1) mid e (by omega) p4 (fun i h1 h2 => hP2 i (by omega) h2)
        rw [v1]
        congr 1
        exact v2.2 fun i j i1 i2 j1 j2 => hL.trans _ _ _ (hP2 i (by omega) (by omega)) hPp (hP2 j (by omega) j2) (l1 i i1 i2) (l2 j j1 j2)
      have hperm3 : PermOn b e a a3 := (hm.trans p2').trans hs
      have hP3 := hperm3.all hP
      have hright : ∃ a4, (∀ f, 2 * k + 1 ≤ f → (if 2 ≤ e - mid then qsort o f a3 mid e else some (.ok a3)) = some (.ok a4)) ∧ PermOn mid e a3 a4 ∧
          SortedOn o mid e a4 := by
        by_cases h3 : 2 ≤ e - mid
        · obtain ⟨a4, q1, q2, q3⟩ := ih (e - mid) (by omega) a3 mid e p4 le_rfl (fun i h1 h2 => hP3 i (by omega) h2)
          refine ⟨a4, fun f hf => ?_, q2, q3⟩
          rw [if_pos h3]
          exact q1 f (by omega)
        · refine ⟨a3, fun f hf => by rw [if_neg h3], PermOn.refl _ _ _, ?_⟩
          intro i j hi hij hj
          have : i = j := by omega
          subst this
          exact hL.refl (hP3 i (by omega) hj)
      obtain ⟨a4, q1, q2, q3⟩ := hright
      have hperm4 : PermOn b e a a4 := hperm3.trans (q2.mono (by omega) le_rfl)
      have hP4 := hperm4.all hP
      have hsorted : isSorted o a4 (e - mid - 1) mid = true := by
        by_cases hz : mid < e
        · have e1 : mid + (e - mid - 1) + 1 = e := by omega
          exact isSorted_of hL a4 _ mid (fun i h1 h2 => hP4 i (by omega) (by omega)) (by rw [e1]; exact q3)
        · rw [show e - mid - 1 = 0 by omega]; rfl
      obtain ⟨a5, r1, r2, s5⟩ := ih (mid - 1 - b) (by omega) a4 b (mid - 1) (by omega) le_rfl (fun i h1 h2 => hP4 i h1 (by omega))
      have hperm5 : PermOn b e a a5 := hperm4.trans (r2.mono le_rfl (by omega))
      have hP5 := hperm5.all hP
      refine ⟨a5, fun f hf => ?_, hperm5, ?_⟩
      · obtain ⟨f', rfl⟩ : ∃ f', f = f' + 1 := ⟨f - 1, by omega⟩
        rw [qsort, if_neg (by omega), if_pos hcond]
        dsimp only
        rw [← ha1, ← hpiv, p1 f' (by omega)]
        dsimp only
        rw [if_neg (by omega), if_neg (by omega), if_neg (by rw [hver]; simp), ← ha3, q1 f' (by omega)]
        dsimp only
        rw [if_neg (by rw [hsorted]; simp)]
        exact r1 f' (by omega)
      · have e1 : a3 (mid - 1) = piv := by rw [ha3, swp_right, ha2b]
        have e2 : ∀ i, b ≤ i → i < mid - 1 → o.le (a3 i) piv = true := by
          intro i h1 h2
          rw [ha3]
          by_cases hib : i = b
          · subst hib; rw [swp_left]; exact l1 _ (by omega) (by omega)
          · rw [swp_other a2 hib (by omega)]; exact l1 _ (by omega) (by omega)
        have e3 : ∀ i, mid ≤ i → i < e → o.le piv (a3 i) = true := by
          intro i h1 h2
          rw [ha3, swp_other a2 (by omega) (by omega)]
          exact l2 i h1 h2
        have e3' : ∀ i, mid ≤ i → i < e → o.le piv (a4 i) = true := q2.all (P := fun r => o.le piv r = true) e3
        have e4 : ∀ i, i < mid → a4 i = a3 i := fun i h => q2.out (by omega)
        have e5 : ∀ i, b ≤ i → i < mid - 1 → o.le (a5 i) piv = true :=
          r2.all (P := fun r => o.le r piv = true) (fun i h1 h2 => by rw [e4 i (by omega)]; exact e2 i h1 h2)
        have e6 : ∀ i, mid - 1 ≤ i → a5 i = a4 i := fun i h => r2.out (by omega)
        have e7 : a5 (mid - 1) = piv := by rw [e6 _ le_rfl, e4 _ (by omega), e1]
        have lo : ∀ i, b ≤ i → i ≤ mid - 1 → o.le (a5 i) piv = true := by
          intro i h1 h2
          rcases Nat.lt_or_eq_of_le h2 with h3 | h3
          · exact e5 i h1 h3
          · rw [h3, e7]; exact hL.refl hPp
        have hi : ∀ i, mid - 1 ≤ i → i < e → o.le piv (a5 i) = true := by
          intro i h1 h2
          rcases Nat.lt_or_eq_of_le h1 with h3 | h3
          · rw [e6 i h1]; exact e3' i (by omega) h2
          · rw [← h3, e7]; exact hL.refl hPp
        intro i j h1 h2 h3
        by_cases c1 : j < mid - 1
        · exact s5 i j h1 h2 c1
        · by_cases c2 : i ≤ mid - 1
          · exact hL.trans _ _ _ (hP5 i h1 (by omega)) hPp (hP5 j (by omega) h3) (lo i h1 c2) (hi j (by omega) h3)
          · rw [e6 i (by omega), e6 j (by omega)]
            exact q3 i j (by omega) h2 h3
    · have hf : ∀ f, 2 * k + 2 ≤ f → qsort o f a b e =
          if e - b = 2 then (if o.gt (a b) (a (e - 1)) then some (.ok (swp a b (e - 1))) else some (.ok a)) else some (.ok a) := by
        intro f hf
        obtain ⟨f', rfl⟩ : ∃ f', f = f' + 1 := ⟨f - 1, by omega⟩
        rw [qsort, if_neg (by omega), if_neg hcond]
      by_cases h2 : e - b = 2
      · have hx := hP b le_rfl (by omega)
        have hy := hP (e - 1) (by omega) (by omega)
        have two : ∀ a' : Mem α, o.le (a' b) (a' (e - 1)) = true → (∀ i, b ≤ i → i < e → P (a' i)) → SortedOn o b e a' := by
          intro a' hle hPa i j h5 h6 h7
          rcases Nat.lt_or_eq_of_le h6 with h8 | h8
          · have : i = b := by omega
            have : j = e - 1 := by omega
            subst i; subst j
            exact hle
          · rw [h8]; exact hL.refl (hPa j (by omega) h7)
        have hg := hL.gt _ _ hx hy
        by_cases h4 : o.le (a b) (a (e - 1)) = true
        · rw [h4] at hg
          refine ⟨a, fun f hf' => by rw [hf f hf', if_pos h2, hg]; rfl, PermOn.refl _ _ _, two a h4 hP⟩
        · have h4' : o.le (a b) (a (e - 1)) = false := by simpa using h4
          rw [h4'] at hg
          have hperm : PermOn b e a (swp a b (e - 1)) := swp_permOn a ⟨le_rfl, by omega⟩ ⟨by omega, by omega⟩
          refine ⟨swp a b (e - 1), fun f hf' => by rw [hf f hf', if_pos h2, hg]; rfl, hperm, two _ ?_ (hperm.all hP)⟩
          rw [swp_left, swp_right]
          exact (hL.total _ _ hx hy).resolve_left h4
      · refine ⟨a, fun f hf' => by rw [hf f hf', if_neg h2], PermOn.refl _ _ _, ?_⟩
        intro i j hi hij hj
        have : i = j := by omega
        subst this
        exact hL.refl (hP i hi hj)

/-- `qsort`: for every range and every arrangement of its elements, the call returns — no assertion fails — and leaves the same elements in
ascending order; cells outside the range are unchanged. -/
theorem C73_qsort (hL : Lawful o P) (a : Mem α) (b e : ℕ) (hbe : b ≤ e) (hP : ∀ i, b ≤ i → i < e → P (a i)) :
    ∃ a', (∀ fuel, 2 * (e - b) + 2 ≤ fuel → qsort o fuel a b e = some (.ok a')) ∧
      ((List.range' b (e - b)).map a').Perm ((List.range' b (e - b)).map a) ∧
      (∀ i, i < b ∨ e ≤ i → a' i = a i) ∧
      (∀ i j, b ≤ i → i ≤ j → j < e → o.le (a' i) (a' j) = true) := by
  obtain ⟨a', h1, h2, h3⟩ := qsort_spec hL (e - b) a b e hbe le_rfl hP
  refine ⟨a', h1, ?_, fun i hi => h2.out (by omega), h3⟩
  obtain ⟨σ, s1, s2⟩ := h2
  have e1 : (List.range' b (e - b)).map a' = ((List.range' b (e - b)).map σ).map a := by
    rw [List.map_map]; exact List.map_congr_left fun i _ => s2 i
  rw [e1]
  refine List.Perm.map _ ?_
  rw [List.perm_ext_iff_of_nodup (List.Nodup.map σ.injective List.nodup_range') List.nodup_range']
  intro i
  simp only [List.mem_map, List.mem_range'_1]
  constructor
  · rintro ⟨j, hj, rfl⟩
    have := Mutable.WSort.perm_in s1 (i := j) ⟨hj.1, by omega⟩
    omega
  · intro hi
    refine ⟨σ.symm i, ?_, by simp⟩
    by_contra hn
    have h2 := s1 (σ.symm i) (by omega)
    rw [Equiv.apply_symm_apply] at h2
    rw [← h2] at hn
    exact hn hi

/-- The hypotheses are met by any 32-bit integers, and the result is what one expects. -/
example : ∃ a', qsort intOps 20 (fun i => [5, 3, 3, -7, 9, 0].getD i 0) 0 6 = some (.ok a') ∧
    (List.range 6).map a' = [-7, 0, 3, 3, 5, 9] := ⟨_, rfl, by decide⟩
example (i : ℕ) : -(2 ^ 31) ≤ ([5, 3, 3, -7, 9, 0] : List ℤ).getD i 0 ∧ ([5, 3, 3, -7, 9, 0] : List ℤ).getD i 0 ≤ 2 ^ 31 - 1 := by
  rcases i with _ | _ | _ | _ | _ | _ | i <;> simp

/-- An element comparable to nothing — a floating-point NaN — makes `partition_predicated_naive` run forever: a range that is
not empty and contains only such elements (or only elements comparable to nothing the pivot is). -/
theorem C73_bug_nan_diverges (o : Ops α) (p : α) (a : Mem α) (b e : ℕ) (h : b < e)
    (hn : ∀ i, b ≤ i → i < e → o.le (a i) p = false ∧ o.ge (a i) p = false) (fuel : ℕ) : partition o p fuel a b e = none := by
  have key : ∀ fuel (a : Mem α), (∀ i, b ≤ i → i < e → o.le (a i) p = false ∧ o.ge (a i) p = false) →
      partLoop o p fuel a b e = none := by
    intro fuel
    induction fuel with
    | zero => intros; rfl
    | succ f ih =>
      intro a hn
      unfold partLoop
      rw [if_pos h]
      simp only
      rw [(hn (e - 1) (by omega) (by omega)).1, (hn b le_rfl h).2]
      refine ih _ ((swp_permOn a ⟨le_rfl, h⟩ ⟨by omega, by omega⟩).all (P := fun x => o.le x p = false ∧ o.ge x p = false) hn)
  unfold partition
  rw [key fuel a hn]

/-- Integers whose `lowest()` and `highest()` are -10 and 10, with values beyond: the ordering of a floating-point type and its infinities. -/
def infOps : Ops ℤ :=
  ⟨fun x y => decide (x ≤ y), fun x y => decide (y ≤ x), fun x y => decide (y < x), fun x y => decide (x < y), -10, 10⟩

/-- `verify_partition` starts from the limits of the type, which are not limits for infinities: elements that are all below `lowest()` are
not a partition of themselves, so sorting three times minus infinity fails an assertion. -/
theorem C73_bug_infinity :
    qsort infOps 20 (fun _ => -11) 0 3 = some .insist ∧ verifyPartition infOps (fun _ => -11) 0 1 2 = .ok false := by
  refine ⟨?_, ?_⟩ <;> rfl

end Mutable.QSort
