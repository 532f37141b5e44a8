import Verif.CardEst.Basic
/-
Plan tables: whatever the order of updates, the models of the Cartesian product and of injected cardinalities depend only on the set of sources.
-/
namespace Mutable.CardEst

theorem initPT_some {M : Type} {n : Nat} {leaf : Nat → M} {S : Nat} {m : M} (h : initPT n leaf S = some m) : ∃ i, i < n ∧ S = 1 <<< i ∧ m = leaf i := by
  unfold initPT at h
  rw [Option.map_eq_some_iff] at h
  obtain ⟨i, h1, h2⟩ := h
  refine ⟨i, ?_, ?_, h2.symm⟩
  · simpa using List.mem_of_find?_eq_some h1
  · simpa using List.find?_some h1

theorem initPT_single {M : Type} {n : Nat} {leaf : Nat → M} {i : Nat} (h : i < n) : (initPT n leaf (1 <<< i)).isSome := by
  unfold initPT
  rw [Option.isSome_map, List.find?_isSome]
  exact ⟨i, by simpa using h, by simp⟩

theorem update_inv {M : Type} {join : M → M → M} {Good : Nat → M → Prop} {n : Nat}
    (hjoin : ∀ L R l r, L ≠ 0 → R ≠ 0 → L < 2 ^ n → R < 2 ^ n → L &&& R = 0 → Good L l → Good R r → Good (L ||| R) (join l r))
    {pt : Nat → Option M} (hpt : ∀ S m, pt S = some m → S ≠ 0 ∧ S < 2 ^ n ∧ Good S m) {L R : Nat} (hL : (pt L).isSome) (hR : (pt R).isSome)
    (hd : L &&& R = 0) :
    ∃ pt', update join pt L R = some pt' ∧ (∀ S m, pt' S = some m → S ≠ 0 ∧ S < 2 ^ n ∧ Good S m) ∧ (pt' (L ||| R)).isSome ∧
      ∀ S, (pt S).isSome → pt' S = pt S := by
  obtain ⟨l, hl⟩ := Option.isSome_iff_exists.mp hL
  obtain ⟨r, hr⟩ := Option.isSome_iff_exists.mp hR
  obtain ⟨l0, l1, l2⟩ := hpt _ _ hl
  obtain ⟨r0, r1, r2⟩ := hpt _ _ hr
  unfold update
  rw [if_neg (by simp [l0, r0])]
  cases hb : pt (L ||| R) with
  | some m => exact ⟨pt, by simp, hpt, by simp [hb], fun _ _ => rfl⟩
  | none =>
    refine ⟨fun S => if S = L ||| R then some (join l r) else pt S, by simp [hl, hr], ?_, by simp, ?_⟩
    · intro S m hS
      by_cases hc : S = L ||| R
      · subst hc
        simp only [if_true, Option.some.injEq] at hS
        subst hS
        refine ⟨?_, Nat.or_lt_two_pow l1 r1, hjoin L R l r l0 r0 l1 r1 hd l2 r2⟩
        intro h
        have := Nat.left_le_or (n := L) (m := R)
        omega
      · simp only [if_neg hc] at hS
        exact hpt _ _ hS
    · intro S hS
      by_cases hc : S = L ||| R
      · subst hc; simp [hb] at hS
      · simp only [if_neg hc]

theorem updates_inv {M : Type} {join : M → M → M} {Good : Nat → M → Prop} {n : Nat}
    (hjoin : ∀ L R l r, L ≠ 0 → R ≠ 0 → L < 2 ^ n → R < 2 ^ n → L &&& R = 0 → Good L l → Good R r → Good (L ||| R) (join l r))
    {us : List (Nat × Nat)} : ∀ {known : List Nat} {pt : Nat → Option M}, (∀ S m, pt S = some m → S ≠ 0 ∧ S < 2 ^ n ∧ Good S m) →
      (∀ S ∈ known, (pt S).isSome) → Enumeration n known us →
      ∃ pt', updates join pt us = some pt' ∧ (∀ S m, pt' S = some m → S ≠ 0 ∧ S < 2 ^ n ∧ Good S m) ∧
        (∀ S, (pt S).isSome → (pt' S).isSome) ∧ ∀ u ∈ us, (pt' (u.1 ||| u.2)).isSome := by
  induction us with
  | nil => intro known pt h1 h2 _; exact ⟨pt, rfl, h1, fun _ h => h, by simp⟩
  | cons u us ih =>
    intro known pt h1 h2 h3
    obtain ⟨L, R⟩ := u
    obtain ⟨hL, hR, hd, h4⟩ := h3
    obtain ⟨p1, k1, k2, k3, k4⟩ := update_inv hjoin h1 (h2 _ hL) (h2 _ hR) hd
    obtain ⟨p2, j1, j2, j3, j4⟩ := ih (known := (L ||| R) :: known) k2 (by
      intro S hS
      rcases List.mem_cons.mp hS with rfl | hS
      · exact k3
      · rw [k4 S (h2 _ hS)]; exact h2 _ hS) h4
    refine ⟨p2, by simp [updates, k1, j1], j2, fun S hS => j3 S (by rw [k4 S hS]; exact hS), ?_⟩
    intro u hu
    rcases List.mem_cons.mp hu with rfl | hu
    · exact j3 _ k3
    · exact j4 u hu

/-- The sets of one source. -/
def singles (n : Nat) : List Nat := (List.range n).map fun i => 1 <<< i

theorem single_lt {n i : Nat} (h : i < n) : 1 <<< i < 2 ^ n := by
  rw [Nat.one_shiftLeft]; exact Nat.pow_lt_pow_right (by omega) h

theorem single_ne (i : Nat) : 1 <<< i ≠ 0 := by
  rw [Nat.one_shiftLeft]; exact Nat.pos_iff_ne_zero.mp (Nat.two_pow_pos i)

theorem run_inv {M : Type} {join : M → M → M} {Good : Nat → M → Prop} {n : Nat} {leaf : Nat → M}
    (hjoin : ∀ L R l r, L ≠ 0 → R ≠ 0 → L < 2 ^ n → R < 2 ^ n → L &&& R = 0 → Good L l → Good R r → Good (L ||| R) (join l r))
    (hleaf : ∀ i, i < n → Good (1 <<< i) (leaf i)) {us : List (Nat × Nat)} (hus : Enumeration n (singles n) us) :
    ∃ pt, updates join (initPT n leaf) us = some pt ∧ (∀ S m, pt S = some m → S ≠ 0 ∧ S < 2 ^ n ∧ Good S m) ∧
      (∀ i, i < n → (pt (1 <<< i)).isSome) ∧ ∀ u ∈ us, (pt (u.1 ||| u.2)).isSome := by
  obtain ⟨pt, h1, h2, h3, h4⟩ := updates_inv hjoin (us := us) (known := singles n) (pt := initPT n leaf)
    (by
      intro S m h
      obtain ⟨i, hi, rfl, rfl⟩ := initPT_some h
      exact ⟨single_ne i, single_lt hi, hleaf i hi⟩)
    (by
      intro S hS
      obtain ⟨i, hi, rfl⟩ := List.mem_map.mp hS
      exact initPT_single (by simpa using hi)) hus
  exact ⟨pt, h1, h2, fun i hi => h3 _ (initPT_single hi), h4⟩

/-! ### Products modulo 2^64 -/

theorem foldl_mul64 (l : List Nat) (f : Nat → Nat) : ∀ a, a < 2 ^ 64 → l.foldl (fun acc i => mul64 acc (f i)) a = a * (l.map f).prod % 2 ^ 64 := by
  induction l with
  | nil => intro a ha; rw [List.foldl_nil, List.map_nil, List.prod_nil, Nat.mul_one, Nat.mod_eq_of_lt ha]
  | cons i l ih =>
    intro a _
    rw [List.foldl_cons, ih (mul64 a (f i)) (Nat.mod_lt _ (by decide)), List.map_cons, List.prod_cons, mul64, Nat.mod_mul_mod, Nat.mul_assoc]

theorem cp_join_good {rows : Nat → Nat} {L R : Nat} (h : L &&& R = 0) : cpJoin (product rows L % 2 ^ 64) (product rows R % 2 ^ 64) = product rows (L ||| R) % 2 ^ 64 := by
  unfold cpJoin mul64
  rw [product_or rows h, ← Nat.mul_mod]

theorem cp_joinAll (rows : Nat → Nat) (S : Nat) : cpJoinAll rows S = product rows S % 2 ^ 64 := by
  unfold cpJoinAll product
  rw [foldl_mul64 _ _ _ (by decide), Nat.one_mul]

/-! ### Injected cardinalities -/

theorem elems_ne {n S : Nat} (hn : n ≤ 64) (h0 : S ≠ 0) (h : S < 2 ^ n) : elems S ≠ [] := by
  obtain ⟨i, hi⟩ : ∃ i, S.testBit i = true := by
    by_contra hc
    apply h0
    apply Nat.eq_of_testBit_eq
    intro i
    simp only [Nat.zero_testBit]
    by_contra hb
    exact hc ⟨i, by simpa using hb⟩
  have hlt : i < n := by
    by_contra hge
    have := Nat.testBit_lt_two_pow (Nat.lt_of_lt_of_le h (Nat.pow_le_pow_right (by omega) (Nat.not_lt.mp hge)))
    rw [this] at hi
    cases hi
  intro he
  have := mem_elems.mpr ⟨Nat.lt_of_lt_of_le hlt hn, hi⟩
  rw [he] at this
  cases this

theorem elems_lt {n S i : Nat} (h : S < 2 ^ n) (hi : i ∈ elems S) : i < n := by
  by_contra hge
  have := Nat.testBit_lt_two_pow (Nat.lt_of_lt_of_le h (Nat.pow_le_pow_right (by omega) (Nat.not_lt.mp hge)))
  rw [(mem_elems.mp hi).2] at this
  cases this

/-- A complete file yields a table with the listed cardinality under the identifier of every set of sources. -/
theorem complete_lookup {n : Nat} {names : Nat → Name} {card : Nat → Nat} {file : List (Option (List Name × Nat))}
    (hp : ∀ rels v, some (rels, v) ∈ file → rels ≠ [] ∧ ∀ x ∈ rels, Plain x) (hd : NoDup file) (hc : Complete n names card file) :
    ∃ tbl, readEntries [] file = some tbl ∧ ∀ S, S ≠ 0 → S < 2 ^ n → lookup tbl (makeId names S) = some (card S) := by
  obtain ⟨t, h1, h2, _⟩ := readEntries_lookup (tbl := []) hp hd (by intros; rfl)
  refine ⟨t, h1, fun S h0 hS => ?_⟩
  obtain ⟨rels, hr, hm⟩ := hc S h0 hS
  have := h2 _ _ hm
  rwa [sortNames_eq_iff.mpr hr] at this

theorem makeId_single {names : Nat → Name} {i : Nat} (h : i < 64) : makeId names (1 <<< i) = names i := by
  simp [makeId, elems_singleton h, sortNames, insertName, joinDollar]

theorem inj_scan_good {n : Nat} (hn : n ≤ 64) {names : Nat → Name} {rows : Nat → Nat} {card : Nat → Nat} {tbl : Table}
    (h : ∀ S, S ≠ 0 → S < 2 ^ n → lookup tbl (makeId names S) = some (card S)) {i : Nat} (hi : i < n) :
    injScan names rows tbl i = ⟨1 <<< i, card (1 <<< i)⟩ := by
  have := h (1 <<< i) (single_ne i) (single_lt hi)
  rw [makeId_single (by omega)] at this
  simp [injScan, this]

theorem inj_join_good {n : Nat} {names : Nat → Name} {card : Nat → Nat} {tbl : Table}
    (h : ∀ S, S ≠ 0 → S < 2 ^ n → lookup tbl (makeId names S) = some (card S)) (hcons : Consistent n card) {L R : Nat} (hL : L ≠ 0) (hR : R ≠ 0)
    (hL' : L < 2 ^ n) (hR' : R < 2 ^ n) (hd : L &&& R = 0) : injJoin names tbl ⟨L, card L⟩ ⟨R, card R⟩ = ⟨L ||| R, card (L ||| R)⟩ := by
  have h0 : L ||| R ≠ 0 := by
    intro h
    have := Nat.left_le_or (n := L) (m := R)
    omega
  obtain ⟨c1, c2⟩ := hcons L R hL hR hL' hR' hd
  simp [injJoin, h _ h0 (Nat.or_lt_two_pow hL' hR'), clamp, mul64, Nat.mod_eq_of_lt c2, c1]

end Mutable.CardEst
