import Verif.PlanEnum.Enumerators
/-! `DPsize` and `DPsizeOpt`. -/
namespace Mutable
open SB
namespace PE
variable {C D : Type} [LinearOrder C] {E : Env C D} {est : SB → D} {base : Nat → C}

theorem updateWith_mono (T : PT C D) (A B : SB) (hA : A ≠ 0#64) (hB : B ≠ 0#64) (m ml mr : D) (S : SB)
    (h : hasPlan T S = true) : hasPlan (updateWith E T A B m ml mr) S = true := by
  have hAe : isEmpty A = false := by rw [isEmpty]; simpa using hA
  have hBe : isEmpty B = false := by rw [isEmpty]; simpa using hB
  unfold updateWith
  simp only
  generalize E.jc A B m ml mr (T A).cost (T B).cost = x
  generalize E.jc B A m mr ml (T B).cost (T A).cost = y
  have key : ∀ (c : C) (l r : SB), isEmpty l = false →
      hasPlan (if (!hasPlan T (A ||| B) || decide (c < (T (A ||| B)).cost)) = true
        then setEntry T (A ||| B) { left := l, right := r, model := some m, cost := c }
        else setEntry T (A ||| B) { T (A ||| B) with model := some m }) S = true := by
    intro c l r hl
    by_cases hc : (!hasPlan T (A ||| B) || decide (c < (T (A ||| B)).cost)) = true
    · rw [if_pos hc]
      by_cases hS : S = A ||| B
      · simp [hasPlan, setEntry, hS, hl]
      · simp only [hasPlan, setEntry, if_neg hS] at h ⊢; exact h
    · rw [if_neg hc]
      by_cases hS : S = A ||| B
      · subst hS; simp only [hasPlan, setEntry, if_true] at h ⊢; exact h
      · simp only [hasPlan, setEntry, if_neg hS] at h ⊢; exact h
  by_cases hxy : y < x
  · rw [if_pos hxy]; exact key y B A hBe
  · rw [if_neg hxy]; exact key x A B hAe

theorem update_mono {T T' : PT C D} {A B : SB} (hu : update E T A B = some T') (S : SB) (h : hasPlan T S = true) :
    hasPlan T' S = true := by
  rw [update] at hu
  by_cases hA : A = 0#64
  · simp [hA, isEmpty] at hu
  by_cases hB : B = 0#64
  · simp [hB, isEmpty] at hu
  have hAe : isEmpty A = false := by rw [isEmpty]; simpa using hA
  have hBe : isEmpty B = false := by rw [isEmpty]; simpa using hB
  simp only [hAe, hBe, Bool.or_self, Bool.false_eq_true, if_false] at hu
  split at hu
  · split at hu <;> · cases hu; exact updateWith_mono T A B hA hB _ _ _ S h
  · cases hu

/-- Candidate pairs of the two inner loops. -/
def loopPairs (E : Env C D) (l1 : List SB) (l2 : SB → List SB) : List (SB × SB) :=
  l1.flatMap fun S1 => ((l2 S1).filter fun S2 => isEmpty (S1 &&& S2) && E.M.isConnected2 S1 S2).map fun S2 => (S1, S2)

theorem sizeLoops_eq (l1 : List SB) (l2 : SB → List SB) (T : PT C D) :
    sizeLoops E l1 l2 T = (loopPairs E l1 l2).foldlM (fun T p => tryUpdate E T p.1 p.2) T := by
  rw [sizeLoops, loopPairs, foldlM_flatMap]
  apply foldlM_congr
  intro S1 _ T
  rw [foldlM_map', foldlM_filter]
  by_cases h1 : hasPlan T S1 = true
  · simp only [h1, Bool.not_true, Bool.false_eq_true, if_false]
    generalize l2 S1 = l
    induction l generalizing T with
    | nil => rfl
    | cons S2 l ih =>
      rw [List.foldlM_cons, List.foldlM_cons]
      have hstep : (if (!hasPlan T S2) = true then some T
          else if (!isEmpty (S1 &&& S2)) = true then some T
          else if (!E.M.isConnected2 S1 S2) = true then some T
          else update E T S1 S2) =
          (if (isEmpty (S1 &&& S2) && E.M.isConnected2 S1 S2) = true then tryUpdate E T S1 S2 else some T) := by
        rw [tryUpdate]
        by_cases a : hasPlan T S2 = true <;> by_cases b : isEmpty (S1 &&& S2) = true <;>
          by_cases c : E.M.isConnected2 S1 S2 = true <;> simp [a, b, c, h1]
      rw [hstep]
      cases hr : (if (isEmpty (S1 &&& S2) && E.M.isConnected2 S1 S2) = true then tryUpdate E T S1 S2 else some T) with
      | none => rfl
      | some T' =>
        have : hasPlan T' S1 = true := by
          split at hr
          · rw [tryUpdate] at hr
            split at hr
            · cases hr; exact h1
            · split at hr
              · cases hr; exact h1
              · exact update_mono hr S1 h1
          · cases hr; exact h1
        exact ih T' this
  · have h1' : hasPlan T S1 = false := by simpa using h1
    simp only [h1', Bool.not_false, if_true]
    generalize l2 S1 = l
    induction l with
    | nil => rfl
    | cons S2 l ih =>
      rw [List.foldlM_cons]
      have : (if (isEmpty (S1 &&& S2) && E.M.isConnected2 S1 S2) = true then tryUpdate E T S1 S2 else some T) = some T := by
        rw [tryUpdate]; simp [h1']
      rw [this]
      exact ih

theorem mem_loopPairs {l1 : List SB} {l2 : SB → List SB} (hM : E.M.Symm) {p : SB × SB} :
    p ∈ loopPairs E l1 l2 ↔ p.1 ∈ l1 ∧ p.2 ∈ l2 p.1 ∧ p.1 &&& p.2 = 0#64 ∧ Adjacent E.M p.1 p.2 := by
  simp only [loopPairs, List.mem_flatMap, List.mem_map, List.mem_filter, Bool.and_eq_true, isConnected2_adj hM]
  have : ∀ X, isEmpty X = true ↔ X = 0#64 := by intro X; simp [isEmpty]
  simp only [this]
  constructor
  · rintro ⟨S1, h1, S2, ⟨h2, h3, h4⟩, rfl⟩; exact ⟨h1, h2, h3, h4⟩
  · rintro ⟨h1, h2, h3, h4⟩; exact ⟨p.1, h1, p.2, ⟨h2, h3, h4⟩, rfl⟩

theorem size_union {A B : SB} (hd : A &&& B = 0#64) : size (A ||| B) = size A + size B := by
  rw [size_eq_card, size_eq_card, size_eq_card, ← Finset.card_union_of_disjoint]
  · congr 1; ext i; simp only [Finset.mem_union, mem_toFin, mem_or]
  · rw [Finset.disjoint_left]
    intro i
    simp only [mem_toFin]
    exact (disj_iff A B).1 hd i

/-- A size-driven enumerator: for each size `s` and each `s1` in `f s`, the pairs from `g s s1`. -/
theorem solves_size (hE : Sane E est) (hM : E.M.Symm) (hn : E.n < 64) {T : PT C D} (hT : Init est base E.n T)
    (f : Nat → List Nat) (g : Nat → Nat → List (SB × SB))
    (hg : ∀ s s1, 2 ≤ s → s ≤ E.n → s1 ∈ f s → ∀ p ∈ g s s1, Sub p.1 (all E.n) ∧ Sub p.2 (all E.n) ∧ size p.1 = s1 ∧ size p.2 = s - s1 ∧
      1 ≤ s1 ∧ s1 < s ∧ p.1 &&& p.2 = 0#64 ∧ Adjacent E.M p.1 p.2)
    (hcomp : ∀ A B, Sub A (all E.n) → Sub B (all E.n) → A ≠ 0#64 → B ≠ 0#64 → A &&& B = 0#64 → Adjacent E.M A B →
      ∃ s1 ∈ f (size A + size B), (A, B) ∈ g (size A + size B) s1 ∨ (B, A) ∈ g (size A + size B) s1)
    {r : Option (PT C D)}
    (hr : r = (List.range' 2 (E.n - 1)).foldlM (fun T s => (f s).foldlM (fun T s1 =>
      (g s s1).foldlM (fun T p => tryUpdate E T p.1 p.2) T) T) T) :
    Solves E est base (Adjacent E.M) r := by
  set ps := (List.range' 2 (E.n - 1)).flatMap (fun s => (f s).flatMap (fun s1 => g s s1)) with hpsd
  have hsz : ∀ s, 2 ≤ s → s ≤ E.n → ∀ p ∈ (f s).flatMap (fun s1 => g s s1), size (p.1 ||| p.2) = s := by
    intro s hs hs' p hp
    rw [List.mem_flatMap] at hp
    obtain ⟨s1, h1, h2⟩ := hp
    obtain ⟨a, b, c, d, e, e', f', g'⟩ := hg s s1 hs hs' h1 p h2
    rw [size_union f']; omega
  have hps : ∀ p ∈ ps, PairOK E.n (Adjacent E.M) p := by
    intro p hp
    rw [hpsd, List.mem_flatMap] at hp
    obtain ⟨s, hs, hp⟩ := hp
    rw [List.mem_range'_1] at hs
    rw [List.mem_flatMap] at hp
    obtain ⟨s1, h1, h2⟩ := hp
    obtain ⟨a, b, c, d, e, e', f', g'⟩ := hg s s1 (by omega) (by omega) h1 p h2
    exact ⟨fun h => by rw [h, size_zero] at c; omega, fun h => by rw [h, size_zero] at d; omega, f', a, b, g'⟩
  refine solves_of_list hE (fun _ _ => adjacent_symm hM) (by omega) hT ps ?_ hps (before_of_rank size_rank hps ?_) ?_
  · rw [hr, hpsd, foldlM_flatMap]
    apply foldlM_congr
    intro s _ T
    rw [foldlM_flatMap]
  · rw [hpsd, List.pairwise_flatMap]
    constructor
    · intro s hs
      rw [List.mem_range'_1] at hs
      apply List.pairwise_of_forall_mem_list
      intro a ha b hb
      rw [hsz s (by omega) (by omega) a ha, hsz s (by omega) (by omega) b hb]
    · refine (List.pairwise_lt_range' (s := 2) (n := E.n - 1)).imp_of_mem ?_
      intro s s' hs hs' hlt a ha b hb
      rw [List.mem_range'_1] at hs hs'
      rw [hsz s (by omega) (by omega) a ha, hsz s' (by omega) (by omega) b hb]
      omega
  · intro l t A B hl ht hd hm
    have hA := isPlan_ne (by omega) hl
    have hB := isPlan_ne (by omega) ht
    have a1 := isPlan_sub (by omega) hl
    have a2 := isPlan_sub (by omega) ht
    obtain ⟨s1, h1, h2⟩ := hcomp A B a1 a2 hA hB hd hm
    have p1 := size_pos hA
    have p2 := size_pos hB
    have hle := size_le_n (by omega) (sub_all_union a1 a2)
    rw [size_union hd] at hle
    have hmem : size A + size B ∈ List.range' 2 (E.n - 1) := by rw [List.mem_range'_1]; omega
    simp only [hpsd, List.mem_flatMap]
    rcases h2 with h2 | h2
    · exact Or.inl ⟨_, hmem, s1, h1, h2⟩
    · exact Or.inr ⟨_, hmem, s1, h1, h2⟩

theorem solves_dpSize (hE : Sane E est) (hM : E.M.Symm) (hn : E.n < 64) {T : PT C D} (hT : Init est base E.n T) :
    Solves E est base (Adjacent E.M) (dpSize E T) := by
  refine solves_size hE hM hn hT (fun s => List.range' 1 (s - 1))
    (fun s s1 => loopPairs E (gosperAll s1 E.n) (fun _ => gosperAll (s - s1) E.n)) ?_ ?_ ?_
  · intro s s1 hs hs' h1 p hp
    rw [List.mem_range'_1] at h1
    rw [mem_loopPairs hM, mem_gosperAll (by omega) (by omega) hn, mem_gosperAll (by omega) (by omega) hn] at hp
    obtain ⟨⟨a, b⟩, ⟨c, d⟩, e, f⟩ := hp
    exact ⟨a, c, b, d, by omega, by omega, e, f⟩
  · intro A B hA hB hA0 hB0 hd hadj
    have p1 := size_pos hA0
    have p2 := size_pos hB0
    have hle := size_le_n (by omega) (sub_all_union hA hB)
    rw [size_union hd] at hle
    refine ⟨size A, by rw [List.mem_range'_1]; omega, Or.inl ?_⟩
    rw [mem_loopPairs hM, mem_gosperAll (by omega) (by omega) hn, mem_gosperAll (by omega) (by omega) hn]
    exact ⟨⟨hA, rfl⟩, ⟨hB, by simp only; omega⟩, hd, hadj⟩
  · rw [dpSize]
    apply foldlM_congr
    intro s _ T
    apply foldlM_congr
    intro s1 _ T
    exact sizeLoops_eq _ _ T

theorem mem_gosperFrom_next {n : Nat} (hn : n < 64) {S : SB} (h0 : S ≠ 0#64) (hS : Sub S (all n)) (U : SB) :
    U ∈ gosperFrom (gosperNext S) n ↔ Sub U (all n) ∧ size U = size S ∧ S < U := by
  obtain ⟨z, h, H, _⟩ := exists_lowBlock h0 hn ((sub_all_iff (by omega) S).2 hS)
  have hs := size_gosperNext H
  have hlt := lt_gosperNext H
  rw [gosperFrom, (gosperLoop_spec hn (size_pos h0) (2^n) (gosperNext S) hs (by omega)).2, sub_all_iff (by omega)]
  refine and_congr_right fun _ => and_congr_right fun h2 => ?_
  constructor
  · intro h; rw [BitVec.le_def] at h; rw [BitVec.lt_def] at hlt ⊢; omega
  · intro h; exact gosperNext_le H h2 h

theorem solves_dpSizeOpt (hE : Sane E est) (hM : E.M.Symm) (hn : E.n < 64) {T : PT C D} (hT : Init est base E.n T) :
    Solves E est base (Adjacent E.M) (dpSizeOpt E T) := by
  refine solves_size hE hM hn hT (fun s => List.range' 1 (s / 2))
    (fun s s1 => if s1 = s - s1 then loopPairs E (gosperAll s1 E.n) (fun S1 => gosperFrom (gosperNext S1) E.n)
      else loopPairs E (gosperAll s1 E.n) (fun _ => gosperAll (s - s1) E.n)) ?_ ?_ ?_
  · intro s s1 hs hs' h1 p hp
    rw [List.mem_range'_1] at h1
    split at hp
    · rename_i heq
      rw [mem_loopPairs hM, mem_gosperAll (by omega) (by omega) hn] at hp
      obtain ⟨⟨a, b⟩, c, e, f⟩ := hp
      have hne : p.1 ≠ 0#64 := fun h => by rw [h, size_zero] at b; omega
      rw [mem_gosperFrom_next hn hne a] at c
      exact ⟨a, c.1, b, by omega, by omega, by omega, e, f⟩
    · rw [mem_loopPairs hM, mem_gosperAll (by omega) (by omega) hn, mem_gosperAll (by omega) (by omega) hn] at hp
      obtain ⟨⟨a, b⟩, ⟨c, d⟩, e, f⟩ := hp
      exact ⟨a, c, b, d, by omega, by omega, e, f⟩
  · intro A B hA hB hA0 hB0 hd hadj
    have p1 := size_pos hA0
    have p2 := size_pos hB0
    have hle := size_le_n (by omega) (sub_all_union hA hB)
    rw [size_union hd] at hle
    have hd' : B &&& A = 0#64 := by rw [and_comm']; exact hd
    have hadj' := adjacent_symm hM hadj
    rcases Nat.lt_trichotomy (size A) (size B) with hlt | heq | hlt
    · refine ⟨size A, by rw [List.mem_range'_1]; omega, Or.inl ?_⟩
      rw [if_neg (by omega), mem_loopPairs hM, mem_gosperAll (by omega) (by omega) hn, mem_gosperAll (by omega) (by omega) hn]
      exact ⟨⟨hA, rfl⟩, ⟨hB, by simp only; omega⟩, hd, hadj⟩
    · refine ⟨size A, by rw [List.mem_range'_1]; omega, ?_⟩
      rw [if_pos (by omega), mem_loopPairs hM, mem_loopPairs hM, mem_gosperAll (by omega) (by omega) hn,
        mem_gosperAll (by omega) (by omega) hn]
      simp only
      rw [mem_gosperFrom_next hn hA0 hA, mem_gosperFrom_next hn hB0 hB]
      have hAB : A ≠ B := by
        rintro rfl
        obtain ⟨i, hi⟩ := (ne_zero_iff A).1 hA0
        exact (disj_iff A A).1 hd i hi hi
      have : A.toNat ≠ B.toNat := fun h => hAB (BitVec.eq_of_toNat_eq h)
      rw [BitVec.lt_def, BitVec.lt_def]
      rcases Nat.lt_or_gt_of_ne this with h | h
      · exact Or.inl ⟨⟨hA, trivial⟩, ⟨hB, heq.symm, h⟩, hd, hadj⟩
      · exact Or.inr ⟨⟨hB, heq.symm⟩, ⟨hA, heq, h⟩, hd', hadj'⟩
    · refine ⟨size B, by rw [List.mem_range'_1]; omega, Or.inr ?_⟩
      rw [if_neg (by omega), mem_loopPairs hM, mem_gosperAll (by omega) (by omega) hn, mem_gosperAll (by omega) (by omega) hn]
      exact ⟨⟨hB, rfl⟩, ⟨hA, by simp only; omega⟩, hd', hadj'⟩
  · rw [dpSizeOpt]
    apply foldlM_congr
    intro s _ T
    apply foldlM_congr
    intro s1 _ T
    split <;> exact sizeLoops_eq _ _ T

end PE
end Mutable
