import Verif.PlanEnum.Lists
/-! Each bottom-up enumerator visits a complete, well-ordered candidate list. -/
namespace Mutable
open SB
namespace PE

/-- Some join edge between `A` and `B`. -/
def Adjacent (M : AdjMat) (A B : SB) : Prop := ∃ x y, Mem A x ∧ Mem B y ∧ M.Edge x y

theorem adjacent_symm {M : AdjMat} (hM : M.Symm) {A B : SB} (h : Adjacent M A B) : Adjacent M B A := by
  obtain ⟨x, y, h1, h2, h3⟩ := h; exact ⟨y, x, h2, h1, hM _ _ h3⟩

theorem isConnected2_adj {M : AdjMat} (hM : M.Symm) (A B : SB) : M.isConnected2 A B = true ↔ Adjacent M A B := by
  rw [AdjMat.isConnected2_iff]
  constructor
  · rintro ⟨x, y, h1, h2, h3⟩; exact ⟨y, x, h2, h1, hM _ _ h3⟩
  · rintro ⟨x, y, h1, h2, h3⟩; exact ⟨y, x, h2, h1, hM _ _ h3⟩

theorem plan_conn {M : AdjMat} (hM : M.Symm) {n : Nat} {t : Tree} {S : SB} (h : IsPlan n (Adjacent M) t S) : M.ConnSet S := by
  induction h with
  | leaf i hi => exact AdjMat.connSet_singleton M i
  | node hl hr hd hm ihl ihr =>
    obtain ⟨x, y, h1, h2, h3⟩ := hm
    exact ihl.union hM ihr h1 h2 h3

theorem conn_plan {M : AdjMat} {n : Nat} (hn : n ≤ 64) {S : SB} (hS : M.ConnSet S) (h0 : S ≠ 0#64)
    (hsub : Sub S (all n)) : ∃ t, IsPlan n (Adjacent M) t S := by
  obtain ⟨a, ha⟩ := (ne_zero_iff S).1 h0
  have key : ∀ k A, size S - size A ≤ k → Sub A S → (∃ t, IsPlan n (Adjacent M) t A) → ∃ t, IsPlan n (Adjacent M) t S := by
    intro k
    induction k with
    | zero =>
      intro A hk hA ht
      by_cases he : A = S
      · rw [← he]; exact ht
      · have := size_lt_of_ssub hA he; omega
    | succ k ih =>
      intro A hk hA ⟨t, ht⟩
      by_cases he : A = S
      · rw [← he]; exact ⟨t, ht⟩
      · obtain ⟨x, y, h1, h2, h3, h4⟩ := hS.cut hA (isPlan_ne hn ht) he
        have hy := mem_lt h2
        have hd : A &&& singleton y = 0#64 := by
          rw [disj_iff]; intro i hi hc; rw [mem_singleton] at hc; rw [hc.2] at hi; exact h3 hi
        have hne : singleton y ≠ 0#64 := (ne_zero_iff _).2 ⟨y, by simp [hy]⟩
        have hlt := size_union_left hd hne
        have hs : Sub (A ||| singleton y) S := by
          intro i hi; rw [mem_or, mem_singleton] at hi
          rcases hi with hi | hi; exacts [hA i hi, hi.2 ▸ h2]
        have hyn : y < n := (mem_all hn y).1 (hsub y h2)
        exact ih (A ||| singleton y) (by have := size_le_of_sub hs; omega) hs
          ⟨.node t (.leaf y), .node ht (.leaf y hyn) hd ⟨x, y, h1, by simp [hy], h4⟩⟩
  refine key (size S) (singleton a) (by omega) ?_ ⟨.leaf a, .leaf a ((mem_all hn a).1 (hsub a ha))⟩
  intro i hi; rw [mem_singleton] at hi; rw [hi.2]; exact ha

variable {C D : Type} [LinearOrder C] {E : Env C D} {est : SB → D} {base : Nat → C}

/-- The conclusion about an enumerator's run. -/
def Solves (E : Env C D) (est : SB → D) (base : Nat → C) (may : SB → SB → Prop) (r : Option (PT C D)) : Prop :=
  ∃ T', r = some T' ∧ (∀ S t, IsPlan E.n may t S → hasPlan T' S = true) ∧
    ∀ S, Sub S (all E.n) → hasPlan T' S = true → OptAt E est base E.n may T' S

theorem solves_of_list (hE : Sane E est) {may : SB → SB → Prop} (hsym : ∀ A B, may A B → may B A) (hn : E.n ≤ 64)
    {T : PT C D} (hT : Init est base E.n T) (ps : List (SB × SB)) {r : Option (PT C D)}
    (hr : r = ps.foldlM (fun T p => tryUpdate E T p.1 p.2) T)
    (hps : ∀ p ∈ ps, PairOK E.n may p) (hord : ps.Pairwise Before)
    (hcomp : ∀ l t A B, IsPlan E.n may l A → IsPlan E.n may t B → A &&& B = 0#64 → may A B → (A, B) ∈ ps ∨ (B, A) ∈ ps) :
    Solves E est base may r := by
  obtain ⟨T', h1, h2⟩ := DPInv.run hE hn ps (DPInv.init (E := E) hn hT) hps (by simpa using hord)
  rw [List.nil_append] at h2
  exact ⟨T', by rw [hr, h1], DPInv.final hE hsym hn h2 hps hcomp⟩

omit [LinearOrder C] in
theorem pairOK_sub {M : AdjMat} {n : Nat} {S O : SB} (hS : M.ConnSet S) (hsub : Sub S (all n))
    (h1 : Sub O S) (h2 : O ≠ 0#64) (h3 : O ≠ S) : PairOK n (Adjacent M) (O, diff S O) := by
  refine ⟨h2, diff_ne_zero h1 h3, inter_diff _ _, h1.trans hsub, ?_, ?_⟩
  · intro i hi; exact hsub i ((mem_diff _ _ _).1 hi).1
  · obtain ⟨x, y, a, b, c, d⟩ := hS.cut h1 h2 h3
    exact ⟨x, y, a, (mem_diff _ _ _).2 ⟨b, c⟩, d⟩

theorem subLoop_eq (hM : E.M.Symm) {S limit : SB} (hS : E.M.ConnSet S)
    (hl : ∀ O ∈ subsetsUntil S limit, Sub O S ∧ O ≠ 0#64 ∧ O ≠ S) (T : PT C D) :
    subLoop E S limit T = ((subsetsUntil S limit).map fun O => (O, diff S O)).foldlM (fun T p => tryUpdate E T p.1 p.2) T := by
  rw [subLoop, foldlM_map']
  apply foldlM_congr
  intro O hO T
  obtain ⟨h1, h2, h3⟩ := hl O hO
  have : E.M.isConnected2 O (diff S O) = true := by
    rw [isConnected2_adj hM]
    obtain ⟨x, y, a, b, c, d⟩ := hS.cut h1 h2 h3
    exact ⟨x, y, a, (mem_diff _ _ _).2 ⟨b, c⟩, d⟩
  simp [this]

theorem two_le_of {S : SB} (h0 : S ≠ 0#64) (h1 : size S ≠ 1) : 2 ≤ size S := by
  have := size_pos h0; omega

/-- Enumerators that go over sets and their (possibly halved) splits. -/
theorem solves_sub (hE : Sane E est) (hM : E.M.Symm) (hn : E.n < 64) {T : PT C D} (hT : Init est base E.n T)
    (sets : List SB) (hsets : ∀ S, S ∈ sets ↔ S ≠ 0#64 ∧ Sub S (all E.n) ∧ size S ≠ 1 ∧ E.M.ConnSet S)
    {f : SB → Nat} (hf : ∀ A B, Sub A B → A ≠ B → f A < f B) (hsort : sets.Pairwise (fun A B => f A ≤ f B))
    (lim : SB → SB)
    (hlim : ∀ S ∈ sets, ∀ O ∈ subsetsUntil S (lim S), Sub O S ∧ O ≠ 0#64 ∧ O ≠ S)
    (hall : ∀ S ∈ sets, ∀ O, Sub O S → O ≠ 0#64 → O ≠ S → O ∈ subsetsUntil S (lim S) ∨ diff S O ∈ subsetsUntil S (lim S))
    {r : Option (PT C D)} (hr : r = sets.foldlM (fun T S => subLoop E S (lim S) T) T) :
    Solves E est base (Adjacent E.M) r := by
  have hps : ∀ p ∈ subPairs sets (fun S => subsetsUntil S (lim S)), PairOK E.n (Adjacent E.M) p := by
    intro p hp
    obtain ⟨S, hS, h1, h2⟩ := mem_subPairs.1 hp
    obtain ⟨a, b, c⟩ := hlim S hS _ h1
    obtain ⟨s1, s2, s3, s4⟩ := (hsets S).1 hS
    have := pairOK_sub s4 s2 a b c
    rwa [← h2] at this
  refine solves_of_list hE (fun _ _ => adjacent_symm hM) (by omega) hT (subPairs sets (fun S => subsetsUntil S (lim S))) ?_ hps
    (subPairs_before hf (fun S hS O hO => (hlim S hS O hO).1) hps hsort) ?_
  · rw [hr, subPairs, foldlM_flatMap]
    apply foldlM_congr
    intro S hS T
    exact subLoop_eq hM ((hsets S).1 hS).2.2.2 (hlim S hS) T
  · intro l t A B hl ht hd hm
    have hA := isPlan_ne (by omega) hl
    have hB := isPlan_ne (by omega) ht
    obtain ⟨x, y, e1, e2, e3⟩ := hm
    have hconn : E.M.ConnSet (A ||| B) := (plan_conn hM hl).union hM (plan_conn hM ht) e1 e2 e3
    have hS : A ||| B ∈ sets := (hsets _).2 ⟨fun h => by
        obtain ⟨i, hi⟩ := (ne_zero_iff A).1 hA
        have : Mem (A ||| B) i := by simp [hi]
        rw [h] at this; exact not_mem_zero i this,
      sub_all_union (isPlan_sub (by omega) hl) (isPlan_sub (by omega) ht), size_union_ne_one hd hA hB, hconn⟩
    have hdu := diff_union hd
    have hdu' : diff (A ||| B) B = A := by
      rw [or_comm']; exact diff_union (by rw [and_comm']; exact hd)
    rcases hall _ hS A (sub_left _ _) hA (union_ne_left hd hB).symm with h | h
    · left; exact mem_subPairs.2 ⟨_, hS, h, hdu.symm⟩
    · right; rw [hdu] at h; exact mem_subPairs.2 ⟨_, hS, h, hdu'.symm⟩

omit [LinearOrder C] in
theorem lim_self {S : SB} (h0 : S ≠ 0#64) : (∀ O ∈ subsetsUntil S S, Sub O S ∧ O ≠ 0#64 ∧ O ≠ S) ∧
    ∀ O, Sub O S → O ≠ 0#64 → O ≠ S → O ∈ subsetsUntil S S ∨ diff S O ∈ subsetsUntil S S :=
  ⟨fun O hO => (mem_until_self h0 O).1 hO, fun O h1 h2 h3 => Or.inl ((mem_until_self h0 O).2 ⟨h1, h2, h3⟩)⟩

theorem lim_hi {S : SB} (h0 : S ≠ 0#64) : (∀ O ∈ subsetsUntil S (hi S), Sub O S ∧ O ≠ 0#64 ∧ O ≠ S) ∧
    ∀ O, Sub O S → O ≠ 0#64 → O ≠ S → O ∈ subsetsUntil S (hi S) ∨ diff S O ∈ subsetsUntil S (hi S) := by
  obtain ⟨z, hz⟩ := exists_greatest h0
  constructor
  · intro O hO
    obtain ⟨a, b, c⟩ := (mem_until_hi hz O).1 hO
    exact ⟨a, b, fun h => c (h ▸ hz.1)⟩
  · intro O h1 h2 h3
    by_cases h : Mem O z
    · right
      rw [mem_until_hi hz]
      exact ⟨fun i hi => ((mem_diff _ _ _).1 hi).1, diff_ne_zero h1 h3, fun hc => ((mem_diff _ _ _).1 hc).2 h⟩
    · left; rw [mem_until_hi hz]; exact ⟨h1, h2, h⟩

theorem solves_dpSub (hE : Sane E est) (hM : E.M.Symm) (hn : E.n < 64) {T : PT C D} (hT : Init est base E.n T) :
    Solves E est base (Adjacent E.M) (dpSub E T) := by
  have hsets : ∀ S, S ∈ (numbers E.n).filter (fun S => decide (size S ≠ 1) && E.M.isConnected S) ↔
      S ≠ 0#64 ∧ Sub S (all E.n) ∧ size S ≠ 1 ∧ E.M.ConnSet S := by
    intro S
    rw [List.mem_filter, mem_numbers hn, Bool.and_eq_true, AdjMat.isConnected_iff hM, decide_eq_true_eq, and_assoc]
  refine solves_sub hE hM hn hT _ hsets (f := BitVec.toNat) toNat_rank
    (((numbers_sorted hn).filter _).imp (fun h => by rw [BitVec.lt_def] at h; omega)) (fun S => S)
    (fun S hS => (lim_self ((hsets S).1 hS).1).1) (fun S hS => (lim_self ((hsets S).1 hS).1).2) ?_
  rw [dpSub, foldlM_filter]
  apply foldlM_congr
  intro S _ T
  by_cases h1 : size S = 1 <;> by_cases h2 : E.M.isConnected S = true <;> simp [h1, h2]

theorem solves_dpSubOpt (hE : Sane E est) (hM : E.M.Symm) (hn : E.n < 64) {T : PT C D} (hT : Init est base E.n T) :
    Solves E est base (Adjacent E.M) (dpSubOpt E T) := by
  have hsets : ∀ S, S ∈ (numbers E.n).filter (fun S => decide (size S ≠ 1) && E.M.isConnected S) ↔
      S ≠ 0#64 ∧ Sub S (all E.n) ∧ size S ≠ 1 ∧ E.M.ConnSet S := by
    intro S
    rw [List.mem_filter, mem_numbers hn, Bool.and_eq_true, AdjMat.isConnected_iff hM, decide_eq_true_eq, and_assoc]
  refine solves_sub hE hM hn hT _ hsets (f := BitVec.toNat) toNat_rank
    (((numbers_sorted hn).filter _).imp (fun h => by rw [BitVec.lt_def] at h; omega)) (fun S => hi S)
    (fun S hS => (lim_hi ((hsets S).1 hS).1).1) (fun S hS => (lim_hi ((hsets S).1 hS).1).2) ?_
  rw [dpSubOpt, foldlM_filter]
  apply foldlM_congr
  intro S _ T
  by_cases h1 : size S = 1 <;> by_cases h2 : E.M.isConnected S = true <;> simp [h1, h2]

theorem size_rank (A B : SB) (h : Sub A B) (hne : A ≠ B) : size A < size B := size_lt_of_ssub h hne

theorem sub_all_iff {n : Nat} (hn : n ≤ 64) (U : SB) : (∀ i, Mem U i → i < n) ↔ Sub U (all n) := by
  constructor
  · intro h i hi; exact (mem_all hn i).2 (h i hi)
  · intro h i hi; exact (mem_all hn i).1 (h i hi)

theorem size_le_n {n : Nat} (hn : n ≤ 64) {S : SB} (h : Sub S (all n)) : size S ≤ n := by
  have := size_le_of_sub h; rwa [size_all hn] at this

theorem mem_gosperAll {k n : Nat} (hk : 1 ≤ k) (hkn : k ≤ n) (hn : n < 64) (U : SB) :
    U ∈ gosperAll k n ↔ Sub U (all n) ∧ size U = k := by
  rw [(gosperAll_spec hk hkn hn).2, sub_all_iff (by omega)]

theorem solves_dpSizeSub (hE : Sane E est) (hM : E.M.Symm) (hn : E.n < 64) {T : PT C D} (hT : Init est base E.n T) :
    Solves E est base (Adjacent E.M) (dpSizeSub E T) := by
  have hsets : ∀ S, S ∈ ((List.range' 2 (E.n - 1)).flatMap (fun s => gosperAll s E.n)).filter (fun S => E.M.isConnected S) ↔
      S ≠ 0#64 ∧ Sub S (all E.n) ∧ size S ≠ 1 ∧ E.M.ConnSet S := by
    intro S
    rw [List.mem_filter, AdjMat.isConnected_iff hM, List.mem_flatMap]
    constructor
    · rintro ⟨⟨s, hs, h1⟩, h2⟩
      rw [List.mem_range'_1] at hs
      rw [mem_gosperAll (by omega) (by omega) hn] at h1
      exact ⟨fun h => by rw [h, size_zero] at h1; omega, h1.1, by omega, h2⟩
    · rintro ⟨h1, h2, h3, h4⟩
      have a := two_le_of h1 h3
      have b := size_le_n (by omega) h2
      refine ⟨⟨size S, by rw [List.mem_range'_1]; omega, ?_⟩, h4⟩
      rw [mem_gosperAll (by omega) b hn]; exact ⟨h2, rfl⟩
  refine solves_sub hE hM hn hT _ hsets (f := size) size_rank ?_ (fun S => S)
    (fun S hS => (lim_self ((hsets S).1 hS).1).1) (fun S hS => (lim_self ((hsets S).1 hS).1).2) ?_
  · apply List.Pairwise.filter
    rw [List.pairwise_flatMap]
    constructor
    · intro s hs
      rw [List.mem_range'_1] at hs
      apply List.pairwise_of_forall_mem_list
      intro a ha b hb
      rw [mem_gosperAll (by omega) (by omega) hn] at ha hb
      omega
    · refine (List.pairwise_lt_range' (s := 2) (n := E.n - 1)).imp_of_mem ?_
      intro s s' hs hs' hlt a ha b hb
      rw [List.mem_range'_1] at hs hs'
      rw [mem_gosperAll (by omega) (by omega) hn] at ha hb
      omega
  · rw [dpSizeSub, foldlM_filter, foldlM_flatMap]
    apply foldlM_congr
    intro s _ T
    apply foldlM_congr
    intro S _ T
    by_cases h2 : E.M.isConnected S = true <;> simp [h2]

/-! ### PEall -/

theorem solves_peAll (hE : Sane E est) (hn : E.n < 64) {T : PT C D} (hT : Init est base E.n T) :
    Solves E est base (fun _ _ => True) (peAll E T) ∧
    ∀ T', peAll E T = some T' → ∀ S, S ≠ 0#64 → Sub S (all E.n) → hasPlan T' S = true := by
  have hsets : ∀ S, S ∈ (numbers E.n).filter (fun S => decide (size S ≠ 1)) ↔
      (S ≠ 0#64 ∧ Sub S (all E.n)) ∧ size S ≠ 1 := by
    intro S
    rw [List.mem_filter, mem_numbers hn, decide_eq_true_eq]
  set sets := (numbers E.n).filter (fun S => decide (size S ≠ 1)) with hsd
  have hsort : sets.Pairwise (fun A B => A.toNat < B.toNat) :=
    ((numbers_sorted hn).filter _).imp (fun h => by rw [BitVec.lt_def] at h; omega)
  have hps : ∀ p ∈ subPairs sets (fun S => subsetsUntil S (hi S)), PairOK E.n (fun _ _ => True) p := by
    intro p hp
    obtain ⟨S, hS, h1, h2⟩ := mem_subPairs.1 hp
    obtain ⟨⟨s1, s2⟩, s3⟩ := (hsets S).1 hS
    obtain ⟨a, b, c⟩ := (lim_hi s1).1 _ h1
    obtain ⟨p1, p2⟩ := p
    simp only at *
    subst h2
    exact ⟨b, diff_ne_zero a c, inter_diff _ _, a.trans s2, fun i hi => s2 i ((mem_diff _ _ _).1 hi).1, trivial⟩
  -- plans exist for every smaller set, so the assertions hold
  have key : ∀ (l : List SB) (done : List SB) (T : PT C D), sets = done ++ l →
      DPInv E est base E.n (subPairs done (fun S => subsetsUntil S (hi S))) T →
      (∀ S ∈ done, hasPlan T S = true) →
      ∃ T', l.foldlM (fun T S => (subsetsUntil S (hi S)).foldlM (fun T S1 =>
        let S2 := diff S S1
        if hasPlan T S1 && hasPlan T S2 then update E T S1 S2 else none) T) T = some T' ∧
      DPInv E est base E.n (subPairs sets (fun S => subsetsUntil S (hi S))) T' ∧ (∀ S ∈ sets, hasPlan T' S = true) := by
    intro l
    induction l with
    | nil => intro done T hd hI hp; rw [List.append_nil] at hd; exact ⟨T, rfl, hd ▸ hI, hd ▸ hp⟩
    | cons S l ih =>
      intro done T hd hI hp
      have hSs : S ∈ sets := by rw [hd]; simp
      obtain ⟨⟨s1, s2⟩, s3⟩ := (hsets S).1 hSs
      have hlt : ∀ O, Sub O S → O ≠ 0#64 → O ≠ S → O ∈ done ∨ size O = 1 := by
        intro O h1 h2 h3
        by_cases hs : size O = 1
        · exact Or.inr hs
        · left
          have hO : O ∈ sets := (hsets O).2 ⟨⟨h2, h1.trans s2⟩, hs⟩
          rw [hd] at hO hsort
          rcases List.mem_append.1 hO with h | h
          · exact h
          · rw [List.pairwise_append] at hsort
            have hc := hsort.2.1
            rw [List.pairwise_cons] at hc
            have := toNat_rank O S h1 h3
            rcases List.mem_cons.1 h with rfl | h
            · omega
            · have := hc.1 O h; omega
      have hplan : ∀ (T : PT C D), (∀ S ∈ done, hasPlan T S = true) → ∀ O, Sub O S → O ≠ 0#64 → O ≠ S → hasPlan T O = true := by
        intro T hp O h1 h2 h3
        rcases hlt O h1 h2 h3 with h | h
        · exact hp O h
        · simp [hasPlan, h]
      -- inner loop
      have inner : ∀ (os : List SB) (dn : List (SB × SB)) (T : PT C D), (∀ O ∈ os, O ∈ subsetsUntil S (hi S)) →
          (∀ S ∈ done, hasPlan T S = true) →
          DPInv E est base E.n (subPairs done (fun S => subsetsUntil S (hi S)) ++ dn) T →
          (∀ q ∈ dn, q.1 ||| q.2 = S ∧ q.1 ≠ S ∧ q.2 ≠ S) →
          ∃ T', os.foldlM (fun T S1 => let S2 := diff S S1
            if hasPlan T S1 && hasPlan T S2 then update E T S1 S2 else none) T = some T' ∧
          DPInv E est base E.n (subPairs done (fun S => subsetsUntil S (hi S)) ++ (dn ++ os.map fun O => (O, diff S O))) T' ∧
          (∀ S ∈ done, hasPlan T' S = true) := by
        intro os
        induction os with
        | nil => intro dn T _ hp hI _; exact ⟨T, rfl, by simpa using hI, hp⟩
        | cons O os ih2 =>
          intro dn T hos hp hI hdn
          obtain ⟨a, b, c⟩ := (lim_hi s1).1 O (hos O (by simp))
          have hdne := diff_ne_zero a c
          have hdS : diff S O ≠ S := by
            intro h
            obtain ⟨i, hi⟩ := (ne_zero_iff O).1 b
            have : Mem (diff S O) i := by rw [h]; exact a i hi
            rw [mem_diff] at this; exact this.2 hi
          have hpair : PairOK E.n (fun _ _ => True) (O, diff S O) :=
            ⟨b, hdne, inter_diff _ _, a.trans s2, fun i hi => s2 i ((mem_diff _ _ _).1 hi).1, trivial⟩
          have h1 := hplan T hp O a b c
          have h2 := hplan T hp (diff S O) (fun i hi => ((mem_diff _ _ _).1 hi).1) hdne hdS
          obtain ⟨T1, hT1, hI1⟩ := hI.step hE (by omega) hpair (by
            intro q hq
            simp only [Before, union_diff a]
            rcases List.mem_append.1 hq with hq | hq
            · obtain ⟨S', hS', h3, h4⟩ := mem_subPairs.1 hq
              have hS's : S' ∈ sets := by rw [hd]; simp [hS']
              obtain ⟨a', b', c'⟩ := (lim_hi ((hsets S').1 hS's).1.1).1 _ h3
              have hlt' : S'.toNat < S.toNat := by
                rw [hd, List.pairwise_append] at hsort
                exact hsort.2.2 S' hS' S (by simp)
              have t1 := toNat_rank _ _ a' c'
              have t2 : q.2.toNat ≤ S'.toNat := by
                have : Sub q.2 S' := by rw [h4]; exact fun i hi => ((mem_diff _ _ _).1 hi).1
                have := le_of_sub this
                rwa [BitVec.le_def] at this
              constructor
              · intro h; rw [h] at hlt'; omega
              · intro h; rw [h] at hlt'; omega
            · exact ⟨fun h => (hdn q hq).2.1 h.symm, fun h => (hdn q hq).2.2 h.symm⟩)
          have hT1' : update E T O (diff S O) = some T1 := by
            rw [tryUpdate] at hT1; simpa [h1, h2] using hT1
          have hmono : ∀ S ∈ done, hasPlan T1 S = true := by
            intro X hX
            obtain ⟨T2, u1, u2, _⟩ := update_ok hE hI.models b hdne (inter_diff _ _)
              (hI.models.some _ hpair.sub1 h1) (hI.models.some _ hpair.sub2 h2)
            rw [hT1'] at u1
            cases u1
            exact u2.mono (hp X hX)
          obtain ⟨T2, g1, g2, g3⟩ := ih2 (dn ++ [(O, diff S O)]) T1 (fun O' h => hos O' (by simp [h])) hmono
            (by rw [← List.append_assoc]; exact hI1) (by
              intro q hq
              rcases List.mem_append.1 hq with hq | hq
              · exact hdn q hq
              · rw [List.mem_singleton] at hq; subst hq; exact ⟨union_diff a, c, hdS⟩)
          refine ⟨T2, ?_, by simpa using g2, g3⟩
          rw [List.foldlM_cons]
          simp only [h1, h2, Bool.and_self, if_true, hT1']
          exact g1
      obtain ⟨T1, h1, h2, h3⟩ := inner (subsetsUntil S (hi S)) [] T (fun _ h => h) hp (by simpa using hI) (by simp)
      rw [List.nil_append] at h2
      have hsp : subPairs done (fun S => subsetsUntil S (hi S)) ++ (subsetsUntil S (hi S)).map (fun O => (O, diff S O)) =
          subPairs (done ++ [S]) (fun S => subsetsUntil S (hi S)) := by
        simp [subPairs]
      rw [hsp] at h2
      obtain ⟨T2, g1, g2, g3⟩ := ih (done ++ [S]) T1 (by simpa using hd) h2 (by
        intro X hX
        rcases List.mem_append.1 hX with hX | hX
        · exact h3 X hX
        · rw [List.mem_singleton] at hX; subst hX
          -- some split of X was processed
          obtain ⟨z, hz⟩ := exists_greatest s1
          have hO : diff X (singleton z) ≠ 0#64 := by
            intro h
            have : Sub (singleton z) X := by intro i hi; rw [mem_singleton] at hi; rw [hi.2]; exact hz.1
            apply s3
            have hx : X = singleton z := by
              apply ext; intro i
              constructor
              · intro hi
                by_contra hc
                have : Mem (diff X (singleton z)) i := (mem_diff _ _ _).2 ⟨hi, hc⟩
                rw [h] at this; exact not_mem_zero i this
              · exact this i
            rw [hx, size_singleton (mem_lt hz.1)]
          have hmem : diff X (singleton z) ∈ subsetsUntil X (hi X) := by
            rw [mem_until_hi hz]
            exact ⟨fun i hi => ((mem_diff _ _ _).1 hi).1, hO, by simp [mem_lt hz.1]⟩
          obtain ⟨a, b, c⟩ := (lim_hi s1).1 _ hmem
          have hdne := diff_ne_zero a c
          have hdX : diff X (diff X (singleton z)) ≠ X := by
            intro h
            obtain ⟨i, hi⟩ := (ne_zero_iff _).1 b
            have : Mem (diff X (diff X (singleton z))) i := by rw [h]; exact a i hi
            rw [mem_diff] at this; exact this.2 hi
          have := h2.did (diff X (singleton z), diff X (diff X (singleton z))) (mem_subPairs.2 ⟨X, by simp, hmem, rfl⟩)
            (hplan T1 h3 _ a b c) (hplan T1 h3 _ (fun i hi => ((mem_diff _ _ _).1 hi).1) hdne hdX)
          have h4 := this.1
          simp only [union_diff a] at h4
          exact h4)
      refine ⟨T2, ?_, g2, g3⟩
      rw [List.foldlM_cons, h1]
      exact g1
  have hrun : peAll E T = sets.foldlM (fun T S => (subsetsUntil S (hi S)).foldlM (fun T S1 =>
        let S2 := diff S S1
        if hasPlan T S1 && hasPlan T S2 then update E T S1 S2 else none) T) T := by
    rw [peAll, hsd, foldlM_filter]
    apply foldlM_congr
    intro S _ T
    by_cases h1 : size S = 1 <;> simp [h1]
  obtain ⟨T', h1, h2, h3⟩ := key sets [] T rfl (by
    have := DPInv.init (E := E) (by omega : E.n ≤ 64) hT
    simpa [subPairs] using this) (by simp)
  have hall : ∀ S, S ≠ 0#64 → Sub S (all E.n) → hasPlan T' S = true := by
    intro S a b
    by_cases hs : size S = 1
    · simp [hasPlan, hs]
    · exact h3 S ((hsets S).2 ⟨⟨a, b⟩, hs⟩)
  constructor
  · refine ⟨T', by rw [hrun, h1], DPInv.final hE (fun _ _ h => h) (by omega) h2 hps ?_⟩
    intro l t A B hl ht hd hm
    have hA := isPlan_ne (by omega) hl
    have hB := isPlan_ne (by omega) ht
    have hne : A ||| B ≠ 0#64 := by
      intro h
      obtain ⟨i, hi⟩ := (ne_zero_iff A).1 hA
      have : Mem (A ||| B) i := by simp [hi]
      rw [h] at this; exact not_mem_zero i this
    have hS : A ||| B ∈ sets := (hsets _).2 ⟨⟨hne,
      sub_all_union (isPlan_sub (by omega) hl) (isPlan_sub (by omega) ht)⟩, size_union_ne_one hd hA hB⟩
    have hdu := diff_union hd
    have hdu' : diff (A ||| B) B = A := by
      rw [or_comm']; exact diff_union (by rw [and_comm']; exact hd)
    rcases (lim_hi hne).2 A (sub_left _ _) hA (union_ne_left hd hB).symm with h | h
    · left; exact mem_subPairs.2 ⟨_, hS, h, hdu.symm⟩
    · right; rw [hdu] at h; exact mem_subPairs.2 ⟨_, hS, h, hdu'.symm⟩
  · intro T'' hT''
    rw [hrun, h1] at hT''
    cases hT''
    exact hall

end PE
end Mutable
