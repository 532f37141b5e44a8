import Verif.PlanEnum.Generic
/-! Generic correctness of bottom-up dynamic programming over a list of candidate pairs. -/
namespace Mutable
open SB
namespace PE
variable {C D : Type} [LinearOrder C] {E : Env C D} {est : SB → D} {base : Nat → C} {n : Nat}

/-- `S` has an optimal plan on record: the recorded splits form a plan with the recorded cost and no plan is cheaper. -/
def OptAt (E : Env C D) (est : SB → D) (base : Nat → C) (n : Nat) (may : SB → SB → Prop) (T : PT C D) (S : SB) : Prop :=
  (∃ t, Recorded T S t ∧ IsPlan n may t S ∧ t.cost E est base = (T S).cost) ∧
  ∀ t, IsPlan n may t S → (T S).cost ≤ t.cost E est base

structure DPInv (E : Env C D) (est : SB → D) (base : Nat → C) (n : Nat) (done : List (SB × SB)) (T : PT C D) : Prop where
  models : ModelOK est n T
  base : ∀ i, i < n → (T (singleton i)).cost = base i
  split : ∀ S, size S ≠ 1 → hasPlan T S = true → ∃ A B, ((A, B) ∈ done ∨ (B, A) ∈ done) ∧ (T S).left = A ∧ (T S).right = B ∧
    A ||| B = S ∧ hasPlan T A = true ∧ hasPlan T B = true ∧ (T S).cost = E.J est A B (T A).cost (T B).cost
  did : ∀ p ∈ done, hasPlan T p.1 = true → hasPlan T p.2 = true → hasPlan T (p.1 ||| p.2) = true ∧
    (T (p.1 ||| p.2)).cost ≤ E.J est p.1 p.2 (T p.1).cost (T p.2).cost ∧
    (T (p.1 ||| p.2)).cost ≤ E.J est p.2 p.1 (T p.2).cost (T p.1).cost

/-- A candidate pair: disjoint, non-empty, within the relations, joinable. -/
structure PairOK (n : Nat) (may : SB → SB → Prop) (p : SB × SB) : Prop where
  ne1 : p.1 ≠ 0#64
  ne2 : p.2 ≠ 0#64
  dis : p.1 &&& p.2 = 0#64
  sub1 : Sub p.1 (all n)
  sub2 : Sub p.2 (all n)
  may : may p.1 p.2

/-- `q` does not update a set that `p` has used. -/
def Before (p q : SB × SB) : Prop := q.1 ||| q.2 ≠ p.1 ∧ q.1 ||| q.2 ≠ p.2

theorem hasPlan_other {T T' : PT C D} {X : SB} (h : T' X = T X) : hasPlan T' X = hasPlan T X := by
  rw [hasPlan, hasPlan, h]

theorem single_inj {i j : Nat} (hi : i < 64) (h : singleton i = singleton j) : i = j := by
  have : Mem (SB.singleton j) i := by rw [← h]; simp [hi]
  rw [mem_singleton] at this; exact this.2

theorem DPInv.step (hE : Sane E est) {may : SB → SB → Prop} {done : List (SB × SB)} {T : PT C D}
    (h : DPInv E est base n done T) (hn : n ≤ 64) {p : SB × SB} (hp : PairOK n may p) (hord : ∀ q ∈ done, Before q p) :
    ∃ T', tryUpdate E T p.1 p.2 = some T' ∧ DPInv E est base n (done ++ [p]) T' := by
  obtain ⟨A, B⟩ := p
  unfold tryUpdate
  by_cases hA : hasPlan T A = true
  swap
  · refine ⟨T, by simp [hA], h.models, h.base, ?_, ?_⟩
    · intro S h1 h2
      obtain ⟨A', B', h3, h4⟩ := h.split S h1 h2
      exact ⟨A', B', by simp only [List.mem_append]; rcases h3 with h3 | h3; exacts [Or.inl (Or.inl h3), Or.inr (Or.inl h3)], h4⟩
    · intro q hq h1 h2
      rcases List.mem_append.1 hq with hq | hq
      · exact h.did q hq h1 h2
      · rw [List.mem_singleton] at hq; subst hq; exact absurd h1 hA
  by_cases hB : hasPlan T B = true
  swap
  · refine ⟨T, by simp [hB], h.models, h.base, ?_, ?_⟩
    · intro S h1 h2
      obtain ⟨A', B', h3, h4⟩ := h.split S h1 h2
      exact ⟨A', B', by simp only [List.mem_append]; rcases h3 with h3 | h3; exacts [Or.inl (Or.inl h3), Or.inr (Or.inl h3)], h4⟩
    · intro q hq h1 h2
      rcases List.mem_append.1 hq with hq | hq
      · exact h.did q hq h1 h2
      · rw [List.mem_singleton] at hq; subst hq; exact absurd h2 hB
  obtain ⟨T', hu, hU, hmod⟩ := update_ok hE h.models hp.ne1 hp.ne2 hp.dis (h.models.some A hp.sub1 hA) (h.models.some B hp.sub2 hB)
  simp only at hu hU
  refine ⟨T', by simp [hA, hB, hu], hmod, ?_, ?_, ?_⟩
  · intro i hi
    rw [hU.other, h.base i hi]
    intro hc
    apply size_union_ne_one hp.dis hp.ne1 hp.ne2
    simp only
    rw [← hc, size_singleton (by omega)]
  · -- splits
    have hold : ∀ A' B', ((A', B') ∈ done ∨ (B', A') ∈ done) → T' A' = T A' ∧ T' B' = T B' := by
      intro A' B' h3
      rcases h3 with h3 | h3
      · have := hord _ h3; exact ⟨hU.other _ this.1.symm, hU.other _ this.2.symm⟩
      · have := hord _ h3; exact ⟨hU.other _ this.2.symm, hU.other _ this.1.symm⟩
    have hA' : T' A = T A := hU.other _ (union_ne_left hp.dis hp.ne2).symm
    have hB' : T' B = T B := hU.other _ (union_ne_right hp.dis hp.ne1).symm
    intro S h1 h2
    by_cases hS : S = A ||| B
    · subst hS
      rcases hU.cases with ⟨c1, c2, c3⟩ | ⟨c1, c2, c3⟩ | ⟨c0, c1, c2, c3⟩
      · exact ⟨A, B, Or.inl (by simp), c1, c2, rfl, hU.mono hA, hU.mono hB, by rw [c3, hA', hB']⟩
      · exact ⟨B, A, Or.inr (by simp), c1, c2, or_comm' _ _, hU.mono hB, hU.mono hA, by rw [c3, hA', hB']⟩
      · obtain ⟨A', B', h3, h4, h5, h6, h7, h8, h9⟩ := h.split _ h1 c0
        obtain ⟨e1, e2⟩ := hold A' B' h3
        refine ⟨A', B', by simp only [List.mem_append]; rcases h3 with h3 | h3; exacts [Or.inl (Or.inl h3), Or.inr (Or.inl h3)],
          by rw [c1, h4], by rw [c2, h5], h6, hU.mono h7, hU.mono h8, by rw [c3, h9, e1, e2]⟩
    · rw [hasPlan_other (hU.other S hS)] at h2
      obtain ⟨A', B', h3, h4, h5, h6, h7, h8, h9⟩ := h.split _ h1 h2
      obtain ⟨e1, e2⟩ := hold A' B' h3
      refine ⟨A', B', by simp only [List.mem_append]; rcases h3 with h3 | h3; exacts [Or.inl (Or.inl h3), Or.inr (Or.inl h3)],
          by rw [hU.other S hS, h4], by rw [hU.other S hS, h5], h6, hU.mono h7, hU.mono h8, by rw [hU.other S hS, h9, e1, e2]⟩
  · intro q hq h1 h2
    rcases List.mem_append.1 hq with hq | hq
    · have hb := hord q hq
      have e1 := hU.other _ hb.1.symm
      have e2 := hU.other _ hb.2.symm
      rw [hasPlan_other e1] at h1
      rw [hasPlan_other e2] at h2
      obtain ⟨d1, d2, d3⟩ := h.did q hq h1 h2
      rw [e1, e2]
      by_cases hS : q.1 ||| q.2 = A ||| B
      · rw [hS] at d1 d2 d3 ⊢
        exact ⟨hU.hasp, (hU.old d1).trans d2, (hU.old d1).trans d3⟩
      · rw [hasPlan_other (hU.other _ hS), hU.other _ hS]
        exact ⟨d1, d2, d3⟩
    · rw [List.mem_singleton] at hq; subst hq
      have hA' : T' A = T A := hU.other _ (union_ne_left hp.dis hp.ne2).symm
      have hB' : T' B = T B := hU.other _ (union_ne_right hp.dis hp.ne1).symm
      simp only [hA', hB']
      exact ⟨hU.hasp, hU.le1, hU.le2⟩

theorem DPInv.run (hE : Sane E est) {may : SB → SB → Prop} (hn : n ≤ 64) (ps : List (SB × SB)) {done : List (SB × SB)}
    {T : PT C D} (h : DPInv E est base n done T) (hps : ∀ p ∈ ps, PairOK n may p)
    (hord : (done ++ ps).Pairwise Before) :
    ∃ T', ps.foldlM (fun T p => tryUpdate E T p.1 p.2) T = some T' ∧ DPInv E est base n (done ++ ps) T' := by
  induction ps generalizing done T with
  | nil => exact ⟨T, rfl, by simpa using h⟩
  | cons p ps ih =>
    obtain ⟨T1, h1, h2⟩ := h.step hE hn (hps p (by simp)) (by
      intro q hq
      rw [List.pairwise_append] at hord
      exact hord.2.2 q hq p (by simp))
    obtain ⟨T2, h3, h4⟩ := ih h2 (fun q hq => hps q (by simp [hq])) (by simpa using hord)
    refine ⟨T2, ?_, by simpa using h4⟩
    rw [List.foldlM_cons, h1]
    exact h3

theorem DPInv.init {T : PT C D} (hn : n ≤ 64) (h : Init est base n T) : DPInv E est base n [] T := by
  have noplan : ∀ S, size S ≠ 1 → hasPlan T S = false := by
    intro S hS; simp [hasPlan, hS, h.noplan S hS, isEmpty]
  refine ⟨⟨h.model, ?_⟩, fun i hi => (h.single i hi).2, ?_, by simp⟩
  · intro S hS hp
    have h1 : size S = 1 := by
      by_contra hc; rw [noplan S hc] at hp; exact absurd hp (by simp)
    have : isSingleton S = true := by simp [isSingleton, h1]
    obtain ⟨i, hi, rfl⟩ := (isSingleton_iff S).1 this
    exact (h.single i (by
      have := hS i (by simp [hi])
      rwa [mem_all hn] at this)).1
  · intro S hS hp; rw [noplan S hS] at hp; exact absurd hp (by simp)

theorem IsPlan.split_ok {may : SB → SB → Prop} {t : Tree} {S : SB} (h : IsPlan n may t S) :
    (∃ i, i < n ∧ t = .leaf i ∧ S = singleton i) ∨
    ∃ l r A B, t = .node l r ∧ S = A ||| B ∧ IsPlan n may l A ∧ IsPlan n may r B ∧ A &&& B = 0#64 ∧ may A B := by
  cases h with
  | leaf i hi => exact Or.inl ⟨i, hi, rfl, rfl⟩
  | node hl hr hd hm => exact Or.inr ⟨_, _, _, _, rfl, rfl, hl, hr, hd, hm⟩

/-- Every set with a plan has a recorded tree with the recorded cost. -/
theorem DPInv.recorded {may : SB → SB → Prop} (hsym : ∀ A B, may A B → may B A) (hn : n ≤ 64)
    {ps : List (SB × SB)} {T : PT C D} (h : DPInv E est base n ps T) (hps : ∀ p ∈ ps, PairOK n may p) {S : SB}
    (hS : Sub S (all n)) (hp : hasPlan T S = true) :
    ∃ t, Recorded T S t ∧ IsPlan n may t S ∧ t.cost E est base = (T S).cost := by
  have key : ∀ k S, size S ≤ k → Sub S (all n) → hasPlan T S = true →
      ∃ t, Recorded T S t ∧ IsPlan n may t S ∧ t.cost E est base = (T S).cost := by
    intro k
    induction k with
    | zero =>
      intro S hk _ hp
      have h0 : S = 0#64 := (size_eq_zero_iff S).1 (by omega)
      obtain ⟨A, B, h1, h2, h3, h4, _⟩ := h.split S (by omega) hp
      have hne : A ≠ 0#64 := by
        rcases h1 with h1 | h1
        · exact (hps _ h1).ne1
        · exact (hps _ h1).ne2
      obtain ⟨i, hi⟩ := (ne_zero_iff A).1 hne
      have : Mem S i := by rw [← h4]; simp [hi]
      rw [h0] at this; exact absurd this (not_mem_zero i)
    | succ k ih =>
      intro S hk hS hp
      by_cases h1 : size S = 1
      · have : isSingleton S = true := by simp [isSingleton, h1]
        obtain ⟨i, hi, rfl⟩ := (isSingleton_iff S).1 this
        have hin : i < n := by
          have := hS i (by simp [hi]); rwa [mem_all hn] at this
        exact ⟨.leaf i, .leaf i hi, .leaf i hin, (h.base i hin).symm⟩
      · obtain ⟨A, B, h2, h3, h4, h5, h6, h7, h8⟩ := h.split S h1 hp
        obtain ⟨o1, o2, o3, o4, o5, o6⟩ : A ≠ 0#64 ∧ B ≠ 0#64 ∧ A &&& B = 0#64 ∧ Sub A (all n) ∧ Sub B (all n) ∧ may A B := by
          rcases h2 with h2 | h2
          · have := hps _ h2; exact ⟨this.ne1, this.ne2, this.dis, this.sub1, this.sub2, this.may⟩
          · have := hps _ h2; exact ⟨this.ne2, this.ne1, by rw [and_comm']; exact this.dis, this.sub2, this.sub1, hsym _ _ this.may⟩
        have s1 := size_union_left o3 o2
        have s2 := size_union_right o3 o1
        rw [h5] at s1 s2
        obtain ⟨l, l1, l2, l3⟩ := ih A (by omega) o4 h6
        obtain ⟨r, r1, r2, r3⟩ := ih B (by omega) o5 h7
        refine ⟨.node l r, .node h1 (h3 ▸ l1) (h4 ▸ r1) (by rw [h3, h4, h5]), ?_, ?_⟩
        · rw [← h5]; exact .node l2 r2 o3 o6
        · rw [Tree.cost, isPlan_rels l2, isPlan_rels r2, l3, r3, h8]; rfl
  exact key (size S) S le_rfl hS hp

/-- At the end every recorded plan is optimal, and there is one wherever a plan exists. -/
theorem DPInv.final (hE : Sane E est) {may : SB → SB → Prop} (hsym : ∀ A B, may A B → may B A) (hn : n ≤ 64)
    {ps : List (SB × SB)} {T : PT C D}
    (h : DPInv E est base n ps T) (hps : ∀ p ∈ ps, PairOK n may p)
    (hcomp : ∀ l r A B, IsPlan n may l A → IsPlan n may r B → A &&& B = 0#64 → may A B → (A, B) ∈ ps ∨ (B, A) ∈ ps) :
    (∀ S t, IsPlan n may t S → hasPlan T S = true) ∧
    ∀ S, Sub S (all n) → hasPlan T S = true → OptAt E est base n may T S := by
  have lower : ∀ t S, IsPlan n may t S → hasPlan T S = true ∧ (T S).cost ≤ t.cost E est base := by
    intro t S ht
    induction ht with
    | leaf i hi => exact ⟨by simp [hasPlan, size_singleton (show i < 64 by omega)], by rw [h.base i hi]; rfl⟩
    | @node l r A B hl hr hd hm ihl ihr =>
      have hlr := isPlan_rels hl
      have hrr := isPlan_rels hr
      have hm1 : E.J est A B (T A).cost (T B).cost ≤ (Tree.node l r).cost E est base := by
        rw [Tree.cost, hlr, hrr]; exact hE.mono _ _ _ _ _ _ ihl.2 ihr.2
      rcases hcomp l r A B hl hr hd hm with hp | hp
      · obtain ⟨d1, d2, d3⟩ := h.did _ hp ihl.1 ihr.1
        exact ⟨d1, d2.trans hm1⟩
      · obtain ⟨d1, d2, d3⟩ := h.did _ hp ihr.1 ihl.1
        simp only [or_comm' B A] at d1 d2 d3
        exact ⟨d1, d3.trans hm1⟩
  refine ⟨fun S t ht => (lower t S ht).1, fun S hS hp => ⟨?_, fun t ht => (lower t S ht).2⟩⟩
  exact h.recorded hsym hn hps hS hp

end PE
end Mutable
