import Verif.HSearch.Forest
/-! Bottom-up search: the mark loses no join tree. -/
namespace Mutable.HS
open SB PE
variable {K : Type} [Field K] [LinearOrder K] {M : AdjMat} {n : Nat} {card : SB → K} {heur : JS → K}

theorem mem_pairs {l : List SB} (hs : l.Pairwise (· < ·)) (A B : SB) : (A, B) ∈ pairs l ↔ A ∈ l ∧ B ∈ l ∧ A < B := by
  induction l with
  | nil => simp [pairs]
  | cons x l ih =>
    obtain ⟨h1, h2⟩ := List.pairwise_cons.1 hs
    simp only [pairs, List.mem_append, List.mem_map, Prod.mk.injEq, ih h2, List.mem_cons]
    constructor
    · rintro (⟨i, hi, rfl, rfl⟩ | ⟨ha, hb, hab⟩)
      · exact ⟨Or.inl rfl, Or.inr hi, h1 i hi⟩
      · exact ⟨Or.inr ha, Or.inr hb, hab⟩
    · rintro ⟨rfl | ha, rfl | hb, hab⟩
      · exact absurd hab (slt_irr _)
      · exact Or.inl ⟨B, hb, rfl, rfl⟩
      · exact absurd hab (slt_asymm (h1 A ha))
      · exact Or.inr ⟨ha, hb, hab⟩

theorem mem_pairs_left (l : List SB) (p : SB × SB) (h : p ∈ pairs l) : p.1 ∈ l := by
  induction l with
  | nil => simp [pairs] at h
  | cons x l ih =>
    simp only [pairs, List.mem_append, List.mem_map] at h
    rcases h with ⟨i, hi, rfl⟩ | h
    · simp
    · exact List.mem_cons_of_mem _ (ih h)

theorem neighbors_adj {A B : SB} (hd : A &&& B = 0#64) : isEmpty (M.neighbors A &&& B) = false ↔ Adjacent M A B := by
  rw [← Bool.not_eq_true, SB.isEmpty_iff]
  push Not
  constructor
  · rintro ⟨y, hy⟩
    rw [mem_and, AdjMat.mem_neighbors] at hy
    obtain ⟨⟨_, x, h1, h2⟩, h3⟩ := hy
    exact ⟨x, y, h1, h3, h2⟩
  · rintro ⟨x, y, h1, h2, h3⟩
    exact ⟨y, by rw [mem_and, AdjMat.mem_neighbors]; exact ⟨⟨fun hc => disj_mem hd hc h2, x, h1, h3⟩, h2⟩⟩

/-- The successors of a state. -/
theorem mem_buSucc {st : JS} (hw : Wf M n st.parts) (st' : JS) (c : K) :
    (st', c) ∈ buSucc M n card st ↔ ∃ A B, JoinRel M st.parts st'.parts A B ∧ ¬ B < st.marked ∧ st'.marked = A ||| B ∧
      c = actionCost n card (A ||| B) := by
  simp only [buSucc, List.mem_filterMap]
  constructor
  · rintro ⟨⟨A, B⟩, hp, h⟩
    obtain ⟨hA, hB, hlt⟩ := (mem_pairs hw.sorted A B).1 hp
    have hne : A ≠ B := fun hc => by subst hc; exact slt_irr _ hlt
    simp only at h
    by_cases h1 : B < st.marked
    · rw [if_pos h1] at h; cases h
    · rw [if_neg h1] at h
      by_cases h2 : isEmpty (M.neighbors A &&& B) = true
      · rw [if_pos h2] at h; cases h
      · rw [if_neg h2] at h; cases h
        exact ⟨A, B, ⟨hA, hB, hlt, (neighbors_adj (hw.disj A hA B hB hne)).1 (by simpa using h2), rfl⟩, h1, rfl, rfl⟩
  · rintro ⟨A, B, h, h1, h2, rfl⟩
    refine ⟨(A, B), (mem_pairs hw.sorted A B).2 ⟨h.memA, h.memB, h.lt⟩, ?_⟩
    have h3 := (neighbors_adj (hw.disj A h.memA B h.memB h.ne)).2 h.adj
    simp only [if_neg h1, h3, Bool.false_eq_true, if_false]
    rw [← h.eq, ← h2]

theorem length_joinParts {l : List SB} {A : SB} (B : SB) (h : A ∈ l) : (joinParts l A B).length < l.length := by
  induction l with
  | nil => cases h
  | cons X l ih =>
    unfold joinParts
    rw [List.filterMap_cons]
    by_cases hX : X = A
    · simp only [hX, if_true, List.length_cons]
      exact Nat.lt_succ_of_le (List.length_filterMap_le _ _)
    · have := ih ((List.mem_cons.1 h).resolve_left (Ne.symm hX))
      by_cases hB : X = B
      · simp only [if_neg hX, if_pos hB, List.length_cons]; unfold joinParts at this; omega
      · simp only [if_neg hX, if_neg hB, List.length_cons]; unfold joinParts at this; omega

theorem actionCost_nonneg (hc : ∀ S, 0 ≤ card S) (J : SB) : 0 ≤ actionCost n card J := by
  unfold actionCost; split
  · exact le_refl _
  · exact hc J

/-- The space meets the requirements of the search. -/
theorem bu_sane (hc : ∀ S, 0 ≤ card S) (hh : ∀ s, 0 ≤ heur s) : (buSpace M n card heur).Sane (fun st => st.parts.length) := by
  have key : ∀ (s t : JS) (c : K), (t, c) ∈ buSucc M n card s → ∃ A B, A ∈ s.parts ∧ t.parts = joinParts s.parts A B ∧
      c = actionCost n card (A ||| B) := by
    intro s t c h
    simp only [buSucc, List.mem_filterMap] at h
    obtain ⟨p, hp, h⟩ := h
    split at h
    · cases h
    · split at h
      · cases h
      · cases h; exact ⟨p.1, p.2, mem_pairs_left _ _ hp, rfl, rfl⟩
  refine ⟨fun s t c h => ?_, fun s t c h => ?_, hh⟩
  · obtain ⟨A, B, _, _, rfl⟩ := key s t c h; exact actionCost_nonneg hc _
  · obtain ⟨A, B, h1, h2, _⟩ := key s t c h
    simp only [h2]; exact length_joinParts B h1

/-- What holds of all states that the search can reach. -/
structure BUInv (M : AdjMat) (n : Nat) (st : JS) : Prop where
  wf : Wf M n st.parts
  le : ∀ P ∈ st.parts, isSingleton P = false → ¬ st.marked < P
  mark : (st.marked ∈ st.parts ∧ isSingleton st.marked = false) ∨ (st.marked = 1#64 ∧ ∀ P ∈ st.parts, isSingleton P = true)

theorem bottom_single {P : SB} (hn : n ≤ 64) (h : P ∈ (bottom n).parts) : isSingleton P = true := by
  simp only [bottom, List.mem_map, List.mem_range] at h
  obtain ⟨k, hk, rfl⟩ := h
  exact (isSingleton_iff _).2 ⟨k, by omega, rfl⟩

theorem BUInv.bottom (hn : n ≤ 64) : BUInv M n (bottom n) :=
  ⟨bottom_wf hn, fun P hP h => (by rw [bottom_single hn hP] at h; cases h), Or.inr ⟨rfl, fun P hP => bottom_single hn hP⟩⟩

theorem single_join {A B : SB} (hd : A &&& B = 0#64) (hA : A ≠ 0#64) (hB : B ≠ 0#64) : isSingleton (A ||| B) = false := by
  have := size_union_ne_one hd hA hB
  rw [isSingleton]; simpa using this

theorem BUInv.succ (hM : M.Symm) {st st' : JS} {c : K} (h : BUInv M n st) (hs : (st', c) ∈ buSucc M n card st) : BUInv M n st' := by
  obtain ⟨A, B, hj, hB, hm, rfl⟩ := (mem_buSucc h.wf st' c).1 hs
  have hd := h.wf.disj _ hj.memA _ hj.memB hj.ne
  refine ⟨hj.wf hM h.wf, fun P hP hPs => ?_, Or.inl ⟨?_, ?_⟩⟩
  · rw [hm]
    rcases (hj.mem P).1 hP with rfl | ⟨hP, hPA, hPB⟩
    · exact slt_irr _
    · intro hc
      have h1 := h.le P hP hPs
      have h2 : B ≤ A ||| B := le_of_sub (sub_right A B)
      rw [BitVec.lt_def] at *; rw [BitVec.le_def] at h2; omega
  · rw [hm]; exact (hj.mem _).2 (Or.inl rfl)
  · rw [hm]; exact single_join hd (h.wf.ne _ hj.memA) (h.wf.ne _ hj.memB)

theorem BUInv.path (hM : M.Symm) {st st' : JS} {c : K} (h : BUInv M n st) (hp : Path (buSpace M n card heur) st st' c) : BUInv M n st' := by
  induction hp with
  | nil => exact h
  | cons h1 _ ih => exact ih (h.succ hM h1)

/-- The mark is a function of the parts. -/
theorem BUInv.mark_eq {st st' : JS} (h : BUInv M n st) (h' : BUInv M n st') (he : st.parts = st'.parts) : st = st' := by
  have key : ∀ s s' : JS, BUInv M n s → BUInv M n s' → s.parts = s'.parts → ¬ s.marked < s'.marked := by
    intro s s' h h' he hlt
    rcases h'.mark with ⟨h1, h2⟩ | ⟨h1, h2⟩
    · exact h.le _ (he ▸ h1) h2 hlt
    · rcases h.mark with ⟨h3, h4⟩ | ⟨h3, h4⟩
      · rw [h2 _ (he ▸ h3)] at h4; cases h4
      · rw [h1, h3] at hlt; exact slt_irr _ hlt
  obtain ⟨p, m⟩ := st
  obtain ⟨p', m'⟩ := st'
  simp only at he; subst he
  congr 1
  by_contra hc
  rcases slt_total hc with h1 | h1
  · exact key _ _ h h' rfl h1
  · exact key _ _ h' h rfl h1

theorem one_eq : (1#64 : SB) = SB.singleton 0 := by decide

/-- No dead ends. -/
theorem bu_progress (hM : M.Symm) (hn : n ≤ 64) (hconn : M.ConnSet (all n)) {st : JS} (h : BUInv M n st) (hg : 2 ≤ st.parts.length) :
    buSucc M n card st ≠ [] := by
  have hmk : st.marked ∈ st.parts := by
    rcases h.mark with h1 | ⟨h1, h2⟩
    · exact h1.1
    · have h3 := h.wf.excess hn
      rw [h1, h.wf.eq_bottom hn h2, one_eq, HS.bottom]
      exact List.mem_map_of_mem (List.mem_range.2 (by omega))
  obtain ⟨Q, hQ, hQm⟩ : ∃ Q ∈ st.parts, Q ≠ st.marked := by
    by_contra hc
    push Not at hc
    have hnd := nodup_of_sorted h.wf.sorted
    match hl : st.parts, hg with
    | a :: b :: l, _ =>
      rw [hl] at hc hnd
      have := hc a (by simp); have := hc b (by simp)
      simp_all
  have hall : st.marked ||| diff (all n) st.marked = all n := by
    apply SB.ext; intro i; rw [mem_or, mem_diff]
    constructor
    · rintro (hi | hi)
      · exact (mem_all hn i).2 ((h.wf.cover i).2 ⟨_, hmk, hi⟩)
      · exact hi.1
    · intro hi; by_cases hc : Mem st.marked i
      · exact Or.inl hc
      · exact Or.inr ⟨hi, hc⟩
  obtain ⟨q, hq⟩ := (ne_zero_iff _).1 (h.wf.ne Q hQ)
  have hqm : ¬ Mem st.marked q := fun hc => disj_mem (h.wf.disj Q hQ _ hmk hQm) hq hc
  have hadj : Adjacent M st.marked (diff (all n) st.marked) := by
    refine adjacent_of_parts (by rw [hall]; exact hconn) (h.wf.ne _ hmk) ((ne_zero_iff _).2 ⟨q, ?_⟩) ?_
    · rw [mem_diff]; exact ⟨(mem_all hn q).2 ((h.wf.cover q).2 ⟨Q, hQ, hq⟩), hqm⟩
    · rw [disj_iff]; intro i hi hc; exact ((mem_diff _ _ _).1 hc).2 hi
  obtain ⟨x, y, h1, h2, h3⟩ := hadj
  rw [mem_diff] at h2
  obtain ⟨R, hR, hy⟩ := (h.wf.cover y).1 ((mem_all hn y).1 h2.1)
  have hRm : R ≠ st.marked := fun hc => h2.2 (hc ▸ hy)
  rcases slt_total hRm with hlt | hlt
  · have := (mem_buSucc (card := card) h.wf ⟨joinParts st.parts R st.marked, R ||| st.marked⟩ _).2
      ⟨R, st.marked, ⟨hR, hmk, hlt, ⟨y, x, hy, h1, hM _ _ h3⟩, rfl⟩, slt_irr _, rfl, rfl⟩
    intro hc; rw [hc] at this; cases this
  · have := (mem_buSucc (card := card) h.wf ⟨joinParts st.parts st.marked R, st.marked ||| R⟩ _).2
      ⟨st.marked, R, ⟨hmk, hR, hlt, ⟨x, y, h1, hy, h3⟩, rfl⟩, slt_asymm hlt, rfl, rfl⟩
    intro hc; rw [hc] at this; cases this

theorem exists_largest (l : List SB) (h : ∃ P ∈ l, isSingleton P = false) :
    ∃ N ∈ l, isSingleton N = false ∧ ∀ P ∈ l, isSingleton P = false → ¬ N < P := by
  induction l with
  | nil => obtain ⟨_, h, _⟩ := h; cases h
  | cons x l ih =>
    by_cases hl : ∃ P ∈ l, isSingleton P = false
    · obtain ⟨N, h1, h2, h3⟩ := ih hl
      by_cases hx : isSingleton x = false ∧ N < x
      · refine ⟨x, by simp, hx.1, fun P hP hs hc => ?_⟩
        rcases List.mem_cons.1 hP with rfl | hP
        · exact slt_irr _ hc
        · exact h3 P hP hs (slt_trans hx.2 hc)
      · refine ⟨N, by simp [h1], h2, fun P hP hs hc => ?_⟩
        rcases List.mem_cons.1 hP with rfl | hP
        · exact hx ⟨hs, hc⟩
        · exact h3 P hP hs hc
    · obtain ⟨P, hP, hs⟩ := h
      rcases List.mem_cons.1 hP with rfl | hP
      · refine ⟨P, by simp, hs, fun Q hQ hQs hc => ?_⟩
        rcases List.mem_cons.1 hQ with rfl | hQ
        · exact slt_irr _ hc
        · exact hl ⟨Q, hQ, hQs⟩
      · exact absurd ⟨P, hP, hs⟩ hl

/-- Every forest of join trees is reached, with its cost. -/
theorem bu_complete [IsStrictOrderedRing K] (hM : M.Symm) (hn : n ≤ 64) : ∀ (k : Nat) (l : List SB) (f : SB → Tree), excess l = k → Wf M n l →
    Plans M n f l → ∃ mk, Path (buSpace M n card heur) (bottom n) ⟨l, mk⟩ (fcost n card f l) := by
  intro k
  induction k with
  | zero =>
    intro l f hk hw hf
    have hs := excess_zero hw.ne hk
    have := hw.eq_bottom hn hs
    rw [fcost_bottom hn hf hs]
    exact ⟨1#64, by rw [this]; exact .nil _⟩
  | succ k ih =>
    intro l f hk hw hf
    obtain ⟨N, hN, hNs, hmax⟩ := exists_largest l (by
      by_contra hc; push Not at hc
      have := excess_zero_of (l := l) (fun P hP => by simpa using hc P hP); omega)
    obtain ⟨A, B, a, b, ha, hb, hd, hadj, hlt, hAB, hcost⟩ := plan_split (card := card) hM hn (hf N hN) hNs
    subst hAB
    have hAz := isPlan_ne hn ha
    have hBz := isPlan_ne hn hb
    obtain ⟨hj, hw'⟩ := merge_joinRel hw hN hAz hBz hd hlt hadj (plan_conn hM ha) (plan_conn hM hb)
    obtain ⟨g, hg1, hg2⟩ := hj.undo hM hw' hf ha hb hcost
    have he := hj.excess hM hw'
    obtain ⟨mk, hp⟩ := ih _ g (by omega) hw' hg1
    have hI := (BUInv.bottom (M := M) hn).path hM hp
    refine ⟨A ||| B, ?_⟩
    rw [hg2]
    refine hp.snoc ((mem_buSucc hw' _ _).2 ⟨A, B, hj, ?_, rfl, rfl⟩)
    -- the mark does not exclude this join
    intro hc
    simp only at hc
    rcases hI.mark with ⟨h1, h2⟩ | ⟨h1, _⟩
    · simp only at h1 h2
      by_cases hmA : mk = A
      · subst hmA; exact slt_asymm hlt hc
      · by_cases hmB : mk = B
        · subst hmB; exact slt_irr _ hc
        · have hml : mk ∈ l := (hj.mem mk).2 (Or.inr ⟨h1, hmA, hmB⟩)
          have hne : mk ≠ A ||| B := by
            rintro rfl
            obtain ⟨i, hi⟩ := (ne_zero_iff _).1 hAz
            exact disj_mem (hw'.disj _ h1 _ hj.memA hmA) (sub_left _ _ i hi) hi
          have hlt' := (slt_total hne).resolve_right (hmax mk hml h2)
          exact slt_asymm hc (lt_of_lt_join hd hlt (hw'.disj _ h1 _ hj.memA hmA) (hw'.disj _ h1 _ hj.memB hmB) hlt')
    · simp only at h1
      subst h1
      apply hBz
      rw [BitVec.lt_def] at hc
      apply BitVec.eq_of_toNat_eq
      simp at hc ⊢; omega

section
variable [IsStrictOrderedRing K] {C D : Type} [LinearOrder C] {E : PE.Env C D} {est : SB → D} {base : Nat → C} {heur : JS → K}

/-- The reconstruction succeeds and yields the forest of the traced path. -/
theorem bu_recon (hE : Sane E est) (hM : E.M.Symm) (hn : E.n ≤ 64) {T : PT C D} (hT : Init est base E.n T)
    {m : Mgr JS K} {s : JS} {c : K} (ht : Trace (buSpace E.M E.n card heur) m (bottom E.n) s c) :
    ∃ T', ReconBU E m T s T' ∧ Wf E.M E.n s.parts ∧ Forest E est base card T' s.parts c := by
  induction ht with
  | root h1 h2 => exact ⟨T, .root h1 h2, bottom_wf hn, Forest.init hn hT⟩
  | @step s p i c d h1 h2 h3 _ ih =>
    obtain ⟨T₁, e1, e2, e3⟩ := ih
    obtain ⟨A, B, hj, _, _, rfl⟩ := (mem_buSucc e2 s c).1 h3
    obtain ⟨hno, T', hu, hF⟩ := e3.join hE hM hn e2 hj
    exact ⟨T', .step h1 h2 e1 (hj.delta e2) hno hu, hj.wf hM e2, hF⟩

/-- The reconstruction is a function. -/
theorem recon_unique {m : Mgr JS K} {T T₁ T₂ : PT C D} {s : JS} (h₁ : ReconBU E m T s T₁) (h₂ : ReconBU E m T s T₂) : T₁ = T₂ := by
  induction h₁ generalizing T₂ with
  | root a1 a2 =>
    cases h₂ with
    | root b1 b2 => rfl
    | step b1 b2 _ _ _ _ => rw [a1] at b1; cases b1; rw [a2] at b2; cases b2
  | step a1 a2 _ a4 _ a6 ih =>
    cases h₂ with
    | root b1 b2 => rw [a1] at b1; cases b1; rw [a2] at b2; cases b2
    | step b1 b2 b3 b4 _ b6 =>
      rw [a1] at b1; cases b1; rw [a2] at b2; cases b2
      rw [a4] at b4; cases b4
      have := ih b3; subst this
      rw [a6] at b6; cases b6; rfl

end
end Mutable.HS
