import Verif.HSearch.BottomUp
/-! Top-down search. -/
namespace Mutable.HS
open SB PE
variable {K : Type} [Field K] [LinearOrder K] {M : AdjMat} {n : Nat} {card : SB → K} {heur : List SB → K}

theorem mergeParts_perm (S : SB) (l r : List SB) : (mergeParts S l r).Perm (l.filter (· ≠ S) ++ r) := by
  induction l generalizing r with
  | nil => simp [mergeParts]
  | cons x l ih =>
    induction r with
    | nil =>
      rw [mergeParts]
      by_cases hx : x = S
      · rw [if_pos hx]; simpa [hx] using ih []
      · rw [if_neg hx]; rw [List.filter_cons_of_pos (by simpa using hx)]
        exact (ih []).cons x
    | cons y r ihr =>
      rw [mergeParts]
      by_cases hx : x = S
      · rw [if_pos hx]; simpa [hx] using ih (y :: r)
      · rw [if_neg hx]
        split
        · rw [List.filter_cons_of_pos (by simpa using hx)]
          exact (ih (y :: r)).cons x
        · exact (ihr.cons y).trans List.perm_middle.symm

theorem find_single {l : List SB} {S : SB} (h : l.find? (fun S => !isSingleton S) = some S) : S ∈ l ∧ isSingleton S = false := by
  refine ⟨List.mem_of_find?_eq_some h, ?_⟩
  have := List.find?_some h
  simpa using this

/-- A partition found by the code. -/
theorem agat_cases (hM : M.Symm) {S : SB} {p : SB × SB} (h : p ∈ (M.agatPartition S).getD []) :
    M.ConnSet S ∧ 2 ≤ size S ∧ p.1 ≠ 0#64 ∧ p.2 ≠ 0#64 ∧ p.1 &&& p.2 = 0#64 ∧ p.1 ||| p.2 = S ∧ M.ConnSet p.1 ∧ M.ConnSet p.2 := by
  have hg : (!isEmpty S && !isSingleton S && M.isConnected S) = true := by
    by_contra hc
    rw [AdjMat.agatPartition, if_neg hc] at h; cases h
  simp only [Bool.and_eq_true, Bool.not_eq_true'] at hg
  have hc := (AdjMat.isConnected_iff hM S).1 hg.2
  have h2 : 2 ≤ size S := by
    refine two_le_of (fun h0 => ?_) (fun h1 => ?_)
    · have := hg.1.1; simp [h0, isEmpty] at this
    · have := hg.1.2; simp [isSingleton, h1] at this
  obtain ⟨L, h3, h4, h5⟩ := AdjMat.agatPartition_spec hM hc h2
  rw [h3] at h
  obtain ⟨A, B⟩ := p
  obtain ⟨a, b, ⟨z, c, d⟩, rfl, f, g⟩ := (h5 A B).1 h
  exact ⟨hc, h2, (ne_zero_iff A).2 ⟨z, d⟩, diff_ne_zero a b, inter_diff _ _, union_diff a, f, g⟩

theorem orderPair_cases (p : SB × SB) : orderPair p = p ∨ orderPair p = (p.2, p.1) := by
  unfold orderPair; split <;> simp

theorem orderPair_lt {p : SB × SB} (h : p.1 ≠ p.2) : (orderPair p).1 < (orderPair p).2 := by
  unfold orderPair
  rcases slt_total h with h1 | h1
  · rw [if_neg (slt_asymm h1)]; exact h1
  · rw [if_pos h1]; exact h1

theorem agat_order (hM : M.Symm) {S : SB} {p : SB × SB} (h : p ∈ (M.agatPartition S).getD []) :
    M.ConnSet S ∧ 2 ≤ size S ∧ (orderPair p).1 ≠ 0#64 ∧ (orderPair p).2 ≠ 0#64 ∧ (orderPair p).1 &&& (orderPair p).2 = 0#64 ∧
      (orderPair p).1 ||| (orderPair p).2 = S ∧ M.ConnSet (orderPair p).1 ∧ M.ConnSet (orderPair p).2 ∧ (orderPair p).1 < (orderPair p).2 := by
  obtain ⟨h1, h2, h3, h4, h5, h6, h7, h8⟩ := agat_cases hM h
  have hne : p.1 ≠ p.2 := by
    intro hc; obtain ⟨i, hi⟩ := (ne_zero_iff _).1 h3
    exact disj_mem h5 hi (hc ▸ hi)
  have hlt := orderPair_lt hne
  rcases orderPair_cases p with h | h
  · rw [h] at hlt ⊢; exact ⟨h1, h2, h3, h4, h5, h6, h7, h8, hlt⟩
  · rw [h] at hlt ⊢; exact ⟨h1, h2, h4, h3, disj_comm h5, by rw [or_comm']; exact h6, h8, h7, hlt⟩

theorem mem_tdSucc {l l' : List SB} {c : K} (h : (l', c) ∈ tdSucc M n card l) : ∃ S p, l.find? (fun S => !isSingleton S) = some S ∧
    p ∈ (M.agatPartition S).getD [] ∧ l' = mergeParts ((orderPair p).1 ||| (orderPair p).2) l [(orderPair p).1, (orderPair p).2] ∧
    c = actionCost n card ((orderPair p).1 ||| (orderPair p).2) := by
  unfold tdSucc at h
  split at h
  · cases h
  · rename_i S hS
    obtain ⟨p, hp, he⟩ := List.mem_map.1 h
    cases he
    exact ⟨S, p, hS, hp, rfl, rfl⟩

/-- A step splits a part. -/
theorem tdSucc_join (hM : M.Symm) {l l' : List SB} {c : K} (hw : Wf M n l) (h : (l', c) ∈ tdSucc M n card l) :
    ∃ A B, JoinRel M l' l A B ∧ Wf M n l' ∧ c = actionCost n card (A ||| B) := by
  obtain ⟨S, p, h1, h2, rfl, rfl⟩ := mem_tdSucc h
  obtain ⟨e1, e2, e3, e4, e5, e6, e7, e8, e9⟩ := agat_order hM h2
  obtain ⟨j1, j2⟩ := merge_joinRel hw (by rw [e6]; exact (find_single h1).1) e3 e4 e5 e9
    (adjacent_of_parts (by rw [e6]; exact e1) e3 e4 e5) e7 e8
  exact ⟨_, _, j1, j2, rfl⟩

theorem excess_filter (S : SB) (l : List SB) (h : S ∈ l) : excess (l.filter (· ≠ S)) + (size S - 1) ≤ excess l := by
  induction l with
  | nil => cases h
  | cons x l ih =>
    by_cases hx : x = S
    · subst hx
      rw [List.filter_cons_of_neg (by simp)]
      by_cases hm : x ∈ l
      · have := ih hm
        simp only [excess, List.map_cons, List.sum_cons] at *; omega
      · rw [List.filter_eq_self.2 (fun a ha => by simp; exact fun hc => hm (hc ▸ ha))]
        simp only [excess, List.map_cons, List.sum_cons]; omega
    · rw [List.filter_cons_of_pos (by simpa using hx)]
      have := ih ((List.mem_cons.1 h).resolve_left (Ne.symm hx))
      simp only [excess, List.map_cons, List.sum_cons] at *; omega

/-- The space meets the requirements of the search. -/
theorem td_sane (hM : M.Symm) (hc : ∀ S, 0 ≤ card S) (hh : ∀ s, 0 ≤ heur s) : (tdSpace M n card heur).Sane excess := by
  refine ⟨fun s t c h => ?_, fun s t c h => ?_, hh⟩
  · obtain ⟨S, p, _, _, _, rfl⟩ := mem_tdSucc h; exact actionCost_nonneg hc _
  · obtain ⟨S, p, h1, h2, rfl, rfl⟩ := mem_tdSucc h
    obtain ⟨e1, e2, e3, e4, e5, e6, e7, e8, e9⟩ := agat_order hM h2
    have hp := mergeParts_perm ((orderPair p).1 ||| (orderPair p).2) s [(orderPair p).1, (orderPair p).2]
    rw [excess, (hp.map _).sum_eq, List.map_append, List.sum_append]
    have := excess_filter ((orderPair p).1 ||| (orderPair p).2) s (by rw [e6]; exact (find_single h1).1)
    have h3 := size_union_disj e5
    have h4 := size_pos' e3
    have h5 := size_pos' e4
    simp only [List.map_cons, List.map_nil, List.sum_cons, List.sum_nil]
    rw [excess] at this
    rw [h3] at this
    omega

theorem td_wf (hM : M.Symm) {l l' : List SB} {c : K} (hw : Wf M n l) (hp : Path (tdSpace M n card heur) l l' c) : Wf M n l' := by
  induction hp with
  | nil => exact hw
  | cons h1 _ ih => obtain ⟨_, _, _, h2, _⟩ := tdSucc_join hM hw h1; exact ih h2

/-- Every forest of join trees is taken apart, with its cost. -/
theorem td_complete (hM : M.Symm) (hn : n ≤ 64) : ∀ (k : Nat) (l : List SB) (f : SB → Tree), excess l = k → Wf M n l →
    Plans M n f l → Path (tdSpace M n card heur) l (bottom n).parts (fcost n card f l) := by
  intro k
  induction k with
  | zero =>
    intro l f hk hw hf
    have hs := excess_zero hw.ne hk
    rw [fcost_bottom hn hf hs, hw.eq_bottom hn hs]
    exact .nil _
  | succ k ih =>
    intro l f hk hw hf
    obtain ⟨S, hS⟩ : ∃ S, l.find? (fun S => !isSingleton S) = some S := by
      rw [← Option.isSome_iff_exists, List.find?_isSome]
      by_contra hc; push Not at hc
      have := excess_zero_of (l := l) (fun P hP => by simpa using hc P hP); omega
    obtain ⟨hSl, hSs⟩ := find_single hS
    obtain ⟨A, B, a, b, ha, hb, hd, hadj, hlt, rfl, hcost⟩ := plan_split (card := card) hM hn (hf S hSl) hSs
    have hAz := isPlan_ne hn ha
    have hBz := isPlan_ne hn hb
    obtain ⟨hj, hw'⟩ := merge_joinRel hw hSl hAz hBz hd hlt hadj (plan_conn hM ha) (plan_conn hM hb)
    obtain ⟨g, hg1, hg2⟩ := hj.undo hM hw' hf ha hb hcost
    have he := hj.excess hM hw'
    have hp := ih _ g (by omega) hw' hg1
    rw [hg2, add_comm]
    refine .cons ?_ hp
    -- the partition is found
    have hsub : Sub (A ||| B) (all n) := fun i hi => (mem_all hn i).2 ((hw.cover i).2 ⟨_, hSl, hi⟩)
    have h2 : 2 ≤ size (A ||| B) := by
      have := size_union_disj hd; have := size_pos' hAz; have := size_pos' hBz; omega
    have hmem : ∃ p ∈ (M.agatPartition (A ||| B)).getD [], orderPair p = (A, B) := by
      obtain ⟨L, h3, _, h5⟩ := AdjMat.agatPartition_spec hM (hw.conn _ hSl) h2
      obtain ⟨z, hz⟩ := exists_least (hw.ne _ hSl)
      have hzm := hz.1
      rw [mem_or] at hzm
      rcases hzm with h | h
      · refine ⟨(A, B), by rw [h3]; exact (h5 A B).2 ⟨sub_left A B, (union_ne_left hd hBz).symm, ⟨z, hz, h⟩, (diff_union hd).symm,
          plan_conn hM ha, plan_conn hM hb⟩, ?_⟩
        rw [orderPair, if_neg (slt_asymm hlt)]
      · refine ⟨(B, A), by rw [h3]; exact (h5 B A).2 ⟨sub_right A B, (union_ne_right hd hAz).symm, ⟨z, hz, h⟩,
          by rw [or_comm' A B]; exact (diff_union (disj_comm hd)).symm, plan_conn hM hb, plan_conn hM ha⟩, ?_⟩
        rw [orderPair, if_pos hlt]
    obtain ⟨p, hp1, hp2⟩ := hmem
    show _ ∈ tdSucc M n card l
    unfold tdSucc; rw [hS]
    exact List.mem_map.2 ⟨p, hp1, by simp only [hp2]⟩

/-- The goal states are those of single relations. -/
theorem td_goal (hn : n ≤ 64) {l : List SB} (hw : Wf M n l) (h : (tdSpace M n card heur).goal l = true) : l = (bottom n).parts := by
  have h1 : l.length = n := by simpa [tdSpace] using h
  have := hw.excess hn
  exact hw.eq_bottom hn (excess_zero hw.ne (by omega))

theorem length_bottom : (bottom n).parts.length = n := by simp [bottom]

/-- No dead ends. -/
theorem td_progress (hM : M.Symm) (hn : n ≤ 64) {l : List SB} (hw : Wf M n l) (hg : l.length ≠ n) : tdSucc M n card l ≠ [] := by
  have he := hw.excess hn
  haveI : Nonempty PE.Tree := ⟨.leaf 0⟩
  choose! f hf using fun (P : SB) (hP : P ∈ l) => conn_plan hn (hw.conn P hP) (hw.ne P hP)
    (fun i hi => (mem_all hn i).2 ((hw.cover i).2 ⟨P, hP, hi⟩))
  have hp := td_complete (card := card) (heur := fun _ => 0) hM hn _ l f rfl hw hf
  generalize hb : (bottom n).parts = b at hp
  generalize fcost n card f l = cc at hp
  cases hp with
  | nil => exact absurd (by rw [← hb]; exact length_bottom) hg
  | cons h _ => intro hc; change _ ∈ tdSucc M n card l at h; rw [hc] at h; cases h

theorem td_nonneg [IsStrictOrderedRing K] (hc : ∀ S, 0 ≤ card S) {l t : List SB} {c : K} (hp : Path (tdSpace M n card heur) l t c) : 0 ≤ c := by
  induction hp with
  | nil => exact le_refl _
  | cons h _ ih => obtain ⟨S, p, _, _, _, rfl⟩ := mem_tdSucc h; exact add_nonneg (actionCost_nonneg hc _) ih

/-- The heuristic `sum` of top-down search never overestimates. -/
theorem sumTD_le [IsStrictOrderedRing K] (hM : M.Symm) (hn : n ≤ 64) (hc : ∀ S, 0 ≤ card S) {l t : List SB} {c : K} (hw : Wf M n l)
    (hp : Path (tdSpace M n card heur) l t c) (hg : (tdSpace M n card heur).goal t = true) : sumTD card l ≤ c := by
  induction hp with
  | nil l =>
    have := td_goal hn hw hg
    unfold sumTD; split
    · exact le_refl _
    · refine le_of_eq (List.sum_eq_zero fun x hx => ?_)
      obtain ⟨P, hP, rfl⟩ := List.mem_map.1 hx
      rw [List.mem_filter] at hP
      rw [this] at hP
      simp [bottom_single hn hP.1] at hP
  | @cons l l' t a d h1 h2 ih =>
    obtain ⟨A, B, hj, hw', rfl⟩ := tdSucc_join hM hw h1
    have ih := ih hw' hg
    have hpos := td_nonneg hc h2
    obtain ⟨rest, p1, p2, p3⟩ := hj.perm hw' (nodup_of_sorted hw.sorted)
    have hd := hw'.disj _ hj.memA _ hj.memB hj.ne
    by_cases hl : l.length ≤ 1
    · unfold sumTD; rw [if_pos hl]
      exact add_nonneg (actionCost_nonneg hc _) hpos
    · have hrest : rest ≠ [] := by
        rintro rfl; have := p2.length_eq; simp at this; omega
      have hl' : ¬ l'.length ≤ 1 := by have := p1.length_eq; simp at this; omega
      have hne : A ||| B ≠ all n := by
        obtain ⟨Q, hQ⟩ := List.exists_mem_of_ne_nil _ hrest
        obtain ⟨q1, q2, q3⟩ := p3 Q hQ
        obtain ⟨i, hi⟩ := (ne_zero_iff _).1 (hw'.ne Q q1)
        intro hc
        have : Mem (A ||| B) i := by rw [hc]; exact (mem_all hn i).2 ((hw'.cover i).2 ⟨Q, q1, hi⟩)
        rcases (mem_or _ _ _).1 this with h | h
        · exact disj_mem (hw'.disj Q q1 A hj.memA q2) hi h
        · exact disj_mem (hw'.disj Q q1 B hj.memB q3) hi h
      have e1 : sumTD card l = card (A ||| B) + ((rest.filter (fun S => !isSingleton S)).map card).sum := by
        unfold sumTD
        rw [if_neg hl, ((p2.filter _).map card).sum_eq, List.filter_cons_of_pos (by
          simp [single_join hd (hw'.ne _ hj.memA) (hw'.ne _ hj.memB)])]
        simp
      have e2 : ((rest.filter (fun S => !isSingleton S)).map card).sum ≤ sumTD card l' := by
        unfold sumTD
        rw [if_neg hl', ((p1.filter _).map card).sum_eq]
        have aux : ∀ (P : SB) (r : List SB), ((r.filter (fun S => !isSingleton S)).map card).sum ≤
            (((P :: r).filter (fun S => !isSingleton S)).map card).sum := by
          intro P r
          rw [List.filter_cons]; split
          · simp only [List.map_cons, List.sum_cons]; have := hc P; linarith
          · exact le_refl _
        exact (aux B rest).trans (aux A _)
      rw [e1, actionCost, if_neg hne]
      linarith

section
variable [IsStrictOrderedRing K] {C D : Type} [LinearOrder C] {E : PE.Env C D} {est : SB → D} {base : Nat → C} {heur : List SB → K}

/-- The reconstruction succeeds and yields the traced path's tree. -/
theorem td_recon (hE : Sane E est) (hM : E.M.Symm) (hn : E.n ≤ 64) (hw : Wf E.M E.n (top E.n))
    {m : Mgr (List SB) K} {s : List SB} {c : K} (ht : Trace (tdSpace E.M E.n card heur) m (top E.n) s c) {T : PT C D} {c₀ : K}
    (hF : Forest E est base card T s c₀) :
    ∃ T', ReconTD E m s T T' ∧ Forest E est base card T' (top E.n) (c₀ + c) := by
  induction ht generalizing T c₀ with
  | root h1 h2 => exact ⟨T, .root h1 h2, by rw [add_zero]; exact hF⟩
  | @step s p i c d h1 h2 h3 h4 ih =>
    obtain ⟨A, B, hj, hw', rfl⟩ := tdSucc_join hM (td_wf hM hw h4.path) h3
    obtain ⟨hno, T₁, hu, hF'⟩ := hF.join hE hM hn hw' hj
    obtain ⟨T', e1, e2⟩ := ih hF'
    refine ⟨T', .step h1 h2 (hj.delta hw') hno hu e1, ?_⟩
    rw [show c₀ + (d + actionCost E.n card (A ||| B)) = c₀ + actionCost E.n card (A ||| B) + d by ring]
    exact e2

end
end Mutable.HS
