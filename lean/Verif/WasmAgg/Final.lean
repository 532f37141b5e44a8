import Verif.WasmAgg.Group

/-! Ordered grouping over batches; aggregation with lanes. -/
namespace Mutable.WasmAgg

section
variable {R V : Type} [DecidableEq V] {ev : Arg → R → Option Val} {aggs : List Agg} {key : R → List (Option V)}

theorem SafeStart.avg {done rest : List (Option Bool × R)} {x : Option Bool × R} (h : SafeStart aggs (done ++ x :: rest)) :
    AvgSafe aggs x.1 (rowsOf done) := by
  intro ha he
  rcases h with h | h
  · exact h
  · exfalso
    cases done with
    | nil =>
      have := h x (by simp)
      rw [← accepted_iff, ha] at this
      simp at this
    | cons y done =>
      have hy := h y (by simp)
      have : y.2 ∈ rowsOf (y :: done) := by
        simp only [rowsOf, List.mem_map, List.mem_filter]
        exact ⟨y, ⟨by simp, by simpa using hy⟩, rfl⟩
      rw [he] at this
      simp at this

theorem rowsOf_length_le (l : List (Option Bool × R)) : (rowsOf l).length ≤ l.length := by
  simp only [rowsOf, List.length_map]; exact List.length_filter_le _ _

theorem oFold_inv {nk : Nat} (hkey : ∀ r, (key r).length = nk) : ∀ (rows done : List (Option Bool × R)) (s : OAll V)
    (rest : List (Option Bool × R)), (∀ x ∈ done ++ rows, RowOk ev aggs x.2) → (done ++ rows).length < 2 ^ 63 →
    SafeStart aggs (done ++ rows ++ rest) → OInv ev aggs key (rowsOf done) s →
    OInv ev aggs key (rowsOf (done ++ rows)) (rows.foldl (oRow ev key aggs) s) := by
  intro rows
  induction rows with
  | nil => intro done s rest _ _ _ h; simpa using h
  | cons x rows ih =>
    intro done s rest ok hlen hsafe h
    rw [List.foldl_cons]
    have h1 : OInv ev aggs key (rowsOf (done ++ [x])) (oRow ev key aggs s x) := by
      rw [rowsOf_snoc]
      refine oRow_inv hkey ?_ (ok x (by simp)) ?_ ?_ h
      · intro r hr
        simp only [rowsOf, List.mem_map, List.mem_filter] at hr
        obtain ⟨y, ⟨hy, _⟩, rfl⟩ := hr
        exact ok y (by simp [hy])
      · rw [← rowsOf_snoc]
        have := rowsOf_length_le (done ++ [x])
        simp at this hlen; omega
      · apply SafeStart.avg (rest := rows ++ rest)
        simpa using hsafe
    have := ih (done ++ [x]) _ rest (by simpa using ok) (by simpa using hlen) (by simpa using hsafe) h1
    simpa using this

theorem OInv.glob {rs : List R} {s : OAll V} (h : OInv ev aggs key rs s) (g : OSt V) : OInv ev aggs key rs { s with glob := g } := h

theorem oBatch_inv {nk : Nat} (hkey : ∀ r, (key r).length = nk) : ∀ (batches : List (List (Option Bool × R)))
    (done : List (Option Bool × R)) (s : OAll V), (∀ x ∈ done ++ batches.flatten, RowOk ev aggs x.2) →
    (done ++ batches.flatten).length < 2 ^ 63 → SafeStart aggs (done ++ batches.flatten) →
    OInv ev aggs key (rowsOf done) s → s.glob = s.loc →
    OInv ev aggs key (rowsOf (done ++ batches.flatten)) (batches.foldl (oBatch ev key aggs) s) ∧
      (batches.foldl (oBatch ev key aggs) s).glob = (batches.foldl (oBatch ev key aggs) s).loc := by
  intro batches
  induction batches with
  | nil => intro done s _ _ _ h hg; simpa using ⟨h, hg⟩
  | cons b batches ih =>
    intro done s ok hlen hsafe h hg
    rw [List.foldl_cons]
    have h0 : OInv ev aggs key (rowsOf done) { s with loc := s.glob } := by
      rw [hg]; exact h
    have h1 := oFold_inv hkey b done { s with loc := s.glob } batches.flatten
      (fun x hx => ok x (by simp only [List.flatten_cons, ← List.append_assoc]; exact List.mem_append_left _ hx))
      (by simp at hlen ⊢; omega) (by simpa using hsafe) h0
    have h2 : OInv ev aggs key (rowsOf (done ++ b)) (oBatch ev key aggs s b) := h1
    have := ih (done ++ b) (oBatch ev key aggs s b) (by simpa using ok) (by simpa using hlen) (by simpa using hsafe) h2 rfl
    simpa using this

theorem oRun_runs {nk : Nat} (hkey : ∀ r, (key r).length = nk) (k0 : List (Option V))
    (batches : List (List (Option Bool × R))) (ok : ∀ x ∈ batches.flatten, RowOk ev aggs x.2)
    (hlen : batches.flatten.length < 2 ^ 63) (hsafe : SafeStart aggs batches.flatten) :
    ∃ runs, IsRuns key (rowsOf batches.flatten) runs ∧
      List.Forall₂ (fun g o => (∀ a ∈ g, key a = o.1) ∧ o.2 = (infos aggs).map (oT ev g)) runs
        (oRun ev key aggs k0 batches) := by
  have h0 : OInv ev aggs key (rowsOf ([] : List (Option Bool × R))) (oStart aggs k0) := by
    refine .inl ⟨rfl, rfl, ?_, rfl⟩
    exact List.map_congr_left fun i hi => oInit_eq hi
  obtain ⟨h1, h2⟩ := oBatch_inv hkey batches [] (oStart aggs k0) (by simpa using ok) (by simpa using hlen)
    (by simpa using hsafe) h0 rfl
  simp only [List.nil_append] at h1
  unfold oRun
  simp only [h2]
  rcases h1 with ⟨hr, hf, _, ho⟩ | ⟨runs, cur, h3, h4, h5, h6, h7⟩
  · refine ⟨[], ⟨by simp [hr], by simp, by simp, by simp⟩, ?_⟩
    rw [if_pos hf, ho]
    exact .nil
  · refine ⟨runs ++ [cur], h3, ?_⟩
    rw [if_neg (by simp [h4])]
    exact List.rel_append h7 (.cons ⟨h5, h6⟩ .nil)

/-! ### Contiguous keys -/

theorem runs_head {K : Type} {key : R → K} {g : List R} {runs : List (List R)} (h : IsRuns key (g ++ runs.flatten) (g :: runs))
    (hc : Contiguous key (g ++ runs.flatten)) : ∀ a ∈ g, ∀ b ∈ runs.flatten, key a ≠ key b := by
  intro a ha b hb hab
  cases runs with
  | nil => simp at hb
  | cons h1 t =>
    have hd : ∀ a ∈ g, ∀ b ∈ h1, key a ≠ key b := (List.isChain_cons_cons.1 h.differ).1
    rw [List.flatten_cons, List.mem_append] at hb
    rcases hb with hb | hb
    · exact hd a ha b hb hab
    · obtain ⟨c, hcm⟩ := List.exists_mem_of_ne_nil h1 (h.nonempty h1 (by simp))
      obtain ⟨g1, g2, rfl⟩ := List.append_of_mem ha
      obtain ⟨l2, r2, hl⟩ := List.append_of_mem hb
      have := hc g1 (g2 ++ h1 ++ l2) r2 a b (by rw [List.flatten_cons, hl]; simp) hab c (by simp [hcm])
      exact hd a ha c hcm this.symm

theorem contiguous_tail {K : Type} {key : R → K} {g rs : List R} (hc : Contiguous key (g ++ rs)) : Contiguous key rs := by
  intro l m r a b h hab c hcm
  exact hc (g ++ l) m r a b (by rw [h]; simp) hab c hcm

theorem IsRuns.tail {K : Type} {key : R → K} {g rs : List R} {runs : List (List R)} (h : IsRuns key rs (g :: runs)) :
    IsRuns key runs.flatten runs :=
  ⟨rfl, fun g hg => h.nonempty g (by simp [hg]), fun g hg => h.same g (by simp [hg]), by
    cases runs with
    | nil => simp
    | cons h1 t => exact (List.isChain_cons_cons.1 h.differ).2⟩

/-- With contiguous keys the runs are the groups. -/
theorem runs_groups (key : R → List (Option V)) : ∀ (runs : List (List R)) (rs : List R) (out : List (List (Option V) × List AState))
    (P : List R → List AState → Prop), IsRuns key rs runs → Contiguous key rs →
    List.Forall₂ (fun g o => (∀ a ∈ g, key a = o.1) ∧ P g o.2) runs out →
    (out.map Prod.fst).Nodup ∧ (∀ k, k ∈ out.map Prod.fst ↔ ∃ r ∈ rs, key r = k) ∧
      ∀ o ∈ out, P (rs.filter fun r => key r = o.1) o.2 := by
  intro runs
  induction runs with
  | nil =>
    intro rs out P h _ hf
    cases hf
    have : rs = [] := by rw [← h.flat]; rfl
    subst this
    simp
  | cons g runs ih =>
    intro rs out P h hc hf
    have hrs : rs = g ++ runs.flatten := by rw [← h.flat]; rfl
    subst hrs
    rcases List.forall₂_cons_left_iff.1 hf with ⟨o, out, ⟨ho1, ho2⟩, hf', rfl⟩
    obtain ⟨i1, i2, i3⟩ := ih runs.flatten out P h.tail (contiguous_tail hc) hf'
    have hne := runs_head h hc
    obtain ⟨a, ha⟩ := List.exists_mem_of_ne_nil g (h.nonempty g (by simp))
    have hfil : ∀ k, (g ++ runs.flatten).filter (fun r => decide (key r = k)) =
        if k = o.1 then g else runs.flatten.filter fun r => decide (key r = k) := by
      intro k
      rw [List.filter_append]
      by_cases hk : k = o.1
      · rw [if_pos hk, hk, List.filter_eq_self.2 (by intro r hr; simpa using ho1 r hr), List.filter_eq_nil_iff.2, List.append_nil]
        intro r hr
        have := hne a ha r hr
        rw [ho1 a ha] at this
        simpa using fun e => this e.symm
      · rw [if_neg hk, List.filter_eq_nil_iff.2, List.nil_append]
        intro r hr
        simpa [ho1 r hr] using fun e => hk e.symm
    have hno : o.1 ∉ out.map Prod.fst := by
      rw [i2]
      rintro ⟨r, hr, hk⟩
      exact hne a ha r hr (by rw [ho1 a ha, hk])
    refine ⟨?_, ?_, ?_⟩
    · rw [List.map_cons, List.nodup_cons]
      exact ⟨hno, i1⟩
    · intro k
      rw [List.map_cons, List.mem_cons, i2]
      constructor
      · rintro (rfl | ⟨r, hr, hk⟩)
        · exact ⟨a, by simp [ha], ho1 a ha⟩
        · exact ⟨r, List.mem_append_right _ hr, hk⟩
      · rintro ⟨r, hr, hk⟩
        rcases List.mem_append.1 hr with hr | hr
        · left; rw [← hk, ho1 r hr]
        · exact .inr ⟨r, hr, hk⟩
    · intro o' ho'
      rw [hfil]
      rcases List.mem_cons.1 ho' with rfl | ho'
      · rw [if_pos rfl]; exact ho2
      · have : o'.1 ≠ o.1 := by
          intro e
          exact hno (e ▸ List.mem_map.2 ⟨o', ho', rfl⟩)
        rw [if_neg this]
        exact i3 o' ho'

/-! ### Aggregation -/

/-- The states of the lanes; `LR` are the qualifying rows of the lanes. -/
def laneSts (ev : Arg → R → Option Val) (aggs : List Agg) (n : Nat) (LR : List (List R)) : List (List AState) :=
  LR.map fun rs => (infos aggs).map (aT ev n rs)

theorem aPack_eq (n : Nat) : ∀ (LR : List (List R)) (pack : List (Option Bool × R)), LR.length = pack.length →
    (∀ rs ∈ LR, ∀ r ∈ rs, RowOk ev aggs r) → (∀ x ∈ pack, RowOk ev aggs x.2) →
    (∀ rs ∈ LR, rs.length + 1 < 2 ^ 63) →
    (∀ y ∈ LR.zip pack, AvgSafe aggs y.2.1 y.1) →
    aPack ev aggs (laneSts ev aggs n LR) pack =
      laneSts ev aggs (n + 1) (List.zipWith (fun rs x => ext x.1 rs x.2) LR pack) := by
  intro LR
  induction LR with
  | nil => intro pack _ _ _ _ _; simp [aPack, laneSts]
  | cons rs LR ih =>
    intro pack hl ok okp hlen hs
    cases pack with
    | nil => simp at hl
    | cons x pack =>
      have := ih pack (by simpa using hl) (fun rs hrs => ok rs (by simp [hrs])) (fun x hx => okp x (by simp [hx]))
        (fun rs hrs => hlen rs (by simp [hrs])) (fun y hy => hs y (by simp [hy]))
      simp only [aPack, laneSts] at this ⊢
      simp only [List.map_cons, List.zipWith_cons_cons]
      rw [this]
      congr 1
      refine aLane_eq (okp x (by simp)) (ok rs (by simp)) ?_ (hs (rs, x) (by simp)) n
      have h1 := hlen rs (by simp)
      unfold ext; split
      · simp; omega
      · omega

theorem ext_flatten : ∀ (LR : List (List R)) (pack : List (Option Bool × R)), LR.length = pack.length →
    ((List.zipWith (fun rs x => ext x.1 rs x.2) LR pack).flatten).Perm (LR.flatten ++ rowsOf pack) := by
  intro LR
  induction LR with
  | nil => intro pack h; cases pack <;> simp_all [rowsOf]
  | cons rs LR ih =>
    intro pack h
    cases pack with
    | nil => simp at h
    | cons x pack =>
      have h1 := ih pack (by simpa using h)
      simp only [List.zipWith_cons_cons, List.flatten_cons]
      have h2 : rowsOf (x :: pack) = ext x.1 [] x.2 ++ rowsOf pack := by
        have := rowsOf_append [x] pack
        have h3 := rowsOf_snoc [] x
        simp only [List.nil_append] at h3
        rw [← show rowsOf ([] : List (Option Bool × R)) = [] from rfl, ← h3]
        simpa using this
      have h3 : ext x.1 rs x.2 = rs ++ ext x.1 [] x.2 := by
        unfold ext; split <;> simp
      rw [h2, h3, List.append_assoc, List.append_assoc]
      refine List.Perm.append_left rs ?_
      refine (List.Perm.append_left _ h1).trans ?_
      rw [← List.append_assoc, ← List.append_assoc]
      exact List.Perm.append_right _ List.perm_append_comm

theorem aRun_lanes (L : Nat) : ∀ (packs : List (List (Option Bool × R))), (∀ pack ∈ packs, pack.length = L) →
    (∀ x ∈ packs.flatten, RowOk ev aggs x.2) → packs.flatten.length < 2 ^ 62 → SafeLanes aggs packs →
    ∃ LR : List (List R), LR.length = L ∧ LR.flatten.Perm (rowsOf packs.flatten) ∧
      (SafeLanes aggs packs → ¬ NoRunning aggs → packs ≠ [] → ∀ rs ∈ LR, rs ≠ []) ∧
      aRun ev aggs L packs = laneSts ev aggs packs.length LR := by
  intro packs
  induction packs using List.reverseRecOn with
  | nil =>
    intro _ _ _ _
    refine ⟨List.replicate L [], by simp, by simp [rowsOf], by simp, ?_⟩
    simp only [aRun, List.foldl_nil, laneSts, List.map_replicate, List.length_nil]
    congr 1
    exact List.map_congr_left fun i _ => aInit_eq i
  | append_singleton packs pack ih =>
    intro hL ok hlen hsafe
    have hsafe' : SafeLanes aggs packs := by
      rcases hsafe with h | h
      · exact .inl h
      · cases packs with
        | nil => exact .inr (by simp)
        | cons p ps => exact .inr (fun q hq => h q (by simpa using hq))
    have hflat : (packs ++ [pack]).flatten = packs.flatten ++ pack := by simp
    rw [hflat] at ok hlen
    obtain ⟨LR, h1, h2, h3, h4⟩ := ih (fun p hp => hL p (by simp [hp])) (fun x hx => ok x (by simp [hx]))
      (by simp at hlen ⊢; omega) hsafe'
    have hpl : LR.length = pack.length := by rw [h1, hL pack (by simp)]
    have hmem : ∀ rs ∈ LR, ∀ r ∈ rs, r ∈ rowsOf packs.flatten := by
      intro rs hrs r hr
      exact h2.subset (List.mem_flatten.2 ⟨rs, hrs, hr⟩)
    have okLR : ∀ rs ∈ LR, ∀ r ∈ rs, RowOk ev aggs r := by
      intro rs hrs r hr
      have := hmem rs hrs r hr
      simp only [rowsOf, List.mem_map, List.mem_filter] at this
      obtain ⟨y, ⟨hy, _⟩, rfl⟩ := this
      exact ok y (by simp only [List.mem_append]; exact .inl hy)
    have hlenLR : ∀ rs ∈ LR, rs.length + 1 < 2 ^ 63 := by
      intro rs hrs
      have a1 : rs.length ≤ LR.flatten.length := (List.sublist_flatten_of_mem hrs).length_le
      have a2 := rowsOf_length_le packs.flatten
      rw [← h2.length_eq] at a2
      simp only [List.length_append] at hlen
      omega
    refine ⟨List.zipWith (fun rs x => ext x.1 rs x.2) LR pack, ?_, ?_, ?_, ?_⟩
    · simp [hpl, ← h1]
    · rw [hflat, rowsOf_append]
      exact (ext_flatten LR pack hpl).trans (h2.append_right _)
    · intro hs hnr _ rs hrs
      obtain ⟨n, hn, rfl⟩ := List.mem_iff_getElem.1 hrs
      simp only [List.length_zipWith] at hn
      simp only [List.getElem_zipWith]
      cases hps : packs with
      | nil =>
        rcases hs with h | h
        · exact absurd h hnr
        · have := h pack (by simp [hps]) pack[n] (List.getElem_mem _)
          rw [← accepted_iff] at this
          rw [ext_acc this]
          simp
      | cons p ps =>
        have := h3 hsafe' hnr (by simp [hps]) LR[n] (List.getElem_mem _)
        unfold ext
        split
        · simp
        · exact this
    · have hr : aRun ev aggs L (packs ++ [pack]) = aPack ev aggs (aRun ev aggs L packs) pack := by
        simp [aRun, List.foldl_append]
      rw [hr, h4, aPack_eq packs.length LR pack hpl okLR (fun x hx => ok x (by simp [hx])) hlenLR]
      · simp
      · intro y hy ha he
        by_contra hnr
        have hnr : ¬ NoRunning aggs := hnr
        obtain ⟨n, hn, rfl⟩ := List.mem_iff_getElem.1 hy
        simp only [List.getElem_zip] at ha he
        cases hps : packs with
        | nil =>
          rcases hsafe with h | h
          · exact absurd h hnr
          · have hn' : n < pack.length := by simp at hn; omega
            have := h pack (by simp [hps]) pack[n] (List.getElem_mem _)
            rw [← accepted_iff, ha] at this
            simp at this
        | cons p ps =>
          exact h3 hsafe' hnr (by simp [hps]) _ (List.getElem_mem _) he

end

end Mutable.WasmAgg
