import Verif.WasmAgg.Emit
import Mathlib.Data.List.Chain
import Mathlib.Data.List.Forall2

/-! Hash-based and ordered grouping. -/
namespace Mutable.WasmAgg

section
variable {R V : Type} [DecidableEq V] {ev : Arg → R → Option Val} {aggs : List Agg} {key : R → List (Option V)}

theorem tight_oT {rs : List R} (ok : ∀ r ∈ rs, RowOk ev aggs r) (hne : rs ≠ []) : TightSt ev aggs rs (oT ev rs) := by
  intro i hi
  refine ⟨?_, fun _ => rfl⟩
  simp only [oT]
  by_cases hc : i.fn = .count
  · simp [hc, count_nullable hi hc]
  · simp only [hc, if_false]
    cases hn : i.nullable with
    | true => simp
    | false =>
      obtain ⟨r, hr⟩ := List.exists_mem_of_ne_nil rs hne
      rw [info_nullable hi hc] at hn
      obtain ⟨v, hv⟩ := Option.ne_none_iff_exists'.1 (argCell_none hi hc (ok r hr) hn)
      have : v ∈ cells ev i rs := List.mem_filterMap.2 ⟨r, hr, hv⟩
      have hne' : cells ev i rs ≠ [] := List.ne_nil_of_mem this
      simpa using hne'.symm

theorem accepted_iff (p : Option Bool) : accepted p = true ↔ p ≠ some false := by
  cases p with
  | none => simp [accepted]
  | some b => cases b <;> simp [accepted]

theorem rowsOf_append (l l' : List (Option Bool × R)) : rowsOf (l ++ l') = rowsOf l ++ rowsOf l' := by
  simp [rowsOf]

theorem rowsOf_snoc (l : List (Option Bool × R)) (x : Option Bool × R) : rowsOf (l ++ [x]) = ext x.1 (rowsOf l) x.2 := by
  rw [rowsOf_append, ext]
  cases h : accepted x.1 with
  | true => rw [accepted_iff] at h; simp [rowsOf, h]
  | false =>
    have : x.1 = some false := by
      by_contra hc
      rw [(accepted_iff _).2 hc] at h
      simp at h
    simp [rowsOf, this]

/-! ### Hash-based grouping -/

theorem hRow_map (r : R) : ∀ (ks : List (List (Option V))), ks.Nodup → ∀ S : List (Option V) → List AState,
    hRow ev key aggs (ks.map fun k => (k, S k)) r =
      if key r ∈ ks then ks.map fun k => (k, if k = key r then hUpdateAll ev aggs r (S k) else S k)
      else (ks.map fun k => (k, S k)) ++ [(key r, (infos aggs).map (hInit ev r))] := by
  intro ks
  induction ks with
  | nil => intro _ S; simp [hRow]
  | cons k ks ih =>
    intro hnd S
    obtain ⟨h1, h2⟩ := List.nodup_cons.1 hnd
    simp only [List.map_cons, hRow]
    by_cases hk : k = key r
    · simp only [hk, if_true, List.mem_cons, true_or]
      congr 1
      apply List.map_congr_left
      intro k' hk'
      have : k' ≠ key r := by rintro rfl; exact h1 (hk ▸ hk')
      simp [this]
    · have hk' : key r ≠ k := fun h => hk h.symm
      simp only [hk, if_false, List.mem_cons, hk', false_or]
      rw [ih h2 S]
      split <;> simp

/-- The groups after the rows. -/
def hGroups (ev : Arg → R → Option Val) (aggs : List Agg) (key : R → List (Option V)) (rs : List R)
    (ks : List (List (Option V))) : List (List (Option V) × List AState) :=
  ks.map fun k => (k, (infos aggs).map (oT ev (rs.filter fun r => key r = k)))

theorem hRun_inv : ∀ (rows : List (Option Bool × R)), (∀ r ∈ rowsOf rows, RowOk ev aggs r) → (rowsOf rows).length < 2 ^ 63 →
    ∃ ks : List (List (Option V)), ks.Nodup ∧ (∀ k, k ∈ ks ↔ ∃ r ∈ rowsOf rows, key r = k) ∧
      hRun ev key aggs rows = hGroups ev aggs key (rowsOf rows) ks := by
  intro rows
  induction rows using List.reverseRecOn with
  | nil => intro _ _; exact ⟨[], by simp, by simp [rowsOf], rfl⟩
  | append_singleton rows x ih =>
    intro ok hlen
    rw [rowsOf_snoc] at ok hlen ⊢
    have hrun : hRun ev key aggs (rows ++ [x]) = hStep ev key aggs (hRun ev key aggs rows) x := by
      simp [hRun, List.foldl_append]
    rw [hrun]
    cases ha : accepted x.1 with
    | false =>
      rw [ext_rej ha] at ok hlen ⊢
      obtain ⟨ks, h1, h2, h3⟩ := ih ok hlen
      exact ⟨ks, h1, h2, by simp [hStep, ha, h3]⟩
    | true =>
      rw [ext_acc ha] at ok hlen ⊢
      have okr : ∀ r ∈ rowsOf rows, RowOk ev aggs r := fun r hr => ok r (by simp [hr])
      have okx : RowOk ev aggs x.2 := ok x.2 (by simp)
      obtain ⟨ks, h1, h2, h3⟩ := ih okr (by simp at hlen; omega)
      simp only [hStep, ha, if_true]
      rw [h3, hGroups, hRow_map x.2 ks h1]
      by_cases hk : key x.2 ∈ ks
      · refine ⟨ks, h1, ?_, ?_⟩
        · intro k
          rw [h2 k]
          constructor
          · rintro ⟨r, hr, e⟩; exact ⟨r, by simp [hr], e⟩
          · rintro ⟨r, hr, e⟩
            rcases List.mem_append.1 hr with hr | hr
            · exact ⟨r, hr, e⟩
            · simp only [List.mem_singleton] at hr
              subst hr; subst e
              exact (h2 _).1 hk
        · rw [if_pos hk]
          apply List.map_congr_left
          intro k _
          by_cases hkk : k = key x.2
          · simp only [hkk, if_true]
            rw [hUpdateAll_eq, oUpdateAll_eq okx (fun r hr => okr r (List.mem_of_mem_filter hr))
              (by
                rw [ext_acc rfl]
                have := List.length_filter_le (fun r => decide (key r = key x.2)) (rowsOf rows)
                simp only [List.length_append, List.length_singleton] at hlen ⊢
                omega)
              (by intro h; simp [accepted] at h)]
            rw [ext_acc rfl, List.filter_append]
            simp
          · have hkk' : key x.2 ≠ k := fun h => hkk h.symm
            simp [hkk, hkk', List.filter_append]
      · refine ⟨ks ++ [key x.2], ?_, ?_, ?_⟩
        · rw [List.nodup_append]
          refine ⟨h1, by simp, ?_⟩
          intro a ha b hb hab
          simp only [List.mem_singleton] at hb
          subst hb; subst hab; exact hk ha
        · intro k
          rw [List.mem_append, h2 k]
          constructor
          · rintro (⟨r, hr, e⟩ | hr)
            · exact ⟨r, by simp [hr], e⟩
            · simp only [List.mem_singleton] at hr
              exact ⟨x.2, by simp, hr.symm⟩
          · rintro ⟨r, hr, e⟩
            rcases List.mem_append.1 hr with hr | hr
            · exact .inl ⟨r, hr, e⟩
            · simp only [List.mem_singleton] at hr
              subst hr; subst e
              right; simp
        · rw [if_neg hk, hGroups, List.map_append]
          congr 1
          · apply List.map_congr_left
            intro k hkm
            have hkk' : key x.2 ≠ k := by rintro rfl; exact hk hkm
            simp [hkk', List.filter_append]
          · simp only [List.map_cons, List.map_nil, List.cons.injEq, Prod.mk.injEq, true_and, and_true]
            have hnone : (rowsOf rows).filter (fun r => decide (key r = key x.2)) = [] := by
              rw [List.filter_eq_nil_iff]
              intro r hr
              have : key x.2 ≠ key r := fun h => hk ((h2 _).2 ⟨r, hr, h.symm⟩)
              simpa using fun h => this h.symm
            rw [List.filter_append, hnone]
            simp only [List.filter_cons, decide_true, if_true, List.filter_nil, List.nil_append]
            apply List.map_congr_left
            intro i hi
            exact hInit_eq hi okx

/-! ### Ordered grouping -/

theorem cmpDiffers_iff (a b : Option V) : cmpDiffers a b = true ↔ a ≠ b := by
  cases a <;> cases b <;> simp [cmpDiffers]
  exact not_congr eq_comm

theorem groupDiffers_iff (a b : List (Option V)) (h : a.length = b.length) : groupDiffers a b = true ↔ a ≠ b := by
  have hf : ∀ (l : List (Option V × Option V)) (d : Bool),
      l.foldl (fun d p => cmpDiffers p.1 p.2 || d) d = true ↔ d = true ∨ ∃ p ∈ l, p.1 ≠ p.2 := by
    intro l
    induction l with
    | nil => simp
    | cons p l ih =>
      intro d
      rw [List.foldl_cons, ih]
      simp only [Bool.or_eq_true, cmpDiffers_iff, List.mem_cons, exists_eq_or_imp]
      tauto
  unfold groupDiffers
  rw [hf]
  simp only [Bool.false_eq_true, false_or]
  induction a generalizing b with
  | nil => cases b <;> simp_all
  | cons x a ih =>
    cases b with
    | nil => simp at h
    | cons y b =>
      simp only [List.zip_cons_cons, List.mem_cons, exists_eq_or_imp]
      have h1 := ih b (by simpa using h)
      simp only [ne_eq] at h1 ⊢
      rw [List.cons.injEq]
      constructor
      · rintro (h2 | h2)
        · exact fun h => h2 h.1
        · exact fun h => h1.1 h2 h.2
      · intro h2
        by_cases hxy : x = y
        · exact .inr (h1.2 fun h => h2 ⟨hxy, h⟩)
        · exact .inl hxy

/-- The loop of ordered grouping after the rows. -/
def OInv (ev : Arg → R → Option Val) (aggs : List Agg) (key : R → List (Option V)) (rs : List R) (s : OAll V) : Prop :=
  (rs = [] ∧ s.loc.first = true ∧ s.loc.aggs = (infos aggs).map (oT ev []) ∧ s.out = []) ∨
  ∃ runs cur, IsRuns key rs (runs ++ [cur]) ∧ s.loc.first = false ∧ (∀ a ∈ cur, key a = s.loc.key) ∧
    s.loc.aggs = (infos aggs).map (oT ev cur) ∧
    List.Forall₂ (fun g o => (∀ a ∈ g, key a = o.1) ∧ o.2 = (infos aggs).map (oT ev g)) runs s.out

theorem isChain_snoc_iff {α : Type} {P : α → α → Prop} (l : List α) (a b : α) :
    (l ++ [a] ++ [b]).IsChain P ↔ (l ++ [a]).IsChain P ∧ P a b := by
  rw [List.isChain_append]
  simp

theorem IsRuns.extend {K : Type} {key : R → K} {rs : List R} {runs : List (List R)} {cur : List R} {r : R}
    (h : IsRuns key rs (runs ++ [cur])) (hk : ∀ a ∈ cur, key a = key r) : IsRuns key (rs ++ [r]) (runs ++ [cur ++ [r]]) := by
  refine ⟨?_, ?_, ?_, ?_⟩
  · rw [← h.flat]; simp
  · intro g hg
    rcases List.mem_append.1 hg with hg | hg
    · exact h.nonempty g (by simp [hg])
    · simp at hg; simp [hg]
  · intro g hg
    rcases List.mem_append.1 hg with hg | hg
    · exact h.same g (by simp [hg])
    · simp only [List.mem_singleton] at hg
      subst hg
      intro a ha b hb
      have h1 : ∀ x ∈ cur ++ [r], key x = key r := by
        intro x hx
        rcases List.mem_append.1 hx with hx | hx
        · exact hk x hx
        · simp at hx; rw [hx]
      rw [h1 a ha, h1 b hb]
  · have hd := h.differ
    rcases List.eq_nil_or_concat runs with rfl | ⟨l, g, rfl⟩
    · simp
    · rw [List.concat_eq_append] at hd ⊢
      rw [isChain_snoc_iff] at hd ⊢
      refine ⟨hd.1, ?_⟩
      intro a ha b hb
      rcases List.mem_append.1 hb with hb | hb
      · exact hd.2 a ha b hb
      · simp only [List.mem_singleton] at hb
        subst hb
        obtain ⟨c, hc⟩ := List.exists_mem_of_ne_nil cur (h.nonempty cur (by simp))
        rw [← hk c hc]
        exact hd.2 a ha c hc

theorem IsRuns.newRun {K : Type} {key : R → K} {rs : List R} {runs : List (List R)} {cur : List R} {r : R}
    (h : IsRuns key rs (runs ++ [cur])) (hk : ∀ a ∈ cur, key a ≠ key r) : IsRuns key (rs ++ [r]) (runs ++ [cur] ++ [[r]]) := by
  refine ⟨?_, ?_, ?_, ?_⟩
  · rw [← h.flat]; simp
  · intro g hg
    rcases List.mem_append.1 hg with hg | hg
    · exact h.nonempty g hg
    · simp at hg; simp [hg]
  · intro g hg
    rcases List.mem_append.1 hg with hg | hg
    · exact h.same g hg
    · simp only [List.mem_singleton] at hg
      subst hg
      simp
  · rw [isChain_snoc_iff]
    refine ⟨h.differ, ?_⟩
    intro a ha b hb
    simp only [List.mem_singleton] at hb
    subst hb
    exact hk a ha

theorem oRow_inv {nk : Nat} (hkey : ∀ r, (key r).length = nk) {rs : List R} {s : OAll V} {x : Option Bool × R}
    (ok : ∀ r ∈ rs, RowOk ev aggs r) (okx : RowOk ev aggs x.2) (hlen : (ext x.1 rs x.2).length < 2 ^ 63)
    (hsafe : AvgSafe aggs x.1 rs) (h : OInv ev aggs key rs s) : OInv ev aggs key (ext x.1 rs x.2) (oRow ev key aggs s x) := by
  obtain ⟨p, r⟩ := x
  simp only at *
  cases ha : accepted p with
  | false =>
    rw [ext_rej ha] at *
    have hs1 : oRow ev key aggs s (p, r) =
        { s with loc := { s.loc with aggs := oUpdateAll ev aggs p r s.loc.aggs } } := by
      simp [oRow, rejected_sel ha]
    rw [hs1]
    rcases h with ⟨rfl, h1, h2, h3⟩ | ⟨runs, cur, h1, h2, h3, h4, h5⟩
    · refine .inl ⟨rfl, h1, ?_, h3⟩
      simp only [h2]
      rw [oUpdateAll_eq okx (by simp) (by rw [ext_rej ha]; simp) hsafe, ext_rej ha]
    · have hcur : ∀ r ∈ cur, r ∈ rs := by
        intro r hr; rw [← h1.flat]; simp [hr]
      have hcne : cur ≠ [] := h1.nonempty cur (by simp)
      have hcl : cur.length ≤ rs.length := by rw [← h1.flat]; simp
      refine .inr ⟨runs, cur, h1, h2, h3, ?_, h5⟩
      simp only [h4]
      rw [oUpdateAll_eq okx (fun r hr => ok r (hcur r hr)) (by rw [ext_rej ha]; omega)
        (fun _ h0 => absurd h0 hcne), ext_rej ha]
  | true =>
    rw [ext_acc ha] at *
    have safe' : ∀ rs' : List R, AvgSafe aggs p rs' := by
      intro rs' h0; rw [ha] at h0; simp at h0
    rcases h with ⟨rfl, h1, h2, h3⟩ | ⟨runs, cur, h1, h2, h3, h4, h5⟩
    · right
      refine ⟨[], [r], ⟨by simp, by simp, by simp, by simp⟩, ?_⟩
      have hs1 : oRow ev key aggs s (p, r) =
          { s with loc := ⟨false, key r, oUpdateAll ev aggs p r s.loc.aggs⟩ } := by
        simp [oRow, accepted_sel ha, h1, oNewGroup]
      rw [hs1]
      refine ⟨rfl, by simp, ?_, by simp [h3]⟩
      simp only [h2]
      rw [oUpdateAll_eq okx (by simp) (by rw [ext_acc ha]; simp) (safe' _), ext_acc ha]
      rfl
    · have hcur : ∀ r ∈ cur, r ∈ rs := by
        intro r hr; rw [← h1.flat]; simp [hr]
      have hcne : cur ≠ [] := h1.nonempty cur (by simp)
      have hcl : cur.length ≤ rs.length := by rw [← h1.flat]; simp
      obtain ⟨c, hc⟩ := List.exists_mem_of_ne_nil cur hcne
      have hkl : s.loc.key.length = (key r).length := by rw [← h3 c hc, hkey, hkey]
      have hgd := groupDiffers_iff s.loc.key (key r) hkl
      by_cases hd : s.loc.key = key r
      · have hgf : groupDiffers s.loc.key (key r) = false := by
          rw [← Bool.not_eq_true, hgd]; simpa using hd
        have hs1 : oRow ev key aggs s (p, r) =
            { s with loc := { s.loc with aggs := oUpdateAll ev aggs p r s.loc.aggs } } := by
          simp [oRow, accepted_sel ha, h2, hgf]
        rw [hs1]
        refine .inr ⟨runs, cur ++ [r], h1.extend (fun a ha => by rw [h3 a ha, hd]), h2, ?_, ?_, h5⟩
        · intro a ha
          rcases List.mem_append.1 ha with ha | ha
          · exact h3 a ha
          · simp at ha; rw [ha]; exact hd.symm
        · simp only [h4]
          rw [oUpdateAll_eq okx (fun r hr => ok r (hcur r hr))
            (by rw [ext_acc ha]; simp at hlen ⊢; omega) (safe' _), ext_acc ha]
      · have hgt : groupDiffers s.loc.key (key r) = true := hgd.2 hd
        have hs1 : oRow ev key aggs s (p, r) =
            ⟨⟨false, key r, oUpdateAll ev aggs p r ((infos aggs).map oInit)⟩,
              ⟨s.glob.first, s.loc.key, s.loc.aggs⟩, s.out ++ [(s.loc.key, s.loc.aggs)]⟩ := by
          simp [oRow, accepted_sel ha, h2, hgt, oNewGroup, oFlush]
        rw [hs1]
        refine .inr ⟨runs ++ [cur], [r], h1.newRun (fun a ha => by rw [h3 a ha]; exact hd), rfl, by simp, ?_, ?_⟩
        · simp only
          have hini : (infos aggs).map oInit = (infos aggs).map (oT ev ([] : List R)) :=
            List.map_congr_left fun i hi => oInit_eq hi
          rw [hini, oUpdateAll_eq okx (by simp) (by rw [ext_acc ha]; simp) (safe' _), ext_acc ha]
          rfl
        · simp only
          exact List.rel_append h5 (.cons ⟨h3, h4⟩ .nil)

end

end Mutable.WasmAgg
