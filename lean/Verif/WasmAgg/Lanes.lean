import Verif.WasmAgg.Final

/-! Combining the lanes. -/
namespace Mutable.WasmAgg

section
variable {R V : Type} {ev : Arg → R → Option Val} {aggs : List Agg}

theorem cells_flatten (i : Info) (LR : List (List R)) : cells ev i LR.flatten = (LR.map (cells ev i)).flatten := by
  induction LR with
  | nil => rfl
  | cons rs LR ih => rw [List.flatten_cons, cells_append, ih, List.map_cons, List.flatten_cons]

theorem foldMM_eq (m : Bool) {i : Info} (hk : ∀ rs : List R, (∀ r ∈ rs, RowOk ev aggs r) → ∀ v ∈ cells ev i rs, Kind i.ty v)
    (f : List R → AState) (hf : ∀ rs, (f rs).v = (cells ev i rs).foldl (vmm m) (neutral m i.ty)) :
    ∀ (LR : List (List R)), LR ≠ [] → (∀ rs ∈ LR, ∀ r ∈ rs, RowOk ev aggs r) →
    foldMM m (LR.map f) = (cells ev i LR.flatten).foldl (vmm m) (neutral m i.ty) := by
  have key : ∀ (LR : List (List R)) (done : List R) (acc : Val), (∀ r ∈ done, RowOk ev aggs r) →
      (∀ rs ∈ LR, ∀ r ∈ rs, RowOk ev aggs r) → Extreme m (neutral m i.ty :: cells ev i done) acc →
      Extreme m (neutral m i.ty :: cells ev i (done ++ LR.flatten))
        ((LR.map f).foldl (fun acc t => vmm m acc t.v) acc) := by
    intro LR
    induction LR with
    | nil => intro done acc _ _ h; simpa using h
    | cons rs LR ih =>
      intro done acc okd ok h
      rw [List.map_cons, List.foldl_cons, List.flatten_cons, ← List.append_assoc]
      have okrs := ok rs (by simp)
      apply ih (done ++ rs)
      · intro r hr
        rcases List.mem_append.1 hr with hr | hr
        · exact okd r hr
        · exact okrs r hr
      · intro rs' hrs'; exact ok rs' (by simp [hrs'])
      · rw [hf]
        have h1 := foldl_vmm (m := m) (cells ev i rs) (neutral m i.ty) (neutral_kind m i.ty) (hk rs okrs)
        have h2 := Extreme.vmm (ty := i.ty) (l := neutral m i.ty :: cells ev i done) (l' := neutral m i.ty :: cells ev i rs)
          (by
            intro v hv
            rcases List.mem_cons.1 hv with rfl | hv
            · exact neutral_kind m i.ty
            · exact hk done okd v hv)
          (by
            intro v hv
            rcases List.mem_cons.1 hv with rfl | hv
            · exact neutral_kind m i.ty
            · exact hk rs okrs v hv) h h1
        refine h2.perm ?_
        intro x
        rw [cells_append]
        simp only [List.cons_append, List.mem_cons, List.mem_append]
        tauto
  intro LR hne ok
  cases LR with
  | nil => exact absurd rfl hne
  | cons rs LR =>
    have okrs := ok rs (by simp)
    have h1 := foldl_vmm (m := m) (cells ev i rs) (neutral m i.ty) (neutral_kind m i.ty) (hk rs okrs)
    have h2 := key LR rs _ okrs (fun rs' h => ok rs' (by simp [h])) h1
    simp only [List.map_cons, foldMM, hf]
    have okall : ∀ r ∈ rs ++ LR.flatten, RowOk ev aggs r := by
      intro r hr
      rcases List.mem_append.1 hr with hr | hr
      · exact okrs r hr
      · obtain ⟨rs', h3, h4⟩ := List.mem_flatten.1 hr
        exact ok rs' (by simp [h3]) r h4
    have h3 := foldl_vmm (m := m) (cells ev i (rs ++ LR.flatten)) (neutral m i.ty) (neutral_kind m i.ty) (hk _ okall)
    rw [List.flatten_cons]
    refine h2.uniq (ty := i.ty) ?_ h3
    intro v hv
    rcases List.mem_cons.1 hv with rfl | hv
    · exact neutral_kind m i.ty
    · exact hk _ okall v hv

theorem foldSum_eq {i : Info} (f : List R → AState) (hf : ∀ rs, (f rs).v = sumVal i.ty (cells ev i rs)) :
    ∀ (LR : List (List R)), foldSum i.ty (LR.map f) = sumVal i.ty (cells ev i LR.flatten) := by
  intro LR
  induction LR with
  | nil => simp [foldSum, cells, sumVal_nil]
  | cons rs LR ih =>
    cases LR with
    | nil => simp [foldSum, hf]
    | cons rs' LR =>
      have h1 : foldSum i.ty ((rs :: rs' :: LR).map f) = vadd i.ty (f rs).v (foldSum i.ty ((rs' :: LR).map f)) := rfl
      rw [h1, ih, hf, vadd_sumVal, ← cells_append]; rfl

theorem foldCnt_eq {i : Info} (f : List R → AState) (hf : ∀ rs, (f rs).v = .i (wrap 64 ((rs.map (countInc ev i)).sum))) :
    ∀ (LR : List (List R)), foldSum (.int 64) (LR.map f) = .i (wrap 64 ((LR.flatten.map (countInc ev i)).sum)) := by
  intro LR
  induction LR with
  | nil => simp [foldSum, zero, wrap]
  | cons rs LR ih =>
    cases LR with
    | nil => simp [foldSum, hf]
    | cons rs' LR =>
      have h1 : foldSum (.int 64) ((rs :: rs' :: LR).map f) = vadd (.int 64) (f rs).v (foldSum (.int 64) ((rs' :: LR).map f)) := rfl
      rw [h1, ih, hf, List.flatten_cons (l := rs)]
      simp only [vadd, Ty.size, wrap_wrap_add, wrap_add_wrap, List.map_append, List.sum_append]

theorem foldDbl_fin : ∀ (l : List ℚ), foldDbl (l.map Dbl.fin) = .fin l.sum := by
  intro l
  induction l with
  | nil => simp [foldDbl]
  | cons x l ih =>
    cases l with
    | nil => simp [foldDbl]
    | cons y l =>
      have h1 : foldDbl ((x :: y :: l).map Dbl.fin) = Dbl.add (.fin x) (foldDbl ((y :: l).map Dbl.fin)) := rfl
      rw [h1, ih]
      simp [Dbl.add]

theorem mean_mul (l : List Val) : mean l * l.length = (l.map Val.toQ).sum := by
  by_cases h : (l.length : ℚ) = 0
  · have : l = [] := by simpa using h
    subst this; simp [mean]
  · unfold mean; field_simp

theorem zipWith_map_map {α β γ δ : Type} (h : β → γ → δ) (f : α → β) (g : α → γ) (l : List α) :
    List.zipWith h (l.map f) (l.map g) = l.map fun x => h (f x) (g x) := by
  induction l with
  | nil => rfl
  | cons x l ih => simp [ih]

theorem sum_flatten_map (i : Info) (LR : List (List R)) :
    (LR.map fun rs => ((cells ev i rs).map Val.toQ).sum).sum = ((cells ev i LR.flatten).map Val.toQ).sum := by
  induction LR with
  | nil => simp [cells]
  | cons rs LR ih => simp only [List.map_cons, List.sum_cons, ih, List.flatten_cons, cells_append, List.map_append, List.sum_append]

theorem finalAvg_eq {i : Info} {a : Arg} (ha : i.arg = some a) (f c : List R → AState)
    (hf : ∀ rs, (f rs).v = .d (.fin (mean (cells ev i rs))))
    (hc : ∀ rs, rs.length < 2 ^ 63 → (c rs).v = .i ((cells ev i rs).length : Int))
    (hc' : ∀ rs, (c rs).v = .i (wrap 64 ((rs.map (countInc ev i)).sum)))
    (LR : List (List R)) (hlen : LR.flatten.length < 2 ^ 63) (hne : cells ev i LR.flatten ≠ []) :
    finalAvg (LR.map f) (LR.map c) = .d (.fin (mean (cells ev i LR.flatten))) := by
  unfold finalAvg
  have hl : ∀ rs ∈ LR, rs.length < 2 ^ 63 := by
    intro rs hrs
    have : rs.length ≤ LR.flatten.length := (List.sublist_flatten_of_mem hrs).length_le
    omega
  rw [zipWith_map_map, foldCnt_eq c hc']
  have h1 : (LR.map fun rs => (f rs).v.toDbl.mul (c rs).v.toDbl) =
      (LR.map fun rs => ((cells ev i rs).map Val.toQ).sum).map Dbl.fin := by
    rw [List.map_map]
    apply List.map_congr_left
    intro rs hrs
    rw [hf, hc rs (hl rs hrs)]
    simp only [Val.toDbl, Dbl.mul, Function.comp, Int.cast_natCast, mean_mul]
  rw [h1, foldDbl_fin, sum_flatten_map, countInc_sum ha, wrap_nat (lt_of_le_of_lt (filterMap_length_le _ _) hlen)]
  have h2 : ((LR.flatten.filterMap (ev a)).length : ℚ) = (cells ev i LR.flatten).length := by
    rw [cells_length ha]
  have h3 : ((cells ev i LR.flatten).length : ℚ) ≠ 0 := by simpa using hne
  simp only [Val.toDbl, Dbl.div, Int.cast_natCast, h2, h3, if_false, mean]

theorem lanesOf_eq (n : Nat) (LR : List (List R)) (k : Nat) (hk : k < (infos aggs).length) :
    lanesOf (laneSts ev aggs n LR) k = LR.map fun rs => aT ev n rs (infos aggs)[k] := by
  simp [lanesOf, laneSts, hk]

theorem cnt_lane {a : Arg} (hg : Agg.avg a ∈ aggs) (n : Nat) (rs : List R) :
    getSt (infos aggs) ((infos aggs).map (aT ev n rs)) (cntId aggs a) = aT ev n rs (cntInfo aggs a) := by
  rw [← cntInfo_id, getSt_infos _ (cntInfo_mem hg)]

theorem countInc_congr {i j : Info} (h : i.arg = j.arg) : countInc ev i = countInc ev j := by
  funext r; simp [countInc, h]

/-- The flags of the lanes. -/
theorem all_null (n : Nat) (i : Info) (LR : List (List R)) (hne : LR ≠ []) :
    (LR.map fun rs => aT ev n rs i).all (·.null) = aNull ev n LR.flatten i := by
  simp only [aT, aNull]
  by_cases hc : i.fn = .count
  · simp only [hc, if_true, List.all_map]
    cases LR with
    | nil => exact absurd rfl hne
    | cons rs LR => simp
  · simp only [hc, if_false]
    cases i.argNullable with
    | true =>
      simp only [if_true, cells_flatten, List.all_map]
      rw [Bool.eq_iff_iff]
      simp
    | false =>
      simp only [Bool.false_eq_true, if_false, List.all_map]
      cases LR with
      | nil => exact absurd rfl hne
      | cons rs LR =>
        rw [Bool.eq_iff_iff]
        simp
        intro h _ _; exact h

/-- The final state of an entry. -/
theorem finalSt_eq {n k : Nat} {LR : List (List R)} (hk : k < (infos aggs).length) (hne : LR ≠ [])
    (ok : ∀ rs ∈ LR, ∀ r ∈ rs, RowOk ev aggs r) (hlen : LR.flatten.length < 2 ^ 63) :
    (finalSt aggs (laneSts ev aggs n LR) k (infos aggs)[k]).null = aNull ev n LR.flatten (infos aggs)[k] ∧
    ((cells ev (infos aggs)[k] LR.flatten ≠ [] ∨ (infos aggs)[k].fn ≠ .avg) →
      (finalSt aggs (laneSts ev aggs n LR) k (infos aggs)[k]).v = tgtV ev (infos aggs)[k] LR.flatten) := by
  have hi : (infos aggs)[k] ∈ infos aggs := List.getElem_mem _
  generalize hgi : (infos aggs)[k] = i at *
  have hlanes : lanesOf (laneSts ev aggs n LR) k = LR.map fun rs => aT ev n rs i := by rw [lanesOf_eq n LR k hk, hgi]
  unfold finalSt
  simp only [hlanes]
  have hll : (laneSts ev aggs n LR).length = LR.length := by simp [laneSts]
  rw [hll]
  by_cases h1 : LR.length = 1
  · obtain ⟨rs, rfl⟩ := List.length_eq_one_iff.1 h1
    simp [aT]
  · rw [if_neg h1]
    cases hf : i.fn with
    | min =>
      refine ⟨all_null n i LR hne, fun _ => ?_⟩
      have := foldMM_eq (ev := ev) (aggs := aggs) true (i := i) (fun rs ok => cells_kind hi (by simp [hf]) ok)
        (fun rs => aT ev n rs i) (fun rs => by simp only [aT, tgtV, hf]) LR hne ok
      simp only [this, tgtV, hf]
    | max =>
      refine ⟨all_null n i LR hne, fun _ => ?_⟩
      have := foldMM_eq (ev := ev) (aggs := aggs) false (i := i) (fun rs ok => cells_kind hi (by simp [hf]) ok)
        (fun rs => aT ev n rs i) (fun rs => by simp only [aT, tgtV, hf]) LR hne ok
      simp only [this, tgtV, hf]
    | sum =>
      refine ⟨all_null n i LR hne, fun _ => ?_⟩
      have := foldSum_eq (ev := ev) (i := i) (fun rs => aT ev n rs i) (fun rs => by simp only [aT, tgtV, hf]) LR
      simp only [this, tgtV, hf]
    | count =>
      refine ⟨by simp [aNull, hf], fun _ => ?_⟩
      have := foldCnt_eq (ev := ev) (i := i) (fun rs => aT ev n rs i) (fun rs => by simp only [aT, tgtV, hf]) LR
      simp only [this, tgtV, hf]
    | avg =>
      refine ⟨all_null n i LR hne, fun h => ?_⟩
      have hcell : cells ev i LR.flatten ≠ [] := by simpa using h
      obtain ⟨a, hg, rfl⟩ := avg_form hi hf
      have harg : (Agg.info (.avg a)).arg = some a := rfl
      obtain ⟨c1, c2⟩ := cntInfo_fn aggs a
      have hcl : cntLanes aggs (Agg.info (.avg a)) (laneSts ev aggs n LR) = LR.map fun rs => aT ev n rs (cntInfo aggs a) := by
        simp only [cntLanes, harg, laneSts, List.map_map]
        apply List.map_congr_left
        intro rs _
        exact cnt_lane hg n rs
      simp only [hcl]
      have hcv : ∀ rs : List R, (aT ev n rs (cntInfo aggs a)).v = .i (wrap 64 ((rs.map (countInc ev (Agg.info (.avg a)))).sum)) := by
        intro rs
        simp only [aT, tgtV, c1, countInc_congr (ev := ev) (i := cntInfo aggs a) (j := Agg.info (.avg a)) (by rw [c2, harg])]
      rw [finalAvg_eq (ev := ev) harg (fun rs => aT ev n rs (Agg.info (.avg a))) (fun rs => aT ev n rs (cntInfo aggs a))
        (fun rs => by simp only [aT, tgtV, hf]) ?_ hcv LR hlen hcell]
      · simp only [tgtV, hf]
      · intro rs hrs
        rw [hcv, countInc_sum harg, wrap_nat (lt_of_le_of_lt (filterMap_length_le _ _) hrs), cells_length harg]

/-- The final states as a function of the entry. -/
theorem finalAll_tight {n : Nat} {LR : List (List R)} (hne : LR ≠ [])
    (ok : ∀ rs ∈ LR, ∀ r ∈ rs, RowOk ev aggs r) (hlen : LR.flatten.length < 2 ^ 63)
    (hq : ∀ i ∈ infos aggs, i.fn ≠ .count → i.argNullable = false → (n = 0 ↔ LR.flatten = [])) :
    ∃ f, finalAll aggs (laneSts ev aggs n LR) = (infos aggs).map f ∧ TightSt ev aggs LR.flatten f := by
  refine ⟨fun i => finalSt aggs (laneSts ev aggs n LR) ((infos aggs).idxOf i) i, ?_, ?_⟩
  · apply List.ext_getElem
    · simp [finalAll]
    · intro k h1 h2
      simp only [finalAll, List.getElem_mapIdx, List.getElem_map]
      have hk : k < (infos aggs).length := by simpa [finalAll] using h1
      have hm : (infos aggs)[k] ∈ infos aggs := List.getElem_mem _
      have hlt := List.idxOf_lt_length_of_mem hm
      have hget := List.getElem_idxOf hlt
      have e1 := lanesOf_eq (ev := ev) n LR k hk
      have e2 := lanesOf_eq (ev := ev) n LR _ hlt
      rw [hget] at e2
      unfold finalSt
      rw [e1, e2]
  · intro i hi
    have hlt := List.idxOf_lt_length_of_mem hi
    have hget := List.getElem_idxOf hlt
    have h := finalSt_eq (ev := ev) (n := n) hlt hne ok hlen
    rw [hget] at h
    have hnull : aNull ev n LR.flatten i = if i.fn = .count then false else (cells ev i LR.flatten).isEmpty := by
      unfold aNull
      by_cases hc : i.fn = .count
      · simp [hc]
      · simp only [hc, if_false]
        cases hn : i.argNullable with
        | true => simp
        | false =>
          simp only [Bool.false_eq_true, if_false]
          have h2 := hq i hi hc hn
          rw [Bool.eq_iff_iff]
          simp only [decide_eq_true_eq, List.isEmpty_iff]
          rw [h2]
          constructor
          · intro h3; rw [h3]; rfl
          · intro h3
            by_contra hcon
            obtain ⟨r, hr⟩ := List.exists_mem_of_ne_nil _ hcon
            obtain ⟨rs, hrs, hr'⟩ := List.mem_flatten.1 hr
            obtain ⟨v, hv⟩ := Option.ne_none_iff_exists'.1 (argCell_none hi hc (ok rs hrs r hr') hn)
            have : v ∈ cells ev i LR.flatten := List.mem_filterMap.2 ⟨r, hr, hv⟩
            rw [h3] at this
            simp at this
    refine ⟨by rw [h.1, hnull], fun h0 => h.2 ?_⟩
    rw [h.1, hnull] at h0
    by_cases hc : i.fn = .count
    · right; simp [hc]
    · left
      simp only [hc, if_false] at h0
      simpa using h0

/-! ### Permutations -/

theorem AggSpec_perm {rs rs' : List R} (h : rs.Perm rs') (g : Interp.Agg R) (v : Option ℚ) (hs : Interp.AggSpec g rs v) :
    Interp.AggSpec g rs' v := by
  have hp : ∀ arg : R → Option ℚ, (Interp.argVals arg rs).Perm (Interp.argVals arg rs') := fun arg => h.filterMap arg
  have hnil : ∀ arg : R → Option ℚ, Interp.argVals arg rs = [] ↔ Interp.argVals arg rs' = [] := by
    intro arg
    constructor
    · intro e; have := hp arg; rw [e] at this; exact this.nil_eq.symm ▸ rfl
    · intro e; have := hp arg; rw [e] at this; exact this.eq_nil
  cases g with
  | countStar => simpa [Interp.AggSpec, h.length_eq] using hs
  | count arg => simpa [Interp.AggSpec, (hp arg).length_eq] using hs
  | sum arg =>
    simp only [Interp.AggSpec] at hs ⊢
    rw [← (hp arg).sum_eq]
    simpa only [hnil arg] using hs
  | avg arg =>
    simp only [Interp.AggSpec] at hs ⊢
    rw [← (hp arg).sum_eq, ← (hp arg).length_eq]
    simpa only [hnil arg] using hs
  | min arg =>
    simp only [Interp.AggSpec] at hs ⊢
    simp only [← (hp arg).mem_iff]
    simpa only [hnil arg] using hs
  | max arg =>
    simp only [Interp.AggSpec] at hs ⊢
    simp only [← (hp arg).mem_iff]
    simpa only [hnil arg] using hs

theorem IsAgg.perm {rs rs' : List R} (h : rs.Perm rs') {g : Agg} {c : Option Val} (hs : IsAgg ev g rs c) : IsAgg ev g rs' c := by
  obtain ⟨q, h1, h2⟩ := hs
  exact ⟨q, AggSpec_perm h _ _ h1, h2⟩

theorem SumsFit.perm {rs rs' : List R} (h : rs.Perm rs') (hs : SumsFit ev aggs rs) : SumsFit ev aggs rs' := by
  intro a ha
  have := hs a ha
  rw [((h.filterMap (ev a)).map Val.raw).sum_eq] at this
  exact this

end

end Mutable.WasmAgg
