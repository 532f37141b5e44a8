import Verif.WasmAgg.Target

/-! All aggregates: states after any sequence of rows, for the three operators. -/
namespace Mutable.WasmAgg

section
variable {R V : Type} (ev : Arg → R → Option Val)

/-- The state of an aggregate of a group after the rows `rs`. -/
def oT (rs : List R) (i : Info) : AState := ⟨tgtV ev i rs, i.nullable && (cells ev i rs).isEmpty⟩

/-- The NULL flag of an aggregate without grouping, after `n` rows of which `rs` qualify. -/
def aNull (n : Nat) (rs : List R) (i : Info) : Bool :=
  if i.fn = .count then false else if i.argNullable then (cells ev i rs).isEmpty else decide (n = 0)

def aT (n : Nat) (rs : List R) (i : Info) : AState := ⟨tgtV ev i rs, aNull ev n rs i⟩

variable {ev} {aggs : List Agg} {i : Info} {r : R} {rs : List R} {p : Option Bool}

theorem count_nullable (hi : i ∈ infos aggs) (hf : i.fn = .count) : i.nullable = false := by
  cases infos_form hi with
  | direct g hg hn => cases g <;> simp_all [Agg.info, Agg.fn, Agg.nullable]
  | avg b hg h32 => simp [Agg.info, Agg.fn] at hf
  | cnt b hg => rfl
  | sum b hg h32 => simp at hf

theorem AState.eq {s : AState} {v : Val} {n : Bool} (h1 : s.v = v) (h2 : s.null = n) : s = ⟨v, n⟩ := by
  cases s; simp_all

theorem empty_ext : (cells ev i (ext p rs r)).isEmpty = ((cells ev i rs).isEmpty && (sel p (argCell ev i r) none).isNone) := by
  cases h : accepted p with
  | true =>
    rw [ext_acc h, accepted_sel h]
    cases hc : argCell ev i r with
    | none => rw [cells_snoc_none hc]; simp
    | some v => rw [cells_snoc_some hc]; simp
  | false => rw [ext_rej h, rejected_sel h]; simp

theorem comb_null_o (f : Val → Val → Val) (dflt : Val) : (oComb f dflt p i (argCell ev i r) (oT ev rs i)).null =
    (i.nullable && (cells ev i (ext p rs r)).isEmpty) := by
  rw [oComb_null, empty_ext]
  simp only [oT]
  cases i.nullable <;> simp

theorem oUpdate_eq (hi : i ∈ infos aggs) (hok : RowOk ev aggs r) (ok : ∀ r ∈ rs, RowOk ev aggs r) (ha : i.fn ≠ .avg) :
    oUpdate ev p r i (oT ev rs i) = oT ev (ext p rs r) i := by
  refine AState.eq (oUpdate_v hi hok ok ha _) ?_
  cases hf : i.fn with
  | min => simp only [oUpdate, hf]; exact comb_null_o _ _
  | max => simp only [oUpdate, hf]; exact comb_null_o _ _
  | sum => simp only [oUpdate, hf]; exact comb_null_o _ _
  | avg => exact absurd hf ha
  | count => simp [oUpdate, hf, count_nullable hi hf]

theorem oUpdate_avg (ha : i.fn = .avg) (s : AState) : oUpdate ev p r i s = s := by simp [oUpdate, ha]

theorem zipWith_map_self {α β γ : Type} (h : α → β → γ) (f : α → β) (l : List α) :
    List.zipWith h l (l.map f) = l.map fun x => h x (f x) := by
  induction l with
  | nil => rfl
  | cons x l ih => simp [ih]

/-- One row of ordered grouping. -/
theorem oUpdateAll_eq (hok : RowOk ev aggs r) (ok : ∀ r ∈ rs, RowOk ev aggs r) (hlen : (ext p rs r).length < 2 ^ 63)
    (hsafe : AvgSafe aggs p rs) :
    oUpdateAll ev aggs p r ((infos aggs).map (oT ev rs)) = (infos aggs).map (oT ev (ext p rs r)) := by
  simp only [oUpdateAll, zipWith_map_self]
  apply List.map_congr_left
  intro i hi
  by_cases ha : i.fn = .avg
  · rw [oUpdate_avg ha]
    refine AState.eq (oUpdateAvg_v hi hok ok ha _ hlen hsafe ?_ _) ?_
    · intro j hj hja; rw [oUpdate_eq hj hok ok hja]; rfl
    · simp only [oUpdateAvg, ha]; exact comb_null_o _ _
  · rw [oUpdate_eq hi hok ok ha]
    cases hf : i.fn <;> simp_all [oUpdateAvg]

theorem oInit_eq (hi : i ∈ infos aggs) : oInit i = oT ev ([] : List R) i := by
  cases hf : i.fn <;> simp [oInit, oT, hf, tgtV, cells, sumVal_nil, mean, wrap]
  exact count_nullable hi hf

/-! ### Aggregation without grouping -/

theorem comb_null_a (f : Val → Val → Val) (dflt : Val) (hc : i.fn ≠ .count) (n : Nat) :
    (aComb f dflt p i.argNullable (argCell ev i r) (aT ev n rs i)).null = aNull ev (n + 1) (ext p rs r) i := by
  rw [aComb_null]
  simp only [aT, aNull, hc, if_false, empty_ext]
  cases i.argNullable <;> simp

theorem aUpdate_eq (hi : i ∈ infos aggs) (hok : RowOk ev aggs r) (ok : ∀ r ∈ rs, RowOk ev aggs r) (ha : i.fn ≠ .avg)
    (n : Nat) : aUpdate ev p r i (aT ev n rs i) = aT ev (n + 1) (ext p rs r) i := by
  refine AState.eq (aUpdate_v hi hok ok ha _) ?_
  cases hf : i.fn with
  | min => simp only [aUpdate, hf]; exact comb_null_a _ _ (by simp [hf]) n
  | max => simp only [aUpdate, hf]; exact comb_null_a _ _ (by simp [hf]) n
  | sum => simp only [aUpdate, hf]; exact comb_null_a _ _ (by simp [hf]) n
  | avg => exact absurd hf ha
  | count => simp [aUpdate, hf, aNull]

theorem aUpdate_avg (ha : i.fn = .avg) (s : AState) : aUpdate ev p r i s = s := by simp [aUpdate, ha]

/-- One row in one lane. -/
theorem aLane_eq (hok : RowOk ev aggs r) (ok : ∀ r ∈ rs, RowOk ev aggs r) (hlen : (ext p rs r).length < 2 ^ 63)
    (hsafe : AvgSafe aggs p rs) (n : Nat) :
    aLane ev aggs ((infos aggs).map (aT ev n rs)) (p, r) = (infos aggs).map (aT ev (n + 1) (ext p rs r)) := by
  simp only [aLane, zipWith_map_self]
  apply List.map_congr_left
  intro i hi
  by_cases ha : i.fn = .avg
  · rw [aUpdate_avg ha]
    refine AState.eq (aUpdateAvg_v hi hok ok ha _ hlen hsafe ?_ _) ?_
    · intro j hj hja; rw [aUpdate_eq hj hok ok hja]; rfl
    · simp only [aUpdateAvg, ha]; exact comb_null_a _ _ (by simp [ha]) n
  · rw [aUpdate_eq hi hok ok ha]
    cases hf : i.fn <;> simp_all [aUpdateAvg]

theorem aInit_eq (i : Info) : aInit i = aT ev 0 ([] : List R) i := by
  cases hf : i.fn <;> simp [aInit, aT, hf, tgtV, cells, sumVal_nil, mean, wrap, aNull]

/-! ### Hash-based grouping -/

theorem hComb_eq (f : Val → Val → Val) (dflt : Val) (c : Option Val) (s : AState) : hComb f i c s = oComb f dflt none i c s := rfl

theorem hUpdate_eq (s : AState) : hUpdate ev r i s = oUpdate ev none r i s := by
  unfold hUpdate oUpdate
  cases i.fn <;> rfl

theorem hUpdateAvg_eq (ss : List AState) (s : AState) : hUpdateAvg ev aggs ss r i s = oUpdateAvg ev aggs ss none r i s := by
  unfold hUpdateAvg oUpdateAvg
  cases i.fn <;> rfl

theorem hUpdateAll_eq (ss : List AState) : hUpdateAll ev aggs r ss = oUpdateAll ev aggs none r ss := by
  unfold hUpdateAll oUpdateAll
  simp only [funext₂ (fun i s => hUpdate_eq (ev := ev) (r := r) (i := i) s)]
  congr 1

theorem sum_fits (hi : i ∈ infos aggs) (hf : i.fn = .sum) (ok : RowOk ev aggs r) {v : Val} (h : argCell ev i r = some v) :
    sumVal i.ty [v] = v := by
  have hk := argCell_kind hi (by simp [hf]) ok h
  obtain ⟨a, ha⟩ := info_arg_some hi (by simp [hf])
  obtain ⟨g, hg, hga⟩ := info_arg hi ha
  simp only [argCell, ha, Option.map_eq_some_iff] at h
  obtain ⟨w, hw, rfl⟩ := h
  have hfit := (ok g hg a hga).2 w hw
  have hI := info_isI hi (by simp [hf]) ha
  unfold Kind at hk
  unfold sumVal
  split at hk
  · rename_i hisI
    obtain ⟨z, hz⟩ := hk
    have hcw : conv i.ty w = w := by
      cases hty : i.ty <;> simp_all [Ty.isI, conv]
    rw [hcw] at hz ⊢
    subst hz
    have hsize : i.ty.size = 64 := by
      cases infos_form hi with
      | direct g hg hn =>
        cases g with
        | sum b => simp only [Agg.info, Agg.ty]; cases b.ty <;> rfl
        | _ => simp_all [Agg.info, Agg.fn]
      | avg b hg h32 => simp [Agg.info, Agg.fn] at hf
      | cnt b hg => simp at hf
      | sum b hg h32 => simp only [sumTy]; cases b.ty <;> rfl
    simp only [hisI, if_true, hsize, List.map_cons, List.map_nil, List.sum_cons, List.sum_nil, Val.raw, add_zero]
    congr 1
    have : -2 ^ 63 ≤ z ∧ z < 2 ^ 63 := by
      have h2 := hI hisI
      cases hty : a.ty with
      | int w =>
        rw [hty] at hfit
        obtain ⟨hw', y, hy, h1, h2⟩ := hfit
        injection hy with hy; subst hy
        rcases hw' with rfl | rfl | rfl | rfl <;> norm_num at * <;> omega
      | dec w s =>
        rw [hty] at hfit
        obtain ⟨hw', y, hy, h1, h2⟩ := hfit
        injection hy with hy; subst hy
        rcases hw' with rfl | rfl | rfl | rfl <;> norm_num at * <;> omega
      | flt => rw [hty] at h2; simp [Ty.isI] at h2
      | dbl => rw [hty] at h2; simp [Ty.isI] at h2
    exact wrap_id this.1 this.2 (by omega)
  · rename_i hisI
    obtain ⟨q, hq⟩ := hk
    rw [hq]
    simp [hisI, Val.toQ]

theorem hInit_eq (hi : i ∈ infos aggs) (ok : RowOk ev aggs r) : hInit ev r i = oT ev [r] i := by
  have hcell : cells ev i [r] = (argCell ev i r).toList := by
    cases h : argCell ev i r <;> simp [cells, h]
  have hnn : i.fn ≠ .count → argCell ev i r = none → i.nullable = true := by
    intro hc hn
    by_contra hcon
    rw [Bool.not_eq_true, info_nullable hi hc] at hcon
    exact argCell_none hi hc ok hcon hn
  cases hf : i.fn with
  | min =>
    simp only [hInit, hf, oT, tgtV, hcell]
    cases h : argCell ev i r with
    | none => simp
    | some v => simp [vmm_neutral true (argCell_fits hi (by simp [hf]) ok h)]
  | max =>
    simp only [hInit, hf, oT, tgtV, hcell]
    cases h : argCell ev i r with
    | none => simp
    | some v => simp [vmm_neutral false (argCell_fits hi (by simp [hf]) ok h)]
  | sum =>
    simp only [hInit, hf, oT, tgtV, hcell]
    cases h : argCell ev i r with
    | none => simp [sumVal_nil]
    | some v => simp [sum_fits hi hf ok h]
  | avg =>
    simp only [hInit, hf, oT, tgtV, hcell]
    cases h : argCell ev i r with
    | none => simp [mean]
    | some v =>
      have hk := argCell_kind hi (by simp [hf]) ok h
      obtain ⟨a, hg, rfl⟩ := avg_form hi hf
      simp only [Kind, Agg.info, Agg.ty, Ty.isI, Bool.false_eq_true, if_false] at hk
      obtain ⟨q, rfl⟩ := hk
      simp [mean, Val.toQ]
  | count =>
    simp only [hInit, hf, oT, tgtV, count_nullable hi hf, Bool.false_and]
    congr 2
    simp only [List.map_cons, List.map_nil, List.sum_cons, List.sum_nil, add_zero]
    symm
    apply wrap_id
    · simp only [countInc]; split <;> (try split) <;> norm_num
    · simp only [countInc]; split <;> (try split) <;> norm_num
    · omega

end

end Mutable.WasmAgg
