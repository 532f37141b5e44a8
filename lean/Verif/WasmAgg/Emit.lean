import Verif.WasmAgg.Run

/-! The value handed to the next operator is the value of the aggregate. -/
namespace Mutable.WasmAgg

section
variable {R : Type} {ev : Arg → R → Option Val} {aggs : List Agg}

def Ty.scale : Ty → Nat
  | .dec _ s => s | _ => 0

/-- The number a value of the type stands for. -/
def den (ty : Ty) (v : Val) : ℚ := v.toQ / 10 ^ ty.scale

theorem denotes_kind {ty : Ty} {v : Val} (h : Kind ty v) : ty.denotes v = some (den ty v) := by
  unfold Kind at h
  split at h
  · obtain ⟨z, rfl⟩ := h
    cases ty <;> simp_all [Ty.isI, Ty.denotes, den, Ty.scale, Val.toQ]
  · obtain ⟨q, rfl⟩ := h
    cases ty <;> simp_all [Ty.isI, Ty.denotes, den, Ty.scale, Val.toQ]

/-- The arguments on the rows. -/
def args (ev : Arg → R → Option Val) (a : Arg) (rs : List R) : List Val := rs.filterMap (ev a)

theorem args_fits {g : Agg} (hg : g ∈ aggs) {a : Arg} (ha : g.arg = some a) {rs : List R} (ok : ∀ r ∈ rs, RowOk ev aggs r) :
    ∀ v ∈ args ev a rs, Fits a.ty v := by
  intro v hv
  obtain ⟨r, hr, h⟩ := List.mem_filterMap.1 hv
  exact (ok r hr g hg a ha).2 v h

theorem argVals_eq {a : Arg} : ∀ {rs : List R}, (∀ v ∈ args ev a rs, Kind a.ty v) →
    Interp.argVals (argNum ev a) rs = (args ev a rs).map (den a.ty) := by
  intro rs
  induction rs with
  | nil => intro _; rfl
  | cons r rs ih =>
    intro h
    simp only [Interp.argVals, args] at *
    simp only [List.filterMap_cons, argNum]
    cases hr : ev a r with
    | none => simp only [hr, Option.bind_none]; apply ih; intro v hv; apply h; simp [hr, hv]
    | some v =>
      have hk := h v (by simp [hr])
      simp only [hr, Option.bind_some, denotes_kind hk, List.map_cons]
      congr 1
      apply ih; intro w hw; apply h; simp [hr, hw]

theorem cells_eq {i : Info} {a : Arg} (ha : i.arg = some a) (rs : List R) : cells ev i rs = (args ev a rs).map (conv i.ty) := by
  induction rs with
  | nil => rfl
  | cons r rs ih =>
    simp only [cells, args] at *
    simp only [List.filterMap_cons, argCell, ha]
    cases h : ev a r with
    | none => simpa [h] using ih
    | some v => simpa [h] using ih

theorem map_conv_id {ty : Ty} : ∀ {l : List Val}, (∀ v ∈ l, Fits ty v) → l.map (conv ty) = l := by
  intro l
  induction l with
  | nil => intro _; rfl
  | cons v l ih =>
    intro h
    rw [List.map_cons, conv_fits (h v (by simp)), ih (fun w hw => h w (by simp [hw]))]

theorem map_conv_toQ {ty ty' : Ty} : ∀ {l : List Val}, (∀ v ∈ l, Kind ty v) → (l.map (conv ty')).map Val.toQ = l.map Val.toQ := by
  intro l
  induction l with
  | nil => intro _; rfl
  | cons v l ih =>
    intro h
    rw [List.map_cons, List.map_cons, conv_toQ (h v (by simp)), ih (fun w hw => h w (by simp [hw])), List.map_cons]

theorem sum_den {ty : Ty} (l : List Val) : (l.map (den ty)).sum = (l.map Val.toQ).sum / 10 ^ ty.scale := by
  induction l with
  | nil => simp
  | cons v l ih => simp only [List.map_cons, List.sum_cons, ih, den]; ring

theorem sum_raw {ty : Ty} (hI : ty.isI = true) : ∀ {l : List Val}, (∀ v ∈ l, Kind ty v) →
    (((l.map Val.raw).sum : Int) : ℚ) = (l.map Val.toQ).sum := by
  intro l
  induction l with
  | nil => simp
  | cons v l ih =>
    intro h
    have hk := h v (by simp)
    simp only [Kind, hI, if_true] at hk
    obtain ⟨z, rfl⟩ := hk
    simp only [List.map_cons, List.sum_cons, Val.raw, Val.toQ]
    push_cast
    rw [ih (fun w hw => h w (by simp [hw]))]

theorem map_conv_raw {ty ty' : Ty} (hI : ty'.isI = true) : ∀ {l : List Val}, (∀ v ∈ l, Kind ty v) → (l.map (conv ty')) = l := by
  intro l _
  have : conv ty' = id := by
    funext v
    cases ty' <;> simp_all [Ty.isI, conv]
  rw [this, List.map_id]

/-- Sums of 32-bit integers do not overflow. -/
theorem small_sum {ty : Ty} (hI : ty.isI = true) (h32 : ty.size ≤ 32) : ∀ {l : List Val}, (∀ v ∈ l, Fits ty v) →
    -2 ^ 31 * (l.length : Int) ≤ (l.map Val.raw).sum ∧ (l.map Val.raw).sum ≤ 2 ^ 31 * (l.length : Int) := by
  intro l
  induction l with
  | nil => simp
  | cons v l ih =>
    intro h
    have h1 := ih (fun w hw => h w (by simp [hw]))
    have h2 := h v (by simp)
    have h3 : -2 ^ 31 ≤ v.raw ∧ v.raw ≤ 2 ^ 31 := by
      cases ty with
      | int w =>
        obtain ⟨hw, z, rfl, ha, hb⟩ := h2
        simp only [Ty.size] at h32
        simp only [Val.raw]
        rcases hw with rfl | rfl | rfl | rfl <;> norm_num at * <;> omega
      | dec w s =>
        obtain ⟨hw, z, rfl, ha, hb⟩ := h2
        simp only [Ty.size] at h32
        simp only [Val.raw]
        rcases hw with rfl | rfl | rfl | rfl <;> norm_num at * <;> omega
      | flt => simp [Ty.isI] at hI
      | dbl => simp [Ty.isI] at hI
    simp only [List.map_cons, List.sum_cons, List.length_cons]
    push_cast
    omega

/-- The flags are NULL exactly if there is no value. -/
def TightSt (ev : Arg → R → Option Val) (aggs : List Agg) (rs : List R) (f : Info → AState) : Prop :=
  ∀ i ∈ infos aggs, (f i).null = (if i.fn = .count then false else (cells ev i rs).isEmpty) ∧
    ((f i).null = false → (f i).v = tgtV ev i rs)

theorem emit_direct {g : Agg} (hg : g ∈ aggs) (hn : ∀ a, g ≠ .avg a) (f : Info → AState) :
    emit aggs (infos aggs) ((infos aggs).map f) g = (f g.info).cell := by
  have h1 : avgEntry aggs g = none := by
    cases g with
    | avg a => exact absurd rfl (hn a)
    | _ => rfl
  simp only [emit, h1]
  have h2 := getSt_infos f (info_mem hg hn)
  exact congrArg AState.cell h2

theorem emit_running {a : Arg} (hg : Agg.avg a ∈ aggs) (h32 : ¬ a.ty.size ≤ 32) (f : Info → AState) :
    emit aggs (infos aggs) ((infos aggs).map f) (.avg a) = (f (Agg.info (.avg a))).cell := by
  simp only [emit, avgEntry, hg, if_true, avgInfo, h32, not_false_eq_true, decide_true]
  have h2 := getSt_infos f (avg_mem hg h32)
  exact congrArg AState.cell h2

theorem emit_lazy {a : Arg} (hg : Agg.avg a ∈ aggs) (h32 : a.ty.size ≤ 32) (f : Info → AState) :
    emit aggs (infos aggs) ((infos aggs).map f) (.avg a) =
      lazyAvg (f (sumInfo aggs a)).cell (f (cntInfo aggs a)).v.toDbl := by
  simp only [emit, avgEntry, hg, if_true, avgInfo, h32, not_true, decide_false, Bool.false_eq_true, if_false, cntDbl]
  rw [← sumInfo_id aggs a, ← cntInfo_id aggs a, getSt_infos f (sumInfo_mem hg h32), getSt_infos f (cntInfo_mem hg)]

theorem tight_cell {rs : List R} {f : Info → AState} (ht : TightSt ev aggs rs f) {i : Info} (hi : i ∈ infos aggs)
    (hc : i.fn ≠ .count) : (f i).cell = if cells ev i rs = [] then none else some (tgtV ev i rs) := by
  obtain ⟨h1, h2⟩ := ht i hi
  simp only [hc, if_false] at h1
  unfold AState.cell
  by_cases h : cells ev i rs = []
  · simp [h1, h]
  · have h3 : (f i).null = false := by rw [h1]; simpa using h
    simp [h3, h, h2 h3]

theorem tight_count {rs : List R} {f : Info → AState} (ht : TightSt ev aggs rs f) {i : Info} (hi : i ∈ infos aggs)
    (hc : i.fn = .count) : f i = ⟨tgtV ev i rs, false⟩ := by
  obtain ⟨h1, h2⟩ := ht i hi
  simp only [hc, if_true] at h1
  exact AState.eq (h2 h1) h1

/-- A comparison of the values behind the representation. -/
theorem den_le {ty : Ty} {v w : Val} : den ty v ≤ den ty w ↔ v.toQ ≤ w.toQ := by
  unfold den
  have : (0 : ℚ) < 10 ^ ty.scale := by positivity
  exact div_le_div_iff_of_pos_right this

theorem sumTy_toQ {a : Arg} {ty : Ty} {rs : List R} (hty : ty.size = 64) (hfit : ∀ v ∈ args ev a rs, Fits a.ty v)
    (hI : ty.isI = a.ty.isI)
    (hs : a.ty.isI = true → -2 ^ 63 ≤ ((args ev a rs).map Val.raw).sum ∧ ((args ev a rs).map Val.raw).sum < 2 ^ 63) :
    Kind ty (sumVal ty ((args ev a rs).map (conv ty))) ∧
      (sumVal ty ((args ev a rs).map (conv ty))).toQ = ((args ev a rs).map Val.toQ).sum := by
  have hk : ∀ v ∈ args ev a rs, Kind a.ty v := fun v hv => (hfit v hv).kind
  unfold sumVal Kind
  cases h : ty.isI with
  | true =>
    rw [h] at hI
    simp only [if_true]
    refine ⟨⟨_, rfl⟩, ?_⟩
    simp only [Val.toQ]
    rw [map_conv_raw h hk, hty, wrap_id (hs hI.symm).1 (hs hI.symm).2 (by omega), sum_raw hI.symm hk]
  | false =>
    simp only [Bool.false_eq_true, if_false]
    refine ⟨⟨_, rfl⟩, ?_⟩
    simp only [Val.toQ]
    rw [map_conv_toQ hk]

theorem mm_spec {m : Bool} {a : Arg} {rs : List R} (hfit : ∀ v ∈ args ev a rs, Fits a.ty v) (hne : args ev a rs ≠ []) :
    ∃ x ∈ args ev a rs, (args ev a rs).foldl (vmm m) (neutral m a.ty) = x ∧
      ∀ y ∈ args ev a rs, le' m (den a.ty x) (den a.ty y) := by
  have h1 := foldl_vmm (m := m) (args ev a rs) (neutral m a.ty) (neutral_kind m a.ty) (fun v hv => (hfit v hv).kind)
  have h2 := h1.neutral hfit hne
  refine ⟨_, h2.1, rfl, fun y hy => ?_⟩
  have := h2.2 y hy
  cases m <;> simp only [le', if_true, Bool.false_eq_true, if_false] at * <;> exact den_le.2 this

/-- AVG yields the mean of the representations. -/
theorem emit_avg {a : Arg} (hg : Agg.avg a ∈ aggs) {rs : List R} (ok : ∀ r ∈ rs, RowOk ev aggs r) (hlen : rs.length < 2 ^ 32)
    {f : Info → AState} (ht : TightSt ev aggs rs f) :
    emit aggs (infos aggs) ((infos aggs).map f) (.avg a) =
      if args ev a rs = [] then none else some (.d (.fin (((args ev a rs).map Val.toQ).sum / (args ev a rs).length))) := by
  have hfit := args_fits hg (a := a) rfl ok
  have hk : ∀ v ∈ args ev a rs, Kind a.ty v := fun v hv => (hfit v hv).kind
  by_cases h32 : a.ty.size ≤ 32
  · rw [emit_lazy hg h32]
    obtain ⟨hs1, hs2, hs3⟩ := sumInfo_fn aggs a
    obtain ⟨hc1, hc2⟩ := cntInfo_fn aggs a
    have hsm := sumInfo_mem hg h32
    rw [tight_cell ht hsm (by simp [hs1]), tight_count ht (cntInfo_mem hg) hc1, cells_eq hs2]
    simp only [List.map_eq_nil_iff]
    by_cases he : args ev a rs = []
    · simp [he, lazyAvg]
    · simp only [he, if_false, lazyAvg, Option.map_some, tgtV, hs1, hc1, cells_eq hs2]
      have hlen2 : (args ev a rs).length ≤ rs.length := filterMap_length_le _ _
      have hty : (sumInfo aggs a).ty.size = 64 ∧ (sumInfo aggs a).ty.isI = a.ty.isI := by
        unfold sumInfo
        split
        · simp only [Agg.info, Agg.ty]; cases a.ty <;> exact ⟨rfl, rfl⟩
        · simp only [sumTy]; cases a.ty <;> exact ⟨rfl, rfl⟩
      have hq := sumTy_toQ (ev := ev) (a := a) (rs := rs) hty.1 hfit hty.2 (by
        intro hI
        have := small_sum hI h32 hfit
        constructor <;> omega)
      rw [hq.1.toDbl, hq.2]
      have hcnt : ((args ev a rs).length : ℚ) ≠ 0 := by
        simpa using he
      rw [countInc_sum hc2, wrap_nat (by have : (rs.filterMap (ev a)).length = (args ev a rs).length := rfl; omega)]
      have hl : ((rs.filterMap (ev a)).length : ℚ) = (args ev a rs).length := rfl
      simp only [Val.toDbl, Dbl.div, Int.cast_natCast, hl, hcnt, if_false]
  · rw [emit_running hg h32, tight_cell ht (avg_mem hg h32) (by simp [Agg.info, Agg.fn]), cells_eq (a := a) rfl]
    simp only [List.map_eq_nil_iff]
    by_cases he : args ev a rs = []
    · simp [he]
    · simp only [he, if_false]
      have hfn : (Agg.info (.avg a)).fn = .avg := rfl
      simp only [tgtV, hfn, cells_eq (i := Agg.info (.avg a)) (a := a) rfl, mean, map_conv_toQ hk, List.length_map]

/-- The value of an aggregate. -/
theorem emit_spec {g : Agg} (hg : g ∈ aggs) {rs : List R} (ok : ∀ r ∈ rs, RowOk ev aggs r) (hlen : rs.length < 2 ^ 32)
    (hsum : SumsFit ev aggs rs) (hdec : NoScaledAvg aggs) {f : Info → AState} (ht : TightSt ev aggs rs f) :
    IsAgg ev g rs (emit aggs (infos aggs) ((infos aggs).map f) g) := by
  cases g with
  | countStar =>
    rw [emit_direct hg (by simp), tight_count ht (info_mem hg (by simp)) rfl]
    have hfn : (Agg.info .countStar).fn = .count := rfl
    refine ⟨some rs.length, rfl, ?_⟩
    have hinc : countInc ev (Agg.info .countStar) = fun _ => 1 := by funext r; rfl
    simp only [AState.cell, hfn, Bool.false_eq_true, if_false, tgtV, hinc]
    have hs : (rs.map fun _ => (1 : Int)).sum = (rs.length : Int) := by
      clear * -
      induction rs with
      | nil => rfl
      | cons r rs ih => simp only [List.map_cons, List.sum_cons, ih, List.length_cons]; push_cast; omega
    rw [hs, wrap_nat (by omega)]
    simp [Shows, Agg.ty, Ty.denotes]
  | count a =>
    have hfit := args_fits hg (a := a) rfl ok
    have hk : ∀ v ∈ args ev a rs, Kind a.ty v := fun v hv => (hfit v hv).kind
    rw [emit_direct hg (by simp), tight_count ht (info_mem hg (by simp)) rfl]
    have hfn : (Agg.info (.count a)).fn = .count := rfl
    refine ⟨some (args ev a rs).length, ?_, ?_⟩
    · simp only [Agg.interp, Interp.AggSpec, argVals_eq hk, List.length_map]
    · have hlen2 : (args ev a rs).length ≤ rs.length := filterMap_length_le _ _
      simp only [AState.cell, hfn, Bool.false_eq_true, if_false, tgtV]
      rw [countInc_sum (a := a) rfl]
      have hl : ((rs.filterMap (ev a)).length : Int) = (args ev a rs).length := rfl
      rw [hl, wrap_nat (by omega)]
      simp [Shows, Agg.ty, Ty.denotes]
  | sum a =>
    have hfit := args_fits hg (a := a) rfl ok
    have hk : ∀ v ∈ args ev a rs, Kind a.ty v := fun v hv => (hfit v hv).kind
    rw [emit_direct hg (by simp), tight_cell ht (info_mem hg (by simp)) (by simp [Agg.info, Agg.fn]), cells_eq (a := a) rfl]
    simp only [List.map_eq_nil_iff]
    by_cases he : args ev a rs = []
    · refine ⟨none, ?_, ?_⟩
      · simp [Agg.interp, Interp.AggSpec, argVals_eq hk, he]
      · simp [he, Shows]
    · have hty : (Agg.ty (.sum a)).size = 64 ∧ (Agg.ty (.sum a)).isI = a.ty.isI ∧ (Agg.ty (.sum a)).scale = a.ty.scale := by
        simp only [Agg.ty]; cases a.ty <;> exact ⟨rfl, rfl, rfl⟩
      have hq := sumTy_toQ (ev := ev) (a := a) (rs := rs) hty.1 hfit hty.2.1 (fun _ => hsum a hg)
      refine ⟨some ((args ev a rs).map (den a.ty)).sum, ?_, ?_⟩
      · simp [Agg.interp, Interp.AggSpec, argVals_eq hk, he]
      · have hfn : (Agg.info (.sum a)).fn = .sum := rfl
        have hty' : (Agg.info (.sum a)).ty = Agg.ty (.sum a) := rfl
        simp only [he, if_false, tgtV, hfn, cells_eq (i := Agg.info (.sum a)) (a := a) rfl, hty']
        simp only [Shows]
        rw [denotes_kind hq.1, den, hq.2, hty.2.2, sum_den]
  | avg a =>
    have hfit := args_fits hg (a := a) rfl ok
    have hk : ∀ v ∈ args ev a rs, Kind a.ty v := fun v hv => (hfit v hv).kind
    rw [emit_avg hg ok hlen ht]
    by_cases he : args ev a rs = []
    · refine ⟨none, ?_, ?_⟩
      · simp [Agg.interp, Interp.AggSpec, argVals_eq hk, he]
      · simp [he, Shows]
    · have hsc : a.ty.scale = 0 := by
        cases hty : a.ty with
        | dec w s => exact hdec a hg w s hty
        | _ => rfl
      refine ⟨some (((args ev a rs).map (den a.ty)).sum / (args ev a rs).length), ?_, ?_⟩
      · simp [Agg.interp, Interp.AggSpec, argVals_eq hk, he]
      · simp [he, Shows, Agg.ty, Ty.denotes, sum_den, hsc]
  | min a =>
    have hfit := args_fits hg (a := a) rfl ok
    have hk : ∀ v ∈ args ev a rs, Kind a.ty v := fun v hv => (hfit v hv).kind
    rw [emit_direct hg (by simp), tight_cell ht (info_mem hg (by simp)) (by simp [Agg.info, Agg.fn]), cells_eq (a := a) rfl]
    simp only [List.map_eq_nil_iff]
    by_cases he : args ev a rs = []
    · refine ⟨none, ?_, ?_⟩
      · simp [Agg.interp, Interp.AggSpec, argVals_eq hk, he]
      · simp [he, Shows]
    · obtain ⟨x, hx, hfold, hle⟩ := mm_spec (m := true) hfit he
      refine ⟨some (den a.ty x), ?_, ?_⟩
      · simp only [Agg.interp, Interp.AggSpec, argVals_eq hk, List.map_eq_nil_iff, he, if_false]
        refine ⟨_, List.mem_map.2 ⟨x, hx, rfl⟩, rfl, ?_⟩
        intro y hy
        obtain ⟨w, hw, rfl⟩ := List.mem_map.1 hy
        simpa [le'] using hle w hw
      · have hfn : (Agg.info (.min a)).fn = .min := rfl
        have hty' : (Agg.info (.min a)).ty = a.ty := rfl
        simp only [he, if_false, tgtV, hfn, cells_eq (i := Agg.info (.min a)) (a := a) rfl, hty', map_conv_id hfit, hfold]
        simp only [Shows, Agg.ty]
        exact denotes_kind (hk x hx)
  | max a =>
    have hfit := args_fits hg (a := a) rfl ok
    have hk : ∀ v ∈ args ev a rs, Kind a.ty v := fun v hv => (hfit v hv).kind
    rw [emit_direct hg (by simp), tight_cell ht (info_mem hg (by simp)) (by simp [Agg.info, Agg.fn]), cells_eq (a := a) rfl]
    simp only [List.map_eq_nil_iff]
    by_cases he : args ev a rs = []
    · refine ⟨none, ?_, ?_⟩
      · simp [Agg.interp, Interp.AggSpec, argVals_eq hk, he]
      · simp [he, Shows]
    · obtain ⟨x, hx, hfold, hle⟩ := mm_spec (m := false) hfit he
      refine ⟨some (den a.ty x), ?_, ?_⟩
      · simp only [Agg.interp, Interp.AggSpec, argVals_eq hk, List.map_eq_nil_iff, he, if_false]
        refine ⟨_, List.mem_map.2 ⟨x, hx, rfl⟩, rfl, ?_⟩
        intro y hy
        obtain ⟨w, hw, rfl⟩ := List.mem_map.1 hy
        simpa [le'] using hle w hw
      · have hfn : (Agg.info (.max a)).fn = .max := rfl
        have hty' : (Agg.info (.max a)).ty = a.ty := rfl
        simp only [he, if_false, tgtV, hfn, cells_eq (i := Agg.info (.max a)) (a := a) rfl, hty', map_conv_id hfit, hfold]
        simp only [Shows, Agg.ty]
        exact denotes_kind (hk x hx)

end

end Mutable.WasmAgg
