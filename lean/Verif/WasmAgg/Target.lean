import Verif.WasmAgg.Step

/-! One row: the states of all aggregates follow the rows consumed so far. -/
namespace Mutable.WasmAgg

section
variable {R : Type} (ev : Arg → R → Option Val)

/-- The values of the argument that are not NULL. -/
def cells (i : Info) (rs : List R) : List Val := rs.filterMap (argCell ev i)

/-- The value of an entry after the rows `rs`. -/
def tgtV (i : Info) (rs : List R) : Val :=
  match i.fn with
  | .min => (cells ev i rs).foldl (vmm true) (neutral true i.ty)
  | .max => (cells ev i rs).foldl (vmm false) (neutral false i.ty)
  | .sum => sumVal i.ty (cells ev i rs)
  | .avg => .d (.fin (mean (cells ev i rs)))
  | .count => .i (wrap 64 ((rs.map (countInc ev i)).sum))

/-- The rows after a row with predicate `p`. -/
def ext (p : Option Bool) (rs : List R) (r : R) : List R := if accepted p then rs ++ [r] else rs

variable {ev}
variable {aggs : List Agg} {i : Info} {r : R}

theorem cells_append (rs rs' : List R) : cells ev i (rs ++ rs') = cells ev i rs ++ cells ev i rs' := by
  simp [cells]

theorem cells_snoc_some {rs : List R} {v : Val} (h : argCell ev i r = some v) :
    cells ev i (rs ++ [r]) = cells ev i rs ++ [v] := by
  simp [cells, h]

theorem cells_snoc_none {rs : List R} (h : argCell ev i r = none) :
    cells ev i (rs ++ [r]) = cells ev i rs := by
  simp [cells, h]

/-- An entry that is not a COUNT has an argument. -/
theorem info_arg_some (hi : i ∈ infos aggs) (hc : i.fn ≠ .count) : ∃ a, i.arg = some a := by
  cases infos_form hi with
  | direct g hg hn => cases g <;> simp_all [Agg.info, Agg.fn, Agg.arg]
  | avg b hg h32 => exact ⟨b, rfl⟩
  | cnt b hg => exact ⟨b, rfl⟩
  | sum b hg h32 => exact ⟨b, rfl⟩

theorem info_nullable (hi : i ∈ infos aggs) (hc : i.fn ≠ .count) : i.nullable = i.argNullable := by
  cases infos_form hi with
  | direct g hg hn => cases g <;> simp_all [Agg.info, Agg.fn, Agg.arg, Agg.nullable, Info.argNullable]
  | avg b hg h32 => rfl
  | cnt b hg => simp at hc
  | sum b hg h32 => rfl

theorem info_isI (hi : i ∈ infos aggs) (hc : i.fn ≠ .count) {a : Arg} (ha : i.arg = some a) :
    i.ty.isI = true → a.ty.isI = true := by
  cases infos_form hi with
  | direct g hg hn =>
    cases g with
    | sum b =>
      simp only [Agg.info, Agg.arg, Option.some.injEq] at ha
      subst ha
      simp only [Agg.info, Agg.ty]
      cases b.ty <;> simp [Ty.isI]
    | min b =>
      simp only [Agg.info, Agg.arg, Option.some.injEq] at ha
      subst ha
      simp only [Agg.info, Agg.ty]
      exact id
    | max b =>
      simp only [Agg.info, Agg.arg, Option.some.injEq] at ha
      subst ha
      simp only [Agg.info, Agg.ty]
      exact id
    | _ => simp_all [Agg.info, Agg.fn]
  | avg b hg h32 => simp [Agg.info, Agg.ty, Ty.isI]
  | cnt b hg => simp at hc
  | sum b hg h32 =>
    simp only [Option.some.injEq] at ha
    subst ha
    simp only [sumTy]
    cases b.ty <;> simp [Ty.isI]

theorem argCell_kind (hi : i ∈ infos aggs) (hc : i.fn ≠ .count) (ok : RowOk ev aggs r) {v : Val}
    (h : argCell ev i r = some v) : Kind i.ty v := by
  obtain ⟨a, ha⟩ := info_arg_some hi hc
  obtain ⟨g, hg, hga⟩ := info_arg hi ha
  simp only [argCell, ha, Option.map_eq_some_iff] at h
  obtain ⟨w, hw, rfl⟩ := h
  exact conv_kind ((ok g hg a hga).2 w hw).kind (info_isI hi hc ha)

theorem conv_fits {ty : Ty} {v : Val} (h : Fits ty v) : conv ty v = v := by
  cases ty with
  | int w => rfl
  | dec w s => rfl
  | flt => obtain ⟨q, rfl, _⟩ := h; rfl
  | dbl => obtain ⟨q, rfl, _⟩ := h; rfl

theorem argCell_fits (hi : i ∈ infos aggs) (hc : i.fn = .min ∨ i.fn = .max) (ok : RowOk ev aggs r) {v : Val}
    (h : argCell ev i r = some v) : Fits i.ty v := by
  cases infos_form hi with
  | direct g hg hn =>
    cases g with
    | min b =>
      simp only [argCell, Agg.info, Agg.arg, Option.map_eq_some_iff] at h
      obtain ⟨w, hw, rfl⟩ := h
      have := (ok _ hg b rfl).2 w hw
      simp only [Agg.info, Agg.ty]
      rw [conv_fits this]
      exact this
    | max b =>
      simp only [argCell, Agg.info, Agg.arg, Option.map_eq_some_iff] at h
      obtain ⟨w, hw, rfl⟩ := h
      have := (ok _ hg b rfl).2 w hw
      simp only [Agg.info, Agg.ty]
      rw [conv_fits this]
      exact this
    | _ => simp_all [Agg.info, Agg.fn]
  | avg b hg h32 => simp [Agg.info, Agg.fn] at hc
  | cnt b hg => simp at hc
  | sum b hg h32 => simp at hc

theorem argCell_none (hi : i ∈ infos aggs) (hc : i.fn ≠ .count) (ok : RowOk ev aggs r) (hn : i.argNullable = false) :
    argCell ev i r ≠ none := by
  obtain ⟨a, ha⟩ := info_arg_some hi hc
  obtain ⟨g, hg, hga⟩ := info_arg hi ha
  simp only [Info.argNullable, ha] at hn
  simp only [argCell, ha, ne_eq, Option.map_eq_none_iff]
  exact (ok g hg a hga).1 hn

theorem cells_kind (hi : i ∈ infos aggs) (hc : i.fn ≠ .count) {rs : List R} (ok : ∀ r ∈ rs, RowOk ev aggs r) :
    ∀ v ∈ cells ev i rs, Kind i.ty v := by
  intro v hv
  obtain ⟨r, hr, h⟩ := List.mem_filterMap.1 hv
  exact argCell_kind hi hc (ok r hr) h

theorem cells_fits (hi : i ∈ infos aggs) (hc : i.fn = .min ∨ i.fn = .max) {rs : List R} (ok : ∀ r ∈ rs, RowOk ev aggs r) :
    ∀ v ∈ cells ev i rs, Fits i.ty v := by
  intro v hv
  obtain ⟨r, hr, h⟩ := List.mem_filterMap.1 hv
  exact argCell_fits hi hc (ok r hr) h

/-! ### The combination of a state and a row -/

theorem oComb_v (f : Val → Val → Val) (dflt : Val) (p : Option Bool) (c : Option Val) (s : AState) (n : Bool)
    (hn : i.nullable = n) : (oComb f dflt p i c s).v = (aComb f dflt p n c s).v := by
  subst hn
  unfold oComb aComb
  split
  · generalize sel p c none = x
    cases x <;> rfl
  · rfl

theorem accepted_sel {α : Type} {p : Option Bool} (h : accepted p = true) (x y : α) : sel p x y = x := by
  cases p with
  | none => rfl
  | some b => simp only [accepted, Option.getD_some] at h; simp [sel, h]

theorem rejected_sel {α : Type} {p : Option Bool} (h : accepted p = false) (x y : α) : sel p x y = y := by
  cases p with
  | none => simp [accepted] at h
  | some b => simp only [accepted, Option.getD_some] at h; simp [sel, h]

theorem comb_v (f : Val → Val → Val) (dflt : Val) (p : Option Bool) (n : Bool) (c : Option Val) (old new : Val) (nul : Bool)
    (hsome : accepted p = true → ∀ v, c = some v → f old v = new) (hnone : accepted p = true → c = none → old = new)
    (hrej : accepted p = false → old = new) (hd : accepted p = false → n = false → f old dflt = old)
    (hnn : n = false → c ≠ none) : (aComb f dflt p n c ⟨old, nul⟩).v = new := by
  cases ha : accepted p with
  | true =>
    cases n with
    | true =>
      simp only [aComb, if_true, accepted_sel ha]
      cases c with
      | none => exact hnone ha rfl
      | some v => exact hsome ha v rfl
    | false =>
      simp only [aComb, Bool.false_eq_true, if_false, accepted_sel ha]
      cases c with
      | none => exact absurd rfl (hnn rfl)
      | some v => exact hsome ha v rfl
  | false =>
    cases n with
    | true => simp only [aComb, if_true, rejected_sel ha]; exact hrej ha
    | false =>
      simp only [aComb, Bool.false_eq_true, if_false, rejected_sel ha]
      rw [hd ha rfl]; exact hrej ha

/-- The NULL flag of a grouping's aggregate. -/
theorem oComb_null (f : Val → Val → Val) (dflt : Val) (p : Option Bool) (c : Option Val) (s : AState) :
    (oComb f dflt p i c s).null = (s.null && (!i.nullable || (sel p c none).isNone)) := by
  unfold oComb
  cases h : i.nullable with
  | true =>
    simp only [if_true]
    generalize sel p c none = x
    cases x <;> simp
  | false => simp

theorem aComb_null (f : Val → Val → Val) (dflt : Val) (p : Option Bool) (n : Bool) (c : Option Val) (s : AState) :
    (aComb f dflt p n c s).null = (s.null && (n && (sel p c none).isNone)) := by
  unfold aComb
  cases n with
  | true =>
    simp only [if_true]
    generalize sel p c none = x
    cases x <;> simp
  | false => simp

variable {rs : List R} {p : Option Bool}

theorem ext_acc (h : accepted p = true) : ext p rs r = rs ++ [r] := by simp [ext, h]
theorem ext_rej (h : accepted p = false) : ext p rs r = rs := by simp [ext, h]

theorem mm_rej (m : Bool) (hi : i ∈ infos aggs) (hc : i.fn = .min ∨ i.fn = .max) (ok : ∀ r ∈ rs, RowOk ev aggs r) :
    vmm m ((cells ev i rs).foldl (vmm m) (neutral m i.ty)) (neutral m i.ty) =
      (cells ev i rs).foldl (vmm m) (neutral m i.ty) := by
  have hk : ∀ v ∈ cells ev i rs, Kind i.ty v := fun v hv => (cells_fits hi hc ok v hv).kind
  have he := foldl_vmm (m := m) (cells ev i rs) (neutral m i.ty) (neutral_kind m i.ty) hk
  have hk' : ∀ v ∈ neutral m i.ty :: cells ev i rs, Kind i.ty v := by
    intro v hv
    rcases List.mem_cons.1 hv with rfl | hv
    · exact neutral_kind m i.ty
    · exact hk v hv
  have h1 := he.2 (neutral m i.ty) (by simp)
  rcases vmm_cases m (hk' _ he.1) (neutral_kind m i.ty) with ⟨h, _⟩ | ⟨h, h2⟩
  · exact h
  · rw [h]; exact (neutral_kind m i.ty).ext (hk' _ he.1) (le'_antisymm h2 h1)

/-- Everything but AVG. -/
theorem aUpdate_v (hi : i ∈ infos aggs) (hok : RowOk ev aggs r) (ok : ∀ r ∈ rs, RowOk ev aggs r) (ha : i.fn ≠ .avg)
    (nul : Bool) : (aUpdate ev p r i ⟨tgtV ev i rs, nul⟩).v = tgtV ev i (ext p rs r) := by
  cases hf : i.fn with
  | min =>
    simp only [aUpdate, hf]
    have hc : i.fn ≠ .count := by simp [hf]
    apply comb_v
    · intro h v hv; rw [ext_acc h]; simp only [tgtV, hf, cells_snoc_some hv, List.foldl_append, List.foldl_cons, List.foldl_nil]
    · intro h hv; rw [ext_acc h]; simp only [tgtV, hf, cells_snoc_none hv]
    · intro h; rw [ext_rej h]
    · intro h _; simp only [tgtV, hf]; exact mm_rej true hi (by simp [hf]) ok
    · exact argCell_none hi hc hok
  | max =>
    simp only [aUpdate, hf]
    have hc : i.fn ≠ .count := by simp [hf]
    apply comb_v
    · intro h v hv; rw [ext_acc h]; simp only [tgtV, hf, cells_snoc_some hv, List.foldl_append, List.foldl_cons, List.foldl_nil]
    · intro h hv; rw [ext_acc h]; simp only [tgtV, hf, cells_snoc_none hv]
    · intro h; rw [ext_rej h]
    · intro h _; simp only [tgtV, hf]; exact mm_rej false hi (by simp [hf]) ok
    · exact argCell_none hi hc hok
  | sum =>
    simp only [aUpdate, hf]
    have hc : i.fn ≠ .count := by simp [hf]
    apply comb_v
    · intro h v hv
      rw [ext_acc h]
      simp only [tgtV, hf, cells_snoc_some hv]
      exact vadd_sumVal_snoc (argCell_kind hi hc hok hv)
    · intro h hv; rw [ext_acc h]; simp only [tgtV, hf, cells_snoc_none hv]
    · intro h; rw [ext_rej h]
    · intro h _; simp only [tgtV, hf]; exact vadd_sumVal_zero
    · exact argCell_none hi hc hok
  | avg => exact absurd hf ha
  | count =>
    simp only [aUpdate, hf, tgtV, oInc]
    cases h : accepted p with
    | true => rw [accepted_sel h, ext_acc h]; simp [wrap_wrap_add]
    | false => rw [rejected_sel h, ext_rej h]; simp [wrap_wrap_add, wrap]

theorem oUpdate_v (hi : i ∈ infos aggs) (hok : RowOk ev aggs r) (ok : ∀ r ∈ rs, RowOk ev aggs r) (ha : i.fn ≠ .avg)
    (nul : Bool) : (oUpdate ev p r i ⟨tgtV ev i rs, nul⟩).v = tgtV ev i (ext p rs r) := by
  rw [← aUpdate_v hi hok ok ha nul]
  cases hf : i.fn with
  | min => simp only [oUpdate, aUpdate, hf]; exact oComb_v _ _ _ _ _ _ (info_nullable hi (by simp [hf]))
  | max => simp only [oUpdate, aUpdate, hf]; exact oComb_v _ _ _ _ _ _ (info_nullable hi (by simp [hf]))
  | sum => simp only [oUpdate, aUpdate, hf]; exact oComb_v _ _ _ _ _ _ (info_nullable hi (by simp [hf]))
  | avg => exact absurd hf ha
  | count => simp only [oUpdate, aUpdate, hf]

/-- The running count of an argument. -/
theorem countInc_sum {a : Arg} (ha : i.arg = some a) (rs : List R) :
    (rs.map (countInc ev i)).sum = ((rs.filterMap (ev a)).length : Int) := by
  induction rs with
  | nil => rfl
  | cons r rs ih =>
    rw [List.map_cons, List.sum_cons, ih]
    simp only [countInc, ha]
    cases h : ev a r with
    | none => simp [h]
    | some v => simp [h]; omega

theorem cells_length {a : Arg} (ha : i.arg = some a) (rs : List R) :
    (cells ev i rs).length = (rs.filterMap (ev a)).length := by
  induction rs with
  | nil => rfl
  | cons r rs ih =>
    simp only [cells] at *
    simp only [List.filterMap_cons, argCell, ha]
    cases h : ev a r with
    | none => simpa [h] using ih
    | some v => simpa [h] using ih

theorem filterMap_length_le {α β : Type} (f : α → Option β) (l : List α) : (l.filterMap f).length ≤ l.length :=
  List.length_filterMap_le f l

theorem wrap_nat {n : Nat} (h : n < 2 ^ 63) : wrap 64 (n : Int) = n := by
  apply wrap_id <;> omega

/-- The running count an AVG entry uses, once the counts have been updated. -/
theorem cntOfAvg_eq {a : Arg} (hg : Agg.avg a ∈ aggs) (ha : i.arg = some a) (f : Info → AState) (rs : List R)
    (hlen : rs.length < 2 ^ 63) (hf : ∀ j ∈ infos aggs, j.fn ≠ .avg → (f j).v = tgtV ev j rs) :
    cntOfAvg aggs i ((infos aggs).map f) = .fin ((cells ev i rs).length : ℚ) := by
  have h1 := cntInfo_mem hg
  have h2 := cntInfo_fn aggs a
  simp only [cntOfAvg, ha, cntDbl, ← cntInfo_id aggs a]
  rw [getSt_infos f h1, hf _ h1 (by simp [h2.1])]
  simp only [tgtV, h2.1, countInc_sum h2.2]
  rw [wrap_nat (lt_of_le_of_lt (filterMap_length_le _ _) hlen), cells_length ha]
  simp [Val.toDbl]

theorem avg_form (hi : i ∈ infos aggs) (hf : i.fn = .avg) : ∃ a, Agg.avg a ∈ aggs ∧ i = Agg.info (.avg a) := by
  cases infos_form hi with
  | direct g hg hn => cases g <;> simp_all [Agg.info, Agg.fn]
  | avg b hg h32 => exact ⟨b, hg, rfl⟩
  | cnt b hg => simp at hf
  | sum b hg h32 => simp at hf

/-- Is a rejected row harmless for the running averages?  Not if it precedes all accepted rows and the argument is not
nullable. -/
def AvgSafe (aggs : List Agg) (p : Option Bool) (rs : List R) : Prop :=
  accepted p = false → rs = [] → ∀ a, Agg.avg a ∈ aggs → a.nullable = false → a.ty.size ≤ 32

theorem aUpdateAvg_v (hi : i ∈ infos aggs) (hok : RowOk ev aggs r) (ok : ∀ r ∈ rs, RowOk ev aggs r) (hf : i.fn = .avg)
    (f : Info → AState) (hlen : (ext p rs r).length < 2 ^ 63) (hsafe : AvgSafe aggs p rs)
    (hfs : ∀ j ∈ infos aggs, j.fn ≠ .avg → (f j).v = tgtV ev j (ext p rs r)) (nul : Bool) :
    (aUpdateAvg ev aggs ((infos aggs).map f) p r i ⟨tgtV ev i rs, nul⟩).v = tgtV ev i (ext p rs r) := by
  obtain ⟨a, hg, rfl⟩ := avg_form hi hf
  have hfn : (Agg.info (.avg a)).fn = .avg := rfl
  have harg : (Agg.info (.avg a)).arg = some a := rfl
  have hcnt := cntOfAvg_eq hg harg f (ext p rs r) hlen hfs
  simp only [aUpdateAvg, hfn]
  rw [hcnt]
  apply comb_v
  · intro h v hv
    simp only [tgtV, hfn]
    rw [ext_acc h, cells_snoc_some hv]
    exact avgStep_mean (argCell_kind hi (by simp [hfn]) hok hv) (by simp)
  · intro h hv; rw [ext_acc h]; simp only [tgtV, hfn, cells_snoc_none hv]
  · intro h; rw [ext_rej h]
  · intro h hn
    simp only [tgtV, hfn]
    rw [ext_rej h]
    apply avgStep_same
    intro h0
    have hnl : a.nullable = false := hn
    by_cases hrs : rs = []
    · have := hsafe h hrs a hg hnl
      cases infos_form hi with
      | direct g hg' hn' => exact absurd rfl (hn' a)
      | avg b _ h32 => exact h32 this
    · obtain ⟨r', hr'⟩ := List.exists_mem_of_ne_nil rs hrs
      have h3 := argCell_none hi (by simp [hfn]) (ok r' hr') hn
      obtain ⟨v, hv⟩ := Option.ne_none_iff_exists'.1 h3
      have : v ∈ cells ev (Agg.info (.avg a)) rs := List.mem_filterMap.2 ⟨r', hr', hv⟩
      have h4 : cells ev (Agg.info (.avg a)) rs = [] := by simpa using h0
      rw [h4] at this
      simp at this
  · exact argCell_none hi (by simp [hfn]) hok

theorem oUpdateAvg_v (hi : i ∈ infos aggs) (hok : RowOk ev aggs r) (ok : ∀ r ∈ rs, RowOk ev aggs r) (hf : i.fn = .avg)
    (f : Info → AState) (hlen : (ext p rs r).length < 2 ^ 63) (hsafe : AvgSafe aggs p rs)
    (hfs : ∀ j ∈ infos aggs, j.fn ≠ .avg → (f j).v = tgtV ev j (ext p rs r)) (nul : Bool) :
    (oUpdateAvg ev aggs ((infos aggs).map f) p r i ⟨tgtV ev i rs, nul⟩).v = tgtV ev i (ext p rs r) := by
  rw [← aUpdateAvg_v hi hok ok hf f hlen hsafe hfs nul]
  simp only [oUpdateAvg, aUpdateAvg, hf]
  exact oComb_v _ _ _ _ _ _ (info_nullable hi (by simp [hf]))

end

end Mutable.WasmAgg
