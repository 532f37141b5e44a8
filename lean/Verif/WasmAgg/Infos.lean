import Verif.WasmAgg.Spec

/-! What `compute_aggregate_info` produces. -/
namespace Mutable.WasmAgg

/-- The entries needed for an aggregate. -/
def need (aggs : List Agg) : Agg → List Info
  | .avg a => avgInfos aggs a
  | g => [g.info]

theorem infoStep_eq (aggs : List Agg) (st : List Info) (g : Agg) :
    infoStep aggs st g = if st.any (fun i => i.id = .agg g) then st else st ++ need aggs g := by
  cases g <;> rfl

theorem need_agg_id {aggs : List Agg} {g h : Agg} {i : Info} (hi : i ∈ need aggs g) (hid : i.id = .agg h) : g = h := by
  cases g with
  | avg a =>
    simp only [need, avgInfos, List.mem_append] at hi
    rcases hi with hi | hi
    · unfold cntInfos at hi
      split at hi
      · simp at hi
      · simp only [List.mem_singleton] at hi; subst hi; simp at hid
    · split at hi
      · unfold sumInfos at hi
        split at hi
        · simp at hi
        · simp only [List.mem_singleton] at hi; subst hi; simp at hid
      · simp only [List.mem_singleton] at hi; subst hi
        simpa [Agg.info] using hid
  | _ => simp only [need, List.mem_singleton] at hi; subst hi; simpa [Agg.info] using hid

theorem infos_fold (aggs : List Agg) : ∀ (l : List Agg) (st : List Info) (done : List Agg),
    (∀ g ∈ done, ∀ i ∈ need aggs g, i ∈ st) → (∀ i ∈ st, ∃ g ∈ done, i ∈ need aggs g) →
    (∀ g ∈ done ++ l, ∀ i ∈ need aggs g, i ∈ l.foldl (infoStep aggs) st) ∧
    (∀ i ∈ l.foldl (infoStep aggs) st, ∃ g ∈ done ++ l, i ∈ need aggs g) := by
  intro l
  induction l with
  | nil => intro st done h1 h2; simp only [List.append_nil]; exact ⟨h1, h2⟩
  | cons g l ih =>
    intro st done h1 h2
    rw [List.foldl_cons]
    have hs := ih (infoStep aggs st g) (done ++ [g]) ?_ ?_
    · simpa using hs
    · intro g' hg' i hi
      rw [infoStep_eq]
      rcases List.mem_append.1 hg' with hg' | hg'
      · split
        · exact h1 _ hg' _ hi
        · exact List.mem_append_left _ (h1 _ hg' _ hi)
      · simp only [List.mem_singleton] at hg'
        subst hg'
        split
        · rename_i hany
          obtain ⟨j, hj, hid⟩ := List.any_eq_true.1 hany
          obtain ⟨h, hh, hn⟩ := h2 j hj
          have := need_agg_id hn (by simpa using hid)
          subst this
          exact h1 _ hh _ hi
        · exact List.mem_append_right _ hi
    · intro i hi
      rw [infoStep_eq] at hi
      split at hi
      · obtain ⟨h, hh, hn⟩ := h2 i hi
        exact ⟨h, List.mem_append_left _ hh, hn⟩
      · rcases List.mem_append.1 hi with hi | hi
        · obtain ⟨h, hh, hn⟩ := h2 i hi
          exact ⟨h, List.mem_append_left _ hh, hn⟩
        · exact ⟨g, by simp, hi⟩

theorem need_sub {aggs : List Agg} {g : Agg} (hg : g ∈ aggs) {i : Info} (hi : i ∈ need aggs g) : i ∈ infos aggs :=
  (infos_fold aggs aggs [] [] (by simp) (by simp)).1 g (by simpa) i hi

theorem infos_need {aggs : List Agg} {i : Info} (hi : i ∈ infos aggs) : ∃ g ∈ aggs, i ∈ need aggs g := by
  simpa using (infos_fold aggs aggs [] [] (by simp) (by simp)).2 i hi

/-- The forms an entry can have. -/
inductive Form (aggs : List Agg) : Info → Prop
  | direct (g : Agg) (hg : g ∈ aggs) (hn : ∀ a, g ≠ .avg a) : Form aggs g.info
  | avg (a : Arg) (hg : Agg.avg a ∈ aggs) (h32 : ¬ a.ty.size ≤ 32) : Form aggs (Agg.info (.avg a))
  | cnt (a : Arg) (hg : Agg.avg a ∈ aggs) : Form aggs ⟨.runCnt (.avg a), .count, some a, .int 64, false⟩
  | sum (a : Arg) (hg : Agg.avg a ∈ aggs) (h32 : a.ty.size ≤ 32) :
      Form aggs ⟨.sumOf (.avg a), .sum, some a, sumTy a, a.nullable⟩

theorem infos_form {aggs : List Agg} {i : Info} (hi : i ∈ infos aggs) : Form aggs i := by
  obtain ⟨g, hg, hn⟩ := infos_need hi
  cases g with
  | avg a =>
    simp only [need, avgInfos, List.mem_append] at hn
    rcases hn with hn | hn
    · unfold cntInfos at hn
      split at hn
      · simp at hn
      · simp only [List.mem_singleton] at hn; subst hn; exact .cnt a hg
    · split at hn
      · rename_i h32
        unfold sumInfos at hn
        split at hn
        · simp at hn
        · simp only [List.mem_singleton] at hn; subst hn; exact .sum a hg h32
      · rename_i h32
        simp only [List.mem_singleton] at hn; subst hn; exact .avg a hg h32
  | _ => simp only [need, List.mem_singleton] at hn; subst hn; exact .direct _ hg (by simp)

/-- Identifiers determine entries. -/
theorem infos_inj {aggs : List Agg} {i j : Info} (hi : i ∈ infos aggs) (hj : j ∈ infos aggs) (h : i.id = j.id) : i = j := by
  have fi := infos_form hi
  have fj := infos_form hj
  cases fi <;> cases fj <;> simp_all [Agg.info]

theorem getSt_map {is : List Info} (hinj : ∀ i ∈ is, ∀ j ∈ is, i.id = j.id → i = j) (f : Info → AState) {i : Info}
    (hi : i ∈ is) : getSt is (is.map f) i.id = f i := by
  unfold getSt
  have hz : is.zip (is.map f) = is.map fun j => (j, f j) := by
    clear hinj hi
    induction is with
    | nil => rfl
    | cons j is ih => simp [ih]
  rw [hz]
  cases hf : (is.map fun j => (j, f j)).find? (fun p => p.1.id = i.id) with
  | none =>
    rw [List.find?_eq_none] at hf
    have := hf (i, f i) (List.mem_map.2 ⟨i, hi, rfl⟩)
    simp at this
  | some p =>
    have h1 := List.mem_of_find?_eq_some hf
    have h2 := List.find?_some hf
    obtain ⟨j, hj, rfl⟩ := List.mem_map.1 h1
    have := hinj j hj i hi (by simpa using h2)
    simp [this]

theorem getSt_infos {aggs : List Agg} (f : Info → AState) {i : Info} (hi : i ∈ infos aggs) :
    getSt (infos aggs) ((infos aggs).map f) i.id = f i :=
  getSt_map (fun _ h1 _ h2 h => infos_inj h1 h2 h) f hi

/-- The entry of an aggregate that is not an AVG. -/
theorem info_mem {aggs : List Agg} {g : Agg} (hg : g ∈ aggs) (hn : ∀ a, g ≠ .avg a) : g.info ∈ infos aggs :=
  need_sub hg (by cases g <;> simp_all [need])

/-- The entry of the running count of an AVG. -/
def cntInfo (aggs : List Agg) (a : Arg) : Info :=
  if .count a ∈ aggs then Agg.info (.count a) else ⟨.runCnt (.avg a), .count, some a, .int 64, false⟩

theorem cntInfo_mem {aggs : List Agg} {a : Arg} (hg : Agg.avg a ∈ aggs) : cntInfo aggs a ∈ infos aggs := by
  unfold cntInfo
  split
  · rename_i h; exact info_mem h (by simp)
  · rename_i h; exact need_sub hg (by simp [need, avgInfos, cntInfos, h])

theorem cntInfo_id (aggs : List Agg) (a : Arg) : (cntInfo aggs a).id = cntId aggs a := by
  unfold cntInfo cntId; split <;> rfl

theorem cntInfo_fn (aggs : List Agg) (a : Arg) : (cntInfo aggs a).fn = .count ∧ (cntInfo aggs a).arg = some a := by
  unfold cntInfo; split <;> exact ⟨rfl, rfl⟩

/-- The entry of the sum of a lazily computed AVG. -/
def sumInfo (aggs : List Agg) (a : Arg) : Info :=
  if .sum a ∈ aggs then Agg.info (.sum a) else ⟨.sumOf (.avg a), .sum, some a, sumTy a, a.nullable⟩

theorem sumInfo_mem {aggs : List Agg} {a : Arg} (hg : Agg.avg a ∈ aggs) (h32 : a.ty.size ≤ 32) :
    sumInfo aggs a ∈ infos aggs := by
  unfold sumInfo
  split
  · rename_i h; exact info_mem h (by simp)
  · rename_i h; exact need_sub hg (by simp [need, avgInfos, sumInfos, h, h32])

theorem sumInfo_id (aggs : List Agg) (a : Arg) : (sumInfo aggs a).id = sumId aggs a := by
  unfold sumInfo sumId; split <;> rfl

theorem sumInfo_fn (aggs : List Agg) (a : Arg) : (sumInfo aggs a).fn = .sum ∧ (sumInfo aggs a).arg = some a ∧
    (sumInfo aggs a).nullable = a.nullable := by
  unfold sumInfo; split <;> exact ⟨rfl, rfl, rfl⟩

theorem avg_mem {aggs : List Agg} {a : Arg} (hg : Agg.avg a ∈ aggs) (h32 : ¬ a.ty.size ≤ 32) :
    Agg.info (.avg a) ∈ infos aggs := need_sub hg (by simp [need, avgInfos, h32])

/-- The argument of an entry is the argument of an aggregate. -/
theorem info_arg {aggs : List Agg} {i : Info} (hi : i ∈ infos aggs) {a : Arg} (ha : i.arg = some a) :
    ∃ g ∈ aggs, g.arg = some a := by
  cases infos_form hi with
  | direct g hg hn => exact ⟨g, hg, ha⟩
  | avg b hg h32 => exact ⟨.avg b, hg, ha⟩
  | cnt b hg => exact ⟨.avg b, hg, ha⟩
  | sum b hg h32 => exact ⟨.avg b, hg, ha⟩

end Mutable.WasmAgg
