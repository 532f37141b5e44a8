import Verif.WasmAgg.Lanes
import Mathlib.Data.List.Sublists

/-!
C53: the compiled back end computes aggregate functions correctly, with hash-based grouping, ordered grouping, and
without grouping on any number of SIMD lanes.
-/
namespace Mutable.WasmAgg

section
variable {R V : Type} [DecidableEq V] {ev : Arg → R → Option Val} {aggs : List Agg} {key : R → List (Option V)}

theorem rowsOf_mem {rows : List (Option Bool × R)} {r : R} (h : r ∈ rowsOf rows) : ∃ x ∈ rows, x.2 = r := by
  simp only [rowsOf, List.mem_map, List.mem_filter] at h
  obtain ⟨x, ⟨hx, _⟩, rfl⟩ := h
  exact ⟨x, hx, rfl⟩

/-- Hash-based grouping: the keys of the result are the keys of the qualifying rows, each once, and every aggregate has
the value it has on the qualifying rows with that key.  With predication a row whose predicate is false does not count.
Not covered (`_partial`): arguments that are NaN or infinite, sums that do not fit into 64 bits, and AVG of DECIMALs with
digits after the point, for which the claim is false. -/
theorem C53_hash_grouping_partial (rows : List (Option Bool × R))
    (ok : ∀ r ∈ rowsOf rows, RowOk ev aggs r) (hlen : (rowsOf rows).length < 2 ^ 32)
    (hsum : ∀ k, SumsFit ev aggs ((rowsOf rows).filter fun r => key r = k)) (hdec : NoScaledAvg aggs) :
    ((hRun ev key aggs rows).map Prod.fst).Nodup ∧
    (∀ k, k ∈ (hRun ev key aggs rows).map Prod.fst ↔ ∃ r ∈ rowsOf rows, key r = k) ∧
    ∀ o ∈ hRun ev key aggs rows, ∀ g ∈ aggs,
      IsAgg ev g ((rowsOf rows).filter fun r => key r = o.1) (emit aggs (infos aggs) o.2 g) := by
  obtain ⟨ks, h1, h2, h3⟩ := hRun_inv (key := key) rows ok (by omega)
  have hfst : (hRun ev key aggs rows).map Prod.fst = ks := by
    rw [h3, hGroups, List.map_map]; exact List.map_id _
  refine ⟨by rw [hfst]; exact h1, by rw [hfst]; exact h2, ?_⟩
  rw [h3]
  intro o ho g hg
  obtain ⟨k, hk, rfl⟩ := List.mem_map.1 ho
  obtain ⟨r, hr, hrk⟩ := (h2 k).1 hk
  have ok' : ∀ r' ∈ (rowsOf rows).filter (fun r => key r = k), RowOk ev aggs r' :=
    fun r' h' => ok r' (List.mem_filter.1 h').1
  exact emit_spec hg ok' (lt_of_le_of_lt (List.length_filter_le _ _) hlen) (hsum k) hdec
    (tight_oT ok' (List.ne_nil_of_mem (List.mem_filter.2 ⟨hr, by simpa using hrk⟩)))

/-- Ordered grouping: one group for each maximal run of qualifying rows with equal keys, in the order of the rows, with
the key of the run and the values of the aggregates on the run, however the rows are split into batches.  Not covered
(`_partial`): as above; moreover, if there is a running average of an argument that cannot be NULL, the first row must
not be rejected by predication (`SafeStart`), for otherwise the claim is false. -/
theorem C53_ordered_runs_partial {nk : Nat} (hkey : ∀ r, (key r).length = nk) (k0 : List (Option V))
    (batches : List (List (Option Bool × R))) (ok : ∀ x ∈ batches.flatten, RowOk ev aggs x.2)
    (hlen : batches.flatten.length < 2 ^ 32) (hsafe : SafeStart aggs batches.flatten)
    (hsum : ∀ g, g <:+: rowsOf batches.flatten → SumsFit ev aggs g) (hdec : NoScaledAvg aggs) :
    ∃ runs, IsRuns key (rowsOf batches.flatten) runs ∧
      List.Forall₂ (fun rs o => (∀ r ∈ rs, key r = o.1) ∧ ∀ g ∈ aggs, IsAgg ev g rs (emit aggs (infos aggs) o.2 g)) runs
        (oRun ev key aggs k0 batches) := by
  obtain ⟨runs, h1, h2⟩ := oRun_runs hkey k0 batches ok (by omega) hsafe
  refine ⟨runs, h1, ?_⟩
  have hin : ∀ rs ∈ runs, rs <:+: rowsOf batches.flatten := by
    intro rs hrs
    rw [← h1.flat]
    obtain ⟨l, r, rfl⟩ := List.append_of_mem hrs
    exact ⟨l.flatten, r.flatten, by simp⟩
  have hall : ∀ rs ∈ runs, ∀ o : List (Option V) × List AState,
      ((∀ a ∈ rs, key a = o.1) ∧ o.2 = (infos aggs).map (oT ev rs)) →
      ((∀ r ∈ rs, key r = o.1) ∧ ∀ g ∈ aggs, IsAgg ev g rs (emit aggs (infos aggs) o.2 g)) := by
    intro rs hrs o ho
    refine ⟨ho.1, fun g hg => ?_⟩
    rw [ho.2]
    have ok' : ∀ r ∈ rs, RowOk ev aggs r := by
      intro r hr
      obtain ⟨x, hx, rfl⟩ := rowsOf_mem ((hin rs hrs).subset hr)
      exact ok x hx
    have hl : rs.length ≤ batches.flatten.length := le_trans (hin rs hrs).length_le (rowsOf_length_le _)
    exact emit_spec hg ok' (by omega) (hsum rs (hin rs hrs)) hdec (tight_oT ok' (h1.nonempty rs hrs))
  clear hin h1 ok hlen hsum hsafe
  generalize oRun ev key aggs k0 batches = out at h2 ⊢
  induction h2 with
  | nil => exact .nil
  | cons h _ ih => exact .cons (hall _ (by simp) _ h) (ih fun rs hrs => hall rs (by simp [hrs]))

/-- Ordered grouping of rows in which equal keys are contiguous (for instance sorted rows): the keys of the result are the
keys of the qualifying rows, each once, and every aggregate has the value it has on the qualifying rows with that key. -/
theorem C53_ordered_grouping_partial {nk : Nat} (hkey : ∀ r, (key r).length = nk) (k0 : List (Option V))
    (batches : List (List (Option Bool × R))) (ok : ∀ x ∈ batches.flatten, RowOk ev aggs x.2)
    (hlen : batches.flatten.length < 2 ^ 32) (hsafe : SafeStart aggs batches.flatten)
    (hcont : Contiguous key (rowsOf batches.flatten))
    (hsum : ∀ k, SumsFit ev aggs ((rowsOf batches.flatten).filter fun r => key r = k)) (hdec : NoScaledAvg aggs) :
    ((oRun ev key aggs k0 batches).map Prod.fst).Nodup ∧
    (∀ k, k ∈ (oRun ev key aggs k0 batches).map Prod.fst ↔ ∃ r ∈ rowsOf batches.flatten, key r = k) ∧
    ∀ o ∈ oRun ev key aggs k0 batches, ∀ g ∈ aggs,
      IsAgg ev g ((rowsOf batches.flatten).filter fun r => key r = o.1) (emit aggs (infos aggs) o.2 g) := by
  obtain ⟨runs, h1, h2⟩ := oRun_runs hkey k0 batches ok (by omega) hsafe
  obtain ⟨h3, h4, h5⟩ := runs_groups key runs _ _ (fun g ss => ss = (infos aggs).map (oT ev g)) h1 hcont h2
  refine ⟨h3, h4, fun o ho g hg => ?_⟩
  rw [h5 o ho]
  obtain ⟨r, hr, hrk⟩ := (h4 o.1).1 (List.mem_map_of_mem ho)
  have ok' : ∀ r' ∈ (rowsOf batches.flatten).filter (fun r => key r = o.1), RowOk ev aggs r' := by
    intro r' h'
    obtain ⟨x, hx, rfl⟩ := rowsOf_mem (List.mem_filter.1 h').1
    exact ok x hx
  have hl : ((rowsOf batches.flatten).filter fun r => key r = o.1).length ≤ batches.flatten.length :=
    le_trans (List.length_filter_le _ _) (rowsOf_length_le _)
  exact emit_spec hg ok' (by omega) (hsum o.1) hdec
    (tight_oT ok' (List.ne_nil_of_mem (List.mem_filter.2 ⟨hr, by simpa using hrk⟩)))

/-- Aggregation without grouping on `L` SIMD lanes: the values of the aggregates on all qualifying rows, whatever the
number of lanes.  Not covered (`_partial`): as above; if an argument cannot be NULL and there are rows, one of them must
qualify; with a running average of such an argument, the first row of each lane must qualify (`SafeLanes`). -/
theorem C53_aggregation_partial {L : Nat} (hL : 0 < L) (packs : List (List (Option Bool × R)))
    (hpack : ∀ pack ∈ packs, pack.length = L) (ok : ∀ x ∈ packs.flatten, RowOk ev aggs x.2)
    (hlen : packs.flatten.length < 2 ^ 32) (hsafe : SafeLanes aggs packs)
    (hrow : packs = [] ∨ rowsOf packs.flatten ≠ [] ∨ ∀ g ∈ aggs, g.fn ≠ .count → g.nullable = true)
    (hsum : SumsFit ev aggs (rowsOf packs.flatten)) (hdec : NoScaledAvg aggs) :
    ∀ g ∈ aggs, IsAgg ev g (rowsOf packs.flatten) (aResult ev aggs L packs g) := by
  intro g hg
  obtain ⟨LR, h1, h2, _, h4⟩ := aRun_lanes L packs hpack ok (by omega) hsafe
  have hne : LR ≠ [] := by intro h; subst h; simp at h1; omega
  have okrows : ∀ r ∈ rowsOf packs.flatten, RowOk ev aggs r := by
    intro r hr
    obtain ⟨x, hx, rfl⟩ := rowsOf_mem hr
    exact ok x hx
  have ok' : ∀ r ∈ LR.flatten, RowOk ev aggs r := fun r hr => okrows r (h2.mem_iff.1 hr)
  have hl : LR.flatten.length ≤ packs.flatten.length := by rw [h2.length_eq]; exact rowsOf_length_le _
  obtain ⟨f, hf, ht⟩ := finalAll_tight (ev := ev) (aggs := aggs) (n := packs.length) hne
    (fun rs hrs r hr => ok' r (List.mem_flatten.2 ⟨rs, hrs, hr⟩)) (by omega) (by
      intro i hi hc hn
      rcases hrow with h | h | h
      · subst h
        have : LR.flatten = [] := List.Perm.eq_nil h2
        simp [this]
      · have h' : LR.flatten ≠ [] := by
          intro he; rw [he] at h2; exact h (List.Perm.nil_eq h2).symm
        have hp : packs ≠ [] := by rintro rfl; simp [rowsOf] at h
        simp [h', hp]
      · exfalso
        rw [← info_nullable hi hc] at hn
        cases infos_form hi with
        | direct g hg _ => have := h g hg hc; simp [Agg.info, this] at hn
        | avg b hg _ => have := h _ hg (by simp [Agg.fn]); simp [Agg.info, this] at hn
        | cnt b hg => exact hc rfl
        | sum b hg _ =>
          have := h _ hg (by simp [Agg.fn])
          simp only [Agg.nullable] at this
          rw [this] at hn; cases hn)
  rw [aResult, h4, hf]
  exact (emit_spec hg ok' (by omega) (hsum.perm h2.symm) hdec ht).perm h2

/-! ### Agreement -/

theorem denotes_inj {ty : Ty} {v w : Val} {q : ℚ} (h1 : ty.denotes v = some q) (h2 : ty.denotes w = some q) : v = w := by
  cases ty with
  | int n =>
    cases v <;> cases w <;> simp_all [Ty.denotes]
    have := h1.trans h2.symm
    exact_mod_cast this
  | dec n s =>
    cases v <;> cases w <;> simp_all [Ty.denotes]
    have h3 := h1.trans h2.symm
    have h10 : (10 : ℚ) ^ s ≠ 0 := by positivity
    rw [div_eq_div_iff h10 h10] at h3
    exact_mod_cast mul_right_cancel₀ h10 h3
  | flt =>
    cases v with
    | i _ => simp [Ty.denotes] at h1
    | d x => cases w with
      | i _ => simp [Ty.denotes] at h2
      | d y => cases x <;> cases y <;> simp_all [Ty.denotes]
  | dbl =>
    cases v with
    | i _ => simp [Ty.denotes] at h1
    | d x => cases w with
      | i _ => simp [Ty.denotes] at h2
      | d y => cases x <;> cases y <;> simp_all [Ty.denotes]

theorem AggSpec_unique {g : Interp.Agg R} {rs : List R} {p q : Option ℚ} (h1 : Interp.AggSpec g rs p)
    (h2 : Interp.AggSpec g rs q) : p = q := by
  cases g with
  | countStar => exact h1.trans h2.symm
  | count a => exact h1.trans h2.symm
  | sum a => simp only [Interp.AggSpec] at h1 h2; split at h1 <;> simp_all
  | avg a => simp only [Interp.AggSpec] at h1 h2; split at h1 <;> simp_all
  | min a =>
    simp only [Interp.AggSpec] at h1 h2
    split at h1
    · simp_all
    · rename_i h
      rw [if_neg h] at h2
      obtain ⟨x, hx, rfl, h3⟩ := h1
      obtain ⟨y, hy, rfl, h4⟩ := h2
      rw [le_antisymm (h3 y hy) (h4 x hx)]
  | max a =>
    simp only [Interp.AggSpec] at h1 h2
    split at h1
    · simp_all
    · rename_i h
      rw [if_neg h] at h2
      obtain ⟨x, hx, rfl, h3⟩ := h1
      obtain ⟨y, hy, rfl, h4⟩ := h2
      rw [le_antisymm (h4 x hx) (h3 y hy)]

/-- The specification determines the value. -/
theorem IsAgg.unique {g : Agg} {rs : List R} {c d : Option Val} (h1 : IsAgg ev g rs c) (h2 : IsAgg ev g rs d) : c = d := by
  obtain ⟨p, h3, h4⟩ := h1
  obtain ⟨q, h5, h6⟩ := h2
  have := AggSpec_unique h3 h5
  subst this
  cases c with
  | none => cases d with
    | none => rfl
    | some _ => cases p <;> simp [Shows] at h4 h6
  | some v => cases p with
    | none => simp [Shows] at h4
    | some x => cases d with
      | none => simp [Shows] at h6
      | some w => rw [denotes_inj (show g.ty.denotes v = some x from h4) h6]

theorem nodup_of_fst {α β : Type} : ∀ {l : List (α × β)}, (l.map Prod.fst).Nodup → l.Nodup := by
  intro l
  induction l with
  | nil => simp
  | cons x l ih =>
    intro h
    simp only [List.map_cons, List.nodup_cons, List.mem_map, not_exists, not_and] at h ⊢
    exact ⟨fun hx => h.1 x hx rfl, ih h.2⟩

/-- Both ways of grouping yield the same result up to the order of the groups. -/
theorem C53_groupings_agree_partial {nk : Nat} (hkey : ∀ r, (key r).length = nk) (k0 : List (Option V))
    (batches : List (List (Option Bool × R))) (rows : List (Option Bool × R))
    (hperm : (rowsOf rows).Perm (rowsOf batches.flatten)) (ok : ∀ x ∈ batches.flatten, RowOk ev aggs x.2)
    (hlen : batches.flatten.length < 2 ^ 32) (hsafe : SafeStart aggs batches.flatten)
    (hcont : Contiguous key (rowsOf batches.flatten))
    (hsum : ∀ k, SumsFit ev aggs ((rowsOf batches.flatten).filter fun r => key r = k)) (hdec : NoScaledAvg aggs) :
    ((hRun ev key aggs rows).map fun o => (o.1, aggs.map (emit aggs (infos aggs) o.2))).Perm
      ((oRun ev key aggs k0 batches).map fun o => (o.1, aggs.map (emit aggs (infos aggs) o.2))) := by
  obtain ⟨o1, o2, o3⟩ := C53_ordered_grouping_partial hkey k0 batches ok hlen hsafe hcont hsum hdec
  have ok' : ∀ r ∈ rowsOf rows, RowOk ev aggs r := by
    intro r hr
    obtain ⟨x, hx, rfl⟩ := rowsOf_mem (hperm.mem_iff.1 hr)
    exact ok x hx
  have hl : (rowsOf rows).length < 2 ^ 32 := by
    rw [hperm.length_eq]; exact lt_of_le_of_lt (rowsOf_length_le _) hlen
  obtain ⟨h1, h2, h3⟩ := C53_hash_grouping_partial (key := key) rows ok' hl
    (fun k => (hsum k).perm (hperm.filter _).symm) hdec
  have hval : ∀ o ∈ hRun ev key aggs rows, ∀ o' ∈ oRun ev key aggs k0 batches, o.1 = o'.1 →
      aggs.map (emit aggs (infos aggs) o.2) = aggs.map (emit aggs (infos aggs) o'.2) := by
    intro o ho o' ho' he
    apply List.map_congr_left
    intro g hg
    refine IsAgg.unique (h3 o ho g hg) ?_
    rw [he]
    exact (o3 o' ho' g hg).perm (hperm.filter _).symm
  refine (List.perm_ext_iff_of_nodup ?_ ?_).2 ?_
  · exact nodup_of_fst (by rw [List.map_map]; exact h1)
  · exact nodup_of_fst (by rw [List.map_map]; exact o1)
  · intro x
    simp only [List.mem_map]
    constructor
    · rintro ⟨o, ho, rfl⟩
      obtain ⟨r, hr, hrk⟩ := (h2 o.1).1 (List.mem_map_of_mem ho)
      obtain ⟨o', ho', he⟩ := List.mem_map.1 ((o2 o.1).2 ⟨r, hperm.mem_iff.1 hr, hrk⟩)
      exact ⟨o', ho', by rw [he, hval o ho o' ho' he.symm]⟩
    · rintro ⟨o', ho', rfl⟩
      obtain ⟨r, hr, hrk⟩ := (o2 o'.1).1 (List.mem_map_of_mem ho')
      obtain ⟨o, ho, he⟩ := List.mem_map.1 ((h2 o'.1).2 ⟨r, hperm.mem_iff.2 hr, hrk⟩)
      exact ⟨o, ho, by rw [he, hval o ho o' ho' he]⟩

/-- The number of SIMD lanes and the order of the rows do not matter. -/
theorem C53_lanes_agree_partial {L L' : Nat} (hL : 0 < L) (hL' : 0 < L') (packs packs' : List (List (Option Bool × R)))
    (hpack : ∀ pack ∈ packs, pack.length = L) (hpack' : ∀ pack ∈ packs', pack.length = L')
    (hperm : packs.flatten.Perm packs'.flatten) (ok : ∀ x ∈ packs.flatten, RowOk ev aggs x.2)
    (hlen : packs.flatten.length < 2 ^ 32) (hsafe : SafeLanes aggs packs) (hsafe' : SafeLanes aggs packs')
    (hrow : packs = [] ∨ rowsOf packs.flatten ≠ [] ∨ ∀ g ∈ aggs, g.fn ≠ .count → g.nullable = true)
    (hsum : SumsFit ev aggs (rowsOf packs.flatten)) (hdec : NoScaledAvg aggs) :
    ∀ g ∈ aggs, aResult ev aggs L packs g = aResult ev aggs L' packs' g := by
  intro g hg
  have hr : (rowsOf packs.flatten).Perm (rowsOf packs'.flatten) := (hperm.filter _).map _
  refine IsAgg.unique (C53_aggregation_partial hL packs hpack ok hlen hsafe hrow hsum hdec g hg) ?_
  refine (C53_aggregation_partial hL' packs' hpack' (fun x hx => ok x (hperm.mem_iff.2 hx))
    (by rw [← hperm.length_eq]; exact hlen) hsafe' ?_ (hsum.perm hr) hdec g hg).perm hr.symm
  rcases hrow with h | h | h
  · subst h
    left
    rw [List.eq_nil_iff_forall_not_mem]
    intro pack hp
    have h1 : packs'.flatten = [] := List.Perm.nil_eq hperm ▸ rfl
    have h2 := List.flatten_eq_nil_iff.1 h1 pack hp
    have := hpack' pack hp
    subst h2
    simp at this
    omega
  · exact .inr (.inl fun he => h (by rw [he] at hr; exact List.Perm.eq_nil hr))
  · exact .inr (.inr h)

/-! ### What the code gets wrong -/

/-- Aggregation without grouping, with predication: if rows arrive but none qualifies, an aggregate of an argument that
cannot be NULL is not NULL.  MIN and MAX yield the largest and smallest value of the type, SUM yields zero (:4351,
:4403). -/
theorem C53_no_qualifying_row {L : Nat} (hL : 0 < L) (packs : List (List (Option Bool × R))) (hne : packs ≠ [])
    (hpack : ∀ pack ∈ packs, pack.length = L) (ok : ∀ x ∈ packs.flatten, RowOk ev aggs x.2)
    (hlen : packs.flatten.length < 2 ^ 32) (hnr : NoRunning aggs) (hno : rowsOf packs.flatten = []) (a : Arg)
    (hn : a.nullable = false) :
    (.min a ∈ aggs → aResult ev aggs L packs (.min a) = some (neutral true a.ty)) ∧
    (.max a ∈ aggs → aResult ev aggs L packs (.max a) = some (neutral false a.ty)) ∧
    (.sum a ∈ aggs → aResult ev aggs L packs (.sum a) = some (zero (Agg.sum a).ty)) := by
  obtain ⟨LR, h1, h2, _, h4⟩ := aRun_lanes L packs hpack ok (by omega) (.inl hnr)
  rw [hno] at h2
  have hfl : LR.flatten = [] := List.Perm.eq_nil h2
  have hne' : LR ≠ [] := by intro h; subst h; simp at h1; omega
  have hmem : ∀ rs ∈ LR, rs = [] := List.flatten_eq_nil_iff.1 hfl
  have key : ∀ g : Agg, g ∈ aggs → (∀ b, g ≠ .avg b) → g.fn ≠ .count → g.info.argNullable = false →
      aResult ev aggs L packs g = some (tgtV ev g.info ([] : List R)) := by
    intro g hg hna hc hnn
    have hi := info_mem hg hna
    obtain ⟨k, hk, hgk⟩ := List.getElem_of_mem hi
    have hfin := finalSt_eq (ev := ev) (aggs := aggs) (n := packs.length) (k := k) (LR := LR) hk hne'
      (by intro rs hrs r hr; rw [hmem rs hrs] at hr; cases hr) (by rw [hfl]; simp)
    rw [hgk, hfl] at hfin
    have hv := hfin.2 (.inr (by cases g <;> simp_all [Agg.info, Agg.fn]))
    have hnl : (finalSt aggs (laneSts ev aggs packs.length LR) k g.info).null = false := by
      rw [hfin.1]
      simp only [aNull]
      rw [if_neg (show g.info.fn ≠ .count from hc), hnn]
      simp [hne]
    have hcol : finalAll aggs (laneSts ev aggs packs.length LR) =
        (infos aggs).map fun i => finalSt aggs (laneSts ev aggs packs.length LR) ((infos aggs).idxOf i) i := by
      apply List.ext_getElem
      · simp [finalAll]
      · intro j h5 h6
        simp only [finalAll, List.getElem_mapIdx, List.getElem_map]
        have hj : j < (infos aggs).length := by simpa [finalAll] using h5
        have hm : (infos aggs)[j] ∈ infos aggs := List.getElem_mem _
        have hlt := List.idxOf_lt_length_of_mem hm
        have hget := List.getElem_idxOf hlt
        have e1 := lanesOf_eq (ev := ev) packs.length LR j hj
        have e2 := lanesOf_eq (ev := ev) packs.length LR _ hlt
        unfold finalSt
        rw [e1, e2, hget]
    rw [aResult, h4, hcol, emit_direct hg hna]
    have hlt := List.idxOf_lt_length_of_mem hi
    have hget := List.getElem_idxOf hlt
    have e1 := lanesOf_eq (ev := ev) packs.length LR k hk
    have e2 := lanesOf_eq (ev := ev) packs.length LR _ hlt
    have e3 : finalSt aggs (laneSts ev aggs packs.length LR) ((infos aggs).idxOf g.info) g.info =
        finalSt aggs (laneSts ev aggs packs.length LR) k g.info := by
      unfold finalSt
      rw [e1, e2, hget, hgk]
    show (finalSt aggs (laneSts ev aggs packs.length LR) ((infos aggs).idxOf g.info) g.info).cell = _
    rw [e3, AState.cell, hnl, hv]
    rfl
  refine ⟨fun hg => ?_, fun hg => ?_, fun hg => ?_⟩
  · exact key _ hg (by simp) (by simp [Agg.fn]) (by simpa [Agg.info, Info.argNullable, Agg.arg] using hn)
  · exact key _ hg (by simp) (by simp [Agg.fn]) (by simpa [Agg.info, Info.argNullable, Agg.arg] using hn)
  · rw [key _ hg (by simp) (by simp [Agg.fn]) (by simpa [Agg.info, Info.argNullable, Agg.arg] using hn)]
    have : (Agg.sum a).info.fn = .sum := rfl
    simp only [tgtV, this, cells, List.filterMap_nil, sumVal_nil]
    rfl

/-- A running average (argument of 64 bits that cannot be NULL) is NaN for ever if the first row is rejected by
predication: the average is updated by `(0 - 0) / 0` (:4503-4509). -/
theorem C53_running_average_nan {a : Arg} (hg : Agg.avg a ∈ aggs) (h32 : ¬ a.ty.size ≤ 32) (hn : a.nullable = false)
    (r : R) (rows : List (Option Bool × R)) :
    aResult ev aggs 1 ([(some false, r)] :: rows.map fun x => [x]) (.avg a) = some (.d .nan) := by
  have hm := avg_mem hg h32
  have hzip : ∀ (f : Info → AState) (x : Option Bool × R), aLane ev aggs ((infos aggs).map f) x =
      (infos aggs).map fun i => aUpdateAvg ev aggs ((infos aggs).map fun j => aUpdate ev x.1 x.2 j (f j)) x.1 x.2 i
        (aUpdate ev x.1 x.2 i (f i)) := by
    intro f x
    simp only [aLane, zipWith_map_self]
  have havg : ∀ (f : Info → AState) (ss : List AState) (x : Option Bool × R) (s : AState),
      aUpdateAvg ev aggs ss x.1 x.2 (Agg.info (.avg a)) s =
        ⟨avgStep (cntDbl (infos aggs) ss (cntId aggs a)) s.v
          (sel x.1 ((argCell ev (Agg.info (.avg a)) x.2).getD (.i 0)) s.v), false⟩ := by
    intro f ss x s
    simp [aUpdateAvg, Agg.info, Agg.fn, aComb, Info.argNullable, Agg.arg, hn, cntOfAvg]
  have hst : ∀ (rows : List (Option Bool × R)) (f : Info → AState), (f (Agg.info (.avg a))).v = .d .nan →
      (f (Agg.info (.avg a))).null = false →
      ∃ f', (rows.map fun x => [x]).foldl (aPack ev aggs) [(infos aggs).map f] = [(infos aggs).map f'] ∧
        (f' (Agg.info (.avg a))).v = .d .nan ∧ (f' (Agg.info (.avg a))).null = false := by
    intro rows
    induction rows with
    | nil => intro f h1 h2; exact ⟨f, rfl, h1, h2⟩
    | cons x rows ih =>
      intro f h1 h2
      simp only [List.map_cons, List.foldl_cons]
      have hp : aPack ev aggs [(infos aggs).map f] [x] = [aLane ev aggs ((infos aggs).map f) x] := rfl
      rw [hp, hzip]
      refine ih _ ?_ ?_
      · rw [havg f, aUpdate_avg rfl, h1, avgStep_of_nan]
      · rw [havg f]
  have hp : aPack ev aggs (List.replicate 1 ((infos aggs).map aInit)) [(some false, r)] =
      [aLane ev aggs ((infos aggs).map aInit) (some false, r)] := rfl
  obtain ⟨f', h1, h2, h3⟩ := hst rows (fun i => aUpdateAvg ev aggs
      ((infos aggs).map fun j => aUpdate ev (some false) r j (aInit j)) (some false) r i (aUpdate ev (some false) r i (aInit i)))
      (by
        rw [havg aInit _ (some false, r), aUpdate_avg rfl]
        have hc : cntDbl (infos aggs) ((infos aggs).map fun j => aUpdate ev (some false) r j (aInit j)) (cntId aggs a) =
            .fin 0 := by
          obtain ⟨hc1, hc2⟩ := cntInfo_fn aggs a
          rw [cntDbl, ← cntInfo_id, getSt_infos _ (cntInfo_mem hg)]
          simp [aUpdate, hc1, aInit, oInc, sel, wrap, Val.toDbl]
        rw [hc]
        exact avgStep_nan)
      (by rw [havg aInit _ (some false, r)])
  have hrun : aRun ev aggs 1 ([(some false, r)] :: rows.map fun x => [x]) = [(infos aggs).map f'] := by
    rw [aRun, List.foldl_cons, hp, hzip]; exact h1
  have hfin : finalAll aggs [(infos aggs).map f'] = (infos aggs).map f' := by
    apply List.ext_getElem
    · simp [finalAll]
    · intro j h5 h6
      have hj : j < (infos aggs).length := by simpa [finalAll] using h5
      simp [finalAll, finalSt, lanesOf, List.getElem?_eq_getElem hj]
  rw [aResult, hrun, hfin, emit_running hg h32, AState.cell, h3, h2]
  rfl

/-- AVG of a DECIMAL is not scaled: the average of the representations is the result, `10 ^ s` times the average. -/
theorem C53_decimal_average (rows : List (Option Bool × R)) (ok : ∀ r ∈ rowsOf rows, RowOk ev aggs r)
    (hlen : (rowsOf rows).length < 2 ^ 32) {a : Arg} (hg : Agg.avg a ∈ aggs) {w s : Nat} (hty : a.ty = .dec w s) :
    ∀ o ∈ hRun ev key aggs rows, ∀ m : ℚ,
      Interp.AggSpec (.avg (argNum ev a)) ((rowsOf rows).filter fun r => key r = o.1) (some m) →
      emit aggs (infos aggs) o.2 (.avg a) = some (.d (.fin (10 ^ s * m))) := by
  obtain ⟨ks, _, h2, h3⟩ := hRun_inv (key := key) rows ok (by omega)
  rw [h3]
  intro o ho m hm
  obtain ⟨k, hk, rfl⟩ := List.mem_map.1 ho
  obtain ⟨r, hr, hrk⟩ := (h2 k).1 hk
  have ok' : ∀ r' ∈ (rowsOf rows).filter (fun r => key r = k), RowOk ev aggs r' :=
    fun r' h' => ok r' (List.mem_filter.1 h').1
  have h4 := emit_avg hg ok' (lt_of_le_of_lt (List.length_filter_le _ _) hlen)
    (tight_oT ok' (List.ne_nil_of_mem (List.mem_filter.2 ⟨hr, by simpa using hrk⟩)))
  show emit aggs (infos aggs) ((infos aggs).map (oT ev _)) (.avg a) = _
  rw [h4]
  have hkind : ∀ v ∈ args ev a ((rowsOf rows).filter fun r => key r = k), Kind a.ty v :=
    fun v hv => (args_fits hg rfl ok' v hv).kind
  have h5 := argVals_eq (ev := ev) (a := a) hkind
  simp only [Interp.AggSpec] at hm
  rw [h5] at hm
  simp only [List.map_eq_nil_iff] at hm
  split at hm
  · cases hm
  · rename_i he
    rw [if_neg he]
    simp only [Option.some.injEq] at hm
    rw [hm, sum_den, List.length_map]
    have h10 : (10 : ℚ) ^ s ≠ 0 := by positivity
    have hs : a.ty.scale = s := by rw [hty]; rfl
    rw [hs]
    congr 3
    field_simp

end

/-! ### Concrete cases -/

/-- Rows: a nullable `INT(4)` `x`, an `INT(8) NOT NULL` `y`, a grouping key, a `DOUBLE` `z`. -/
structure ExRow where
  x : Option Int
  y : Int
  k : Option Nat
  z : Dbl

def exX : Arg := ⟨0, .int 32, true⟩
def exY : Arg := ⟨1, .int 64, false⟩
def exZ : Arg := ⟨2, .dbl, false⟩
def exD : Arg := ⟨3, .dec 32 2, false⟩

def exEv (a : Arg) (r : ExRow) : Option Val :=
  match a.idx with
  | 0 => r.x.map .i
  | 1 => some (.i r.y)
  | 2 => some (.d r.z)
  | _ => some (.i r.y)

def exKey (r : ExRow) : List (Option Nat) := [r.k]

/-- `MIN(x), SUM(x), AVG(x), AVG(y), MAX(y), COUNT(x), COUNT(*)`. -/
def exAggs : List Agg := [.min exX, .sum exX, .avg exX, .avg exY, .max exY, .count exX, .countStar]

def exRows : List (Option Bool × ExRow) :=
  [(some true, ⟨some 3, 10, some 1, .fin 0⟩), (some true, ⟨none, 20, some 1, .fin 0⟩),
   (some false, ⟨some 100, 100, some 1, .fin 0⟩), (some true, ⟨some 4, 40, some 1, .fin 0⟩),
   (some true, ⟨none, 7, none, .fin 0⟩)]

/-- The values of the aggregates on the example. -/
example : (hRun exEv exKey exAggs exRows).map (fun o => (o.1, exAggs.map (emit exAggs (infos exAggs) o.2))) =
    [([some 1], [some (.i 3), some (.i 7), some (.d (.fin (7 / 2))), some (.d (.fin (70 / 3))), some (.i 40), some (.i 2),
        some (.i 3)]),
     ([none], [none, none, none, some (.d (.fin 7)), some (.i 7), some (.i 0), some (.i 1)])] := by
  decide +kernel

theorem exOk : ∀ x ∈ exRows, RowOk exEv exAggs x.2 := by
  intro x hx g hg a ha
  simp only [exAggs, List.mem_cons, List.not_mem_nil, or_false] at hg
  simp only [exRows, List.mem_cons, List.not_mem_nil, or_false] at hx
  rcases hg with rfl | rfl | rfl | rfl | rfl | rfl | rfl <;> simp only [Agg.arg, Option.some.injEq, reduceCtorEq] at ha <;>
    subst ha <;> rcases hx with rfl | rfl | rfl | rfl | rfl <;>
    simp [exX, exY, exEv, Fits]

theorem exRowsOf : rowsOf exRows = [⟨some 3, 10, some 1, .fin 0⟩, ⟨none, 20, some 1, .fin 0⟩, ⟨some 4, 40, some 1, .fin 0⟩,
    ⟨none, 7, none, .fin 0⟩] := rfl

theorem exDec : NoScaledAvg exAggs := by
  intro a ha w s h
  simp only [exAggs, List.mem_cons, List.not_mem_nil, or_false, Agg.avg.injEq, reduceCtorEq, false_or] at ha
  rcases ha with rfl | rfl <;> cases h

theorem exSums : ∀ l : List ExRow, l.Sublist (rowsOf exRows) → SumsFit exEv exAggs l := by
  intro l hl a ha
  simp only [exAggs, List.mem_cons, List.not_mem_nil, or_false, Agg.sum.injEq, reduceCtorEq, false_or] at ha
  subst ha
  rw [exRowsOf] at hl
  have : l ∈ List.sublists' [⟨some 3, 10, some 1, .fin 0⟩, ⟨none, 20, some 1, .fin 0⟩, ⟨some 4, 40, some 1, .fin 0⟩,
    (⟨none, 7, none, .fin 0⟩ : ExRow)] := List.mem_sublists'.2 hl
  simp only [List.sublists'_cons, List.sublists'_nil, List.map_cons, List.map_nil, List.cons_append, List.nil_append,
    List.mem_cons, List.not_mem_nil, or_false] at this
  rcases this with rfl | rfl | rfl | rfl | rfl | rfl | rfl | rfl | rfl | rfl | rfl | rfl | rfl | rfl | rfl | rfl <;>
    decide

/-- The hypotheses of `C53_hash_grouping_partial` hold of the example. -/
example := C53_hash_grouping_partial (ev := exEv) (key := exKey) exRows
  (fun r hr => by obtain ⟨x, hx, rfl⟩ := rowsOf_mem hr; exact exOk x hx) (by decide)
  (fun k => exSums _ List.filter_sublist) exDec

theorem exContig : Contiguous exKey (rowsOf exRows) := by
  rw [exRowsOf]
  intro l m r a b h he c hc
  rcases l with _ | ⟨l1, l⟩
  · simp only [List.nil_append, List.cons_append, List.cons.injEq] at h
    obtain ⟨rfl, h⟩ := h
    rcases m with _ | ⟨m1, m⟩
    · cases hc
    · simp only [List.nil_append, List.cons_append, List.cons.injEq] at h
      obtain ⟨rfl, h⟩ := h
      rcases m with _ | ⟨m2, m⟩
      · simp only [List.mem_singleton] at hc; subst hc; rfl
      · simp only [List.nil_append, List.cons_append, List.cons.injEq] at h
        obtain ⟨rfl, h⟩ := h
        rcases m with _ | ⟨m3, m⟩
        · simp only [List.nil_append, List.cons.injEq] at h
          obtain ⟨rfl, _⟩ := h
          simp [exKey] at he
        · simp at h
  · simp only [List.cons_append, List.cons.injEq] at h
    obtain ⟨rfl, h⟩ := h
    rcases l with _ | ⟨l2, l⟩
    · simp only [List.nil_append, List.cons_append, List.cons.injEq] at h
      obtain ⟨rfl, h⟩ := h
      rcases m with _ | ⟨m1, m⟩
      · cases hc
      · simp only [List.nil_append, List.cons_append, List.cons.injEq] at h
        obtain ⟨rfl, h⟩ := h
        rcases m with _ | ⟨m3, m⟩
        · simp only [List.nil_append, List.cons.injEq] at h
          obtain ⟨rfl, _⟩ := h
          simp [exKey] at he
        · simp at h
    · simp only [List.cons_append, List.cons.injEq] at h
      obtain ⟨rfl, h⟩ := h
      rcases l with _ | ⟨l3, l⟩
      · simp only [List.nil_append, List.cons_append, List.cons.injEq] at h
        obtain ⟨rfl, h⟩ := h
        rcases m with _ | ⟨m1, m⟩
        · cases hc
        · simp at h
      · have := congrArg List.length h
        simp at this
        omega

theorem exSafe : SafeStart exAggs exRows := .inr fun x hx => by
  simp only [exRows, List.head?_cons, Option.some.injEq] at hx
  subst hx; simp

/-- The hypotheses of the theorems about ordered grouping hold of the example, delivered in two batches. -/
example := C53_ordered_grouping_partial (ev := exEv) (aggs := exAggs) (key := exKey) (nk := 1) (fun _ => rfl) [some 9]
  [exRows.take 2, exRows.drop 2] (by simpa using exOk) (by decide) exSafe exContig
  (fun k => exSums _ List.filter_sublist) exDec

example := C53_ordered_runs_partial (ev := exEv) (aggs := exAggs) (key := exKey) (nk := 1) (fun _ => rfl) [some 9]
  [exRows.take 2, exRows.drop 2] (by simpa using exOk) (by decide) exSafe (fun g hg => exSums _ hg.sublist) exDec

example := C53_groupings_agree_partial (ev := exEv) (aggs := exAggs) (key := exKey) (nk := 1) (fun _ => rfl) [some 9]
  [exRows.take 2, exRows.drop 2] exRows (.refl _) (by simpa using exOk) (by decide) exSafe exContig
  (fun k => exSums _ List.filter_sublist) exDec

example : (oRun exEv exKey exAggs [some 9] [exRows.take 2, exRows.drop 2]).map
      (fun o => (o.1, exAggs.map (emit exAggs (infos exAggs) o.2))) =
    [([some 1], [some (.i 3), some (.i 7), some (.d (.fin (7 / 2))), some (.d (.fin (70 / 3))), some (.i 40), some (.i 2),
        some (.i 3)]),
     ([none], [none, none, none, some (.d (.fin 7)), some (.i 7), some (.i 0), some (.i 1)])] := by
  decide +kernel

/-- Two lanes; the fifth row of the example is left out. -/
def exPacks : List (List (Option Bool × ExRow)) :=
  [[(some true, ⟨some 3, 10, some 1, .fin 0⟩), (some true, ⟨none, 20, some 1, .fin 0⟩)],
   [(some false, ⟨some 100, 100, some 1, .fin 0⟩), (some true, ⟨some 4, 40, some 1, .fin 0⟩)]]

theorem exPacksSub : (rowsOf exPacks.flatten).Sublist (rowsOf exRows) := by
  have : rowsOf exPacks.flatten = (rowsOf exRows).take 3 := rfl
  rw [this]; exact List.take_sublist _ _

theorem exPacksMem : ∀ x ∈ exPacks.flatten, x ∈ exRows := by
  intro x hx
  have : exPacks.flatten = exRows.take 4 := rfl
  rw [this] at hx
  exact List.mem_of_mem_take hx

theorem exSafeL : SafeLanes exAggs exPacks := .inr fun pack hp => by
  simp only [exPacks, List.head?_cons, Option.some.injEq] at hp
  subst hp
  intro x hx
  simp only [List.mem_cons, List.not_mem_nil, or_false] at hx
  rcases hx with rfl | rfl <;> simp

theorem exLen2 : ∀ pack ∈ exPacks, pack.length = 2 := by
  intro pack hp
  simp only [exPacks, List.mem_cons, List.not_mem_nil, or_false] at hp
  rcases hp with rfl | rfl <;> rfl

theorem exRow1 : rowsOf exPacks.flatten ≠ [] := by
  have : rowsOf exPacks.flatten = (rowsOf exRows).take 3 := rfl
  rw [this, exRowsOf]; simp

/-- The hypotheses of `C53_aggregation_partial` hold of the example. -/
example := C53_aggregation_partial (ev := exEv) (aggs := exAggs) (L := 2) (by decide) exPacks exLen2
  (fun x hx => exOk x (exPacksMem x hx)) (by decide) exSafeL (.inr (.inl exRow1)) (exSums _ exPacksSub) exDec

/-- The same rows on one lane. -/
example := C53_lanes_agree_partial (ev := exEv) (aggs := exAggs) (L := 2) (L' := 1) (by decide) (by decide) exPacks
  (exPacks.flatten.map fun x => [x]) exLen2 (by intro pack hp; obtain ⟨x, _, rfl⟩ := List.mem_map.1 hp; rfl)
  (by rfl) (fun x hx => exOk x (exPacksMem x hx)) (by decide) exSafeL
  (.inr fun pack hp x hx => by
    simp only [exPacks, List.flatten_cons, List.cons_append, List.map_cons, List.head?_cons, Option.some.injEq] at hp
    subst hp
    simp only [List.mem_singleton] at hx
    subst hx; simp)
  (.inr (.inl exRow1)) (exSums _ exPacksSub) exDec

example : exAggs.map (aResult exEv exAggs 2 exPacks) = [some (.i 3), some (.i 7), some (.d (.fin (7 / 2))),
    some (.d (.fin (70 / 3))), some (.i 40), some (.i 2), some (.i 3)] := by
  decide +kernel

/-- No row at all: everything but COUNT is NULL. -/
example : exAggs.map (aResult exEv exAggs 2 []) = [none, none, none, none, none, some (.i 0), some (.i 0)] := by
  decide +kernel

/-- `SELECT MIN(y), MAX(y), SUM(y), COUNT(y) … WHERE FALSE` with predication. -/
example : [Agg.min exY, .max exY, .sum exY, .count exY].map
    (aResult exEv [Agg.min exY, .max exY, .sum exY, .count exY] 1 [[(some false, ⟨none, 5, none, .fin 0⟩)]]) =
    [some (.i (2 ^ 63 - 1)), some (.i (-2 ^ 63)), some (.i 0), some (.i 0)] := by
  decide +kernel

/-- The hypotheses of `C53_no_qualifying_row` hold of it. -/
example := C53_no_qualifying_row (ev := exEv) (aggs := [Agg.min exY, .max exY, .sum exY]) (L := 1) (by decide)
  [[(some false, ⟨none, 5, none, .fin 0⟩)]] (by simp) (by simp)
  (by
    intro x hx g hg a ha
    simp only [List.flatten_cons, List.flatten_nil, List.append_nil, List.mem_singleton] at hx
    subst hx
    simp only [List.mem_cons, List.not_mem_nil, or_false] at hg
    rcases hg with rfl | rfl | rfl <;> simp only [Agg.arg, Option.some.injEq] at ha <;> subst ha <;>
      simp [exY, exEv, Fits]) (by decide)
  (by intro a ha; simp at ha) rfl exY rfl

/-- The hypotheses of `C53_running_average_nan` hold of the example. -/
example := C53_running_average_nan (ev := exEv) (aggs := exAggs) (a := exY) (by decide) (by decide) rfl
  ⟨none, 5, none, .fin 0⟩ exRows

/-- The first group of ordered grouping suffers as well (:3681-3689): the average of the first group is NaN, if the first
row is rejected; the same rows without the rejected one have an average. -/
theorem C53_ordered_average_nan :
    (oRun exEv exKey [.avg exY] [none]
      [[(some false, ⟨none, 5, some 1, .fin 0⟩), (some true, ⟨none, 6, some 1, .fin 0⟩)]]).map
        (fun o => emit [.avg exY] (infos [.avg exY]) o.2 (.avg exY)) = [some (.d .nan)] ∧
    (oRun exEv exKey [.avg exY] [none] [[(some true, ⟨none, 6, some 1, .fin 0⟩)]]).map
        (fun o => emit [.avg exY] (infos [.avg exY]) o.2 (.avg exY)) = [some (.d (.fin 6))] := by
  decide +kernel

/-- MIN of infinity is the largest finite number with ordered grouping and without grouping, but infinity with hash-based
grouping (:3195, :3985). -/
theorem C53_min_infinity :
    (hRun exEv exKey [.min exZ] [(none, ⟨none, 5, some 1, .pinf⟩)]).map
        (fun o => emit [.min exZ] (infos [.min exZ]) o.2 (.min exZ)) = [some (.d .pinf)] ∧
    (oRun exEv exKey [.min exZ] [none] [[(none, ⟨none, 5, some 1, .pinf⟩)]]).map
        (fun o => emit [.min exZ] (infos [.min exZ]) o.2 (.min exZ)) = [some (.d (.fin dblMax))] ∧
    aResult exEv [.min exZ] 1 [[(none, ⟨none, 5, some 1, .pinf⟩)]] (.min exZ) = some (.d (.fin dblMax)) := by
  decide +kernel

/-- MAX of minus infinity. -/
theorem C53_max_infinity :
    (hRun exEv exKey [.max exZ] [(none, ⟨none, 5, some 1, .ninf⟩)]).map
        (fun o => emit [.max exZ] (infos [.max exZ]) o.2 (.max exZ)) = [some (.d .ninf)] ∧
    aResult exEv [.max exZ] 1 [[(none, ⟨none, 5, some 1, .ninf⟩)]] (.max exZ) = some (.d (.fin (-dblMax))) := by
  decide +kernel

/-- The average of the DECIMAL 1.50 is 150. -/
example : (hRun exEv exKey [.avg exD] [(none, ⟨none, 150, some 1, .fin 0⟩)]).map
    (fun o => emit [.avg exD] (infos [.avg exD]) o.2 (.avg exD)) = [some (.d (.fin 150))] := by
  decide +kernel

/-- The hypotheses of `C53_decimal_average` hold of it. -/
example := C53_decimal_average (ev := exEv) (key := exKey) (aggs := [.avg exD])
  [(none, ⟨none, 150, some 1, .fin 0⟩)]
  (by
    intro r hr g hg a ha
    simp only [rowsOf, List.filter_cons, List.filter_nil] at hr
    simp only [ne_eq, reduceCtorEq, not_false_eq_true, decide_true, if_true, List.map_cons, List.map_nil,
      List.mem_singleton] at hr
    subst hr
    simp only [List.mem_singleton] at hg
    subst hg
    simp only [Agg.arg, Option.some.injEq] at ha
    subst ha
    simp [exD, exEv, Fits]) (by decide) (a := exD) (by simp) (w := 32) (s := 2) rfl

/-- The full claim for aggregation without grouping, on one lane. -/
def FullAggregation : Prop :=
  ∀ (R : Type) (ev : Arg → R → Option Val) (aggs : List Agg) (rows : List (Option Bool × R)),
    (∀ x ∈ rows, RowOk ev aggs x.2) → rows.length < 2 ^ 32 → SumsFit ev aggs (rowsOf rows) →
    ∀ g ∈ aggs, IsAgg ev g (rowsOf rows) (aResult ev aggs 1 (rows.map fun x => [x]) g)

/-- The full claim is false of the code. -/
theorem C53_full_false : ¬ FullAggregation := by
  intro h
  have := h ExRow exEv [.min exY] [(some false, ⟨none, 5, none, .fin 0⟩)]
    (by
      intro x hx g hg a ha
      simp only [List.mem_singleton] at hx hg
      subst hx hg
      simp only [Agg.arg, Option.some.injEq] at ha
      subst ha
      simp [exY, exEv, Fits]) (by decide) (by intro a ha; simp at ha) (.min exY) (by simp)
  obtain ⟨q, h1, h2⟩ := this
  have hr : rowsOf [(some false, (⟨none, 5, none, .fin 0⟩ : ExRow))] = [] := rfl
  rw [hr] at h1
  simp only [Agg.interp, Interp.AggSpec, Interp.argVals, List.filterMap_nil, if_true] at h1
  subst h1
  have hres : aResult exEv [.min exY] 1 [[(some false, (⟨none, 5, none, .fin 0⟩ : ExRow))]] (.min exY) =
      some (.i (2 ^ 63 - 1)) := by decide +kernel
  simp only [List.map_cons, List.map_nil] at h2
  rw [hres] at h2
  exact h2

end Mutable.WasmAgg
