import Verif.WasmJoin.Emit
import Verif.WasmJoin.Merge

/-! The groups of the group-join; sorting and the pairs of a join. -/
namespace Mutable.WasmJoin
open Mutable.WasmAgg

section
variable {A B P V C : Type}

theorem cross_filter (f : B → Bool) (h : P → Bool) (bs : List B) (ps : List P) :
    (cross bs ps).filter (fun x => f x.1 && h x.2) = cross (bs.filter f) (ps.filter h) := by
  induction bs with
  | nil => rfl
  | cons b bs ih =>
    rw [cross_cons, List.filter_append, ih, List.filter_cons]
    have e : (ps.map fun p => (b, p)).filter (fun x => f x.1 && h x.2) = if f b then (ps.filter h).map fun p => (b, p) else [] := by
      clear ih
      induction ps with
      | nil => simp
      | cons p ps ih2 =>
        simp only [List.map_cons, List.filter_cons, ih2]
        cases f b <;> cases h p <;> simp
    rw [e]
    cases f b with
    | true => simp only [if_true, cross_cons]
    | false => simp

theorem zip_inj {γ δ : Type} : ∀ {c : List γ} {u v : List δ}, u.length = c.length → v.length = c.length → c.zip u = c.zip v → u = v := by
  intro c
  induction c with
  | nil =>
    intro u v hu hv _
    rw [List.length_eq_zero_iff.1 hu, List.length_eq_zero_iff.1 hv]
  | cons x c ih =>
    intro u v hu hv h
    cases u with
    | nil => simp at hu
    | cons a u =>
      cases v with
      | nil => simp at hv
      | cons b v =>
        simp only [List.zip_cons_cons, List.cons.injEq, Prod.mk.injEq, true_and] at h
        rw [h.1, ih (by simpa using hu) (by simpa using hv) h.2]

theorem groupKey_eq (bval : C → B → Option V) (on : List (C × C)) (x : B × P) :
    groupKey bval (on.map Prod.fst) x = (on.map Prod.fst).zip (on.map fun xy => bval xy.1 x.1) := by
  induction on with
  | nil => rfl
  | cons xy on ih => simp only [groupKey, List.map_cons, List.zip_cons_cons] at *; rw [ih]

theorem onEq_iff (bval : C → B → Option V) (pval : C → P → Option V) (on : List (C × C)) (b : B) (p : P) :
    (∀ xy ∈ on, SqlEq (bval xy.1 b) (pval xy.2 p)) ↔
      ((on.map fun xy => bval xy.1 b).all Option.isSome = true ∧
        (on.map fun xy => pval xy.2 p) = on.map fun xy => bval xy.1 b) := by
  induction on with
  | nil => simp
  | cons xy on ih =>
    simp only [List.mem_cons, forall_eq_or_imp, ih, List.map_cons, List.all_cons, Bool.and_eq_true, List.cons.injEq]
    constructor
    · rintro ⟨⟨h1, h2⟩, h3, h4⟩
      exact ⟨⟨Option.isSome_iff_ne_none.2 h1, h3⟩, h2.symm, h4⟩
    · rintro ⟨⟨h1, h3⟩, h2, h4⟩
      exact ⟨⟨Option.isSome_iff_ne_none.1 h1, h2.symm⟩, h3, h4⟩

variable [DecidableEq V] [DecidableEq C]

/-- The rows of one group of the join are the pairs of rows with the key. -/
theorem joined_group (bval : C → B → Option V) (pval : C → P → Option V) (on : List (C × C)) (bs : List B) (ps : List P)
    {k : List (Option V)} (hk : k.all Option.isSome = true) (hl : k.length = on.length) :
    (joined bval pval on bs ps).filter (fun x => groupKey bval (on.map Prod.fst) x = (on.map Prod.fst).zip k) =
      cross (bs.filter fun b => (on.map fun xy => bval xy.1 b) = k) (ps.filter fun p => (on.map fun xy => pval xy.2 p) = k) := by
  rw [← cross_filter]
  unfold joined cross
  rw [List.filter_filter]
  apply List.filter_congr
  rintro ⟨b, p⟩ _
  simp only [onEq_iff, groupKey_eq]
  rw [Bool.eq_iff_iff]
  simp only [Bool.and_eq_true, decide_eq_true_eq]
  constructor
  · rintro ⟨h1, h2, h3⟩
    have h4 := zip_inj (by simp) (by simp [hl]) h1
    exact ⟨h4, by rw [h3]; exact h4⟩
  · rintro ⟨h1, h2⟩
    rw [h1]
    exact ⟨rfl, hk, h2⟩

theorem joined_mem (bval : C → B → Option V) (pval : C → P → Option V) (on : List (C × C)) (bs : List B) (ps : List P)
    (x : B × P) : x ∈ joined bval pval on bs ps ↔
      x.1 ∈ bs ∧ x.2 ∈ ps ∧ (on.map fun xy => bval xy.1 x.1).all Option.isSome = true ∧
        (on.map fun xy => pval xy.2 x.2) = on.map fun xy => bval xy.1 x.1 := by
  simp only [joined, List.mem_filter, onEq_iff, decide_eq_true_eq, List.mem_flatMap, List.mem_map]
  constructor
  · rintro ⟨⟨b, hb, p, hp, rfl⟩, h⟩; exact ⟨hb, hp, h⟩
  · rintro ⟨hb, hp, h⟩; exact ⟨⟨x.1, hb, x.2, hp, rfl⟩, h⟩

omit [DecidableEq V] [DecidableEq C] in
theorem rowsOf_all {R : Type} {l : List (Option Bool × R)} (h : ∀ x ∈ l, x.1 ≠ some false) : rowsOf l = l.map Prod.snd := by
  unfold rowsOf
  rw [List.filter_eq_self.2]
  intro x hx
  simpa using h x hx

theorem group_join {evB : Arg → B → Option Val} {evP : Arg → P → Option Val} {inB inP : Arg → Bool} {aggs : List Agg}
    (bval : C → B → Option V) (pval : C → P → Option V) (on : List (C × C))
    (build : List (Option Bool × B)) (probe : List (Option Bool × P))
    (hpt : Partitioned inB inP aggs) (hty : ∀ g ∈ aggs, ∀ a, g.arg = some a → ValidTy a.ty)
    (hpred : ∀ x ∈ probe, x.1 ≠ some false)
    (okB : ∀ b ∈ rowsOf build, RowOkIn evB inB aggs b) (okP : ∀ p ∈ rowsOf probe, RowOkIn evP inP aggs p)
    (hlenB : (rowsOf build).length < 2 ^ 32) (hlenP : (rowsOf probe).length < 2 ^ 32)
    (hfit : ∀ k, ((joined bval pval on (rowsOf build) (rowsOf probe)).filter fun x =>
          groupKey bval (on.map Prod.fst) x = k).length < 2 ^ 63 ∧
        SumsFit (argOf evB evP inB) aggs ((joined bval pval on (rowsOf build) (rowsOf probe)).filter fun x =>
          groupKey bval (on.map Prod.fst) x = k))
    (hdec : NoScaledAvg aggs) :
    let out := groupJoin evB evP inB inP bval pval on (on.map Prod.fst) aggs build probe
    let J := joined bval pval on (rowsOf build) (rowsOf probe)
    (out.map Prod.fst).Nodup ∧
      (∀ k, k ∈ out.map Prod.fst ↔ ∃ x ∈ J, groupKey bval (on.map Prod.fst) x = k) ∧
      ∀ o ∈ out, ∀ g ∈ aggs,
        IsAgg (argOf evB evP inB) g (J.filter fun x => groupKey bval (on.map Prod.fst) x = o.1) (o.2 g) := by
  intro out J
  have okB' : ∀ b ∈ rowsOf build, RowOk (evX evB inB) aggs b := fun b hb => rowOk_evX hty (okB b hb)
  have okP' : ∀ p ∈ rowsOf probe, RowOk (evX evP inP) aggs p := fun b hb => rowOk_evX hty (okP b hb)
  have hps := rowsOf_all hpred
  have hlp : probe.length = (rowsOf probe).length := by rw [hps, List.length_map]
  obtain ⟨ks, ⟨hnd, hks⟩, htab⟩ := build_inv (evB := evB) (evP := evP) (inB := inB) (inP := inP) (aggs := aggs)
    (bkey := fun b => on.map fun xy => bval xy.1 b) (pkey := fun p => on.map fun xy => pval xy.2 p) build okB' (by omega)
  have hpro := probe_inv (evB := evB) (evP := evP) (inB := inB) (inP := inP) (aggs := aggs)
    (bkey := fun b => on.map fun xy => bval xy.1 b) (pkey := fun p => on.map fun xy => pval xy.2 p) hpt (rowsOf build) ks hnd
    probe (by rw [← hps]; exact okP') (by omega)
  rw [← hps] at hpro
  have hlk : ∀ k ∈ ks, k.all Option.isSome = true ∧ k.length = on.length := by
    intro k hk
    obtain ⟨h1, b, _, rfl⟩ := (hks k).1 hk
    exact ⟨h1, by simp⟩
  have hout : out = (ks.filter fun k => decide ((rowsOf probe).filter (fun p => decide ((on.map fun xy => pval xy.2 p) = k)) ≠ [])).map
      fun k => ((on.map Prod.fst).zip k, gEmit inP aggs (entryOf evB evP inB inP aggs (fun b => on.map fun xy => bval xy.1 b)
        (fun p => on.map fun xy => pval xy.2 p) (rowsOf build) (rowsOf probe) k)) := by
    simp only [out, groupJoin, gTable, htab, hpro, List.filter_map, List.map_map]
    have : (List.filter ((fun e : Entry V => decide (e.pcnt ≠ 0)) ∘ entryOf evB evP inB inP aggs
        (fun b => on.map fun xy => bval xy.1 b) (fun p => on.map fun xy => pval xy.2 p) (rowsOf build) (rowsOf probe)) ks) =
        ks.filter fun k => decide ((rowsOf probe).filter (fun p => decide ((on.map fun xy => pval xy.2 p) = k)) ≠ []) := by
      apply List.filter_congr
      intro k _
      simp only [Function.comp, entryOf]
      congr 1
      rw [ne_eq, ne_eq, ← List.length_eq_zero_iff]
      simp only [Int.natCast_eq_zero]
    rw [this]
    rfl
  have hmem : ∀ k, k ∈ (ks.filter fun k => decide ((rowsOf probe).filter (fun p => decide ((on.map fun xy => pval xy.2 p) = k)) ≠ [])) ↔
      ∃ x ∈ J, (on.map fun xy => bval xy.1 x.1) = k := by
    intro k
    rw [List.mem_filter, hks]
    simp only [decide_eq_true_eq]
    constructor
    · rintro ⟨⟨h1, b, hb, rfl⟩, h2⟩
      obtain ⟨p, hp⟩ := List.exists_mem_of_ne_nil _ h2
      obtain ⟨hp1, hp2⟩ := List.mem_filter.1 hp
      exact ⟨(b, p), (joined_mem ..).2 ⟨hb, hp1, h1, by simpa using hp2⟩, rfl⟩
    · rintro ⟨x, hx, rfl⟩
      obtain ⟨h1, h2, h3, h4⟩ := (joined_mem ..).1 hx
      exact ⟨⟨h3, x.1, h1, rfl⟩, List.ne_nil_of_mem (List.mem_filter.2 ⟨h2, by simpa using h4⟩)⟩
  refine ⟨?_, ?_, ?_⟩
  · rw [hout, List.map_map]
    refine List.Nodup.map_on ?_ (hnd.filter _)
    intro k hk k' hk' h
    have h1 := hlk k (List.mem_of_mem_filter hk)
    have h2 := hlk k' (List.mem_of_mem_filter hk')
    exact zip_inj (by simp [h1.2]) (by simp [h2.2]) h
  · intro k
    rw [hout, List.map_map]
    constructor
    · intro h
      obtain ⟨k0, hk0, rfl⟩ := List.mem_map.1 h
      obtain ⟨x, hx, e⟩ := (hmem k0).1 hk0
      exact ⟨x, hx, by rw [groupKey_eq, e]; rfl⟩
    · rintro ⟨x, hx, rfl⟩
      exact List.mem_map.2 ⟨_, (hmem _).2 ⟨x, hx, rfl⟩, by rw [groupKey_eq]; rfl⟩
  · intro o ho g hg
    rw [hout] at ho
    obtain ⟨k, hk, rfl⟩ := List.mem_map.1 ho
    obtain ⟨hk1, hk2⟩ := List.mem_filter.1 hk
    have hpne : (rowsOf probe).filter (fun p => decide ((on.map fun xy => pval xy.2 p) = k)) ≠ [] := by simpa using hk2
    obtain ⟨hkn, hkl⟩ := hlk k hk1
    have hbne : (rowsOf build).filter (fun b => decide ((on.map fun xy => bval xy.1 b) = k)) ≠ [] := by
      obtain ⟨_, b, hb, e⟩ := (hks k).1 hk1
      exact List.ne_nil_of_mem (List.mem_filter.2 ⟨hb, by simpa using e⟩)
    have hj := joined_group bval pval on (rowsOf build) (rowsOf probe) hkn hkl
    have hf := hfit ((on.map Prod.fst).zip k)
    simp only [J]
    rw [hj] at hf ⊢
    rw [cross_length] at hf
    have hlb := List.length_filter_le (fun b => decide ((on.map fun xy => bval xy.1 b) = k)) (rowsOf build)
    have hlp' := List.length_filter_le (fun p => decide ((on.map fun xy => pval xy.2 p) = k)) (rowsOf probe)
    exact gEmit_spec hpt hg hbne hpne (fun r hr => okB' r (List.mem_of_mem_filter hr))
      (fun r hr => okP' r (List.mem_of_mem_filter hr)) (by omega) (by omega) hf.1 hf.2 hdec _ rfl rfl rfl

end

/-! ### Sorting -/

section
variable {A B V : Type}

theorem SqlEq.symm {x y : Option V} (h : SqlEq x y) : SqlEq y x := ⟨h.2 ▸ h.1, h.2.symm⟩

theorem KeysEq.symm {x y : List (Option V)} (h : KeysEq x y) : KeysEq y x := by
  induction h with
  | nil => exact .nil
  | cons h _ ih => exact .cons h.symm ih

theorem UniqueKeys.perm {k : A → List (Option V)} {L L' : List A} (h : UniqueKeys k L) (hp : L.Perm L') : UniqueKeys k L' :=
  (List.Perm.pairwise_iff (fun h1 h2 => h1 h2.symm) hp).1 h

theorem pairs_perm (p : A → B → Prop) [∀ a b, Decidable (p a b)] {L L' : List A} {R R' : List B} (hL : L.Perm L')
    (hR : R.Perm R') : (pairs p L R).Perm (pairs p L' R') := by
  unfold pairs
  exact (List.Perm.flatMap_right _ hR).trans (List.Perm.flatMap_left _ fun r _ => (hL.filter _).map _)

theorem materialize_eq (rows : List (Option Bool × A)) : materialize rows = rowsOf rows := by
  unfold materialize rowsOf
  congr 1
  apply List.filter_congr
  rintro ⟨o, a⟩ _
  cases o with
  | none => rfl
  | some b => cases b <;> rfl

theorem pairs_mem (p : A → B → Prop) [∀ a b, Decidable (p a b)] (L : List A) (R : List B) (x : A × B) :
    x ∈ pairs p L R ↔ x.1 ∈ L ∧ x.2 ∈ R ∧ p x.1 x.2 := by
  simp only [pairs, List.mem_flatMap, List.mem_map, List.mem_filter, decide_eq_true_eq]
  constructor
  · rintro ⟨r, hr, l, ⟨hl, h⟩, rfl⟩; exact ⟨hl, hr, h⟩
  · rintro ⟨hl, hr, h⟩; exact ⟨x.2, hr, x.1, ⟨hl, h⟩, rfl⟩

end

end Mutable.WasmJoin
