import Verif.WasmJoin.Spec
import Verif.WasmAgg.Group

/-! The two phases of the group-join: the hash table after any rows. -/
namespace Mutable.WasmJoin
open Mutable.WasmAgg

section
variable {R : Type} {ev ev' : Arg → R → Option Val} {aggs : List Agg}

/-- Evaluation in one relation: arguments of the other one are replaced by zero. -/
def evX (ev : Arg → R → Option Val) (inS : Arg → Bool) (a : Arg) (r : R) : Option Val :=
  if inS a then ev a r else some (zero a.ty)

theorem zero_fits {ty : Ty} (h : ValidTy ty) : Fits ty (zero ty) := by
  cases ty with
  | int w => exact ⟨h, 0, rfl, by rcases h with rfl | rfl | rfl | rfl <;> norm_num, by rcases h with rfl | rfl | rfl | rfl <;> norm_num⟩
  | dec w s => exact ⟨h, 0, rfl, by rcases h with rfl | rfl | rfl | rfl <;> norm_num, by rcases h with rfl | rfl | rfl | rfl <;> norm_num⟩
  | flt => exact ⟨0, rfl, by norm_num [fltMax], by norm_num [fltMax]⟩
  | dbl => exact ⟨0, rfl, by norm_num [dblMax], by norm_num [dblMax]⟩

theorem rowOk_evX {inS : Arg → Bool} {r : R} (hty : ∀ g ∈ aggs, ∀ a, g.arg = some a → ValidTy a.ty)
    (h : RowOkIn ev inS aggs r) : RowOk (evX ev inS) aggs r := by
  intro g hg a ha
  unfold evX
  cases hi : inS a with
  | true => simpa using h g hg a ha hi
  | false =>
    simp only [Bool.false_eq_true, if_false]
    exact ⟨fun _ h => by simp at h, fun v hv => by injection hv with hv; subst hv; exact zero_fits (hty g hg a ha)⟩

theorem argCell_evX {inS : Arg → Bool} {i : Info} (h : i.arg = none ∨ argIn inS i = true) (r : R) :
    argCell (evX ev inS) i r = argCell ev i r := by
  unfold argCell
  cases ha : i.arg with
  | none => rfl
  | some a => simp only [argIn, ha, reduceCtorEq, false_or] at h; simp [evX, h]

theorem countInc_evX {inS : Arg → Bool} {i : Info} (h : i.arg = none ∨ argIn inS i = true) (r : R) :
    countInc (evX ev inS) i r = countInc ev i r := by
  unfold countInc
  cases ha : i.arg with
  | none => rfl
  | some a => simp only [argIn, ha, reduceCtorEq, false_or] at h; simp [evX, h]

theorem hInit_evX {inS : Arg → Bool} {i : Info} (h : i.arg = none ∨ argIn inS i = true) (r : R) :
    hInit (evX ev inS) r i = hInit ev r i := by
  unfold hInit
  simp only [argCell_evX h, countInc_evX h]

theorem hUpdate_evX {inS : Arg → Bool} {i : Info} (h : i.arg = none ∨ argIn inS i = true) (r : R) (s : AState) :
    hUpdate (evX ev inS) r i s = hUpdate ev r i s := by
  unfold hUpdate
  simp only [argCell_evX h, countInc_evX h]

theorem hUpdateAvg_evX {inS : Arg → Bool} {i : Info} (h : i.arg = none ∨ argIn inS i = true) (ss : List AState) (r : R)
    (s : AState) : hUpdateAvg (evX ev inS) aggs ss r i s = hUpdateAvg ev aggs ss r i s := by
  unfold hUpdateAvg
  simp only [argCell_evX h]

/-- The running count of an AVG depends only on the entries with the same argument. -/
theorem cntOfAvg_congr {i : Info} {a : Arg} (hg : Agg.avg a ∈ aggs) (ha : i.arg = some a) {f f' : Info → AState}
    (h : ∀ j ∈ infos aggs, j.arg = some a → j.fn = .count → f j = f' j) :
    cntOfAvg aggs i ((infos aggs).map f) = cntOfAvg aggs i ((infos aggs).map f') := by
  have h1 := cntInfo_mem hg
  have h2 := cntInfo_fn aggs a
  simp only [cntOfAvg, ha, cntDbl, ← cntInfo_id aggs a]
  rw [getSt_infos f h1, getSt_infos f' h1, h _ h1 h2.2 h2.1]

/-- One row in one phase: the entries that are bound take the row into account, the others do not change. -/
theorem gUpdateAll_eq {bound : Info → Bool} {inS : Arg → Bool} {r : R} {rs : List R} (f : Info → AState)
    (hb : ∀ i, bound i = true → i.arg = none ∨ argIn inS i = true)
    (hbc : ∀ i j : Info, i.arg = j.arg → bound i = bound j)
    (hok : RowOk (evX ev inS) aggs r) (ok : ∀ r ∈ rs, RowOk (evX ev inS) aggs r) (hlen : rs.length + 1 < 2 ^ 63)
    (hf : ∀ i ∈ infos aggs, bound i = true → f i = oT (evX ev inS) rs i) :
    gUpdateAll bound ev aggs r ((infos aggs).map f) =
      (infos aggs).map fun i => if bound i then oT (evX ev inS) (rs ++ [r]) i else f i := by
  simp only [gUpdateAll, zipWith_map_self]
  have hlen' : (ext none rs r).length < 2 ^ 63 := by rw [ext_acc rfl]; simpa using hlen
  apply List.map_congr_left
  intro i hi
  have hupd : ∀ j ∈ infos aggs, bound j = true → j.fn ≠ .avg →
      gUpdate bound ev r j (f j) = oT (evX ev inS) (rs ++ [r]) j := by
    intro j hj hbj hja
    simp only [gUpdate, hbj, if_true]
    rw [hf j hj hbj, ← hUpdate_evX (hb j hbj), hUpdate_eq, oUpdate_eq hj hok ok hja, ext_acc rfl]
  cases hbi : bound i with
  | false => simp [gUpdateAvg, gUpdate, hbi]
  | true =>
    simp only [if_true]
    by_cases ha : i.fn = .avg
    · have hsame : gUpdate bound ev r i (f i) = f i := by
        simp only [gUpdate, hbi, if_true, hUpdate, ha]
      rw [hsame]
      simp only [gUpdateAvg, hbi, if_true]
      obtain ⟨a, hg, hie⟩ := avg_form hi ha
      have harg : i.arg = some a := by rw [hie]; rfl
      rw [← hUpdateAvg_evX (hb i hbi), hUpdateAvg_eq]
      have hcnt : oUpdateAvg (evX ev inS) aggs ((infos aggs).map fun i => gUpdate bound ev r i (f i)) none r i (f i) =
          oUpdateAvg (evX ev inS) aggs ((infos aggs).map (oT (evX ev inS) (rs ++ [r]))) none r i (f i) := by
        simp only [oUpdateAvg, ha]
        rw [cntOfAvg_congr hg harg]
        intro j hj hja hjc
        exact hupd j hj (by rw [hbc j i (by rw [hja, harg]), hbi]) (by simp [hjc])
      rw [hcnt, hf i hi hbi]
      have e : rs ++ [r] = ext none rs r := (ext_acc rfl).symm
      rw [e]
      refine AState.eq (oUpdateAvg_v hi hok ok ha _ hlen' (by intro h; simp [accepted] at h) (fun j _ _ => rfl) _) ?_
      simp only [oUpdateAvg, ha]
      exact comb_null_o _ _
    · rw [hupd i hi hbi ha]
      simp only [gUpdateAvg, hbi, if_true]
      cases hfn : i.fn <;> simp_all [hUpdateAvg]

end

section
variable {B P V : Type} {evB : Arg → B → Option Val} {evP : Arg → P → Option Val} {inB inP : Arg → Bool} {aggs : List Agg}

/-- The arguments are columns of exactly one of the two relations. -/
def Partitioned (inB inP : Arg → Bool) (aggs : List Agg) : Prop := ∀ g ∈ aggs, ∀ a, g.arg = some a → inP a = !inB a

/-- The state of an entry after the rows `bs` of the build relation and `ps` of the probe relation. -/
def gT (evB : Arg → B → Option Val) (evP : Arg → P → Option Val) (inB inP : Arg → Bool) (bs : List B) (ps : List P)
    (i : Info) : AState :=
  if boundB inB i then oT (evX evB inB) bs i else oT (evX evP inP) ps i

theorem boundB_spec (i : Info) (h : boundB inB i = true) : i.arg = none ∨ argIn inB i = true := by
  simpa [boundB] using h

theorem boundB_congr (i j : Info) (h : i.arg = j.arg) : boundB inB i = boundB inB j := by simp [boundB, argIn, h]

theorem argIn_congr (inS : Arg → Bool) (i j : Info) (h : i.arg = j.arg) : argIn inS i = argIn inS j := by simp [argIn, h]

theorem bound_flip (hp : Partitioned inB inP aggs) {i : Info} (hi : i ∈ infos aggs) : argIn inP i = !boundB inB i := by
  unfold argIn boundB
  cases ha : i.arg with
  | none => simp
  | some a =>
    obtain ⟨g, hg, hga⟩ := info_arg hi ha
    simp [argIn, ha, hp g hg a hga]

theorem info_arg_none {i : Info} (hi : i ∈ infos aggs) (h : i.arg = none) : i.fn = .count := by
  by_contra hc
  obtain ⟨a, ha⟩ := info_arg_some hi hc
  rw [ha] at h; cases h

theorem gInit_eq {b : B} {i : Info} (hi : i ∈ infos aggs) (hok : RowOk (evX evB inB) aggs b) :
    gInit evB inB b i = gT evB evP inB inP [b] ([] : List P) i := by
  unfold gInit gT
  cases ha : i.arg with
  | none =>
    have hb : boundB inB i = true := by simp [boundB, ha]
    have hf := info_arg_none hi ha
    rw [if_pos hb, ← hInit_eq hi hok]
    simp [hInit, hf, countInc, ha]
  | some a =>
    simp only
    cases hin : inB a with
    | true =>
      have hb : boundB inB i = true := by simp [boundB, argIn, ha, hin]
      rw [if_pos hb, if_pos rfl, ← hInit_eq hi hok, hInit_evX (boundB_spec i hb)]
    | false =>
      have hb : ¬ boundB inB i = true := by simp [boundB, argIn, ha, hin]
      rw [if_neg hb, if_neg (by simp)]
      exact oInit_eq hi

theorem gT_build {b : B} {bs : List B} {ps : List P} (hok : RowOk (evX evB inB) aggs b)
    (ok : ∀ r ∈ bs, RowOk (evX evB inB) aggs r) (hlen : bs.length + 1 < 2 ^ 63) :
    gUpdateAll (boundB inB) evB aggs b ((infos aggs).map (gT evB evP inB inP bs ps)) =
      (infos aggs).map (gT evB evP inB inP (bs ++ [b]) ps) := by
  rw [gUpdateAll_eq _ boundB_spec boundB_congr hok ok hlen (fun i _ h => by simp [gT, h])]
  apply List.map_congr_left
  intro i _
  by_cases h : boundB inB i = true <;> simp [gT, h]

theorem gT_probe (hpt : Partitioned inB inP aggs) {p : P} {bs : List B} {ps : List P} (hok : RowOk (evX evP inP) aggs p)
    (ok : ∀ r ∈ ps, RowOk (evX evP inP) aggs r) (hlen : ps.length + 1 < 2 ^ 63) :
    gUpdateAll (argIn inP) evP aggs p ((infos aggs).map (gT evB evP inB inP bs ps)) =
      (infos aggs).map (gT evB evP inB inP bs (ps ++ [p])) := by
  rw [gUpdateAll_eq _ (fun i h => .inr h) (argIn_congr inP) hok ok hlen (fun i hi h => by
    rw [bound_flip hpt hi] at h
    simp at h
    simp [gT, h])]
  apply List.map_congr_left
  intro i hi
  rw [bound_flip hpt hi]
  by_cases h : boundB inB i = true <;> simp [gT, h]

/-! ### The hash table -/

variable [DecidableEq V]

/-- The entry of the key `k`. -/
def entryOf (evB : Arg → B → Option Val) (evP : Arg → P → Option Val) (inB inP : Arg → Bool) (aggs : List Agg)
    (bkey : B → List (Option V)) (pkey : P → List (Option V)) (bs : List B) (ps : List P) (k : List (Option V)) : Entry V :=
  ⟨k, (infos aggs).map (gT evB evP inB inP (bs.filter fun b => bkey b = k) (ps.filter fun p => pkey p = k)),
    if needsBuildCounter inP aggs then some ((bs.filter fun b => bkey b = k).length : Int) else none,
    ((ps.filter fun p => pkey p = k).length : Int)⟩

theorem gPut_map (k : List (Option V)) (b : B) : ∀ (ks : List (List (Option V))), ks.Nodup → ∀ S : List (Option V) → Entry V,
    (∀ k, (S k).key = k) →
    gPut evB inB inP aggs k b (ks.map S) =
      if k ∈ ks then ks.map fun k' => if k' = k then gUpdB evB inB aggs b (S k') else S k'
      else ks.map S ++ [gNew evB inB inP aggs k b] := by
  intro ks
  induction ks with
  | nil => intro _ S _; simp [gPut]
  | cons k0 ks ih =>
    intro hnd S hS
    obtain ⟨h1, h2⟩ := List.nodup_cons.1 hnd
    simp only [List.map_cons, gPut, hS]
    by_cases hk : k0 = k
    · subst hk
      simp only [if_true, List.mem_cons, true_or]
      congr 1
      apply List.map_congr_left
      intro k' hk'
      have : k' ≠ k0 := by rintro rfl; exact h1 hk'
      simp [this]
    · have hk' : k ≠ k0 := fun h => hk h.symm
      simp only [hk, if_false, List.mem_cons, hk', false_or]
      rw [ih h2 S hS]
      split <;> simp

theorem gFind_map (k : List (Option V)) (p : P) : ∀ (ks : List (List (Option V))), ks.Nodup → ∀ S : List (Option V) → Entry V,
    (∀ k, (S k).key = k) →
    gFind evP inP aggs k p (ks.map S) = ks.map fun k' => if k' = k then gUpdP evP inP aggs p (S k') else S k' := by
  intro ks
  induction ks with
  | nil => intro _ S _; simp [gFind]
  | cons k0 ks ih =>
    intro hnd S hS
    obtain ⟨h1, h2⟩ := List.nodup_cons.1 hnd
    simp only [List.map_cons, gFind, hS]
    by_cases hk : k0 = k
    · subst hk
      simp only [if_true]
      congr 1
      apply List.map_congr_left
      intro k' hk'
      have : k' ≠ k0 := by rintro rfl; exact h1 hk'
      simp [this]
    · simp only [hk, if_false]
      rw [ih h2 S hS]

variable {bkey : B → List (Option V)} {pkey : P → List (Option V)}

/-- The keys in the hash table: those of qualifying rows without NULL. -/
def IsKeys (bkey : B → List (Option V)) (bs : List B) (ks : List (List (Option V))) : Prop :=
  ks.Nodup ∧ ∀ k, k ∈ ks ↔ (k.all Option.isSome = true ∧ ∃ b ∈ bs, bkey b = k)

theorem wrap_succ {n : Nat} (h : n < 2 ^ 62) : wrap 64 ((n : Int) + 1) = ((n + 1 : Nat) : Int) := by
  have : ((n : Int) + 1) = ((n + 1 : Nat) : Int) := by push_cast; rfl
  rw [this]
  exact wrap_nat (by omega)

theorem build_inv : ∀ (build : List (Option Bool × B)), (∀ b ∈ rowsOf build, RowOk (evX evB inB) aggs b) →
    (rowsOf build).length < 2 ^ 62 →
    ∃ ks, IsKeys bkey (rowsOf build) ks ∧
      build.foldl (gBuildRow evB inB inP bkey aggs) [] =
        ks.map (entryOf evB evP inB inP aggs bkey pkey (rowsOf build) []) := by
  intro build
  induction build using List.reverseRecOn with
  | nil => intro _ _; exact ⟨[], ⟨by simp, by simp [rowsOf]⟩, rfl⟩
  | append_singleton build x ih =>
    intro ok hlen
    rw [rowsOf_snoc] at ok hlen ⊢
    rw [List.foldl_append, List.foldl_cons, List.foldl_nil]
    cases ha : accepted x.1 with
    | false =>
      rw [ext_rej ha] at ok hlen ⊢
      obtain ⟨ks, h1, h2⟩ := ih ok hlen
      exact ⟨ks, h1, by rw [h2]; simp [gBuildRow, ha]⟩
    | true =>
      rw [ext_acc ha] at ok hlen ⊢
      have okr : ∀ r ∈ rowsOf build, RowOk (evX evB inB) aggs r := fun r hr => ok r (by simp [hr])
      have okx : RowOk (evX evB inB) aggs x.2 := ok x.2 (by simp)
      obtain ⟨ks, ⟨h1, h2⟩, h3⟩ := ih okr (by simp at hlen; omega)
      rw [h3]
      simp only [gBuildRow, ha, if_true]
      by_cases hnn : (bkey x.2).all Option.isSome = true
      · rw [if_pos hnn, gPut_map _ _ ks h1 _ (fun _ => rfl)]
        by_cases hk : bkey x.2 ∈ ks
        · refine ⟨ks, ⟨h1, ?_⟩, ?_⟩
          · intro k
            rw [h2 k]
            constructor
            · rintro ⟨h0, r, hr, e⟩; exact ⟨h0, r, by simp [hr], e⟩
            · rintro ⟨h0, r, hr, e⟩
              rcases List.mem_append.1 hr with hr | hr
              · exact ⟨h0, r, hr, e⟩
              · simp only [List.mem_singleton] at hr
                subst hr; subst e
                exact (h2 _).1 hk
          · rw [if_pos hk]
            apply List.map_congr_left
            intro k _
            have hfl : ((rowsOf build).filter fun r => decide (bkey r = k)).length < 2 ^ 62 := by
              have := List.length_filter_le (fun r => decide (bkey r = k)) (rowsOf build)
              simp only [List.length_append, List.length_singleton] at hlen
              omega
            by_cases hkk : k = bkey x.2
            · subst hkk
              simp only [if_true, gUpdB, entryOf]
              rw [gT_build okx (fun r hr => okr r (List.mem_of_mem_filter hr)) (by omega)]
              rw [List.filter_append]
              simp only [List.filter_cons, decide_true, if_true, List.filter_nil, List.length_append,
                List.length_singleton]
              congr 1
              split
              · simp only [Option.map_some, Option.some.injEq]
                rw [show (((rowsOf build).filter fun b => decide (bkey b = bkey x.2)).length : Int) + 1 =
                  (((rowsOf build).filter fun b => decide (bkey b = bkey x.2)).length + 1 : Nat) by push_cast; rfl]
                exact wrap_nat (by omega)
              · rfl
            · have hkk' : bkey x.2 ≠ k := fun h => hkk h.symm
              simp [hkk, hkk', List.filter_append, entryOf]
        · refine ⟨ks ++ [bkey x.2], ⟨?_, ?_⟩, ?_⟩
          · rw [List.nodup_append]
            refine ⟨h1, by simp, ?_⟩
            intro a ha b hb hab
            simp only [List.mem_singleton] at hb
            subst hb; subst hab; exact hk ha
          · intro k
            rw [List.mem_append, h2 k]
            constructor
            · rintro (⟨h0, r, hr, e⟩ | hr)
              · exact ⟨h0, r, by simp [hr], e⟩
              · simp only [List.mem_singleton] at hr
                exact ⟨by rw [hr]; exact hnn, x.2, by simp, hr.symm⟩
            · rintro ⟨h0, r, hr, e⟩
              rcases List.mem_append.1 hr with hr | hr
              · exact .inl ⟨h0, r, hr, e⟩
              · simp only [List.mem_singleton] at hr
                subst hr; subst e
                right; simp
          · rw [if_neg hk, List.map_append]
            congr 1
            · apply List.map_congr_left
              intro k hkm
              have hkk' : bkey x.2 ≠ k := by rintro rfl; exact hk hkm
              simp [hkk', List.filter_append, entryOf]
            · simp only [List.map_cons, List.map_nil, List.cons.injEq, and_true]
              have hnone : (rowsOf build).filter (fun r => decide (bkey r = bkey x.2)) = [] := by
                rw [List.filter_eq_nil_iff]
                intro r hr
                have : bkey x.2 ≠ bkey r := fun h => hk ((h2 _).2 ⟨hnn, r, hr, h.symm⟩)
                simpa using fun h => this h.symm
              simp only [gNew, entryOf]
              rw [List.filter_append, hnone]
              simp only [List.filter_cons, decide_true, if_true, List.filter_nil, List.nil_append, List.length_singleton,
                List.length_nil]
              congr 1
              apply List.map_congr_left
              intro i hi
              exact gInit_eq hi okx
      · rw [if_neg hnn]
        refine ⟨ks, ⟨h1, ?_⟩, ?_⟩
        · intro k
          rw [h2 k]
          constructor
          · rintro ⟨h0, r, hr, e⟩; exact ⟨h0, r, by simp [hr], e⟩
          · rintro ⟨h0, r, hr, e⟩
            rcases List.mem_append.1 hr with hr | hr
            · exact ⟨h0, r, hr, e⟩
            · simp only [List.mem_singleton] at hr
              subst hr; subst e
              exact absurd h0 hnn
        · apply List.map_congr_left
          intro k hkm
          have hkk' : bkey x.2 ≠ k := by
            rintro rfl
            exact hnn ((h2 _).1 hkm).1
          simp [hkk', List.filter_append, entryOf]

theorem probe_inv (hpt : Partitioned inB inP aggs) (bs : List B) (ks : List (List (Option V))) (hks : ks.Nodup) :
    ∀ (probe : List (Option Bool × P)), (∀ p ∈ probe.map Prod.snd, RowOk (evX evP inP) aggs p) →
    probe.length < 2 ^ 62 →
      probe.foldl (gProbeRow evP inP pkey aggs) (ks.map (entryOf evB evP inB inP aggs bkey pkey bs [])) =
        ks.map (entryOf evB evP inB inP aggs bkey pkey bs (probe.map Prod.snd)) := by
  intro probe
  induction probe using List.reverseRecOn with
  | nil => intro _ _; rfl
  | append_singleton probe x ih =>
    intro ok hlen
    rw [List.foldl_append, List.foldl_cons, List.foldl_nil]
    rw [List.map_append] at ok ⊢
    have okr : ∀ r ∈ probe.map Prod.snd, RowOk (evX evP inP) aggs r := fun r hr => ok r (by simp only [List.mem_append]; exact .inl hr)
    have okx : RowOk (evX evP inP) aggs x.2 := ok x.2 (by simp)
    rw [ih okr (by simp at hlen; omega)]
    simp only [gProbeRow]
    rw [gFind_map _ _ ks hks _ (fun _ => rfl)]
    apply List.map_congr_left
    intro k _
    have hfl : ((probe.map Prod.snd).filter fun r => decide (pkey r = k)).length < 2 ^ 62 := by
      have := List.length_filter_le (fun r => decide (pkey r = k)) (probe.map Prod.snd)
      simp only [List.length_append, List.length_singleton, List.length_map] at hlen this
      omega
    by_cases hkk : k = pkey x.2
    · subst hkk
      simp only [if_true, gUpdP, entryOf]
      rw [gT_probe hpt okx (fun r hr => okr r (List.mem_of_mem_filter hr)) (by omega)]
      rw [List.filter_append]
      simp only [List.map_cons, List.map_nil, List.filter_cons, decide_true, if_true, List.filter_nil, List.length_append,
        List.length_singleton]
      rw [wrap_succ hfl]
    · have hkk' : pkey x.2 ≠ k := fun h => hkk h.symm
      simp [hkk, hkk', List.filter_append, entryOf]

end

end Mutable.WasmJoin
