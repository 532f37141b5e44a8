import Verif.WasmBuffer.Model
import Verif.WasmLayout.Factory
import Verif.WasmLayout.SimdProps
/-
Point stores and swaps.
-/
namespace Mutable.WLayout

theorem foldSet_ok {c : Cfg} {row : Row} {nb : Nat} {w : Mem → Nat → Mem}
    (hw : ∀ m i a, bitAt (w m i) a = if a = nb + i then row.null i else bitAt m a) :
    ∀ (is : List Nat) (m : Mem), is.Nodup →
    let r := is.foldl (fun m i => if c.nullable i then w m i else m) m
    (∀ k ∈ is, c.nullable k = true → bitAt r (nb + k) = row.null k) ∧
    (∀ a, (¬ ∃ k ∈ is, c.nullable k = true ∧ a = nb + k) → bitAt r a = bitAt m a)
  | [], m, _ => ⟨by simp, fun _ _ => rfl⟩
  | i :: is, m, hn => by
    rw [List.nodup_cons] at hn
    simp only [List.foldl_cons]
    by_cases hc : c.nullable i = true
    · rw [if_pos hc]
      obtain ⟨r1, r2⟩ := foldSet_ok (c := c) (row := row) hw is (w m i) hn.2
      refine ⟨fun k hk hkn => ?_, fun a ha => ?_⟩
      · rcases List.mem_cons.mp hk with rfl | hk
        · rw [r2 (nb + k) (fun ⟨k', hk', _, e⟩ => hn.1 ((show k = k' by omega) ▸ hk')), hw, if_pos rfl]
        · exact r1 k hk hkn
      · rw [r2 a (fun ⟨k', hk', h1, e⟩ => ha ⟨k', by simp [hk'], h1, e⟩), hw, if_neg (fun e => ha ⟨i, by simp, hc, e⟩)]
    · rw [if_neg hc]
      obtain ⟨r1, r2⟩ := foldSet_ok (c := c) (row := row) hw is m hn.2
      refine ⟨fun k hk hkn => ?_, fun a ha => r2 a (fun ⟨k', hk', h1, e⟩ => ha ⟨k', by simp [hk'], h1, e⟩)⟩
      rcases List.mem_cons.mp hk with rfl | hk
      · exact absurd hkn hc
      · exact r1 k hk hkn

/-- Setting bit `k` behind the first bit of a leaf. -/
theorem point_setbit {c : Cfg} {g : Group} (hok : g.OK c.sch) (f : Leaf) (m : Mem) (base t k : Nat) (v : Bool) (a : Nat) :
    bitAt (setbit m (((base : Int) + (g.ioff / 8 + addInode g.levels t : Nat)) + ((f.off + lvIter g.levels t * f.stride) >>> 3 : Nat) +
      ((((f.off + lvIter g.levels t * f.stride) &&& 7) + k) >>> 3 : Nat)) v (1#8 <<< ((((f.off + lvIter g.levels t * f.stride) &&& 7) + k) &&& 7))) a =
      if a = g.at base t f.stride f.off + k then v else bitAt m a := by
  have hA := addInode_eq g.levels hok.strides t
  have hI := hok.ioff
  have e7 : ∀ x, x &&& 7 = x % 8 := fun x => Nat.and_two_pow_sub_one_eq_mod x 3
  rw [e7, e7, Nat.shiftRight_eq_div_pow, Nat.shiftRight_eq_div_pow]
  unfold Group.at pos
  generalize lvIter g.levels t * f.stride = q
  have h1 : ((base : Int) + (g.ioff / 8 + addInode g.levels t : Nat)) + ((f.off + q) / 2 ^ 3 : Nat) + (((f.off + q) % 8 + k) / 2 ^ 3 : Nat) =
      ((8 * base + g.ioff + (lvAddr g.levels t + q) + f.off + k) / 8 : Nat) := by omega
  rw [h1, setbit_bitAt _ _ _ (Nat.mod_lt _ (by omega))]
  have h2 : 8 * ((8 * base + g.ioff + (lvAddr g.levels t + q) + f.off + k) / 8) + ((f.off + q) % 8 + k) % 8 =
      8 * base + g.ioff + (lvAddr g.levels t + q) + f.off + k := by omega
  rw [h2]

theorem static_ptr {c : Cfg} {lay : Kids} {base t : Nat} {g : Group} {lv : Level} {ups : List Level} (H : GHyp c lay base g lv ups)
    {f : Leaf} (hf : f ∈ g.leaves) (hs : f.stride % 8 = 0) :
    ((base : Int) + (g.ioff / 8 + addInode g.levels t : Nat) + byteOff 0 (inodeIter g.levels t) f) = (g.at base t f.stride 0 / 8 : Nat) := by
  have h0 := congrArg Prod.fst (init_static H.ok H.levels H.chain1 hf hs base t 0)
  simp only at h0
  have : ((base : Int) + (g.ioff / 8 + addInode g.levels t : Nat) + byteOff 0 (inodeIter g.levels t) f) =
      (base : Int) + byteOff (g.ioff / 8 + addInode g.levels t) (inodeIter g.levels t) f := by
    unfold byteOff
    split
    · split
      · push_cast; ring
      · push_cast; ring
    · push_cast; ring
  rw [this, h0, slotVal_static g base 0 t hs]

/-- The indices a point store writes. -/
def needIdx (c : Cfg) (fs : List Leaf) : List Nat :=
  (fs.map (·.idx)).filter (fun i => (i == c.sch.length && c.needsNull) || (i != c.sch.length && c.ents.contains i))

theorem mem_needIdx {c : Cfg} {fs : List Leaf} {i : Nat} : i ∈ needIdx c fs ↔ ∃ f ∈ fs, f.idx = i ∧ c.needs f := by
  simp only [needIdx, List.mem_filter, List.mem_map, Bool.or_eq_true, Bool.and_eq_true, beq_iff_eq, bne_iff_ne, List.contains_iff_mem,
    Cfg.needs]
  constructor
  · rintro ⟨⟨f, hf, rfl⟩, h⟩; exact ⟨f, hf, rfl, h⟩
  · rintro ⟨f, hf, rfl, h⟩; exact ⟨⟨f, hf, rfl⟩, h⟩

theorem pstoreLeaf_ok {c : Cfg} {lay : Kids} {base t : Nat} {g : Group} {lv : Level} {ups : List Level} {row : Row} (S : SHyp c lay base)
    (H : GHyp c lay base g lv ups) (hty : row.Typed c) {f : Leaf} (hf : f ∈ g.leaves) (m : Mem) :
    Effs c lay base t true row (needIdx c [f]) m
      (pstoreLeaf c row ((base : Int) + (g.ioff / 8 + addInode g.levels t : Nat)) (inodeIter g.levels t) f m) := by
  have hit := iter_getD H.levels H.chain1 t
  have hlk := H.lookup f hf t
  unfold pstoreLeaf
  simp only [hit]
  by_cases hi : f.idx = c.sch.length
  · rw [if_pos hi]
    by_cases hnn : c.needsNull = true
    · rw [if_pos hnn]
      have hD : needIdx c [f] = [f.idx] := by simp [needIdx, hi, hnn]
      rw [hD]
      have fin : ∀ r : Mem, ((∀ k ∈ c.ents, c.nullable k = true → bitAt r (g.at base t f.stride f.off + k) = row.null k) ∧
          (∀ a, (¬ ∃ k ∈ c.ents, c.nullable k = true ∧ a = g.at base t f.stride f.off + k) → bitAt r a = bitAt m a)) →
          Effs c lay base t true row [f.idx] m r := by
        rintro r ⟨r1, r2⟩
        refine ⟨fun j hj _ => ?_, fun a ha => r2 a (fun ⟨k, hk, hn, e⟩ => ha ⟨f.idx, by simp, _, hlk, ?_⟩)⟩
        · simp only [List.mem_singleton] at hj
          subst hj
          refine ⟨_, hlk, ?_⟩
          rw [if_pos hi]
          exact r1
        · rw [if_pos hi, if_pos rfl]
          exact ⟨k, hk, hn, e⟩
      by_cases hs : f.stride % 8 ≠ 0
      · rw [if_pos hs]
        exact fin _ (foldSet_ok (fun m i a => point_setbit H.ok f m base t i (row.null i) a) c.ents m S.nodup)
      · rw [if_neg hs]
        simp only [ne_eq, not_not] at hs
        rw [static_ptr H hf hs]
        exact fin _ (storeNullStat_ok (at_mod H.ok hs base t) (at_off g base t f.stride f.off) c.ents m S.nodup)
    · rw [if_neg hnn]
      have hD : needIdx c [f] = [] := by simp [needIdx, hi, hnn]
      rw [hD]
      exact Effs.nil c lay base t true row m
  · rw [if_neg hi]
    by_cases hen : f.idx ∈ c.ents
    · rw [if_pos hen]
      have hD : needIdx c [f] = [f.idx] := by simp [needIdx, hi, hen]
      rw [hD]
      by_cases hs : f.stride % 8 ≠ 0
      · rw [if_pos hs]
        have hb := ty_of_dyn H.ok S.ents hf hen hs
        have ht := hty f.idx hen
        rw [hb] at ht
        cases hval : row.val f.idx with
        | bit b =>
          simp only
          have pb : ∀ a, bitAt (setbit m (((base : Int) + (g.ioff / 8 + addInode g.levels t : Nat)) + ((f.off + lvIter g.levels t * f.stride) >>> 3 : Nat))
              b (1#8 <<< ((f.off + lvIter g.levels t * f.stride) &&& 7))) a = if a = g.at base t f.stride f.off then b else bitAt m a := by
            intro a
            have pb := point_setbit H.ok f m base t 0 b a
            have e7 : ∀ x, x &&& 7 = x % 8 := fun x => Nat.and_two_pow_sub_one_eq_mod x 3
            simp only [Nat.add_zero, e7, Nat.mod_mod] at pb
            have z : ((f.off + lvIter g.levels t * f.stride) % 8) >>> 3 = 0 := by rw [Nat.shiftRight_eq_div_pow]; omega
            rw [z] at pb
            simp only [Int.natCast_zero, Int.add_zero] at pb
            rw [e7, pb]
          refine ⟨fun j hj _ => ?_, fun a ha => ?_⟩
          · simp only [List.mem_singleton] at hj
            subst hj
            refine ⟨_, hlk, ?_⟩
            rw [if_neg hi]
            right
            rw [hb, hval]
            simp only [cellAt, norm, pb, if_true]
          · rw [pb, if_neg]
            rintro rfl
            refine ha ⟨f.idx, by simp, _, hlk, ?_⟩
            rw [if_neg hi, width_eq (S.ents _ hen), hb]
            simp [Ty.bits]
        | num _ => rw [hval] at ht; exact ht.elim
        | str _ => rw [hval] at ht; exact ht.elim
      · rw [if_neg hs]
        simp only [ne_eq, not_not] at hs
        obtain ⟨e1, e2⟩ := addr_static H.ok hs base t f.off
        have e3 : ((base : Int) + (g.ioff / 8 + addInode g.levels t : Nat) + byteOff 0 (inodeIter g.levels t) f) + (f.off / 8 : Nat) =
            (g.at base t f.stride f.off / 8 : Nat) := by rw [static_ptr H hf hs]; omega
        rw [e3]
        have Q := storeStat_ok (c := c) (row := row) (f := f) (b := g.at base t f.stride f.off) hty hen
          (fun h => S.aligned f.idx (S.ents _ hen) t _ hlk h) e2 m
        simp only at Q
        obtain ⟨q1, q2⟩ := Q
        refine ⟨fun j hj _ => ?_, fun x hx => q2 x ?_⟩
        · simp only [List.mem_singleton] at hj
          subst hj
          refine ⟨_, hlk, ?_⟩
          rw [if_neg hi]
          exact q1
        · intro hlt
          refine hx ⟨f.idx, by simp, _, hlk, ?_⟩
          rw [if_neg hi, width_eq (S.ents _ hen)]
          exact hlt
    · rw [if_neg hen]
      have hD : needIdx c [f] = [] := by simp [needIdx, hi, hen]
      rw [hD]
      exact Effs.nil c lay base t true row m

theorem needIdx_le {c : Cfg} (hents : c.EntsOK) {fs : List Leaf} {i : Nat} (h : i ∈ needIdx c fs) : i ≤ c.sch.length := by
  obtain ⟨f, _, e, h'⟩ := mem_needIdx.mp h
  subst e
  rcases h' with ⟨h1, _⟩ | ⟨_, h1⟩
  · exact Nat.le_of_eq h1
  · exact Nat.le_of_lt (hents _ h1)

theorem pstoreLeaves_ok {c : Cfg} {lay : Kids} {base t : Nat} {g : Group} {lv : Level} {ups : List Level} {row : Row} (S : SHyp c lay base)
    (H : GHyp c lay base g lv ups) (hty : row.Typed c) : ∀ (fs : List Leaf), (∀ f ∈ fs, f ∈ g.leaves) → (fs.map (·.idx)).Nodup → ∀ (m : Mem),
    Effs c lay base t true row (needIdx c fs) m
      (fs.foldl (fun m f => pstoreLeaf c row ((base : Int) + (g.ioff / 8 + addInode g.levels t : Nat)) (inodeIter g.levels t) f m) m)
  | [], _, _, m => Effs.nil c lay base t true row m
  | f :: fs, hm, hn, m => by
    simp only [List.map_cons, List.nodup_cons] at hn
    have h1 := pstoreLeaf_ok (t := t) S H hty (hm f (by simp)) m
    have h2 := pstoreLeaves_ok (t := t) S H hty fs (fun x hx => hm x (by simp [hx])) hn.2
      (pstoreLeaf c row ((base : Int) + (g.ioff / 8 + addInode g.levels t : Nat)) (inodeIter g.levels t) f m)
    have eq1 : needIdx c (f :: fs) = needIdx c [f] ++ needIdx c fs := by
      unfold needIdx; rw [← List.filter_append]; rfl
    rw [eq1, List.foldl_cons]
    refine Effs.append S.aligned (fun i j a hij => S.sep t t i j a true true (Or.inl hij)) (fun i hi => needIdx_le S.ents hi)
      (fun i hi hi' => ?_) h1 h2
    obtain ⟨x, hx, rfl, _⟩ := mem_needIdx.mp hi
    obtain ⟨y, hy, e, _⟩ := mem_needIdx.mp hi'
    simp only [List.mem_singleton] at hx
    subst hx
    exact hn.1 (e ▸ List.mem_map.mpr ⟨y, hy, rfl⟩)

theorem storePoint_groups {c : Cfg} {lay : Kids} {base t : Nat} {row : Row} (S : SHyp c lay base) (hty : row.Typed c) :
    ∀ (gs : List Group), (∀ g ∈ gs, ∃ lv ups, GHyp c lay base g lv ups) → (gs.flatMap (fun g => g.leaves.map (·.idx))).Nodup → ∀ (m : Mem),
    Effs c lay base t true row (gs.flatMap (fun g => needIdx c g.leaves)) m (gs.foldl (fun m g => pstoreGroup c row base t g m) m)
  | [], _, _, m => Effs.nil c lay base t true row m
  | g :: gs, hH, hn, m => by
    simp only [List.flatMap_cons] at hn
    rw [List.nodup_append] at hn
    obtain ⟨lv, ups, H⟩ := hH g (by simp)
    have h1 := pstoreLeaves_ok (t := t) S H hty g.leaves (fun _ h => h) hn.1 m
    have h2 := storePoint_groups (t := t) S hty gs (fun x hx => hH x (by simp [hx])) hn.2.1 (pstoreGroup c row base t g m)
    rw [List.flatMap_cons, List.foldl_cons]
    refine Effs.append S.aligned (fun i j a hij => S.sep t t i j a true true (Or.inl hij)) (fun i hi => needIdx_le S.ents hi)
      (fun i hi hi' => ?_) h1 h2
    obtain ⟨x, hx, rfl, _⟩ := mem_needIdx.mp hi
    obtain ⟨g', hg', hi'⟩ := List.mem_flatMap.mp hi'
    obtain ⟨y, hy, e, _⟩ := mem_needIdx.mp hi'
    exact hn.2.2 x.idx (List.mem_map.mpr ⟨x, hx, rfl⟩) x.idx (List.mem_flatMap.mpr ⟨g', hg', List.mem_map.mpr ⟨y, hy, e⟩⟩) rfl

/-- A point store writes its row and nothing else. -/
theorem storePoint_ok {c : Cfg} {lay : Kids} {base t : Nat} {row : Row} (S : SHyp c lay base)
    (hnd : (lay.groups.flatMap (fun g => g.leaves.map (·.idx))).Nodup) (hty : row.Typed c) (m : Mem) :
    (∀ i, Need c lay i → post c lay base t true row i (storePoint c lay row base t m)) ∧
    ∀ a, ¬ lay.InTuple c.sch base t a → bitAt (storePoint c lay row base t m) a = bitAt m a := by
  have h := storePoint_groups (t := t) S hty lay.groups S.groups hnd m
  refine ⟨fun i ⟨g, hg, f, hf, e, hn⟩ => h.1 i (List.mem_flatMap.mpr ⟨g, hg, mem_needIdx.mpr ⟨f, hf, e, hn⟩⟩), fun a ha => h.2 a ?_⟩
  rintro ⟨i, _, hfo⟩
  exact ha ((foot_iff S.ents).mp ⟨i, foot_mono S.ents hfo⟩)

/-! ### Rows depend on their bits -/

theorem rowAt_congr {c : Cfg} {lay : Kids} {base t : Nat} {m m' : Mem} (hal : Aligned c lay base) (hents : c.EntsOK)
    (h : ∀ a, lay.InTuple c.sch base t a → bitAt m' a = bitAt m a) :
    rowAt c.sch c.ents lay m' base t = rowAt c.sch c.ents lay m base t := by
  unfold rowAt
  refine mapM_congr (fun i hi => ?_)
  have hlt := hents i hi
  have hs : c.sch[i]? = some c.sch[i] := List.getElem?_eq_getElem hlt
  unfold valueAt
  rw [hs]
  cases hl : (lay.addrs (8 * base) t).lookup i with
  | none => rfl
  | some a =>
    have hty : c.ty i = c.sch[i].ty := by simp [Cfg.ty, hs]
    have hc : cellAt m' c.sch[i].ty a = cellAt m c.sch[i].ty a := by
      rw [← hty]
      refine cellAt_congr (hal i hlt t a hl) (fun x h1 h2 => h x ⟨i, a, hl, h1, ?_⟩)
      rw [width_eq hlt]; exact h2
    simp only [hc]
    cases hn : (lay.addrs (8 * base) t).lookup c.sch.length with
    | none => rfl
    | some nb =>
      have : bitAt m' (nb + i) = bitAt m (nb + i) := h _ ⟨c.sch.length, nb, hn, by omega, by rw [width_null]; omega⟩
      simp only [this]

/-- Rows of other tuples do not overlap. -/
theorem inTuple_sep {c : Cfg} {lay : Kids} {base t u a : Nat} (S : SHyp c lay base) (htu : t ≠ u) (h : lay.InTuple c.sch base t a) :
    ¬ lay.InTuple c.sch base u a := by
  intro h'
  obtain ⟨i, hi⟩ := (foot_iff S.ents).mpr h
  obtain ⟨j, hj⟩ := (foot_iff S.ents).mpr h'
  exact S.sep t u i j a false false (Or.inr htu) hi hj

/-! ### Loading rows for swaps -/

theorem norm_cellAt (m : Mem) (ty : Ty) (a : Nat) : norm ty (cellAt m ty a) = cellAt m ty a := by
  cases ty with
  | bool => rfl
  | num n => rfl
  | str n =>
    simp only [cellAt, norm]
    rw [List.takeWhile_takeWhile]
    have e : (fun a : Byte => decide ((a != 0#8) = true ∧ (a != 0#8) = true)) = (fun a : Byte => a != 0#8) := by
      funext a; cases a != 0#8 <;> rfl
    rw [e, List.take_of_length_le]
    exact le_trans (List.takeWhile_prefix _).length_le (by simp)

theorem loadRow_ok {c : Cfg} {lay : Kids} {base : Nat} (hv : lay.Valid c.sch) (hents : c.EntsOK) (h1 : c.lanes = 1)
    (hhas : ∀ i ∈ c.ents, lay.Has i) (m : Mem) (t : Nat) :
    rowAt c.sch c.ents lay m base t = some ((loadRow c lay m base t).stored c) ∧ (loadRow c lay m base t).OK c ∧
    ∀ i ∈ c.ents, norm (c.ty i) ((loadRow c lay m base t).val i) = (loadRow c lay m base t).val i := by
  obtain ⟨r1, _, r3, r4⟩ := pointGroups_ok (m := m) (t := t) hents lay.groups (hv.ghyp h1 base) Env.empty (EnvOK.empty c lay m base t)
  have hcomb := combine_ok hents (hasNull_iff hv.once base t) r1 (vals_complete hents r3) (nulls_complete r4)
  have hcell : ∀ i ∈ c.ents, ∃ a, (loadRow c lay m base t).val i = cellAt m (c.ty i) a := by
    intro i hi
    obtain ⟨a, ha⟩ := lookup_of_has (hhas i hi) (8 * base) t
    have hsome := vals_complete hents r3 i hi (by rw [ha]; rfl)
    obtain ⟨v, hv'⟩ := Option.isSome_iff_exists.mp hsome
    have := r1.1 i v hv'
    obtain ⟨a', _, e⟩ := this
    refine ⟨a', ?_⟩
    simp only [loadRow]
    rw [hv']
    exact e
  refine ⟨?_, ⟨fun i hi => ?_, fun i hi hn => ?_⟩, fun i hi => ?_⟩
  · rw [← hcomb]
    unfold combine Row.stored
    refine mapM_some (fun i hi => ?_)
    obtain ⟨a, ha⟩ := lookup_of_has (hhas i hi) (8 * base) t
    have hsome := vals_complete hents r3 i hi (by rw [ha]; rfl)
    obtain ⟨v, hv'⟩ := Option.isSome_iff_exists.mp hsome
    obtain ⟨a2, e2⟩ := hcell i hi
    have ev : (loadRow c lay m base t).val i = v := by simp only [loadRow]; rw [hv']; rfl
    have en : norm (c.ty i) ((loadRow c lay m base t).val i) = v := by rw [← ev, e2, norm_cellAt]
    rw [en, hv']
    by_cases hh : hasNull c lay && c.nullable i
    · have hh' := hh
      rw [Bool.and_eq_true] at hh'
      have hN : ∃ nb, (lay.addrs (8 * base) t).lookup c.sch.length = some nb := by
        have := (hasNull_iff hv.once base t).mp hh'.1
        exact Option.isSome_iff_exists.mp this.2
      obtain ⟨b, hb⟩ := Option.isSome_iff_exists.mp (nulls_complete r4 i hi hh'.2 (by obtain ⟨nb, e⟩ := hN; rw [e]; rfl))
      have enull : (loadRow c lay m base t).null i = b := by simp only [loadRow]; rw [hh, hb]; rfl
      rw [enull]
      simp only [hh, if_true, hb]
      rfl
    · have enull : (loadRow c lay m base t).null i = false := by
        simp only [loadRow]
        simp only [Bool.not_eq_true] at hh
        rw [hh]; rfl
      rw [enull]
      simp only [hh]
      rfl
  · obtain ⟨a, e⟩ := hcell i hi
    rw [e]
    cases c.ty i <;> simp [cellAt]
  · simp only [loadRow, Bool.and_eq_true] at hn
    exact hn.1.2
  · obtain ⟨a, e⟩ := hcell i hi
    rw [e, norm_cellAt]

theorem cpy_nul (n : Nat) (s : List Byte) : (cpy n s).takeWhile (· != 0#8) = (s.takeWhile (· != 0#8)).take n := by
  unfold cpy
  have hne : ∀ x ∈ s.takeWhile (· != 0#8), (x != 0#8) = true := fun x hx => List.mem_takeWhile_imp (p := fun x => x != 0#8) hx
  generalize s.takeWhile (· != 0#8) = q at hne ⊢
  induction q generalizing n with
  | nil => cases n <;> simp
  | cons x xs ih =>
    cases n with
    | zero => rfl
    | succ n =>
      have := ih n (fun y hy => hne y (by simp [hy]))
      simp only [List.cons_append, List.take_succ_cons, List.takeWhile_cons, hne x (by simp), if_true]
      rw [this]

theorem saveRow_ok {c : Cfg} {r : Row} (h : r.OK c) (hn : ∀ i ∈ c.ents, norm (c.ty i) (r.val i) = r.val i) :
    (saveRow c r).OK c ∧ (saveRow c r).stored c = r.stored c := by
  refine ⟨⟨fun i hi => ?_, fun i hi => h.2 i hi⟩, ?_⟩
  · have := h.1 i hi
    simp only [saveRow]
    cases ht : c.ty i with
    | bool => rw [ht] at this; exact this
    | num n => rw [ht] at this; exact this
    | str n =>
      rw [ht] at this
      cases hv : r.val i with
      | str s => by_cases hr : r.null i = true <;> simp [hr]
      | bit _ => rw [hv] at this; exact this.elim
      | num _ => rw [hv] at this; exact this.elim
  · unfold Row.stored
    refine List.map_congr_left (fun i hi => ?_)
    have h2 := hn i hi
    simp only [saveRow]
    by_cases hr : r.null i = true
    · simp only [hr, if_true]
    · simp only [hr, if_false, Option.some.injEq, Bool.false_eq_true]
      cases ht : c.ty i with
      | bool => rfl
      | num n => rfl
      | str n =>
        cases hv : r.val i with
        | str s =>
          rw [ht, hv] at h2
          simp only [norm, Cell.str.injEq] at h2
          simp only [cpy_nul, h2]
        | bit _ => rfl
        | num _ => rfl

end Mutable.WLayout
