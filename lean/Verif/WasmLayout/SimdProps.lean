import Verif.WasmLayout.Simd
/-
C64: a table scan delivers every row exactly once, in order, whether scalar or SIMDfied - and where it does not.
-/
namespace Mutable.WLayout

/-- What a scan of `n` rows should deliver. -/
def rows (c : Cfg) (lay : Kids) (m : Mem) (base n : Nat) : List (Option (List (Option Cell))) :=
  (List.range n).map (rowAt c.sch c.ents lay m base)

theorem scanLoop_ok {c : Cfg} {lay : Kids} {m : Mem} {base n : Nat} (hents : c.EntsOK) (ho : lay.Once)
    (hH : ∀ g ∈ lay.groups, ∃ lv ups, GHyp c lay base g lv ups) (hL : 0 < c.lanes) (hp : c.predicated = false)
    (hj : ∀ t ss, SInv c base 0 t 0 lay.groups ss → ∀ j < c.lanes, ∀ s ∈ ss, (nullLeaf s.accs).isSome = true → j = 0)
    (hval : ∀ t j, c.lanes ∣ t → j < c.lanes → ∀ (g : Group) (lv : Level) (ups : List Level) (s : GSt), g ∈ lay.groups →
      GHyp c lay base g lv ups → GInv c base (lvIter g.levels 0) t 0 g s →
      ∀ w : Vars, w.slots = s.vars.slots → ∀ a ∈ s.accs, AccVal c lay m j base (t + j) w a) :
    ∀ (fuel r t : Nat) (ss : List GSt), t + r = n → r ≤ fuel → c.lanes ∣ r → c.lanes ∣ t → SInv c base 0 t 0 lay.groups ss →
    scanLoop c lay m n fuel ⟨t, ss⟩ = (List.range r).map (fun i => rowAt c.sch c.ents lay m base (t + i))
  | 0, r, t, ss, _, hr, _, _, _ => by
    obtain rfl : r = 0 := by omega
    rfl
  | fuel + 1, r, t, ss, hn, hr, hdr, hdt, hs => by
    unfold scanLoop
    by_cases h0 : r = 0
    · subst h0
      rw [if_neg (by simp only; omega)]
      rfl
    · rw [if_pos (by simp only; omega)]
      have hLr : c.lanes ≤ r := Nat.le_of_dvd (by omega) hdr
      have st := fun j (h : j < c.lanes) => loadStep_ok (m := m) (j := j) hents ho hH hL hp hdt (hj t ss hs j h)
        (fun g lv ups s hg _ H I => hval t j hdt h g lv ups s hg H I) hs
      have s0 := st 0 hL
      have e : (loadStep c lay m 0 ⟨t, ss⟩).2 = ⟨t + c.lanes, (loadStep c lay m 0 ⟨t, ss⟩).2.gs⟩ := by
        rw [← s0.2.1]
      rw [e, scanLoop_ok hents ho hH hL hp hj hval fuel (r - c.lanes) (t + c.lanes) _ (by omega) (by omega)
        (Nat.dvd_sub hdr (dvd_refl _)) (Nat.dvd_add hdt (dvd_refl _)) s0.2.2]
      have er : r = c.lanes + (r - c.lanes) := by omega
      conv_rhs => rw [er, List.range_add, List.map_append, List.map_map]
      congr 1
      · exact List.map_congr_left (fun j hj' => (st j (List.mem_range.mp hj')).1)
      · refine List.map_congr_left (fun i _ => ?_)
        simp only [Function.comp_apply]
        congr 1; omega

/-- **C64**: a scalar scan of a table of `n` rows delivers the rows `0, …, n - 1` in this order, each once. -/
theorem C64_scalar_scan {c : Cfg} {lay : Kids} (hv : lay.Valid c.sch) (hents : c.EntsOK) (h1 : c.lanes = scanLanes c false true 1)
    (hp : c.predicated = false) (m : Mem) (base n : Nat) : scan c lay m base n = rows c lay m base n := by
  have h1 : c.lanes = 1 := h1
  have := scanLoop_ok (m := m) (n := n) hents hv.once (hv.ghyp h1 base) (by omega) hp (fun _ _ _ j hj _ _ _ => by omega)
    (fun t j _ hj g lv ups s _ H I w hw a ha => by
      obtain rfl : j = 0 := by omega
      have hVO : VarsOK g [] base (lvIter g.levels 0) t 0 ⟨w.slots, none⟩ := ⟨by rw [hw]; exact I.vars.slots, rfl⟩
      exact accVal_one (m := m) H hents h1 hVO (a := a) (by have := I.accs a ha; rw [← hw] at this; exact this))
    n n 0 _ (by omega) (le_refl _) (by rw [h1]; exact one_dvd _) (by rw [h1]; exact one_dvd _) (SInv.init (hv.ghyp h1 base))
  unfold scan init
  rw [this]
  unfold rows
  exact List.map_congr_left (fun i _ => by rw [Nat.zero_add])

/-- No boolean that is read is stored with a stride of single bits. -/
def NoPackedBooleans (c : Cfg) (lay : Kids) : Prop :=
  ∀ g ∈ lay.groups, ∀ f ∈ g.leaves, f.idx ∈ c.ents → f.stride % 8 = 0

/-- Numbers that are read are stored one after the other without gaps. -/
def NumbersPacked (c : Cfg) (lay : Kids) : Prop :=
  ∀ g ∈ lay.groups, ∀ f ∈ g.leaves, f.idx ∈ c.ents → ∀ n, c.ty f.idx = .num n → f.stride = 8 * n

theorem laneLeaf_of {c : Cfg} {lay : Kids} (hents : c.EntsOK) (hpack : NoPackedBooleans c lay) (hnum : NumbersPacked c lay)
    {g : Group} (hg : g ∈ lay.groups) {f : Leaf} (hf : f ∈ g.leaves) {l : Nat} (h : LeafChecked c l f) : LaneLeaf c f := by
  refine ⟨fun hn => ?_, fun he hne hb => h.bool hne he (hpack g hg f hf he) hb, fun he _ n hn => hnum g hg f hf he n hn,
    fun he hne n => h.str hne he (hpack g hg f hf he) n, fun e hn => ⟨(h.null e hn).2.1, (h.null e hn).2.2.1⟩⟩
  rcases hn with ⟨e, hn⟩ | ⟨_, he⟩
  · exact (h.null e hn).1
  · exact hpack g hg f hf he

/-- **C64**: a SIMDfied scan with `L` lanes of a layout that `supports_simd` accepts delivers the rows `0, …, n - 1` in this order, each
once, if `L` divides `n` and the number of tuples of the innermost node, no packed booleans are read, numbers are stored without
gaps, and the NULL bits that are read are among the first 32. -/
theorem C64_simd_scan_partial {c : Cfg} {lay : Kids} (hv : lay.Valid c.sch) (hents : c.EntsOK) (hL : 1 < c.lanes)
    (hp : c.predicated = false) (hsup : supportsSimd c lay 0 = true) (hpack : NoPackedBooleans c lay) (hnum : NumbersPacked c lay)
    (hnull : ∀ i ∈ c.ents, c.nullable i = true → i < 32 ∧ i < 8 * nullWidth c.ents.length)
    (hdiv : ∀ g ∈ lay.groups, c.lanes ∣ (lastLevel g.levels).num) (m : Mem) (base n : Nat) (hn : c.lanes ∣ n) :
    scan c lay m base n = rows c lay m base n := by
  obtain ⟨kids, l, hs, hgs⟩ := supports_groups hv.noRoot hsup
  have hchk := (simdLeaves_spec kids 1 l hs).2.1
  have hleaf : ∀ g ∈ lay.groups, ∀ f ∈ g.leaves, LaneLeaf c f := fun g hg f hf =>
    laneLeaf_of hents hpack hnum hg hf (hchk f (by rw [← (hgs g hg).1]; exact hf))
  have hH := ghyp_of (c := c) hv.wf hv.noRoot hv.once base (fun g hg => by
      obtain ⟨hok, hne⟩ := groups_ok hv.wf hv.noRoot g hg
      have hrev : g.levels.reverse ≠ [] := by simpa using hne
      obtain ⟨lv, ups, e⟩ := List.exists_cons_of_ne_nil hrev
      have hc := hok.chain
      have hd := hdiv g hg
      have el : g.levels = ups.reverse ++ [lv] := by
        have := congrArg List.reverse e
        simpa using this
      rw [el, lastLevel_snoc] at hd
      rw [e] at hc ⊢
      exact ⟨hc.1, hd, hc.2.2⟩)
    (fun g hg f hf hne h8 => absurd ((hleaf g hg f hf).byte hne) h8)
  have := scanLoop_ok (m := m) (n := n) hents hv.once hH (by omega) hp (fun t ss hS j hj s hs' hnl => by
      exfalso
      obtain ⟨g, hg, I⟩ := hS.mem s hs'
      obtain ⟨f, hf⟩ := Option.isSome_iff_exists.mp hnl
      have ha := I.accs _ (I.nullLeaf_mem hf)
      exact ha.2.2.2 ((hleaf g hg f ha.1).byte (Or.inl ⟨ha.2.1, ha.2.2.1⟩)))
    (fun t j ht hj g lv ups s hg H I w hw a ha => by
      have hVO : VarsOK g [] base (lvIter g.levels 0) t 0 ⟨w.slots, none⟩ := ⟨by rw [hw]; exact I.vars.slots, rfl⟩
      exact accVal_lane (m := m) H (by omega) ht hj (hleaf g hg) hnull hVO (a := a) (by have := I.accs a ha; rw [← hw] at this; exact this))
    n n 0 _ (by omega) (le_refl _) hn (dvd_zero _) (SInv.init hH)
  unfold scan init
  rw [this]
  unfold rows
  exact List.map_congr_left (fun i _ => by rw [Nat.zero_add])

/-- The layout has the attributes, and the NULL bitmap if one may be NULL. -/
def Complete (c : Cfg) (lay : Kids) : Prop := (∀ i ∈ c.ents, lay.Has i) ∧ (c.needsNull = true → lay.Has c.sch.length)

theorem has_leaf {lay : Kids} {i : Nat} (h : lay.Has i) : ∃ g ∈ lay.groups, ∃ f ∈ g.leaves, f.idx = i := by
  unfold Kids.Has at h
  obtain ⟨⟨i', a⟩, hm, rfl⟩ := List.mem_map.mp h
  have := ((groups_perm lay 0 0).mem_iff).mpr hm
  obtain ⟨g, hg, hm⟩ := List.mem_flatMap.mp this
  obtain ⟨f, hf, e⟩ := List.mem_map.mp hm
  exact ⟨g, hg, f, hf, (Prod.mk.inj e).1⟩

/-- **C64**: without double pumping and preferred numbers of lanes, what the planner checks for a SIMDfied scan is enough: the scan
delivers exactly the rows of the table, as long as no packed booleans are read, numbers are stored without gaps, and NULL bits that
are read are among the first 32. -/
theorem C64_simd_scan_single_partial {c : Cfg} {lay : Kids} (hv : lay.Valid c.sch) (hents : c.EntsOK) (hcpl : Complete c lay)
    (hl : c.lanes = scanLanes c true false 1) (hL : 1 < c.lanes) (hp : c.predicated = false) (hpack : NoPackedBooleans c lay)
    (hnum : NumbersPacked c lay) (hnull : ∀ i ∈ c.ents, c.nullable i = true → i < 32 ∧ i < 8 * nullWidth c.ents.length)
    (m : Mem) (base n : Nat) (hpre : scanPre c lay true n = true) : scan c lay m base n = rows c lay m base n := by
  simp only [scanPre, Bool.not_true, Bool.false_or, Bool.and_eq_true, beq_iff_eq] at hpre
  obtain ⟨hsup, hn⟩ := hpre
  obtain ⟨kids, l, hs, hgs⟩ := supports_groups hv.noRoot hsup
  have hl' : c.lanes = numLanes c := by
    simp only [scanLanes, if_true, Bool.false_eq_true, if_false, Nat.one_mul] at hl
    omega
  have hll : l = numLanes c := lanes_agree hs hents
    (fun i hi => by
      obtain ⟨g, hg, f, hf, e⟩ := has_leaf (hcpl.1 i hi)
      exact ⟨f, by rw [← (hgs g hg).1]; exact hf, e⟩)
    (fun hb => by
      obtain ⟨g, hg, f, hf, e⟩ := has_leaf (hcpl.2 hb)
      exact ⟨f, by rw [← (hgs g hg).1]; exact hf, e⟩)
  exact C64_simd_scan_partial hv hents hL hp hsup hpack hnum hnull
    (fun g hg => by rw [hl', ← hll]; exact Nat.dvd_of_mod_eq_zero (hgs g hg).2) m base n (by rw [hl']; exact Nat.dvd_of_mod_eq_zero hn)

/-- **C64**: SIMDfied and scalar scans deliver the same (same conditions). -/
theorem C64_simd_eq_scalar_partial {c : Cfg} {lay : Kids} (hv : lay.Valid c.sch) (hents : c.EntsOK) (hcpl : Complete c lay)
    (hl : c.lanes = scanLanes c true false 1) (hL : 1 < c.lanes) (hp : c.predicated = false) (hpack : NoPackedBooleans c lay)
    (hnum : NumbersPacked c lay) (hnull : ∀ i ∈ c.ents, c.nullable i = true → i < 32 ∧ i < 8 * nullWidth c.ents.length)
    (m : Mem) (base n : Nat) (hpre : scanPre c lay true n = true) :
    scan c lay m base n = scan { c with lanes := 1 } lay m base n := by
  rw [C64_simd_scan_single_partial hv hents hcpl hl hL hp hpack hnum hnull m base n hpre]
  exact (C64_scalar_scan (c := { c with lanes := 1 }) hv hents rfl hp m base n).symm

/-! ### A layout meeting the conditions: blocks of 16 tuples of two integers with NULL bits -/

def simdSch : List Attr := [⟨.num 4, false⟩, ⟨.num 8, true⟩, ⟨.bool, false⟩]
def simdLay : Kids := .inode 16 0 2048 (.leaf 0 0 32 (.leaf 1 512 64 (.leaf 2 1536 8 (.leaf 3 1664 8 .nil)))) .nil
def simdCfg : Cfg := ⟨simdSch, [0, 1, 2], true, true, 16, false⟩

theorem simdLay_valid : simdLay.Valid simdSch := ⟨by unfold simdLay; simp [Kids.WF, simdSch], rfl, by unfold Kids.Once; decide +kernel⟩

example (m : Mem) (base : Nat) : scan simdCfg simdLay m base 48 = rows simdCfg simdLay m base 48 :=
  C64_simd_scan_single_partial simdLay_valid (by unfold Cfg.EntsOK; decide) ⟨by unfold Kids.Has; decide +kernel, by unfold Kids.Has; decide +kernel⟩
    (by decide +kernel) (by decide) rfl (by unfold NoPackedBooleans; decide +kernel)
    (by
      intro g hg f hf he n hn
      simp only [simdLay, Kids.groups, Kids.calls, Kids.leaves, callLeaves, List.isEmpty_nil, if_true, List.append_nil, List.nil_append,
        List.isEmpty_cons, Bool.false_eq_true, if_false, List.mem_singleton] at hg
      subst hg
      simp only [List.mem_cons, List.not_mem_nil, or_false] at hf
      rcases hf with rfl | rfl | rfl | rfl <;> simp [Cfg.ty, simdCfg, simdSch] at hn <;> subst hn <;> rfl) (by decide) m base 48 (by decide +kernel)

/-- **C64**: a SIMDfied scan (without double pumping) of a table of at most 32 attributes in a PAX layout delivers exactly the rows of
the table, if it reads no booleans. -/
theorem C64_pax_simd_scan_partial {ats : List (Layout.Ty × Bool)} (hva : ∀ a ∈ ats, a.1.Valid) (hs : ∀ a ∈ ats, Storable a.1)
    {o : Layout.Opts} {opt : Layout.PaxOpt} (hopt : ∀ n, opt = .nTuples n → 0 < n) (hfit : Layout.paxFits o opt (ats.map (·.1)))
    (hrem : o.removeNull = false) (hlen : ats.length ≤ 32) {c : Cfg} (hsch : c.sch = schemaOf ats) (hents : c.EntsOK)
    (hb : ∀ i ∈ c.ents, c.ty i ≠ .bool) (hl : c.lanes = scanLanes c true false 1) (hL : 1 < c.lanes) (hp : c.predicated = false)
    (m : Mem) (base n : Nat) (hpre : scanPre c (toKids (Layout.paxLayout o opt (ats.map (·.1)))) true n = true) :
    scan c (toKids (Layout.paxLayout o opt (ats.map (·.1)))) m base n =
      rows c (toKids (Layout.paxLayout o opt (ats.map (·.1)))) m base n := by
  have F := fits_pax (o := o) (opt := opt) hva hs hopt hfit
  have hcl : c.sch.length = ats.length := by rw [hsch]; simp [schemaOf]
  have hleaf : ∀ g ∈ (toKids (Layout.paxLayout o opt (ats.map (·.1)))).groups, ∀ f ∈ g.leaves,
      ∃ f' ∈ (Layout.paxLayout o opt (ats.map (·.1))).leaves, f = ⟨f'.idx, f'.off, f'.stride⟩ := by
    intro g hg f hf
    have hkl : ∀ fs : List Layout.Leaf, (kidsOf fs).leaves = fs.map (fun f => ⟨f.idx, f.off, f.stride⟩) ∧ ∀ lv io, (kidsOf fs).calls lv io = [] := by
      intro fs
      induction fs with
      | nil => exact ⟨rfl, fun _ _ => rfl⟩
      | cons x xs ih => exact ⟨by simp [kidsOf, Kids.leaves, ih.1], fun lv io => by simp [kidsOf, Kids.calls, ih.2]⟩
    simp only [toKids, Kids.groups, Kids.calls, (hkl _).2, (hkl _).1, Kids.leaves, callLeaves, List.isEmpty_nil, if_true,
      List.append_nil, List.nil_append] at hg
    split at hg
    · simp at hg
    · rw [List.mem_singleton] at hg
      subst hg
      obtain ⟨f', hf', e⟩ := List.mem_map.mp hf
      exact ⟨f', hf', e.symm⟩
  have hty : ∀ i (hi : i < ats.length), c.ty i = ofTy ats[i].1 := by
    intro i hi
    simp [Cfg.ty, hsch, schemaOf, hi]
  have hstride : ∀ g ∈ (toKids (Layout.paxLayout o opt (ats.map (·.1)))).groups, ∀ f ∈ g.leaves, f.idx ∈ c.ents →
      ∃ h : f.idx < ats.length, f.stride = ats[f.idx].1.size ∧ 8 ∣ ats[f.idx].1.size := by
    intro g hg f hf he
    obtain ⟨f', hf', rfl⟩ := hleaf g hg f hf
    have hi : f'.idx < ats.length := by rw [← hcl]; exact hents _ he
    refine ⟨hi, ?_, ?_⟩
    · rcases Layout.mem_paxLeaves hf' with ⟨_, e⟩ | ⟨_, e⟩
      · have : f'.stride = Layout.sz (ats.map (·.1)) f'.idx := by rw [e]
        simp only [this, Layout.sz, getD_fst hi]
      · rw [e] at hi; simp at hi
    · rcases hs _ (List.getElem_mem hi) with e | ⟨h8, _⟩
      · exact absurd ((hty _ hi).trans (by rw [e]; rfl)) (hb _ he)
      · exact h8
  have hpre' := hpre
  simp only [scanPre, Bool.not_true, Bool.false_or, Bool.and_eq_true, beq_iff_eq] at hpre'
  have V : (toKids (Layout.paxLayout o opt (ats.map (·.1)))).Valid c.sch := by rw [hsch]; exact F.valid
  have hcpl : Complete c (toKids (Layout.paxLayout o opt (ats.map (·.1)))) :=
    ⟨fun i hi => F.has (Or.inl (by rw [← hcl]; exact hents i hi)), fun _ => F.has (Or.inr ⟨by rw [hrem]; rfl, hcl⟩)⟩
  refine C64_simd_scan_single_partial V hents hcpl hl hL hp ?_ ?_ ?_ m base n hpre
  · intro g hg f hf he
    obtain ⟨_, e, h8⟩ := hstride g hg f hf he
    rw [e]; exact Nat.mod_eq_zero_of_dvd h8
  · intro g hg f hf he k hk
    obtain ⟨hi, e, h8⟩ := hstride g hg f hf he
    rw [e]
    rw [hty _ hi] at hk
    generalize ats[f.idx].1 = t at hk h8
    cases t <;> simp only [ofTy, Ty.num.injEq, reduceCtorEq] at hk <;> omega
  · intro i hi hn
    have hb' : c.needsNull = true := needsNull_of hi hn
    obtain ⟨g, hg, f, hf, e⟩ := has_leaf (hcpl.2 hb')
    obtain ⟨kids, l, hsl, hgs⟩ := supports_groups V.noRoot hpre'.1
    have hchk := ((simdLeaves_spec kids 1 l hsl).2.1 f (by rw [← (hgs g hg).1]; exact hf)).null e hb'
    obtain ⟨f', hf', rfl⟩ := hleaf g hg f hf
    have h1 : f'.stride = Layout.nullSize o (ats.map (·.1)) := by
      rcases Layout.mem_paxLeaves hf' with ⟨hi, _⟩ | ⟨_, e'⟩
      · simp only [List.length_map] at hi; simp only at e; omega
      · rw [e']
    have h2 := Layout.le_nullSize hrem (ats.map (·.1))
    simp only [List.length_map] at h2
    have h3 := hents i hi
    have h4 := hchk.2.1
    simp only at h4
    omega

/-! ### Defects -/

/-- A memory in which byte `a` contains `a`. -/
def idMem : Mem := fun a => BitVec.ofInt 8 a

/-- **C64**, a defect: by default scans use double pumping, but only the multiple of the single number of lanes is checked.  The scan
of a table with one INT NOT NULL attribute and 4 rows has 8 lanes and delivers 8 rows. -/
theorem C64_bug_double_pumping_phantom_rows : ∃ c lay, lay.Valid c.sch ∧ c.lanes = scanLanes c true true 1 ∧
    scanPre c lay true 4 = true ∧ (scan c lay idMem 0 4).length = 8 := by
  refine ⟨⟨[⟨.num 4, false⟩], [0], true, true, 8, false⟩, .inode 1024 0 65536 (.leaf 0 0 32 .nil) .nil,
    ⟨by simp [Kids.WF], rfl, by unfold Kids.Once; decide +kernel⟩, by decide +kernel, by decide +kernel, by decide +kernel⟩

/-- **C64**, a defect: nor is it checked that a block has a multiple of the doubled number of lanes: with blocks of 16 tuples of one
byte (the layout `PAX16Tup` of a TINYINT NOT NULL), a scan of 32 rows reads rows 16 to 31 from behind the column of the first block. -/
theorem C64_bug_double_pumping_blocks : ∃ c lay, lay.Valid c.sch ∧ c.lanes = scanLanes c true true 1 ∧
    scanPre c lay true 32 = true ∧ scan c lay idMem 0 32 ≠ rows c lay idMem 0 32 := by
  refine ⟨⟨[⟨.num 1, false⟩], [0], true, true, 32, false⟩, .inode 16 0 256 (.leaf 0 0 8 (.leaf 1 128 8 .nil)) .nil,
    ⟨by simp [Kids.WF], rfl, by unfold Kids.Once; decide +kernel⟩, by decide +kernel, by decide +kernel, by decide +kernel⟩

/-- The layout of the previous theorem is the one the factory makes. -/
theorem pax16_eq : toKids (Layout.paxLayout {} (.nTuples 16) [.int 1]) = .inode 16 0 256 (.leaf 0 0 8 (.leaf 1 128 8 .nil)) .nil := by
  have ho : Layout.order {} [Layout.Ty.int 1] = List.range 1 := Layout.order_of_sorted (ts := [Layout.Ty.int 1]) (by decide +kernel)
  unfold toKids Layout.paxLayout Layout.paxBlockSize Layout.paxNullOff Layout.paxRows
  simp only [ho]
  decide +kernel

/-- Without double pumping the same scan is correct. -/
example (m : Mem) (base : Nat) (c : Cfg) (hc : c = ⟨schemaOf [(.int 1, false)], [0], true, true, 16, false⟩) :
    scan c (toKids (Layout.paxLayout {} (.nTuples 16) [.int 1])) m base 32 = rows c (toKids (Layout.paxLayout {} (.nTuples 16) [.int 1])) m base 32 := by
  subst hc
  refine C64_pax_simd_scan_partial (ats := [(.int 1, false)]) (by simp [Layout.Ty.Valid]) (by unfold Storable; decide +kernel)
    (by intro n h; cases h; decide) (Layout.C33_pax_tuples_fits _ _ _) rfl (by decide) rfl (by unfold Cfg.EntsOK; decide)
    (by decide +kernel) (by decide +kernel) (by decide) rfl m base 32 ?_
  show scanPre _ (toKids (Layout.paxLayout {} (.nTuples 16) [.int 1])) true 32 = true
  rw [pax16_eq]
  decide +kernel

/-- **C64**, a defect: `supports_simd` admits booleans stored as single bits (as in all PAX layouts), but the code advances the pointer
to them by one byte per batch, as for one lane (an assertion in debug builds): with 16 lanes, rows 16 to 31 are wrong. -/
theorem C64_bug_packed_booleans : ∃ c lay, lay.Valid c.sch ∧ c.lanes = scanLanes c true false 1 ∧
    scanPre c lay true 32 = true ∧ scan c lay idMem 0 32 ≠ rows c lay idMem 0 32 := by
  refine ⟨⟨[⟨.bool, false⟩], [0], true, true, 16, false⟩, .inode 64 0 128 (.leaf 0 0 1 .nil) .nil,
    ⟨by simp [Kids.WF], rfl, by unfold Kids.Once; decide +kernel⟩, by decide +kernel, by decide +kernel, by decide +kernel⟩

/-- **C64**, a defect: the mask for NULL bits is computed with 32 bits.  With 33 attributes, NULLs of the last one are not seen. -/
theorem C64_bug_null_mask : ∃ c lay, lay.Valid c.sch ∧ c.lanes = scanLanes c true false 1 ∧
    scanPre c lay true 16 = true ∧ scan c lay (fun _ => 0xff#8) 0 16 ≠ rows c lay (fun _ => 0xff#8) 0 16 := by
  refine ⟨⟨(List.replicate 33 ⟨.num 1, true⟩), List.range 33, true, true, 16, false⟩,
    .inode 16 0 8192 ((List.range 33).foldr (fun i k => .leaf i (128 * i) 8 k) (.leaf 33 4224 64 .nil)) .nil,
    ⟨?_, rfl, by unfold Kids.Once; decide +kernel⟩, by decide +kernel, by decide +kernel, by decide +kernel⟩
  have : ∀ l : List Nat, ∀ k : Kids, k.WF (List.replicate 33 ⟨.num 1, true⟩) 16 →
      (l.foldr (fun i k => Kids.leaf i (128 * i) 8 k) k).WF (List.replicate 33 ⟨.num 1, true⟩) 16 := by
    intro l
    induction l with
    | nil => exact fun k h => h
    | cons i l ih => exact fun k h => ⟨fun _ _ => ⟨rfl, by omega⟩, ih k h⟩
  exact ⟨⟨by decide, rfl, rfl, rfl⟩, this _ _ (by simp [Kids.WF]), trivial⟩

/-- **C64**, a defect: `supports_simd` does not check that numbers are stored without gaps. -/
theorem C64_bug_number_stride : ∃ c lay, lay.Valid c.sch ∧ c.lanes = scanLanes c true false 1 ∧
    scanPre c lay true 4 = true ∧ scan c lay idMem 0 4 ≠ rows c lay idMem 0 4 := by
  refine ⟨⟨[⟨.num 4, false⟩], [0], true, true, 4, false⟩, .inode 16 0 1024 (.leaf 0 0 64 .nil) .nil,
    ⟨by simp [Kids.WF], rfl, by unfold Kids.Once; decide +kernel⟩, by decide +kernel, by decide +kernel, by decide +kernel⟩

end Mutable.WLayout
