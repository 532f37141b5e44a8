import Verif.WasmLayout.Vars
/-
One step of a group, and its initial state.
-/
namespace Mutable.WLayout

theorem mem_shiftAll {p : Bool} {d : Int} {v : Vars} {s : Slot} (h : s ∈ (shiftAll p d v).slots) :
    ∃ r ∈ v.slots, s = ⟨r.key, addPtr p d r.ptr, r.mask⟩ := by
  unfold shiftAll at h
  simp only [List.mem_map] at h
  obtain ⟨r, hr, e⟩ := h
  exact ⟨r, hr, e.symm⟩

theorem keys_shiftAll (p : Bool) (d : Int) (v : Vars) : (shiftAll p d v).slots.map (·.key) = v.slots.map (·.key) := by
  unfold shiftAll; simp [Function.comp_def]

theorem keys_lowJumps (p : Bool) (lv : Level) (nf : Option Leaf) (v : Vars) :
    (lowJumps p lv nf v).slots.map (·.key) = v.slots.map (·.key) := by
  unfold lowJumps; simp [Function.comp_def]

theorem keys_leafJump (c : Cfg) (p : Bool) (l : List Slot) : (l.map (leafJump c p)).map (·.key) = l.map (·.key) := by
  rw [List.map_map]; apply List.map_congr_left; intro s _; exact leafJump_key c p s

theorem keys_groupJumps {c : Cfg} {p : Bool} {t : Nat} {s : GSt} {lv : Level} {ups : List Level} (hg : s.g.levels = (lv :: ups).reverse)
    (h8 : ∀ l ∈ s.g.levels, l.stride % 8 = 0) (hc : RChain 1 (lv :: ups)) :
    (groupJumps c p t s).vars.slots.map (·.key) = s.vars.slots.map (·.key) := by
  rw [groupJumps_eq hg h8 hc]
  simp only [keys_shiftAll]
  split
  · rw [keys_lowJumps]; exact keys_leafJump c p _
  · exact keys_leafJump c p _

theorem RChain.mono {u w : Nat} (h : w ∣ u) : ∀ {rs : List Level}, RChain u rs → RChain w rs
  | [], _ => trivial
  | _ :: _, hc => ⟨hc.1, h.trans hc.2.1, hc.2.2⟩

/-- All variables of a group over one step of `L` tuples. -/
theorem group_step {c : Cfg} {g : Group} {accs : List Acc} {sch : List Attr} {lv : Level} {ups : List Level} {v : Vars} (hok : g.OK sch)
    (hg : g.levels = (lv :: ups).reverse) (hL : 0 < c.lanes) (hc : RChain c.lanes (lv :: ups)) (hp : c.predicated = true → c.lanes = 1)
    {base it0 t : Nat} (hLt : c.lanes ∣ t) (hdyn : ∀ s ∈ v.slots, s.key.2 % 8 ≠ 0 → c.lanes = 1)
    (hnull : (nullLeaf accs).isSome → c.lanes = 1) (h : VarsOK g accs base it0 t 1 v) :
    VarsOK g accs base it0 (t + c.lanes) 0 (groupJumps c true (t + c.lanes) ⟨g, accs, v⟩).vars := by
  have hc1 := RChain.mono (one_dvd c.lanes) hc
  have hlv : lv.stride % 8 = 0 := hok.strides lv (by rw [hg]; simp)
  have hups : ∀ l ∈ ups, l.stride % 8 = 0 := fun l hl => hok.strides l (by rw [hg]; simp [hl])
  have hU := upSum_dvd ups lv.num lv.stride (t + c.lanes) hlv hups
  rw [groupJumps_eq (s := ⟨g, accs, v⟩) hg hok.strides hc1]
  constructor
  · intro s hs
    obtain ⟨r, hr, rfl⟩ := mem_shiftAll hs
    simp only [addPtr_true]
    -- the slot before the jumps
    have : ∃ r0 ∈ v.slots, r.key = r0.key ∧ (r.ptr, r.mask) =
        (if (t + c.lanes) % lv.num = 0 then lowJump true lv r0.key.1 r0.key.2 (leafX c true r0.key (r0.ptr, r0.mask))
         else leafX c true r0.key (r0.ptr, r0.mask)) := by
      split at hr
      · simp only [lowJumps, List.mem_map] at hr
        obtain ⟨q, ⟨r0, h0, rfl⟩, rfl⟩ := hr
        rename_i hif
        refine ⟨r0, h0, leafJump_key c true r0, ?_⟩
        rw [if_pos hif]
        simp only [leafJump_key]
        rfl
      · simp only [List.mem_map] at hr
        obtain ⟨r0, h0, rfl⟩ := hr
        rename_i hif
        exact ⟨r0, h0, leafJump_key c true r0, by rw [if_neg hif]; rfl⟩
    obtain ⟨r0, h0, ek, ev⟩ := this
    obtain ⟨hv, hk1⟩ := h.slots r0 h0
    rw [hv] at ev
    have st := slot_step hok hg hL hc hp (base := base) (it0 := it0) hLt hk1 (hdyn r0 h0)
    simp only at st
    rw [← ev] at st
    rw [ek]
    exact ⟨st, hk1⟩
  · simp only [shiftAll]
    have hn := h.null
    cases hf : nullLeaf accs with
    | none =>
      rw [hf] at hn
      simp only [Option.map_none] at hn
      split
      · simp [lowJumps, hn]
      · simp [hn]
    | some f =>
      have h1 := hnull (by rw [hf]; rfl)
      rw [hf] at hn
      simp only [Option.map_some] at hn
      have st := pos_step (s := f.stride) hL hc hLt
      rw [← hg] at st
      have key : (if (t + c.lanes) % lv.num = 0 then
          (lowJumps true lv (some f) ⟨v.slots.map (leafJump c true), v.null⟩).null else v.null) =
          some (atBit ((g.at base t f.stride f.off + 1 * f.stride : Nat) +
            (if (t + c.lanes) % lv.num = 0 then remaining lv f.stride else 0))) := by
        split
        · rename_i ht
          simp only [lowJumps, hn]
          rw [lowJump_atBit (by omega) hlv]
          have hn : 0 < lv.num := Nat.pos_of_ne_zero hc.1
          have ei : lvIter g.levels t = lv.num - 1 := by
            rw [hg, lvIter_eq (lv :: ups) c.lanes hc t]
            have := (div_step hL hn hc.2.1 hLt).2.2.2 ht
            rw [h1] at this; exact this
          have e2 : pos g.levels f.stride t + f.stride = lvAddr g.levels t + lv.num * f.stride := by
            unfold pos; rw [ei, ← mod_helper (n := lv.num) (s := f.stride) hn]; omega
          have hA := lvAddr_mod g.levels hok.strides t
          have := hok.ioff
          unfold Group.at
          generalize lv.num * f.stride = q at e2 ⊢
          omega
        · rw [Int.add_zero]; exact hn
      have e : (if (t + c.lanes) % lv.num = 0 then lowJumps true lv (some f) ⟨v.slots.map (leafJump c true), v.null⟩
          else (⟨v.slots.map (leafJump c true), v.null⟩ : Vars)).null =
          if (t + c.lanes) % lv.num = 0 then
          (lowJumps true lv (some f) ⟨v.slots.map (leafJump c true), v.null⟩).null else v.null := by split <;> rfl
      rw [e, key]
      simp only [Option.map_some, addPtr_true]
      rw [← atBit_add_bytes]
      congr 2
      have e8 : 8 * (upSum lv.num lv.stride ups (t + c.lanes) / 8) = upSum lv.num lv.stride ups (t + c.lanes) := by omega
      rw [e8]
      unfold Group.at
      rw [h1] at st ⊢
      push_cast
      push_cast at st
      rw [st]
      ring

/-- Nothing changes if the predicate is false. -/
theorem group_stay {c : Cfg} {g : Group} {accs : List Acc} {sch : List Attr} {lv : Level} {ups : List Level} {v : Vars} (hok : g.OK sch)
    (hg : g.levels = (lv :: ups).reverse) (hc : RChain 1 (lv :: ups)) (hp : c.predicated = true)
    {base it0 t : Nat} (h : VarsOK g accs base it0 t 0 v) :
    VarsOK g accs base it0 t 0 (groupJumps c false t ⟨g, accs, v⟩).vars := by
  have hlv : lv.stride % 8 = 0 := hok.strides lv (by rw [hg]; simp)
  rw [groupJumps_eq (s := ⟨g, accs, v⟩) hg hok.strides hc]
  constructor
  · intro s hs
    obtain ⟨r, hr, rfl⟩ := mem_shiftAll hs
    simp only [addPtr_false]
    have : ∃ r0 ∈ v.slots, r.key = r0.key ∧ (r.ptr, r.mask) =
        (if t % lv.num = 0 then lowJump false lv r0.key.1 r0.key.2 (leafX c false r0.key (r0.ptr, r0.mask))
         else leafX c false r0.key (r0.ptr, r0.mask)) := by
      split at hr
      · simp only [lowJumps, List.mem_map] at hr
        obtain ⟨q, ⟨r0, h0, rfl⟩, rfl⟩ := hr
        rename_i hif
        refine ⟨r0, h0, leafJump_key c false r0, ?_⟩
        rw [if_pos hif]
        simp only [leafJump_key]
        rfl
      · simp only [List.mem_map] at hr
        obtain ⟨r0, h0, rfl⟩ := hr
        rename_i hif
        exact ⟨r0, h0, leafJump_key c false r0, by rw [if_neg hif]; rfl⟩
    obtain ⟨r0, h0, ek, ev⟩ := this
    obtain ⟨hv, hk1⟩ := h.slots r0 h0
    rw [hv] at ev
    have st := slot_stay (c := c) hok hg hc hp (base := base) (it0 := it0) (t := t) hk1
    simp only at st
    rw [← ev] at st
    rw [ek]
    exact ⟨st, hk1⟩
  · simp only [shiftAll]
    have hn := h.null
    cases hf : nullLeaf accs with
    | none =>
      rw [hf] at hn
      simp only [Option.map_none] at hn
      split
      · simp [lowJumps, hn]
      · simp [hn]
    | some f =>
      rw [hf] at hn
      simp only [Option.map_some] at hn
      have key : (if t % lv.num = 0 then
          (lowJumps false lv (some f) ⟨v.slots.map (leafJump c false), v.null⟩).null else v.null) = v.null := by
        split
        · rename_i ht
          simp only [lowJumps, hn]
          rw [lowJump_atBit_false]
          have ei : lvIter g.levels t = 0 := by
            rw [hg, lvIter_eq (lv :: ups) 1 hc t]; exact ht
          have hA := lvAddr_mod g.levels hok.strides t
          have := hok.ioff
          unfold Group.at pos
          rw [ei]
          omega
        · rfl
      have e : (if t % lv.num = 0 then lowJumps false lv (some f) ⟨v.slots.map (leafJump c false), v.null⟩
          else (⟨v.slots.map (leafJump c false), v.null⟩ : Vars)).null =
          if t % lv.num = 0 then
          (lowJumps false lv (some f) ⟨v.slots.map (leafJump c false), v.null⟩).null else v.null := by split <;> rfl
      rw [e, key, hn]
      simp only [Option.map_some, addPtr_false]

/-! ### Initial state -/

/-- Key of a leaf. -/
def Leaf.key (f : Leaf) : Nat × Nat := (f.off % 8, f.stride)

/-- The emitted access is the right one for its leaf and its pointer has the right key. -/
def AccOK (c : Cfg) (it0 : Nat) (leaves : List Leaf) (keys : List (Nat × Nat)) : Acc → Prop
  | .nullDyn f => f ∈ leaves ∧ f.idx = c.sch.length ∧ c.needsNull = true ∧ f.stride % 8 ≠ 0
  | .nullStat f i => f ∈ leaves ∧ f.idx = c.sch.length ∧ c.needsNull = true ∧ f.stride % 8 = 0 ∧ keys[i]? = some f.key
  | .dyn f i lbo => f ∈ leaves ∧ f.idx ≠ c.sch.length ∧ f.idx ∈ c.ents ∧ f.stride % 8 ≠ 0 ∧ keys[i]? = some f.key ∧
      lbo = (f.off + it0 * f.stride) / 8
  | .stat f i => f ∈ leaves ∧ f.idx ≠ c.sch.length ∧ f.idx ∈ c.ents ∧ f.stride % 8 = 0 ∧ keys[i]? = some f.key

/-- The leaf of an access. -/
def Acc.leaf : Acc → Leaf
  | .nullDyn f => f
  | .nullStat f _ => f
  | .dyn f _ _ => f
  | .stat f _ => f

/-- Code must be emitted for the leaf. -/
def Cfg.needs (c : Cfg) (f : Leaf) : Prop := (f.idx = c.sch.length ∧ c.needsNull = true) ∨ (f.idx ≠ c.sch.length ∧ f.idx ∈ c.ents)

theorem AccOK.mono {c : Cfg} {it0 : Nat} {lv lv' : List Leaf} {ks ks' : List (Nat × Nat)} (h1 : ∀ f ∈ lv, f ∈ lv')
    (h2 : ∀ (i : Nat) (k : Nat × Nat), ks[i]? = some k → ks'[i]? = some k) : ∀ {a : Acc}, AccOK c it0 lv ks a → AccOK c it0 lv' ks' a
  | .nullDyn _, h => ⟨h1 _ h.1, h.2⟩
  | .nullStat _ _, h => ⟨h1 _ h.1, h.2.1, h.2.2.1, h.2.2.2.1, h2 _ _ h.2.2.2.2⟩
  | .dyn _ _ _, h => ⟨h1 _ h.1, h.2.1, h.2.2.1, h.2.2.2.1, h2 _ _ h.2.2.2.2.1, h.2.2.2.2.2⟩
  | .stat _ _, h => ⟨h1 _ h.1, h.2.1, h.2.2.1, h.2.2.2.1, h2 _ _ h.2.2.2.2⟩

theorem slotFor_spec (sharing : Bool) (slots : List Slot) (s : Slot) :
    (∀ (i : Nat) (k : Nat × Nat), (slots.map (·.key))[i]? = some k → ((slotFor sharing slots s).1.map (·.key))[i]? = some k) ∧
    ((slotFor sharing slots s).1.map (·.key))[(slotFor sharing slots s).2]? = some s.key ∧
    (∀ r ∈ (slotFor sharing slots s).1, r ∈ slots ∨ r = s) := by
  have app : (∀ (i : Nat) (k : Nat × Nat), (slots.map (·.key))[i]? = some k → ((slots ++ [s]).map (·.key))[i]? = some k) ∧
      ((slots ++ [s]).map (·.key))[slots.length]? = some s.key ∧ (∀ r ∈ slots ++ [s], r ∈ slots ∨ r = s) := by
    refine ⟨fun i k h => ?_, ?_, fun r hr => by simpa using hr⟩
    · rw [List.map_append, List.getElem?_append_left]
      · exact h
      · exact (List.getElem?_eq_some_iff.mp h).1
    · rw [List.map_append]
      simp
  unfold slotFor
  split
  · split
    · rename_i i hi
      refine ⟨fun _ _ h => h, ?_, fun r hr => Or.inl hr⟩
      obtain ⟨h1, h2, _⟩ := List.findIdx?_eq_some_iff_getElem.mp hi
      simp only [beq_iff_eq] at h2
      rw [List.getElem?_map, List.getElem?_eq_getElem h1, Option.map_some, h2]
    · exact app
  · exact app

/-- `inode_iter`. -/
theorem inodeIter_eq {lv : Level} {ups : List Level} (hc : RChain 1 (lv :: ups)) (t : Nat) :
    inodeIter (lv :: ups).reverse t = if lv.num = 1 then none else some (lvIter (lv :: ups).reverse t) := by
  have hl : lastLevel (lv :: ups).reverse = lv := by rw [List.reverse_cons, lastLevel_snoc]
  rw [lvIter_eq (lv :: ups) 1 hc t]
  unfold inodeIter
  rw [hl]
  simp only [bne_iff_ne, ne_eq]
  by_cases h : lv.num = 1
  · simp [h]
  · simp only [h, not_false_eq_true, if_true, if_false]
    split
    · rename_i hp; rw [pow2_and hp]
    · rfl

/-- The initial values. -/
theorem init_static {g : Group} {sch : List Attr} {lv : Level} {ups : List Level} (hok : g.OK sch) (hg : g.levels = (lv :: ups).reverse)
    (hc : RChain 1 (lv :: ups)) {f : Leaf} (hf : f ∈ g.leaves) (hs : f.stride % 8 = 0) (base t it0 : Nat) :
    (((base : Int) + byteOff (g.ioff / 8 + addInode g.levels t) (inodeIter g.levels t) f : Int), (0 : BitVec 32)) =
      slotVal g base it0 t f.key := by
  have hA := addInode_eq g.levels hok.strides t
  have hI := hok.ioff
  unfold slotVal Leaf.key
  rw [if_neg (by simpa using hs)]
  congr 1
  unfold byteOff
  rw [hg, inodeIter_eq hc, ← hg]
  by_cases h1 : lv.num = 1
  · have h0 : lvIter g.levels t = 0 := by rw [hg, lvIter_eq (lv :: ups) 1 hc t]; simp [h1, Nat.mod_one]
    simp only [h1, if_true]
    unfold Group.at pos
    rw [h0, Nat.zero_mul]
    omega
  · simp only [h1, if_false]
    by_cases h0 : f.stride = 0
    · simp only [h0, bne_self_eq_false, Bool.false_eq_true, if_false]
      unfold Group.at pos
      rw [Nat.mul_zero]
      omega
    · simp only [bne_iff_ne, ne_eq, h0, not_false_eq_true, if_true]
      have e8 : lvIter g.levels t * f.stride % 8 = 0 := by rw [Nat.mul_mod, hs]; simp
      unfold Group.at pos
      rw [Nat.shiftRight_eq_div_pow]
      generalize lvIter g.levels t * f.stride = q at e8 ⊢
      omega

theorem iter_getD {g : Group} {lv : Level} {ups : List Level} (hg : g.levels = (lv :: ups).reverse)
    (hc : RChain 1 (lv :: ups)) (t : Nat) : (inodeIter g.levels t).getD 0 = lvIter g.levels t := by
  rw [hg, inodeIter_eq hc]
  split
  · rename_i h; rw [lvIter_eq (lv :: ups) 1 hc t]; simp [h, Nat.mod_one]
  · rfl

theorem init_dyn {g : Group} {sch : List Attr} (hok : g.OK sch) {f : Leaf} (hs : f.stride % 8 ≠ 0) (base t : Nat) :
    (((base : Int) + (g.ioff / 8 + addInode g.levels t : Nat) : Int),
      (1#32 <<< ((f.off + lvIter g.levels t * f.stride) &&& 7) : BitVec 32)) =
      slotVal g base (lvIter g.levels t) t f.key := by
  have hA := addInode_eq g.levels hok.strides t
  have hI := hok.ioff
  unfold slotVal Leaf.key
  rw [if_pos hs]
  simp only
  have e7 : ∀ x, x &&& 7 = x % 8 := fun x => Nat.and_two_pow_sub_one_eq_mod x 3
  rw [e7]
  unfold atBit Group.at pos
  generalize lvIter g.levels t * f.stride = q
  congr 1
  · omega
  · congr 1; omega

theorem init_null {g : Group} {sch : List Attr} (hok : g.OK sch) {f : Leaf} (base t : Nat) :
    (((base : Int) + (g.ioff / 8 + addInode g.levels t : Nat) + ((f.off + lvIter g.levels t * f.stride) >>> 3 : Nat) : Int),
      (1#32 <<< ((f.off + lvIter g.levels t * f.stride) &&& 7) : BitVec 32)) = atBit (g.at base t f.stride f.off) := by
  have hA := addInode_eq g.levels hok.strides t
  have hI := hok.ioff
  have e7 : ∀ x, x &&& 7 = x % 8 := fun x => Nat.and_two_pow_sub_one_eq_mod x 3
  rw [e7, Nat.shiftRight_eq_div_pow]
  unfold atBit Group.at pos
  generalize lvIter g.levels t * f.stride = q
  congr 1
  · omega
  · congr 1; omega

theorem nullLeaf_toList_append (a : Option Acc) (as : List Acc) : nullLeaf (a.toList ++ as) =
    match a with | some (.nullDyn f) => some f | _ => nullLeaf as := by
  cases a with
  | none => rfl
  | some a => cases a <;> rfl

/-- The loop over the leaves. -/
theorem visit_ok {c : Cfg} {g : Group} {lv : Level} {ups : List Level} (hok : g.OK c.sch) (hg : g.levels = (lv :: ups).reverse)
    (hc : RChain 1 (lv :: ups)) (base t : Nat)
    (hdyn : ∀ f ∈ g.leaves, c.needs f → f.stride % 8 ≠ 0 → c.lanes = 1) :
    ∀ (fs : List Leaf) (v : Vars), (∀ f ∈ fs, f ∈ g.leaves) → (fs.map (·.idx)).Nodup →
      (∀ s ∈ v.slots, ((s.ptr, s.mask) = slotVal g base (lvIter g.levels t) t s.key ∧ s.key.1 < 8) ∧ (s.key.2 % 8 ≠ 0 → c.lanes = 1)) →
      let r := visitLeaves c base (g.ioff / 8 + addInode g.levels t) (inodeIter g.levels t) v fs
      (∀ s ∈ r.2.slots, ((s.ptr, s.mask) = slotVal g base (lvIter g.levels t) t s.key ∧ s.key.1 < 8) ∧
        (s.key.2 % 8 ≠ 0 → c.lanes = 1)) ∧
      (∀ (i : Nat) (k : Nat × Nat), (v.slots.map (·.key))[i]? = some k → (r.2.slots.map (·.key))[i]? = some k) ∧
      (∀ a ∈ r.1, AccOK c (lvIter g.levels t) fs (r.2.slots.map (·.key)) a) ∧
      (∀ f ∈ fs, c.needs f → ∃ a ∈ r.1, a.leaf = f) ∧
      (r.1.map (fun a => a.leaf.idx)).Sublist (fs.map (·.idx)) ∧
      r.2.null = (match nullLeaf r.1 with | some f => some (atBit (g.at base t f.stride f.off)) | none => v.null) := by
  intro fs
  induction fs with
  | nil =>
    intro v _ _ hv
    exact ⟨hv, fun _ _ h => h, by simp [visitLeaves], by simp, by simp [visitLeaves], rfl⟩
  | cons f fs ih =>
    intro v hm hn hv
    have hfg : f ∈ g.leaves := hm f (by simp)
    have hit := iter_getD hg hc t
    simp only [visitLeaves]
    -- what visiting the first leaf does
    have first : let r := visitLeaf c base (g.ioff / 8 + addInode g.levels t) (inodeIter g.levels t) v f
        (∀ s ∈ r.2.slots, ((s.ptr, s.mask) = slotVal g base (lvIter g.levels t) t s.key ∧ s.key.1 < 8) ∧
          (s.key.2 % 8 ≠ 0 → c.lanes = 1)) ∧
        (∀ (i : Nat) (k : Nat × Nat), (v.slots.map (·.key))[i]? = some k → (r.2.slots.map (·.key))[i]? = some k) ∧
        (∀ a, r.1 = some a → AccOK c (lvIter g.levels t) [f] (r.2.slots.map (·.key)) a ∧ a.leaf = f) ∧
        (c.needs f → r.1.isSome = true) ∧
        r.2.null = (match r.1 with | some (.nullDyn f) => some (atBit (g.at base t f.stride f.off)) | _ => v.null) := by
      have st : ∀ s : Slot, ((s.ptr, s.mask) = slotVal g base (lvIter g.levels t) t s.key ∧ s.key.1 < 8) →
          (s.key.2 % 8 ≠ 0 → c.lanes = 1) →
          (∀ r ∈ (slotFor c.sharing v.slots s).1, ((r.ptr, r.mask) = slotVal g base (lvIter g.levels t) t r.key ∧ r.key.1 < 8) ∧
            (r.key.2 % 8 ≠ 0 → c.lanes = 1)) := by
        intro s hs hs2 r hr
        rcases (slotFor_spec c.sharing v.slots s).2.2 r hr with h | rfl
        · exact hv r h
        · exact ⟨hs, hs2⟩
      unfold visitLeaf
      simp only [hit]
      by_cases hi : f.idx = c.sch.length
      · simp only [hi, if_true]
        by_cases hnn : c.needsNull = true
        · simp only [hnn, if_true]
          by_cases hs : f.stride % 8 ≠ 0
          · rw [if_pos hs]
            refine ⟨hv, fun _ _ h => h, fun a ha => ?_, fun _ => rfl, ?_⟩
            · simp only [Option.some.injEq] at ha
              subst ha
              exact ⟨⟨by simp, hi, hnn, hs⟩, rfl⟩
            · rw [init_null hok]
          · rw [if_neg hs]
            simp only [ne_eq, not_not] at hs
            have sp := slotFor_spec c.sharing v.slots
              ⟨(f.off % 8, f.stride), (base : Int) + byteOff (g.ioff / 8 + addInode g.levels t) (inodeIter g.levels t) f, 0⟩
            refine ⟨st _ ⟨init_static hok hg hc hfg hs base t _, Nat.mod_lt _ (by omega)⟩ (fun h => absurd hs h), sp.1, fun a ha => ?_,
              fun _ => rfl, rfl⟩
            simp only [Option.some.injEq] at ha
            subst ha
            exact ⟨⟨by simp, hi, hnn, hs, sp.2.1⟩, rfl⟩
        · simp only [hnn, Bool.false_eq_true, if_false]
          refine ⟨hv, fun _ _ h => h, fun a ha => by simp at ha, fun hx => ?_, trivial⟩
          rcases hx with ⟨_, h⟩ | ⟨h, _⟩
          · exact absurd h hnn
          · exact absurd hi h
      · simp only [hi, if_false]
        by_cases he : f.idx ∈ c.ents
        · simp only [he, if_true]
          by_cases hs : f.stride % 8 ≠ 0
          · have h1 : c.lanes = 1 := hdyn f hfg (Or.inr ⟨hi, he⟩) hs
            rw [if_pos hs]
            simp only [h1, if_true]
            have sp := slotFor_spec c.sharing v.slots ⟨(f.off % 8, f.stride), (base : Int) + (g.ioff / 8 + addInode g.levels t : Nat),
              1#32 <<< ((f.off + lvIter g.levels t * f.stride) &&& 7)⟩
            refine ⟨fun r hr => ?_, sp.1, fun a ha => ?_, fun _ => rfl, trivial⟩
            · have := st _ ⟨init_dyn hok hs base t, Nat.mod_lt _ (by omega)⟩ (fun _ => h1) r hr
              exact ⟨this.1, fun _ => trivial⟩
            · simp only [Option.some.injEq] at ha
              subst ha
              refine ⟨⟨by simp, hi, he, hs, sp.2.1, ?_⟩, rfl⟩
              rw [Nat.shiftRight_eq_div_pow]
          · rw [if_neg hs]
            simp only [ne_eq, not_not] at hs
            have sp := slotFor_spec c.sharing v.slots
              ⟨(f.off % 8, f.stride), (base : Int) + byteOff (g.ioff / 8 + addInode g.levels t) (inodeIter g.levels t) f, 0⟩
            refine ⟨st _ ⟨init_static hok hg hc hfg hs base t _, Nat.mod_lt _ (by omega)⟩ (fun h => absurd hs h), sp.1, fun a ha => ?_,
              fun _ => rfl, rfl⟩
            simp only [Option.some.injEq] at ha
            subst ha
            exact ⟨⟨by simp, hi, he, hs, sp.2.1⟩, rfl⟩
        · simp only [he, if_false]
          refine ⟨hv, fun _ _ h => h, fun a ha => by simp at ha, fun hx => ?_, trivial⟩
          rcases hx with ⟨h, _⟩ | ⟨_, h⟩
          · exact absurd h hi
          · exact absurd h he
    simp only at first
    generalize visitLeaf c base (g.ioff / 8 + addInode g.levels t) (inodeIter g.levels t) v f = r at first ⊢
    obtain ⟨a, v'⟩ := r
    simp only at first ⊢
    obtain ⟨f1, f2, f3, f4, f5⟩ := first
    simp only [List.map_cons, List.nodup_cons] at hn
    have r := ih v' (fun x hx => hm x (by simp [hx])) hn.2 f1
    simp only at r
    generalize visitLeaves c base (g.ioff / 8 + addInode g.levels t) (inodeIter g.levels t) v' fs = q at r ⊢
    obtain ⟨as, w⟩ := q
    simp only at r ⊢
    obtain ⟨r1, r2, r3, r4, r6, r5⟩ := r
    refine ⟨r1, fun i k h => r2 i k (f2 i k h), fun x hx => ?_, fun x hx hne => ?_, ?_, ?_⟩
    · rcases List.mem_append.mp hx with hx | hx
      · exact AccOK.mono (by simp) r2 (f3 x (by simpa using hx)).1
      · exact AccOK.mono (fun y hy => by simp [hy]) (fun _ _ h => h) (r3 x hx)
    · rcases List.mem_cons.mp hx with rfl | hx
      · have := f4 hne
        cases a with
        | none => simp at this
        | some a => exact ⟨a, by simp, (f3 a rfl).2⟩
      · obtain ⟨b, hb, e⟩ := r4 x hx hne
        exact ⟨b, by simp [hb], e⟩
    · cases a with
      | none => exact r6.cons _
      | some a =>
        simp only [Option.toList_some, List.cons_append, List.nil_append, List.map_cons]
        rw [(f3 a rfl).2]
        exact r6.cons_cons _
    · rw [nullLeaf_toList_append, r5]
      cases a with
      | none => simp only [f5]
      | some a =>
        cases a with
        | nullDyn f' =>
          have ef := (f3 _ rfl).2
          simp only [Acc.leaf] at ef
          subst ef
          have : nullLeaf as = none := by
            by_contra hne
            obtain ⟨x, hx⟩ := Option.ne_none_iff_exists'.mp hne
            unfold nullLeaf at hx
            obtain ⟨b, hb, e⟩ := List.exists_of_findSome?_eq_some hx
            have := r3 b hb
            cases b with
            | nullDyn y =>
              simp only at e
              apply hn.1
              rw [(f3 _ rfl).1.2.1, ← this.2.1]
              exact List.mem_map.mpr ⟨y, this.1, rfl⟩
            | nullStat _ _ => simp at e
            | dyn _ _ _ => simp at e
            | stat _ _ => simp at e
          rw [this, f5]
        | nullStat _ _ => simp only [f5]
        | dyn _ _ _ => simp only [f5]
        | stat _ _ => simp only [f5]

end Mutable.WLayout
