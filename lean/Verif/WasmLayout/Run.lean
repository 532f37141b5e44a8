import Verif.WasmLayout.Load
/-
Whole loops over `loads` and `jumps`.
-/
namespace Mutable.WLayout

/-- What is known of a group of the layout. -/
structure GHyp (c : Cfg) (lay : Kids) (base : Nat) (g : Group) (lv : Level) (ups : List Level) : Prop where
  levels : g.levels = (lv :: ups).reverse
  chain : RChain c.lanes (lv :: ups)
  ok : g.OK c.sch
  dyn : ∀ f ∈ g.leaves, c.needs f → f.stride % 8 ≠ 0 → c.lanes = 1
  lookup : ∀ f ∈ g.leaves, ∀ t, (lay.addrs (8 * base) t).lookup f.idx = some (g.at base t f.stride f.off)
  nodup : (g.leaves.map (·.idx)).Nodup

/-- The state of a group at tuple `t`. -/
structure GInv (c : Cfg) (base it0 t d : Nat) (g : Group) (s : GSt) : Prop where
  g_eq : s.g = g
  vars : VarsOK g s.accs base it0 t d s.vars
  accs : ∀ a ∈ s.accs, AccOK c it0 g.leaves (s.vars.slots.map (·.key)) a
  compl : ∀ f ∈ g.leaves, c.needs f → ∃ a ∈ s.accs, a.leaf = f
  nodup : (s.accs.map (fun a => a.leaf.idx)).Nodup
  dyn : ∀ x ∈ s.vars.slots, x.key.2 % 8 ≠ 0 → c.lanes = 1

theorem GHyp.chain1 {c : Cfg} {lay : Kids} {base : Nat} {g : Group} {lv : Level} {ups : List Level} (h : GHyp c lay base g lv ups) :
    RChain 1 (lv :: ups) := RChain.mono (one_dvd _) h.chain

theorem init_inv {c : Cfg} {lay : Kids} {base t : Nat} {g : Group} {lv : Level} {ups : List Level} (h : GHyp c lay base g lv ups) :
    GInv c base (lvIter g.levels t) t 0 g (initGroup c base t g) := by
  have v := visit_ok h.ok h.levels h.chain1 base t h.dyn g.leaves ⟨[], none⟩ (fun _ x => x) h.nodup (by simp)
  simp only at v
  obtain ⟨v1, _, v3, v4, v5, v6⟩ := v
  refine ⟨rfl, ⟨fun s hs => (v1 s hs).1, ?_⟩, v3, v4, v5.nodup h.nodup, fun s hs => (v1 s hs).2⟩
  unfold initGroup
  simp only
  rw [v6]
  cases nullLeaf _ with
  | none => rfl
  | some f => simp

theorem GInv.nullLeaf_mem {c : Cfg} {base it0 t d : Nat} {g : Group} {s : GSt} (h : GInv c base it0 t d g s) {f : Leaf}
    (hf : nullLeaf s.accs = some f) : Acc.nullDyn f ∈ s.accs := by
  unfold nullLeaf at hf
  obtain ⟨b, hb, e⟩ := List.exists_of_findSome?_eq_some hf
  cases b with
  | nullDyn y => simp only [Option.some.injEq] at e; exact e ▸ hb
  | nullStat _ _ => simp at e
  | dyn _ _ _ => simp at e
  | stat _ _ => simp at e

theorem GInv.step {c : Cfg} {lay : Kids} {base it0 t : Nat} {g : Group} {lv : Level} {ups : List Level} {s : GSt}
    (H : GHyp c lay base g lv ups) (h : GInv c base it0 t 1 g s) (hL : 0 < c.lanes) (hp : c.predicated = true → c.lanes = 1)
    (hLt : c.lanes ∣ t) : GInv c base it0 (t + c.lanes) 0 g (groupJumps c true (t + c.lanes) s) := by
  obtain ⟨g', accs, v⟩ := s
  obtain rfl : g' = g := h.g_eq
  have hk := keys_groupJumps (c := c) (p := true) (t := t + c.lanes) (s := ⟨g', accs, v⟩) H.levels H.ok.strides H.chain1
  have hq := groupJumps_eq (c := c) (p := true) (t := t + c.lanes) (s := ⟨g', accs, v⟩) H.levels H.ok.strides H.chain1
  have hacc : (groupJumps c true (t + c.lanes) ⟨g', accs, v⟩).accs = accs := by rw [hq]
  have hgg : (groupJumps c true (t + c.lanes) ⟨g', accs, v⟩).g = g' := by rw [hq]
  refine ⟨hgg, ?_, ?_, ?_, ?_, ?_⟩
  · rw [hacc]
    refine group_step H.ok H.levels hL H.chain hp hLt h.dyn (fun hs => ?_) h.vars
    obtain ⟨f, hf⟩ := Option.isSome_iff_exists.mp hs
    have := h.accs _ (h.nullLeaf_mem hf)
    exact H.dyn f this.1 (Or.inl ⟨this.2.1, this.2.2.1⟩) this.2.2.2
  · rw [hacc, hk]; exact h.accs
  · rw [hacc]; exact h.compl
  · rw [hacc]; exact h.nodup
  · intro x hx h8
    have : x.key ∈ (groupJumps c true (t + c.lanes) ⟨g', accs, v⟩).vars.slots.map (·.key) := List.mem_map.mpr ⟨x, hx, rfl⟩
    rw [hk] at this
    obtain ⟨y, hy, e⟩ := List.mem_map.mp this
    exact h.dyn y hy (by rw [e]; exact h8)

theorem GInv.stay {c : Cfg} {lay : Kids} {base it0 t : Nat} {g : Group} {lv : Level} {ups : List Level} {s : GSt}
    (H : GHyp c lay base g lv ups) (h : GInv c base it0 t 0 g s) (hp : c.predicated = true) :
    GInv c base it0 t 0 g (groupJumps c false t s) := by
  obtain ⟨g', accs, v⟩ := s
  obtain rfl : g' = g := h.g_eq
  have hk := keys_groupJumps (c := c) (p := false) (t := t) (s := ⟨g', accs, v⟩) H.levels H.ok.strides H.chain1
  have hq := groupJumps_eq (c := c) (p := false) (t := t) (s := ⟨g', accs, v⟩) H.levels H.ok.strides H.chain1
  have hacc : (groupJumps c false t ⟨g', accs, v⟩).accs = accs := by rw [hq]
  have hgg : (groupJumps c false t ⟨g', accs, v⟩).g = g' := by rw [hq]
  refine ⟨hgg, ?_, ?_, ?_, ?_, ?_⟩
  · rw [hacc]
    exact group_stay H.ok H.levels H.chain1 hp h.vars
  · rw [hacc, hk]; exact h.accs
  · rw [hacc]; exact h.compl
  · rw [hacc]; exact h.nodup
  · intro x hx h8
    have : x.key ∈ (groupJumps c false t ⟨g', accs, v⟩).vars.slots.map (·.key) := List.mem_map.mpr ⟨x, hx, rfl⟩
    rw [hk] at this
    obtain ⟨y, hy, e⟩ := List.mem_map.mp this
    exact h.dyn y hy (by rw [e]; exact h8)

/-! ### Single accesses -/

theorem slot_of_key {v : Vars} {i : Nat} {k : Nat × Nat} (h : (v.slots.map (·.key))[i]? = some k) :
    v.slot i ∈ v.slots ∧ (v.slot i).key = k := by
  rw [List.getElem?_map] at h
  cases hs : v.slots[i]? with
  | none => rw [hs] at h; simp at h
  | some s =>
    rw [hs] at h
    simp only [Option.map_some, Option.some.injEq] at h
    have e : v.slot i = s := by unfold Vars.slot; rw [List.getD_eq_getElem?_getD, hs]; rfl
    rw [e]
    exact ⟨List.mem_of_getElem? hs, h⟩

/-- Pointer of a leaf without bit stride. -/
theorem ptr_static {g : Group} {as : List Acc} {base it0 t d : Nat} {v : Vars} (hv : VarsOK g as base it0 t d v) {f : Leaf} {i : Nat}
    (h : (v.slots.map (·.key))[i]? = some f.key) (hs : f.stride % 8 = 0) : (v.slot i).ptr = (g.at base t f.stride 0 / 8 : Nat) := by
  obtain ⟨h1, h2⟩ := slot_of_key h
  have := (hv.slots _ h1).1
  rw [h2] at this
  unfold slotVal Leaf.key at this
  rw [if_neg (by simpa using hs)] at this
  have := (Prod.mk.inj this).1
  rw [this]; simp only; omega

/-- Pointer and mask of a leaf with bit stride. -/
theorem ptr_dyn {g : Group} {as : List Acc} {base it0 t d : Nat} {v : Vars} (hv : VarsOK g as base it0 t d v) {f : Leaf} {i : Nat}
    (h : (v.slots.map (·.key))[i]? = some f.key) (hs : f.stride % 8 ≠ 0) :
    ((v.slot i).ptr + ((f.off + it0 * f.stride) / 8 : Nat), (v.slot i).mask) = atBit (g.at base t f.stride f.off : Nat) := by
  obtain ⟨h1, h2⟩ := slot_of_key h
  have := (hv.slots _ h1).1
  rw [h2] at this
  unfold slotVal Leaf.key at this
  rw [if_pos hs] at this
  simp only at this
  rw [show (v.slot i).ptr = ((v.slot i).ptr, (v.slot i).mask).1 from rfl, show (v.slot i).mask = ((v.slot i).ptr, (v.slot i).mask).2 from rfl, this,
    ← atBit_add_bytes]
  congr 1
  unfold Group.at
  generalize it0 * f.stride = q
  omega

theorem at_mod {g : Group} {sch : List Attr} (hok : g.OK sch) {s : Nat} (hs : s % 8 = 0) (base t : Nat) : g.at base t s 0 % 8 = 0 := by
  have hA := lvAddr_mod g.levels hok.strides t
  have := hok.ioff
  have h8 : lvIter g.levels t * s % 8 = 0 := by rw [Nat.mul_mod, hs]; simp
  unfold Group.at pos
  generalize lvIter g.levels t * s = q at h8 ⊢
  omega

theorem at_off (g : Group) (base t s o : Nat) : g.at base t s o = g.at base t s 0 + o := by unfold Group.at; omega

/-- Every byte `k` of a leaf without bit stride. -/
theorem addr_static {g : Group} {sch : List Attr} (hok : g.OK sch) {s : Nat} (hs : s % 8 = 0) (base t o : Nat) :
    g.at base t s 0 / 8 + o / 8 = g.at base t s o / 8 ∧ g.at base t s o % 8 = o % 8 := by
  have := at_mod hok hs base t
  rw [at_off g base t s o]
  omega

theorem loadStat_ok {c : Cfg} {g : Group} (hok : g.OK c.sch) {f : Leaf} (hs : f.stride % 8 = 0) (m : Mem) (base t : Nat) :
    loadStat c m 0 f ((g.at base t f.stride 0 / 8 : Nat) + (f.off / 8 : Nat)) = cellAt m (c.ty f.idx) (g.at base t f.stride f.off) := by
  obtain ⟨e1, e2⟩ := addr_static hok hs base t f.off
  have e3 : ((g.at base t f.stride 0 / 8 : Nat) : Int) + (f.off / 8 : Nat) = (g.at base t f.stride f.off / 8 : Nat) := by omega
  rw [e3]
  unfold loadStat cellAt
  cases c.ty f.idx with
  | bool =>
    simp only [Int.natCast_zero, Int.add_zero]
    rw [test8_bit _ (Nat.mod_lt _ (by omega)), ← e2]; rfl
  | num n =>
    simp only [rd, Nat.zero_mul, Int.natCast_zero, Int.add_zero]
    rfl
  | str n => rfl

theorem nullBit_ok {c : Cfg} {g : Group} (hok : g.OK c.sch) {f : Leaf} (hs : f.stride % 8 = 0) (m : Mem) (base t k : Nat) :
    test8 (m (((g.at base t f.stride 0 / 8 : Nat) : Int) + ((f.off + k) / 8 : Nat))) (1#8 <<< ((f.off + k) % 8)) =
      bitAt m (g.at base t f.stride f.off + k) := by
  obtain ⟨e1, e2⟩ := addr_static hok hs base t (f.off + k)
  have e0 : g.at base t f.stride f.off + k = g.at base t f.stride (f.off + k) := by unfold Group.at; omega
  have e3 : ((g.at base t f.stride 0 / 8 : Nat) : Int) + ((f.off + k) / 8 : Nat) = (g.at base t f.stride (f.off + k) / 8 : Nat) := by omega
  rw [e3, e0, test8_bit _ (Nat.mod_lt _ (by omega)), ← e2]; rfl

/-- Only booleans have a bit stride. -/
theorem ty_of_dyn {c : Cfg} {g : Group} (hok : g.OK c.sch) (hents : c.EntsOK) {f : Leaf} (hf : f ∈ g.leaves) (he : f.idx ∈ c.ents)
    (hs : f.stride % 8 ≠ 0) : c.ty f.idx = .bool := by
  have hlt := hents _ he
  have h8 : c.sch[f.idx]? = some c.sch[f.idx] := List.getElem?_eq_getElem hlt
  unfold Cfg.ty
  rw [h8]
  by_contra hne
  refine hs (hok.align f hf hlt ?_).1
  rw [h8]
  intro h
  apply hne
  simpa using h

/-- With one lane, every access delivers the values of tuple `t`. -/
theorem accVal_one {c : Cfg} {lay : Kids} {m : Mem} {base it0 t d : Nat} {g : Group} {lv : Level} {ups : List Level}
    {as : List Acc} {v : Vars} (H : GHyp c lay base g lv ups) (hents : c.EntsOK) (h1 : c.lanes = 1) (hv : VarsOK g as base it0 t d v)
    {a : Acc} (ha : AccOK c it0 g.leaves (v.slots.map (·.key)) a) : AccVal c lay m 0 base t v a := by
  cases a with
  | nullDyn f => exact ha.2.1
  | nullStat f i =>
    obtain ⟨a1, a2, a3, a4, a5⟩ := ha
    refine ⟨a2, _, a2 ▸ H.lookup f a1 t, fun k hk hn e => ?_⟩
    simp only [loadNullStat, hn, if_true, h1]
    rw [ptr_static hv a5 a4, nullBit_ok H.ok a4]
  | dyn f i lbo =>
    obtain ⟨a1, a2, a3, a4, a5, rfl⟩ := ha
    refine ⟨a2, _, H.lookup f a1 t, ?_⟩
    have := ptr_dyn hv a5 a4
    rw [ty_of_dyn H.ok hents a1 a3 a4]
    unfold loadDyn cellAt
    simp only [h1, if_true]
    rw [← test8_atBit, ← this]
  | stat f i =>
    obtain ⟨a1, a2, a3, a4, a5⟩ := ha
    refine ⟨a2, _, H.lookup f a1 t, ?_⟩
    rw [ptr_static hv a5 a4, loadStat_ok H.ok a4]

/-! ### Groups and states -/

/-- The loads of a group. -/
theorem loadGroup_ok {c : Cfg} {lay : Kids} {m : Mem} {base it0 t j : Nat} {g : Group} {lv : Level} {ups : List Level} {s : GSt}
    (H : GHyp c lay base g lv ups) (hents : c.EntsOK) (h : GInv c base it0 t 0 g s)
    (hj : (nullLeaf s.accs).isSome = true → j = 0)
    (hval : ∀ w : Vars, w.slots = s.vars.slots → ∀ a ∈ s.accs, AccVal c lay m j base (t + j) w a) {e : Env} (he : EnvOK c lay m base (t + j) e) :
    let r := loadAccs c m j s.accs s.vars e
    GInv c base it0 t 1 g { s with vars := r.1 } ∧ EnvOK c lay m base (t + j) r.2 ∧ EnvLe e r.2 ∧
    (∀ f ∈ g.leaves, f.idx ≠ c.sch.length → f.idx ∈ c.ents → (r.2.vals f.idx).isSome = true) ∧
    (∀ f ∈ g.leaves, f.idx = c.sch.length → ∀ i ∈ c.ents, c.nullable i = true → (r.2.nulls i).isSome = true) := by
  have L := loadAccs_ok (lay := lay) (m := m) (j := j) (base := base) (t := t + j) hents (fun f => g.at base t f.stride f.off) s.accs s.vars e
    hval h.nodup (fun f hf => ?_) he
  · simp only at L ⊢
    obtain ⟨l1, l2, l3, l4, l5, l6⟩ := L
    refine ⟨⟨h.g_eq, ⟨by rw [l1]; exact h.vars.slots, ?_⟩, by rw [l1]; exact h.accs, h.compl, h.nodup, by rw [l1]; exact h.dyn⟩, l3, l4,
      fun f hf hne hi => ?_, fun f hf heq i hi hn => ?_⟩
    · rw [l2]
      cases hq : nullLeaf s.accs with
      | none => rw [h.vars.null, hq]; rfl
      | some f => simp only [Option.map_some, Nat.one_mul]
    · obtain ⟨a, ha, rfl⟩ := h.compl f hf (Or.inr ⟨hne, hi⟩)
      exact l5 a ha hne
    · obtain ⟨a, ha, rfl⟩ := h.compl f hf (Or.inl ⟨heq, needsNull_of hi hn⟩)
      exact l6 a ha heq i hi hn
  · have hm := h.accs _ (h.nullLeaf_mem hf)
    have j0 := hj (by rw [hf]; rfl)
    subst j0
    refine ⟨by rw [h.vars.null, hf]; simp, ?_⟩
    have := H.lookup f hm.1 t
    rw [hm.2.1] at this; exact this

/-- The groups of the layout and their states. -/
def SInv (c : Cfg) (base t0 t d : Nat) : List Group → List GSt → Prop
  | [], [] => True
  | g :: gs, s :: ss => GInv c base (lvIter g.levels t0) t d g s ∧ SInv c base t0 t d gs ss
  | _, _ => False

theorem loadGroups_ok {c : Cfg} {lay : Kids} {m : Mem} {base t0 t j : Nat} (hents : c.EntsOK) :
    ∀ (gs : List Group) (ss : List GSt) (e : Env), (∀ g ∈ gs, ∃ lv ups, GHyp c lay base g lv ups) → SInv c base t0 t 0 gs ss →
    (∀ s ∈ ss, (nullLeaf s.accs).isSome = true → j = 0) →
    (∀ (g : Group) (lv : Level) (ups : List Level) (s : GSt), g ∈ gs → s ∈ ss → GHyp c lay base g lv ups → GInv c base (lvIter g.levels t0) t 0 g s →
      ∀ w : Vars, w.slots = s.vars.slots → ∀ a ∈ s.accs, AccVal c lay m j base (t + j) w a) →
    EnvOK c lay m base (t + j) e →
    let r := loadGroups c m j ss e
    SInv c base t0 t 1 gs r.1 ∧ EnvOK c lay m base (t + j) r.2 ∧ EnvLe e r.2 ∧
    (∀ g ∈ gs, ∀ f ∈ g.leaves, f.idx ≠ c.sch.length → f.idx ∈ c.ents → (r.2.vals f.idx).isSome = true) ∧
    (∀ g ∈ gs, ∀ f ∈ g.leaves, f.idx = c.sch.length → ∀ i ∈ c.ents, c.nullable i = true → (r.2.nulls i).isSome = true) := by
  intro gs
  induction gs with
  | nil =>
    intro ss e _ hs _ _ he
    cases ss with
    | nil => exact ⟨trivial, he, EnvLe.refl e, by simp, by simp⟩
    | cons _ _ => exact absurd hs (by simp [SInv])
  | cons g gs ih =>
    intro ss e hH hs hj hval he
    cases ss with
    | nil => exact absurd hs (by simp [SInv])
    | cons s ss =>
      obtain ⟨lv, ups, H⟩ := hH g (by simp)
      obtain ⟨q1, q2, q3, q4, q5⟩ := loadGroup_ok (m := m) (j := j) H hents hs.1 (hj s (by simp))
        (hval g lv ups s (by simp) (by simp) H hs.1) he
      obtain ⟨r1, r2, r3, r4, r5⟩ := ih ss _ (fun x hx => hH x (by simp [hx])) hs.2 (fun x hx => hj x (by simp [hx]))
        (fun g' lv' ups' s' hg' hs' => hval g' lv' ups' s' (by simp [hg']) (by simp [hs'])) q2
      simp only [loadGroups]
      refine ⟨⟨q1, r1⟩, r2, q3.trans r3, fun x hx f hf hne hi => ?_, fun x hx f hf heq i hi hn => ?_⟩
      · rcases List.mem_cons.mp hx with rfl | hx
        · exact r3.1 _ (q4 f hf hne hi)
        · exact r4 x hx f hf hne hi
      · rcases List.mem_cons.mp hx with rfl | hx
        · exact r3.2 _ (q5 f hf heq i hi hn)
        · exact r5 x hx f hf heq i hi hn

theorem SInv.step {c : Cfg} {lay : Kids} {base t0 t : Nat} (hL : 0 < c.lanes) (hp : c.predicated = true → c.lanes = 1) (hLt : c.lanes ∣ t) :
    ∀ {gs : List Group} {ss : List GSt}, (∀ g ∈ gs, ∃ lv ups, GHyp c lay base g lv ups) → SInv c base t0 t 1 gs ss →
      SInv c base t0 (t + c.lanes) 0 gs (ss.map (groupJumps c true (t + c.lanes)))
  | [], [], _, _ => trivial
  | [], _ :: _, _, h => absurd h (by simp [SInv])
  | _ :: _, [], _, h => absurd h (by simp [SInv])
  | g :: gs, s :: ss, hH, h => by
    obtain ⟨lv, ups, H⟩ := hH g (by simp)
    exact ⟨GInv.step H h.1 hL hp hLt, SInv.step hL hp hLt (fun x hx => hH x (by simp [hx])) h.2⟩

theorem SInv.stay {c : Cfg} {lay : Kids} {base t0 t : Nat} (hp : c.predicated = true) :
    ∀ {gs : List Group} {ss : List GSt}, (∀ g ∈ gs, ∃ lv ups, GHyp c lay base g lv ups) → SInv c base t0 t 0 gs ss →
      SInv c base t0 t 0 gs (ss.map (groupJumps c false t))
  | [], [], _, _ => trivial
  | [], _ :: _, _, h => absurd h (by simp [SInv])
  | _ :: _, [], _, h => absurd h (by simp [SInv])
  | g :: gs, s :: ss, hH, h => by
    obtain ⟨lv, ups, H⟩ := hH g (by simp)
    exact ⟨GInv.stay H h.1 hp, SInv.stay hp (fun x hx => hH x (by simp [hx])) h.2⟩

theorem SInv.init {c : Cfg} {lay : Kids} {base t0 : Nat} :
    ∀ {gs : List Group}, (∀ g ∈ gs, ∃ lv ups, GHyp c lay base g lv ups) → SInv c base t0 t0 0 gs (gs.map (initGroup c base t0))
  | [], _ => trivial
  | g :: gs, hH => by
    obtain ⟨lv, ups, H⟩ := hH g (by simp)
    exact ⟨init_inv H, SInv.init (fun x hx => hH x (by simp [hx]))⟩

theorem SInv.mem {c : Cfg} {base t0 t d : Nat} : ∀ {gs : List Group} {ss : List GSt}, SInv c base t0 t d gs ss → ∀ s ∈ ss,
    ∃ g ∈ gs, GInv c base (lvIter g.levels t0) t d g s
  | [], [], _, s, hs => by simp at hs
  | [], _ :: _, h, _, _ => absurd h (by simp [SInv])
  | _ :: _, [], _, s, hs => by simp at hs
  | g :: gs, s :: ss, h, x, hx => by
    rcases List.mem_cons.mp hx with rfl | hx
    · exact ⟨g, by simp, h.1⟩
    · obtain ⟨g', hg', h'⟩ := SInv.mem h.2 x hx
      exact ⟨g', by simp [hg'], h'⟩

/-- The hypotheses on the layout give those on the groups. -/
theorem ghyp_of {c : Cfg} {lay : Kids} (hwf : lay.WF c.sch 0) (hr : lay.noRootLeaf) (ho : lay.Once) (base : Nat)
    (hL : ∀ g ∈ lay.groups, RChain c.lanes g.levels.reverse)
    (hdyn : ∀ g ∈ lay.groups, ∀ f ∈ g.leaves, c.needs f → f.stride % 8 ≠ 0 → c.lanes = 1) :
    ∀ g ∈ lay.groups, ∃ lv ups, GHyp c lay base g lv ups := by
  intro g hg
  obtain ⟨hok, hne⟩ := groups_ok hwf hr g hg
  have hrev : g.levels.reverse ≠ [] := by simpa using hne
  obtain ⟨lv, ups, e⟩ := List.exists_cons_of_ne_nil hrev
  refine ⟨lv, ups, ⟨?_, e ▸ hL g hg, hok, hdyn g hg, fun f hf t => lookup_leaf ho hg hf (8 * base) t, ?_⟩⟩
  · rw [← e, List.reverse_reverse]
  · have hn : ((lay.groups.flatMap (fun g => g.addrs 0 0)).map Prod.fst).Nodup := ((groups_perm lay 0 0).map Prod.fst).nodup_iff.mpr ho
    obtain ⟨a, b, e⟩ := List.append_of_mem hg
    rw [e] at hn
    simp only [List.flatMap_append, List.flatMap_cons, List.map_append] at hn
    have h1 := (List.nodup_append.mp (List.nodup_append.mp hn).2.1).1
    simpa [Group.addrs, List.map_map, Function.comp_def] using h1

theorem vals_complete {c : Cfg} {lay : Kids} {base t : Nat} {e : Env} (hents : c.EntsOK)
    (h : ∀ g ∈ lay.groups, ∀ f ∈ g.leaves, f.idx ≠ c.sch.length → f.idx ∈ c.ents → (e.vals f.idx).isSome = true) :
    ∀ i ∈ c.ents, ((lay.addrs (8 * base) t).lookup i).isSome = true → (e.vals i).isSome = true := by
  intro i hi hs
  obtain ⟨a, ha⟩ := Option.isSome_iff_exists.mp hs
  obtain ⟨g, hg, f, hf, rfl⟩ := lookup_some ha
  exact h g hg f hf (Nat.ne_of_lt (hents _ hi)) hi

theorem nulls_complete {c : Cfg} {lay : Kids} {base t : Nat} {e : Env}
    (h : ∀ g ∈ lay.groups, ∀ f ∈ g.leaves, f.idx = c.sch.length → ∀ i ∈ c.ents, c.nullable i = true → (e.nulls i).isSome = true) :
    ∀ i ∈ c.ents, c.nullable i = true → ((lay.addrs (8 * base) t).lookup c.sch.length).isSome = true → (e.nulls i).isSome = true := by
  intro i hi hn hs
  obtain ⟨a, ha⟩ := Option.isSome_iff_exists.mp hs
  obtain ⟨g, hg, f, hf, e⟩ := lookup_some ha
  exact h g hg f hf e i hi hn

/-- One step of loading: the row of tuple `t + j`, and the state of tuple `t + L`. -/
theorem loadStep_ok {c : Cfg} {lay : Kids} {m : Mem} {base t0 t j : Nat} {ss : List GSt} (hents : c.EntsOK) (ho : lay.Once)
    (hH : ∀ g ∈ lay.groups, ∃ lv ups, GHyp c lay base g lv ups) (hL : 0 < c.lanes) (hp : c.predicated = false) (hLt : c.lanes ∣ t)
    (hj : ∀ s ∈ ss, (nullLeaf s.accs).isSome = true → j = 0)
    (hval : ∀ (g : Group) (lv : Level) (ups : List Level) (s : GSt), g ∈ lay.groups → s ∈ ss → GHyp c lay base g lv ups → GInv c base (lvIter g.levels t0) t 0 g s →
      ∀ w : Vars, w.slots = s.vars.slots → ∀ a ∈ s.accs, AccVal c lay m j base (t + j) w a)
    (hs : SInv c base t0 t 0 lay.groups ss) :
    (loadStep c lay m j ⟨t, ss⟩).1 = rowAt c.sch c.ents lay m base (t + j) ∧
    (loadStep c lay m j ⟨t, ss⟩).2.tid = t + c.lanes ∧ SInv c base t0 (t + c.lanes) 0 lay.groups (loadStep c lay m j ⟨t, ss⟩).2.gs := by
  have L := loadGroups_ok (m := m) hents lay.groups ss Env.empty hH hs hj hval (EnvOK.empty c lay m base (t + j))
  simp only at L
  obtain ⟨l1, l2, _, l4, l5⟩ := L
  refine ⟨?_, ?_, ?_⟩
  · unfold loadStep
    exact combine_ok hents (hasNull_iff ho base (t + j)) l2 (vals_complete hents l4) (nulls_complete l5)
  · simp [loadStep, jumps, hp]
  · have e : (loadStep c lay m j ⟨t, ss⟩).2.gs = (loadGroups c m j ss Env.empty).1.map (groupJumps c true (t + c.lanes)) := by
      simp [loadStep, jumps, hp]
    rw [e]
    exact SInv.step hL (fun h => absurd h (by simp [hp])) hLt hH l1

end Mutable.WLayout
