import Verif.WasmLayout.Point
/-
C63: compiled queries read and write rows where the data layout says they are.
-/
namespace Mutable.WLayout

/-- A layout as `add_leaf`/`add_inode` can build it, without leaves directly below the root, with each entry once. -/
structure Kids.Valid (sch : List Attr) (k : Kids) : Prop where
  wf : k.WF sch 0
  noRoot : k.noRootLeaf
  once : k.Once

theorem Kids.Valid.ghyp {c : Cfg} {lay : Kids} (h : lay.Valid c.sch) (h1 : c.lanes = 1) (base : Nat) :
    ∀ g ∈ lay.groups, ∃ lv ups, GHyp c lay base g lv ups :=
  ghyp_of h.wf h.noRoot h.once base (fun g hg => by rw [h1]; exact (groups_ok h.wf h.noRoot g hg).1.chain) (fun _ _ _ _ _ _ => h1)

theorem load_from {c : Cfg} {lay : Kids} {m : Mem} {base t0 : Nat} (hv : lay.Valid c.sch) (hents : c.EntsOK) (h1 : c.lanes = 1)
    (hp : c.predicated = false) : ∀ (k t : Nat) (ss : List GSt), SInv c base t0 t 0 lay.groups ss →
    loadAt c lay m 0 k ⟨t, ss⟩ = rowAt c.sch c.ents lay m base (t + k)
  | k, t, ss, hs => by
    have st := loadStep_ok (m := m) (j := 0) hents hv.once (hv.ghyp h1 base) (by omega) hp (by rw [h1]; exact one_dvd t)
      (fun _ _ _ => rfl) (fun g lv ups s _ _ H I w hw a ha => by
        have hVO : VarsOK g [] base (lvIter g.levels t0) t 0 ⟨w.slots, none⟩ := ⟨by rw [hw]; exact I.vars.slots, rfl⟩
        have := accVal_one (m := m) H hents h1 hVO (a := a) (by
          have := I.accs a ha
          rw [← hw] at this
          exact this)
        exact this) hs
    cases k with
    | zero => exact st.1
    | succ k =>
      simp only [loadAt]
      have e : (loadStep c lay m 0 ⟨t, ss⟩).2 = ⟨t + 1, (loadStep c lay m 0 ⟨t, ss⟩).2.gs⟩ := by
        have := st.2.1
        rw [h1] at this
        rw [← this]
      rw [e, load_from hv hents h1 hp k (t + 1) _ (by have := st.2.2; rw [h1] at this; exact this)]
      congr 1; omega

/-- **C63**: a loop over `loads` and `jumps` that starts at tuple `t0` delivers in its `k`-th iteration exactly tuple `t0 + k` of the
data layout, restricted to the requested entries - for every layout, every subset of entries, every memory, with and without pointer
sharing, and with and without replacing remainders by masks. -/
theorem C63_load {c : Cfg} {lay : Kids} (hv : lay.Valid c.sch) (hents : c.EntsOK) (h1 : c.lanes = 1) (hp : c.predicated = false)
    (m : Mem) (base t0 k : Nat) :
    loadAt c lay m 0 k (init c lay base t0) = rowAt c.sch c.ents lay m base (t0 + k) :=
  load_from hv hents h1 hp k t0 _ (SInv.init (hv.ghyp h1 base))

/-- **C63**: pointer sharing and remainder removal do not change what is read. -/
theorem C63_options_irrelevant {c c' : Cfg} {lay : Kids} (hv : lay.Valid c.sch) (hents : c.EntsOK) (h1 : c.lanes = 1)
    (hp : c.predicated = false) (hc : c' = { c with sharing := c'.sharing, remRemoval := c'.remRemoval }) (m : Mem) (base t0 k : Nat) :
    loadAt c' lay m 0 k (init c' lay base t0) = loadAt c lay m 0 k (init c lay base t0) := by
  rw [C63_load hv hents h1 hp, hc]
  exact C63_load (c := { c with sharing := c'.sharing, remRemoval := c'.remRemoval }) hv hents h1 hp m base t0 k

/-- **C63**: a point access delivers the tuple with the given ID. -/
theorem C63_point {c : Cfg} {lay : Kids} (hv : lay.Valid c.sch) (hents : c.EntsOK) (h1 : c.lanes = 1) (m : Mem) (base t : Nat) :
    loadPoint c lay m base t = rowAt c.sch c.ents lay m base t := by
  obtain ⟨r1, _, r3, r4⟩ := pointGroups_ok (m := m) (t := t) hents lay.groups (hv.ghyp h1 base) Env.empty (EnvOK.empty c lay m base t)
  exact combine_ok hents (hasNull_iff hv.once base t) r1 (vals_complete hents r3) (nulls_complete r4)

/-- What the stores may assume of their rows: values have the right types, and only attributes that may be NULL are NULL. -/
def Row.OK (c : Cfg) (r : Row) : Prop := r.Typed c ∧ ∀ i ∈ c.ents, r.null i = true → c.nullable i = true

theorem shyp_of {c : Cfg} {lay : Kids} (hv : lay.Valid c.sch) (hsep : lay.Separated c.sch) (hents : c.EntsOK) (hnd : c.ents.Nodup)
    (h1 : c.lanes = 1) (base : Nat) : SHyp c lay base :=
  ⟨hents, hnd, h1, aligned_of hv.wf hv.noRoot hv.once, sep_of hents hsep, hv.ghyp h1 base⟩

/-- **C63**: a loop over `stores` and `jumps` writes the rows whose predicate is true (all rows without predication) to consecutive
tuple IDs: tuple `t0 + k` of the layout is afterwards the `k`-th of these rows. -/
theorem C63_store {c : Cfg} {lay : Kids} (hv : lay.Valid c.sch) (hsep : lay.Separated c.sch) (hents : c.EntsOK) (hnd : c.ents.Nodup)
    (h1 : c.lanes = 1) (hhas : ∀ i ∈ c.ents, lay.Has i) (hnb : c.needsNull = true → lay.Has c.sch.length)
    (rows : List (Row × Bool)) (hrows : ∀ r ∈ rows, r.1.OK c) (hp : c.predicated = false → ∀ r ∈ rows, r.2 = true)
    (m : Mem) (base t0 : Nat) {k : Nat} {row : Row} (hk : (committed rows)[k]? = some row) :
    rowAt c.sch c.ents lay (storeAll c rows (init c lay base t0) m).2 base (t0 + k) = some (row.stored c) := by
  have S := shyp_of hv hsep hents hnd h1 base
  obtain ⟨_, _, r3, _⟩ := storeAll_ok S (groups_nodup hv.once) rows t0 _ m (SInv.init S.groups) (fun r hr => (hrows r hr).1) hp
  have hmem : ∃ r ∈ rows, r.1 = row := by
    obtain ⟨x, hx, e⟩ := List.mem_map.mp (List.mem_of_getElem? hk)
    exact ⟨x, (List.mem_filter.mp hx).1, e⟩
  obtain ⟨r, hr, rfl⟩ := hmem
  exact row_of_posts hents hhas hnb (hrows r hr).2 (r3 k _ hk)

/-- **C63**: stores change no bit outside the tuples they write; with predication, the tuple after the last one serves as scratch
space.  The tuple ID afterwards is the number of written rows further. -/
theorem C63_store_frame {c : Cfg} {lay : Kids} (hv : lay.Valid c.sch) (hsep : lay.Separated c.sch) (hents : c.EntsOK) (hnd : c.ents.Nodup)
    (h1 : c.lanes = 1) (rows : List (Row × Bool)) (hrows : ∀ r ∈ rows, r.1.Typed c)
    (hp : c.predicated = false → ∀ r ∈ rows, r.2 = true) (m : Mem) (base t0 : Nat) :
    (storeAll c rows (init c lay base t0) m).1.tid = t0 + (committed rows).length ∧
    ∀ a, (∀ u, t0 ≤ u → u < t0 + (committed rows).length ∨ (c.predicated = true ∧ u = t0 + (committed rows).length) →
      ¬ lay.InTuple c.sch base u a) → bitAt (storeAll c rows (init c lay base t0) m).2 a = bitAt m a := by
  have S := shyp_of hv hsep hents hnd h1 base
  obtain ⟨r1, _, _, r4⟩ := storeAll_ok S (groups_nodup hv.once) rows t0 _ m (SInv.init S.groups) hrows hp
  refine ⟨r1, fun a ha => r4 a (fun u hu h i hf => ha u hu h ((foot_iff hents).mp ⟨i, hf⟩))⟩

/-- **C63**: what was stored by one loop is what a later loop - or a point access - loads, with any options. -/
theorem C63_store_load {c c' : Cfg} {lay : Kids} (hv : lay.Valid c.sch) (hsep : lay.Separated c.sch) (hents : c.EntsOK) (hnd : c.ents.Nodup)
    (h1 : c.lanes = 1) (hhas : ∀ i ∈ c.ents, lay.Has i) (hnb : c.needsNull = true → lay.Has c.sch.length)
    (rows : List (Row × Bool)) (hrows : ∀ r ∈ rows, r.1.OK c) (hp : c.predicated = false → ∀ r ∈ rows, r.2 = true)
    (hc : c' = { c with sharing := c'.sharing, remRemoval := c'.remRemoval, predicated := false })
    (m : Mem) (base t0 : Nat) {k : Nat} {row : Row} (hk : (committed rows)[k]? = some row) :
    loadAt c' lay (storeAll c rows (init c lay base t0) m).2 0 k (init c' lay base t0) = some (row.stored c) ∧
    loadPoint c' lay (storeAll c rows (init c lay base t0) m).2 base (t0 + k) = some (row.stored c) := by
  rw [← C63_store hv hsep hents hnd h1 hhas hnb rows hrows hp m base t0 hk, hc]
  exact ⟨C63_load (c := { c with sharing := c'.sharing, remRemoval := c'.remRemoval, predicated := false }) hv hents h1 rfl _ base t0 k,
    C63_point (c := { c with sharing := c'.sharing, remRemoval := c'.remRemoval, predicated := false }) hv hents h1 _ base (t0 + k)⟩

/-! ### A concrete layout: blocks of 24 tuples, subdivided into mini-pages of 12, with bit-packed booleans and NULL bits -/

def exSch : List Attr := [⟨.num 4, false⟩, ⟨.bool, true⟩, ⟨.str 3, true⟩]

/-- Blocks of 24 tuples with a page of 12 tuples each for the numbers and for the others; booleans have stride 1, NULL bits stride 3. -/
def exLay : Kids :=
  .inode 24 0 2048
    (.inode 12 0 1024
      (.leaf 0 0 32 (.leaf 1 387 1 (.leaf 2 400 24 (.leaf 3 700 3 .nil)))) .nil) .nil

theorem exLay_valid : exLay.Valid exSch := ⟨by unfold exLay; simp [Kids.WF, exSch], rfl, by unfold Kids.Once; decide +kernel⟩

def exCfg : Cfg := ⟨exSch, [0, 1, 2], true, true, 1, true⟩

/-- The addresses for all tuples. -/
theorem exLay_addrs (t : Nat) : exLay.addrs 0 t =
    [(0, t / 12 * 1024 + t % 12 * 32), (1, t / 12 * 1024 + 387 + t % 12),
     (2, t / 12 * 1024 + 400 + t % 12 * 24), (3, t / 12 * 1024 + 700 + t % 12 * 3)] := by
  have e : t % 24 % 12 = t % 12 := by omega
  have e2 : t / 24 * 2048 + t % 24 / 12 * 1024 = t / 12 * 1024 := by omega
  simp [exLay, Kids.addrs, e, e2]

theorem exLay_addr {t i a : Nat} (h : (exLay.addrs 0 t).lookup i = some a) : ∃ p q, t = 12 * p + q ∧ q < 12 ∧
     ((i = 0 ∧ width exSch i = 32 ∧ a = p * 1024 + q * 32) ∨ (i = 1 ∧ width exSch i = 1 ∧ a = p * 1024 + 387 + q) ∨
     (i = 2 ∧ width exSch i = 24 ∧ a = p * 1024 + 400 + q * 24) ∨ (i = 3 ∧ width exSch i = 3 ∧ a = p * 1024 + 700 + q * 3)) := by
  have := mem_of_lookup h
  rw [exLay_addrs] at this
  refine ⟨t / 12, t % 12, by omega, by omega, ?_⟩
  simp only [List.mem_cons, Prod.mk.injEq, List.not_mem_nil, or_false] at this
  rcases this with ⟨rfl, rfl⟩ | ⟨rfl, rfl⟩ | ⟨rfl, rfl⟩ | ⟨rfl, rfl⟩
  · exact Or.inl ⟨rfl, rfl, rfl⟩
  · exact Or.inr (Or.inl ⟨rfl, rfl, rfl⟩)
  · exact Or.inr (Or.inr (Or.inl ⟨rfl, rfl, rfl⟩))
  · exact Or.inr (Or.inr (Or.inr ⟨rfl, rfl, rfl⟩))

theorem exLay_sep : exLay.Separated exSch := by
  intro i j t u a b h1 h2 hne
  obtain ⟨p, q, e1, l1, A⟩ := exLay_addr h1
  obtain ⟨p', q', e2, l2, B⟩ := exLay_addr h2
  clear h1 h2
  have hpp : p = p' ∨ p + 1 ≤ p' ∨ p' + 1 ≤ p := by omega
  rcases A with ⟨rfl, w1, e3⟩ | ⟨rfl, w1, e3⟩ | ⟨rfl, w1, e3⟩ | ⟨rfl, w1, e3⟩
  all_goals rcases B with ⟨rfl, w2, e4⟩ | ⟨rfl, w2, e4⟩ | ⟨rfl, w2, e4⟩ | ⟨rfl, w2, e4⟩
  all_goals simp only [w1, w2]
  all_goals clear w1 w2
  all_goals rcases hpp with rfl | hpp | hpp
  all_goals omega

/-- Rows: the `x`-th number, a boolean, a string; NULLs as given. -/
def exRow (x : Byte) (b : Bool) (s : List Byte) (n1 n2 : Bool) : Row :=
  ⟨fun i => if i = 0 then .num [x, 0, 0, 1] else if i = 1 then .bit b else .str s, fun i => if i = 1 then n1 else if i = 2 then n2 else false⟩

theorem exRow_ok (x : Byte) (b : Bool) (s : List Byte) (n1 n2 : Bool) : (exRow x b s n1 n2).OK exCfg := by
  constructor
  · intro i hi
    simp only [exCfg, List.mem_cons, List.not_mem_nil, or_false] at hi
    rcases hi with rfl | rfl | rfl <;> simp [exCfg, exSch, Cfg.ty, exRow]
  · intro i hi
    simp only [exCfg, List.mem_cons, List.not_mem_nil, or_false] at hi
    rcases hi with rfl | rfl | rfl <;> simp [exCfg, exSch, Cfg.nullable, exRow]

/-- Storing 40 rows, every third predicated away, from tuple 5 on: the hypotheses hold, and e.g. the 20th written row is tuple 25,
in the second block. -/
def exRows : List (Row × Bool) := (List.range 40).map (fun k => (exRow (BitVec.ofNat 8 k) (k % 2 == 0) [65#8, 66#8] (k % 5 == 0) (k % 7 == 0), k % 3 != 0))

example (m : Mem) (base : Nat) {k : Nat} {row : Row} (hk : (committed exRows)[k]? = some row) :
    loadAt { exCfg with predicated := false, sharing := false } exLay (storeAll exCfg exRows (init exCfg exLay base 5) m).2 0 k
      (init { exCfg with predicated := false, sharing := false } exLay base 5) = some (row.stored exCfg) :=
  (C63_store_load (c := exCfg) (c' := { exCfg with predicated := false, sharing := false }) exLay_valid exLay_sep (by unfold Cfg.EntsOK; decide) (by decide) rfl
    (by unfold Kids.Has; decide +kernel) (fun _ => by unfold Kids.Has; decide +kernel) exRows
    (by intro r hr; obtain ⟨k, _, rfl⟩ := List.mem_map.mp hr; exact exRow_ok _ _ _ _ _) (by intro h; cases h) rfl m base 5 hk).1

example : ((committed exRows)[20]?.map (·.stored exCfg)) = some [some (.num [31, 0, 0, 1]), some (.bit false), some (.str [65, 66])] := by
  decide +kernel

/-- A tuple ID crossing pages and blocks: the state after 30 steps from tuple 5 is the one initialised at tuple 35. -/
example : (exLay.addrs 80 35).lookup 1 = some (80 + 2048 + 387 + 11) := by decide +kernel

end Mutable.WLayout
