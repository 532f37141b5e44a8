import Verif.WasmLayout.Store
/-
Whole loops over `stores` and `jumps`.
-/
namespace Mutable.WLayout

/-- Hypotheses on the configuration and the layout for stores. -/
structure SHyp (c : Cfg) (lay : Kids) (base : Nat) : Prop where
  ents : c.EntsOK
  nodup : c.ents.Nodup
  lanes : c.lanes = 1
  aligned : Aligned c lay base
  sep : ∀ t u i j a p q, i ≠ j ∨ t ≠ u → foot c lay base t p i a → ¬ foot c lay base u q j a
  groups : ∀ g ∈ lay.groups, ∃ lv ups, GHyp c lay base g lv ups

/-- The variables of the group after a store. -/
def nullAfter (g : Group) (base t : Nat) (p : Bool) (as : List Acc) (v : Vars) : Option (Int × BitVec 32) :=
  match nullLeaf as with
  | some f => some (atBit (g.at base t f.stride f.off + (if p then 1 else 0) * f.stride : Nat))
  | none => v.null

theorem foot_mono {c : Cfg} {lay : Kids} {base t i a : Nat} {p : Bool} (hents : c.EntsOK) (h : foot c lay base t p i a) :
    foot c lay base t false i a := by
  obtain ⟨b, hb, h2⟩ := h
  refine ⟨b, hb, ?_⟩
  by_cases e : i = c.sch.length
  · rw [if_pos e] at h2 ⊢
    cases p with
    | false => exact h2
    | true =>
      rw [if_pos rfl] at h2
      obtain ⟨k, hk, _, rfl⟩ := h2
      have := hents k hk
      rw [if_neg (by simp)]
      omega
  · rw [if_neg e] at h2 ⊢; exact h2

/-- The stores of a group. -/
theorem storeAccs_ok {c : Cfg} {lay : Kids} {base it0 t : Nat} {g : Group} {lv : Level} {ups : List Level} {row : Row} {p : Bool}
    {keys : List (Nat × Nat)}
    (S : SHyp c lay base) (H : GHyp c lay base g lv ups) (hty : row.Typed c) :
    ∀ (as : List Acc) (v : Vars) (m : Mem), (∀ s ∈ v.slots, (s.ptr, s.mask) = slotVal g base it0 t s.key ∧ s.key.1 < 8) →
    v.slots.map (·.key) = keys →
    (∀ a ∈ as, AccOK c it0 g.leaves keys a) → (as.map (fun a => a.leaf.idx)).Nodup →
    (∀ f, nullLeaf as = some f → v.null = some (atBit (g.at base t f.stride f.off : Nat))) →
    let r := storeAccs c p row as v m
    r.1.slots = v.slots ∧ r.1.null = nullAfter g base t p as v ∧ Effs c lay base t p row (as.map (fun a => a.leaf.idx)) m r.2 := by
  intro as
  induction as with
  | nil => intro v m _ _ _ _ _; exact ⟨rfl, rfl, Effs.nil c lay base t p row m⟩
  | cons a as ih =>
    intro v m hv hk ha hn hnull
    simp only [List.map_cons, List.nodup_cons] at hn
    have haa := ha a (by simp)
    have fin : ∀ (v' : Vars) (m' : Mem), storeAcc c p row a v m = (v', m') → v'.slots = v.slots →
        v'.null = nullAfter g base t p [a] v → a.leaf.idx ≤ c.sch.length → Effs c lay base t p row [a.leaf.idx] m m' →
        let r := storeAccs c p row (a :: as) v m
        r.1.slots = v.slots ∧ r.1.null = nullAfter g base t p (a :: as) v ∧
        Effs c lay base t p row ((a :: as).map (fun a => a.leaf.idx)) m r.2 := by
      intro v' m' hr hs hnl hle heff
      simp only [storeAccs, hr]
      have hN : nullLeaf (a :: as) = match nullLeaf [a] with | some f => some f | none => nullLeaf as := by
        cases a <;> rfl
      have dis : ∀ f, nullLeaf [a] = some f → nullLeaf as = none := by
        intro f hf
        cases a with
        | nullDyn y =>
          refine nullLeaf_none (n := c.sch.length) (fun b hb hbe => hn.1 ?_) (fun b hb g' hg' => ?_)
          · refine List.mem_map.mpr ⟨b, hb, ?_⟩
            simp only [Acc.leaf] at hbe ⊢
            rw [haa.2.1]; exact hbe
          · have := ha b (by simp [hb])
            rw [hg'] at this; exact this.2.1
        | nullStat _ _ => simp [nullLeaf] at hf
        | dyn _ _ _ => simp [nullLeaf] at hf
        | stat _ _ => simp [nullLeaf] at hf
      have hnull' : ∀ f, nullLeaf as = some f → v'.null = some (atBit (g.at base t f.stride f.off : Nat)) := by
        intro f hf
        have h0 : nullLeaf [a] = none := by
          cases h : nullLeaf [a] with
          | none => rfl
          | some y => rw [dis y h] at hf; simp at hf
        rw [h0] at hN
        unfold nullAfter at hnl
        rw [h0] at hnl
        simp only at hnl hN
        rw [hnl]
        exact hnull f (by rw [hN]; exact hf)
      obtain ⟨r1, r2, r3⟩ := ih v' m' (by rw [hs]; exact hv) (by rw [hs]; exact hk) (fun b hb => ha b (by simp [hb])) hn.2 hnull'
      refine ⟨r1.trans hs, ?_, ?_⟩
      · rw [r2]
        unfold nullAfter at hnl ⊢
        rw [hN, hnl]
        cases h : nullLeaf [a] with
        | none => rfl
        | some y => rw [dis y h]
      · have := Effs.append S.aligned (fun i j a hij => S.sep t t i j a p p (Or.inl hij)) (D := [a.leaf.idx]) (by simpa using hle)
          (by intro i hi; simp only [List.mem_singleton] at hi; subst hi; exact hn.1) heff r3
        exact this
    cases a with
    | nullDyn f =>
      have h1 := hnull f rfl
      obtain ⟨a1, a2, a3, a4⟩ := haa
      have hlk : (lay.addrs (8 * base) t).lookup c.sch.length = some (g.at base t f.stride f.off) := a2 ▸ H.lookup f a1 t
      have hl : (Acc.nullDyn f).leaf.idx = c.sch.length := a2
      generalize hnb : g.at base t f.stride f.off = nb at *
      cases p with
      | true =>
        have Q := storeNullDyn_true (c := c) (row := row) (nb := nb) (List.range c.sch.length) 0 (atBit nb) m rfl List.nodup_range
        simp only at Q
        obtain ⟨q1, q2, q3⟩ := Q
        refine fin ⟨v.slots, some (advance true ((f.stride : Int) - (storeNullDyn c true row (List.range c.sch.length) 0 (atBit nb) m).2.1)
          (storeNullDyn c true row (List.range c.sch.length) 0 (atBit nb) m).1)⟩ _ (by simp only [storeAcc, h1]; rfl) rfl ?_ (Nat.le_of_eq hl) ?_
        · simp only [nullAfter, nullLeaf, List.findSome?_cons, if_true, hnb]
          rw [q1, advance_atBit]
          congr 2; push_cast; ring
        · rw [hl]
          refine ⟨fun i hi _ => ?_, fun x hx => q3 x ?_⟩
          · simp only [List.mem_singleton] at hi
            subst hi
            refine ⟨nb, hlk, ?_⟩
            rw [if_pos rfl]
            exact fun k hk hkn => q2 k (List.mem_range.mpr (S.ents k hk)) hkn hk
          · rintro ⟨k, hk, ⟨hke, hkn⟩, e⟩
            refine hx ⟨c.sch.length, by simp, nb, hlk, ?_⟩
            rw [if_pos rfl, if_pos rfl]
            exact ⟨k, hke, hkn, e⟩
      | false =>
        have Q := storeNullDyn_false (c := c) (row := row) (nb := nb) (List.range c.sch.length) 0 m
        simp only at Q
        obtain ⟨q1, q2⟩ := Q
        refine fin ⟨v.slots, some (advance false ((f.stride : Int) - (storeNullDyn c false row (List.range c.sch.length) 0 (atBit nb) m).2.1)
          (storeNullDyn c false row (List.range c.sch.length) 0 (atBit nb) m).1)⟩ _ (by simp only [storeAcc, h1]; rfl) rfl ?_ (Nat.le_of_eq hl) ?_
        · simp only [nullAfter, nullLeaf, List.findSome?_cons, Bool.false_eq_true, if_false, Nat.zero_mul, Nat.add_zero, hnb]
          rw [q1, advance_false]
        · rw [hl]
          refine ⟨fun i hi hp => by simp at hp, fun x hx => q2 x ?_⟩
          rintro rfl
          refine hx ⟨c.sch.length, by simp, x, hlk, ?_⟩
          rw [if_pos rfl, if_neg (by simp)]
          have hpos : 0 < c.sch.length := by
            unfold Cfg.needsNull at a3
            obtain ⟨k, hk, _⟩ := List.any_eq_true.mp a3
            have := S.ents k hk
            omega
          omega
    | nullStat f i =>
      obtain ⟨a1, a2, a3, a4, a5⟩ := haa
      have hVO : VarsOK g [] base it0 t 0 ⟨v.slots, none⟩ := ⟨hv, rfl⟩
      have hp := ptr_static (v := ⟨v.slots, none⟩) hVO (by rw [hk]; exact a5) a4
      have hp' : (v.slot i).ptr = (g.at base t f.stride 0 / 8 : Nat) := hp
      have hlk : (lay.addrs (8 * base) t).lookup c.sch.length = some (g.at base t f.stride f.off) := a2 ▸ H.lookup f a1 t
      have hl : (Acc.nullStat f i).leaf.idx = c.sch.length := a2
      have Q := storeNullStat_ok (c := c) (row := row) (f := f) (at_mod H.ok a4 base t) (at_off g base t f.stride f.off) c.ents m S.nodup
      simp only at Q
      obtain ⟨q1, q2⟩ := Q
      refine fin v _ (by simp only [storeAcc, hp']; rfl) rfl rfl (Nat.le_of_eq hl) ?_
      rw [hl]
      refine ⟨fun i hi _ => ?_, fun x hx => q2 x ?_⟩
      · simp only [List.mem_singleton] at hi
        subst hi
        refine ⟨_, hlk, ?_⟩
        rw [if_pos rfl]
        exact q1
      · rintro ⟨k, hke, hkn, e⟩
        apply hx
        refine ⟨c.sch.length, by simp, _, hlk, ?_⟩
        rw [if_pos rfl]
        cases p with
        | true => rw [if_pos rfl]; exact ⟨k, hke, hkn, e⟩
        | false =>
          rw [if_neg (by simp)]
          have := S.ents k hke
          omega
    | dyn f i lbo =>
      obtain ⟨a1, a2, a3, a4, a5, rfl⟩ := haa
      have hVO : VarsOK g [] base it0 t 0 ⟨v.slots, none⟩ := ⟨hv, rfl⟩
      have hp := ptr_dyn (v := ⟨v.slots, none⟩) hVO (by rw [hk]; exact a5) a4
      have hp' : ((v.slot i).ptr + ((f.off + it0 * f.stride) / 8 : Nat), (v.slot i).mask) = atBit (g.at base t f.stride f.off : Nat) := hp
      have hlk := H.lookup f a1 t
      have hb := ty_of_dyn H.ok S.ents a1 a3 a4
      have ht := hty f.idx a3
      rw [hb] at ht
      generalize hnb : g.at base t f.stride f.off = nb at *
      cases hval : row.val f.idx with
      | bit bv =>
        have e1 : (v.slot i).ptr + ((f.off + it0 * f.stride) / 8 : Nat) = (atBit nb).1 := by rw [← hp']
        have e2 : (v.slot i).mask = (atBit nb).2 := by rw [← hp']
        refine fin v (setbit m (atBit nb).1 bv ((atBit nb).2.setWidth 8)) (by simp only [storeAcc, hval, e1, e2]) rfl rfl
          (Nat.le_of_lt (S.ents _ a3)) ?_
        refine ⟨fun j hj _ => ?_, fun x hx => ?_⟩
        · simp only [List.mem_singleton] at hj
          subst hj
          refine ⟨nb, hlk, ?_⟩
          show (if f.idx = c.sch.length then _ else _)
          rw [if_neg a2]
          simp only [Acc.leaf]
          rw [hb, hval]
          refine Or.inr ?_
          simp only [cellAt, setbit_atBit, norm, if_true]
        · rw [setbit_atBit, if_neg]
          rintro rfl
          refine hx ⟨f.idx, by simp [Acc.leaf], x, hlk, ?_⟩
          rw [if_neg a2, width_eq (S.ents _ a3), hb]
          simp [Ty.bits]
      | num _ => rw [hval] at ht; exact ht.elim
      | str _ => rw [hval] at ht; exact ht.elim
    | stat f i =>
      obtain ⟨a1, a2, a3, a4, a5⟩ := haa
      have hVO : VarsOK g [] base it0 t 0 ⟨v.slots, none⟩ := ⟨hv, rfl⟩
      have hp := ptr_static (v := ⟨v.slots, none⟩) hVO (by rw [hk]; exact a5) a4
      have hp' : (v.slot i).ptr = (g.at base t f.stride 0 / 8 : Nat) := hp
      have hlk := H.lookup f a1 t
      obtain ⟨e1, e2⟩ := addr_static H.ok a4 base t f.off
      have e3 : (v.slot i).ptr + (f.off / 8 : Nat) = (g.at base t f.stride f.off / 8 : Nat) := by rw [hp']; omega
      have Q := storeStat_ok (c := c) (row := row) (f := f) (b := g.at base t f.stride f.off) hty a3
        (fun h => S.aligned f.idx (S.ents _ a3) t _ hlk h) e2 m
      simp only at Q
      obtain ⟨q1, q2⟩ := Q
      refine fin v _ (by simp only [storeAcc, e3]; rfl) rfl rfl (Nat.le_of_lt (S.ents _ a3)) ?_
      refine ⟨fun j hj _ => ?_, fun x hx => q2 x ?_⟩
      · simp only [List.mem_singleton] at hj
        subst hj
        refine ⟨_, hlk, ?_⟩
        show (if f.idx = c.sch.length then _ else _)
        rw [if_neg a2]
        exact q1
      · intro hlt
        refine hx ⟨f.idx, by simp [Acc.leaf], _, hlk, ?_⟩
        rw [if_neg a2, width_eq (S.ents _ a3)]
        exact hlt

/-- The indices for which code was emitted. -/
def accIdx (ss : List GSt) : List Nat := ss.flatMap (fun s => s.accs.map (fun a => a.leaf.idx))

theorem GInv.idx_le {c : Cfg} {base it0 t d : Nat} {g : Group} {s : GSt} (h : GInv c base it0 t d g s) (hents : c.EntsOK) :
    ∀ i ∈ s.accs.map (fun a => a.leaf.idx), i ≤ c.sch.length ∧ i ∈ g.leaves.map (·.idx) := by
  intro i hi
  obtain ⟨a, ha, rfl⟩ := List.mem_map.mp hi
  have := h.accs a ha
  cases a with
  | nullDyn f => exact ⟨Nat.le_of_eq this.2.1, List.mem_map.mpr ⟨f, this.1, rfl⟩⟩
  | nullStat f _ => exact ⟨Nat.le_of_eq this.2.1, List.mem_map.mpr ⟨f, this.1, rfl⟩⟩
  | dyn f _ _ => exact ⟨Nat.le_of_lt (hents _ this.2.2.1), List.mem_map.mpr ⟨f, this.1, rfl⟩⟩
  | stat f _ => exact ⟨Nat.le_of_lt (hents _ this.2.2.1), List.mem_map.mpr ⟨f, this.1, rfl⟩⟩

theorem SInv.idx_le {c : Cfg} {base t0 t d : Nat} {gs : List Group} {ss : List GSt} (h : SInv c base t0 t d gs ss) (hents : c.EntsOK) :
    ∀ i ∈ accIdx ss, i ≤ c.sch.length ∧ i ∈ gs.flatMap (fun g => g.leaves.map (·.idx)) := by
  intro i hi
  obtain ⟨s, hs, hi⟩ := List.mem_flatMap.mp hi
  obtain ⟨g, hg, hI⟩ := h.mem s hs
  have := hI.idx_le hents i hi
  exact ⟨this.1, List.mem_flatMap.mpr ⟨g, hg, this.2⟩⟩

/-- The block `stores`. -/
theorem storeGroups_ok {c : Cfg} {lay : Kids} {base t0 t : Nat} {row : Row} {p : Bool} (S : SHyp c lay base) (hty : row.Typed c) :
    ∀ (gs : List Group) (ss : List GSt) (m : Mem), (∀ g ∈ gs, ∃ lv ups, GHyp c lay base g lv ups) →
    (gs.flatMap (fun g => g.leaves.map (·.idx))).Nodup → SInv c base t0 t 0 gs ss →
    let r := storeGroups c p row ss m
    SInv c base t0 t (if p then 1 else 0) gs r.1 ∧ Effs c lay base t p row (accIdx ss) m r.2 := by
  intro gs
  induction gs with
  | nil =>
    intro ss m _ _ hs
    cases ss with
    | nil => exact ⟨trivial, Effs.nil c lay base t p row m⟩
    | cons _ _ => exact absurd hs (by simp [SInv])
  | cons g gs ih =>
    intro ss m hH hn hs
    cases ss with
    | nil => exact absurd hs (by simp [SInv])
    | cons s ss =>
      obtain ⟨lv, ups, H⟩ := hH g (by simp)
      have I := hs.1
      obtain ⟨q1, q2, q3⟩ := storeAccs_ok (p := p) S H hty s.accs s.vars m I.vars.slots rfl I.accs I.nodup
        (fun f hf => by rw [I.vars.null, hf]; simp)
      simp only [List.flatMap_cons] at hn
      rw [List.nodup_append] at hn
      obtain ⟨r1, r2⟩ := ih ss (storeAccs c p row s.accs s.vars m).2 (fun x hx => hH x (by simp [hx])) hn.2.1 hs.2
      simp only [storeGroups]
      refine ⟨⟨⟨I.g_eq, ⟨by rw [q1]; exact I.vars.slots, ?_⟩, by rw [q1]; exact I.accs, I.compl, I.nodup, by rw [q1]; exact I.dyn⟩, r1⟩, ?_⟩
      · rw [q2]
        unfold nullAfter
        cases hq : nullLeaf s.accs with
        | none => rw [I.vars.null, hq]; rfl
        | some f => rfl
      · refine Effs.append S.aligned (fun i j a hij => S.sep t t i j a p p (Or.inl hij)) (fun i hi => (I.idx_le S.ents i hi).1)
          (fun i hi hi' => ?_) q3 r2
        exact hn.2.2 i (I.idx_le S.ents i hi).2 i (hs.2.idx_le S.ents i hi').2 rfl

/-! ### All rows -/

/-- The rows whose predicate is true. -/
def committed (rows : List (Row × Bool)) : List Row := (rows.filter (·.2)).map (·.1)

/-- Entry `i` is written. -/
def Need (c : Cfg) (lay : Kids) (i : Nat) : Prop := ∃ g ∈ lay.groups, ∃ f ∈ g.leaves, f.idx = i ∧ c.needs f

theorem SInv.compl {c : Cfg} {base t0 t d : Nat} : ∀ {gs : List Group} {ss : List GSt}, SInv c base t0 t d gs ss →
    ∀ g ∈ gs, ∀ f ∈ g.leaves, c.needs f → f.idx ∈ accIdx ss
  | [], [], _, g, hg, _, _, _ => by simp at hg
  | [], _ :: _, h, _, _, _, _, _ => absurd h (by simp [SInv])
  | _ :: _, [], h, _, _, _, _, _ => absurd h (by simp [SInv])
  | g :: gs, s :: ss, h, x, hx, f, hf, hn => by
    unfold accIdx
    rw [List.flatMap_cons, List.mem_append]
    rcases List.mem_cons.mp hx with rfl | hx
    · obtain ⟨a, ha, rfl⟩ := h.1.compl f hf hn
      exact Or.inl (List.mem_map.mpr ⟨a, ha, rfl⟩)
    · exact Or.inr (SInv.compl h.2 x hx f hf hn)

theorem Need.le {c : Cfg} {lay : Kids} {i : Nat} (h : Need c lay i) (hents : c.EntsOK) : i ≤ c.sch.length := by
  obtain ⟨_, _, f, _, rfl, h⟩ := h
  rcases h with ⟨h, _⟩ | ⟨_, h⟩
  · exact Nat.le_of_eq h
  · exact Nat.le_of_lt (hents _ h)

theorem storeAll_ok {c : Cfg} {lay : Kids} {base t0 : Nat} (S : SHyp c lay base)
    (hnd : (lay.groups.flatMap (fun g => g.leaves.map (·.idx))).Nodup) :
    ∀ (rows : List (Row × Bool)) (t : Nat) (ss : List GSt) (m : Mem), SInv c base t0 t 0 lay.groups ss →
    (∀ r ∈ rows, r.1.Typed c) → (c.predicated = false → ∀ r ∈ rows, r.2 = true) →
    let r := storeAll c rows ⟨t, ss⟩ m
    r.1.tid = t + (committed rows).length ∧ SInv c base t0 (t + (committed rows).length) 0 lay.groups r.1.gs ∧
    (∀ (k : Nat) (row : Row), (committed rows)[k]? = some row → ∀ i, Need c lay i → post c lay base (t + k) true row i r.2) ∧
    (∀ a, (∀ u, t ≤ u → u < t + (committed rows).length ∨ (c.predicated = true ∧ u = t + (committed rows).length) →
        ∀ i, ¬ foot c lay base u false i a) → bitAt r.2 a = bitAt m a)
  | [], t, ss, m, hs, _, _ => ⟨rfl, hs, fun k row h => by simp [committed] at h, fun _ _ => rfl⟩
  | (row, p) :: rows, t, ss, m, hs, hty, hp => by
    obtain ⟨q1, q2⟩ := storeGroups_ok (row := row) (p := p) S (hty (row, p) (by simp)) lay.groups ss m S.groups hnd hs
    have hty' : ∀ r ∈ rows, r.1.Typed c := fun r hr => hty r (by simp [hr])
    have hp' : c.predicated = false → ∀ r ∈ rows, r.2 = true := fun h r hr => hp h r (by simp [hr])
    simp only [storeAll, storeStep, jumps]
    cases p with
    | true =>
      have et : t + (if c.predicated = true then (if (true : Bool) = true then 1 else 0) else c.lanes) = t + 1 := by
        rw [S.lanes]; simp
      rw [et]
      have st := SInv.step (c := c) (t := t) (by rw [S.lanes]; omega) (fun _ => S.lanes) (by rw [S.lanes]; exact one_dvd t) S.groups q1
      rw [S.lanes] at st
      obtain ⟨r1, r2, r3, r4⟩ := storeAll_ok S hnd rows (t + 1) _ (storeGroups c true row ss m).2 st hty' hp'
      have ec : committed ((row, true) :: rows) = row :: committed rows := rfl
      rw [ec, List.length_cons]
      refine ⟨by rw [r1]; omega, by rw [show t + ((committed rows).length + 1) = t + 1 + (committed rows).length by omega]; exact r2,
        fun k row' hk i hi => ?_, fun a ha => ?_⟩
      · cases k with
        | zero =>
          simp only [List.getElem?_cons_zero, Option.some.injEq] at hk
          subst hk
          obtain ⟨g, hg, f, hf, rfl, hne⟩ := id hi
          refine post_congr S.aligned (hi.le S.ents) (fun a ha => r4 a ?_) (q2.1 f.idx (hs.compl g hg f hf hne))
          intro u hu _ j hj
          exact S.sep t u f.idx j a true false (Or.inr (by omega)) ha hj
        | succ k =>
          simp only [List.getElem?_cons_succ] at hk
          have := r3 k row' hk i hi
          rw [show t + (k + 1) = t + 1 + k by omega]
          exact this
      · rw [r4 a (fun u hu h => ha u (by omega) (h.elim (fun h => Or.inl (by omega)) (fun h => Or.inr ⟨h.1, by omega⟩)))]
        apply q2.2
        rintro ⟨i, _, hf⟩
        exact ha t (Nat.le_refl _) (Or.inl (by omega)) i (foot_mono S.ents hf)
    | false =>
      have hpt : c.predicated = true := by
        cases h : c.predicated with
        | true => rfl
        | false => have := hp h (row, false) (by simp); simp at this
      have et : t + (if c.predicated = true then (if (false : Bool) = true then 1 else 0) else c.lanes) = t := by
        rw [hpt]; simp
      rw [et]
      have st := SInv.stay (c := c) hpt S.groups q1
      obtain ⟨r1, r2, r3, r4⟩ := storeAll_ok S hnd rows t _ (storeGroups c false row ss m).2 st hty' hp'
      have ec : committed ((row, false) :: rows) = committed rows := rfl
      rw [ec]
      refine ⟨r1, r2, r3, fun a ha => ?_⟩
      rw [r4 a ha]
      apply q2.2
      rintro ⟨i, _, hf⟩
      refine ha t (Nat.le_refl _) ?_ i hf
      by_cases h0 : (committed rows).length = 0
      · exact Or.inr ⟨hpt, by omega⟩
      · exact Or.inl (by omega)

/-! ### Hypotheses on layouts -/

theorem addrs_shift (k : Kids) : ∀ (b x t : Nat), k.addrs (b + x) t = (k.addrs x t).map (fun e => (e.1, b + e.2)) := by
  induction k with
  | nil => intros; rfl
  | leaf i o s rest ih =>
    intro b x t
    simp only [Kids.addrs, List.map_cons, ih b x t]
    congr 2; omega
  | inode n o s kids rest ihk ihr =>
    intro b x t
    simp only [Kids.addrs, List.map_append, ihr b x t]
    rw [show b + x + o + t / n * s = b + (x + o + t / n * s) by omega, ihk]

theorem lookup_map (l : List (Nat × Nat)) (b i : Nat) : (l.map (fun e => (e.1, b + e.2))).lookup i = (l.lookup i).map (b + ·) := by
  induction l with
  | nil => rfl
  | cons x xs ih =>
    obtain ⟨j, y⟩ := x
    simp only [List.map_cons, List.lookup_cons]
    cases i == j <;> simp [ih]

theorem lookup_base (k : Kids) (b t i : Nat) : (k.addrs b t).lookup i = ((k.addrs 0 t).lookup i).map (b + ·) := by
  have := addrs_shift k b 0 t
  rw [Nat.add_zero] at this
  rw [this, lookup_map]

theorem foot_range {c : Cfg} {lay : Kids} {base t i a : Nat} {p : Bool} (hents : c.EntsOK) (h : foot c lay base t p i a) :
    ∃ b, (lay.addrs 0 t).lookup i = some b ∧ 8 * base + b ≤ a ∧ a < 8 * base + b + width c.sch i := by
  obtain ⟨b, hb, h2⟩ := foot_mono hents h
  rw [lookup_base] at hb
  cases hl : (lay.addrs 0 t).lookup i with
  | none => rw [hl] at hb; simp at hb
  | some b0 =>
    rw [hl] at hb
    simp only [Option.map_some, Option.some.injEq] at hb
    refine ⟨b0, rfl, ?_⟩
    by_cases e : i = c.sch.length
    · rw [if_pos e, if_neg (by simp)] at h2
      rw [e, width_null]; omega
    · rw [if_neg e] at h2; omega

theorem foot_iff {c : Cfg} {lay : Kids} {base t a : Nat} (hents : c.EntsOK) :
    (∃ i, foot c lay base t false i a) ↔ lay.InTuple c.sch base t a := by
  constructor
  · rintro ⟨i, h⟩
    obtain ⟨b, hb, h1, h2⟩ := foot_range hents h
    exact ⟨i, 8 * base + b, by rw [lookup_base, hb]; rfl, h1, h2⟩
  · rintro ⟨i, b, hb, h1, h2⟩
    refine ⟨i, b, hb, ?_⟩
    by_cases e : i = c.sch.length
    · rw [if_pos e, if_neg (by simp)]
      rw [e, width_null] at h2
      exact ⟨h1, h2⟩
    · rw [if_neg e]; exact ⟨h1, h2⟩

theorem sep_of {c : Cfg} {lay : Kids} {base : Nat} (hents : c.EntsOK) (hs : lay.Separated c.sch) :
    ∀ t u i j a p q, i ≠ j ∨ t ≠ u → foot c lay base t p i a → ¬ foot c lay base u q j a := by
  intro t u i j a p q hne h1 h2
  obtain ⟨b1, k1, _, _⟩ := foot_range hents h1
  obtain ⟨b2, k2, _, _⟩ := foot_range hents h2
  have := hs i j t u b1 b2 k1 k2 hne
  omega

theorem aligned_of {c : Cfg} {lay : Kids} {base : Nat} (hwf : lay.WF c.sch 0) (hr : lay.noRootLeaf) (ho : lay.Once) : Aligned c lay base := by
  intro i hi t b hb hty
  obtain ⟨g, hg, f, hf, rfl⟩ := lookup_some hb
  have hl := lookup_leaf ho hg hf (8 * base) t
  rw [hb] at hl
  simp only [Option.some.injEq] at hl
  obtain ⟨hok, _⟩ := groups_ok hwf hr g hg
  have h8 : c.sch[f.idx]? = some c.sch[f.idx] := List.getElem?_eq_getElem hi
  have hne : c.sch[f.idx]?.map (·.ty) ≠ some .bool := by
    intro h
    apply hty
    unfold Cfg.ty
    rw [h]; rfl
  obtain ⟨e1, e2⟩ := hok.align f hf hi hne
  have := addr_static hok e1 base t f.off
  have e3 : b = g.at base t f.stride f.off := hl
  rw [e3]; omega

theorem groups_nodup {lay : Kids} (ho : lay.Once) : (lay.groups.flatMap (fun g => g.leaves.map (·.idx))).Nodup := by
  have hn : ((lay.groups.flatMap (fun g => g.addrs 0 0)).map Prod.fst).Nodup := ((groups_perm lay 0 0).map Prod.fst).nodup_iff.mpr ho
  rw [List.map_flatMap] at hn
  have e : (fun g : Group => (g.addrs 0 0).map Prod.fst) = fun g => g.leaves.map (·.idx) := by
    funext g; simp [Group.addrs, List.map_map, Function.comp_def]
  rw [e] at hn
  exact hn

theorem lookup_of_has {k : Kids} {i : Nat} (h : k.Has i) (base t : Nat) : ∃ a, (k.addrs base t).lookup i = some a := by
  unfold Kids.Has at h
  rw [addrs_fst k 0 0 base t] at h
  generalize k.addrs base t = l at h
  induction l with
  | nil => simp at h
  | cons x xs ih =>
    obtain ⟨j, y⟩ := x
    simp only [List.map_cons, List.mem_cons] at h
    simp only [List.lookup_cons]
    cases hb : i == j with
    | true => exact ⟨y, rfl⟩
    | false =>
      simp only [beq_eq_false_iff_ne, ne_eq] at hb
      exact ih (h.resolve_left hb)

theorem need_of {c : Cfg} {lay : Kids} {i : Nat} (h : lay.Has i) (hn : ∀ f : Leaf, f.idx = i → c.needs f) : Need c lay i := by
  obtain ⟨a, ha⟩ := lookup_of_has h 0 0
  obtain ⟨g, hg, f, hf, e⟩ := lookup_some ha
  exact ⟨g, hg, f, hf, e, hn f e⟩

theorem mapM_some {α β : Type} {f : α → Option β} {g : α → β} : ∀ {l : List α}, (∀ x ∈ l, f x = some (g x)) → l.mapM f = some (l.map g)
  | [], _ => rfl
  | x :: xs, h => by
    rw [List.mapM_cons, h x (by simp), mapM_some (fun y hy => h y (by simp [hy]))]; rfl

/-- Reading back what was stored. -/
theorem row_of_posts {c : Cfg} {lay : Kids} {base t : Nat} {row : Row} {m : Mem} (hents : c.EntsOK)
    (hhas : ∀ i ∈ c.ents, lay.Has i) (hnb : c.needsNull = true → lay.Has c.sch.length) (hnull : ∀ i ∈ c.ents, row.null i = true → c.nullable i = true)
    (hpost : ∀ i, Need c lay i → post c lay base t true row i m) :
    rowAt c.sch c.ents lay m base t = some (row.stored c) := by
  unfold rowAt Row.stored
  apply mapM_some
  intro i hi
  have hlt := hents i hi
  have hs : c.sch[i]? = some c.sch[i] := List.getElem?_eq_getElem hlt
  have hnu : c.nullable i = c.sch[i].nullable := by simp [Cfg.nullable, hs]
  have hty : c.ty i = c.sch[i].ty := by simp [Cfg.ty, hs]
  obtain ⟨b, hb, h1⟩ := hpost i (need_of (hhas i hi) (fun f hf => Or.inr ⟨by omega, hf ▸ hi⟩)) rfl
  rw [if_neg (Nat.ne_of_lt hlt)] at h1
  unfold valueAt
  rw [hs, hb]
  simp only [← hnu, ← hty]
  by_cases hn : c.nullable i = true
  · have hN := needsNull_of hi hn
    obtain ⟨nb, hnb2, h2⟩ := hpost c.sch.length (need_of (hnb hN) (fun f hf => Or.inl ⟨hf, hN⟩)) rfl
    rw [if_pos rfl] at h2
    rw [hnb2]
    simp only
    rw [h2 i hi hn, hn]
    cases hr : row.null i with
    | true => simp
    | false => simp only [Bool.and_false, Bool.false_eq_true, if_false]; rw [h1.resolve_left (by rw [hr]; simp)]
  · have hr : row.null i = false := by
      cases h : row.null i with
      | false => rfl
      | true => exact absurd (hnull i hi h) hn
    have hv := h1.resolve_left (by rw [hr]; simp)
    rw [hr, hv]
    simp only [hn, Bool.false_and, Bool.false_eq_true, if_false]
    cases (lay.addrs (8 * base) t).lookup c.sch.length <;> rfl

end Mutable.WLayout
