import Verif.WasmLayout.Step
/-
The loads of one tuple.
-/
namespace Mutable.WLayout

/-- Every loaded value and NULL bit is the one of tuple `t`. -/
def EnvOK (c : Cfg) (lay : Kids) (m : Mem) (base t : Nat) (e : Env) : Prop :=
  (∀ i v, e.vals i = some v → ∃ a, (lay.addrs (8 * base) t).lookup i = some a ∧ v = cellAt m (c.ty i) a) ∧
  (∀ i b, e.nulls i = some b → ∃ nb, (lay.addrs (8 * base) t).lookup c.sch.length = some nb ∧ b = bitAt m (nb + i))

/-- Nothing gets lost. -/
def EnvLe (e e' : Env) : Prop :=
  (∀ i, (e.vals i).isSome = true → (e'.vals i).isSome = true) ∧ (∀ i, (e.nulls i).isSome = true → (e'.nulls i).isSome = true)

theorem EnvLe.refl (e : Env) : EnvLe e e := ⟨fun _ h => h, fun _ h => h⟩
theorem EnvLe.trans {a b c : Env} (h : EnvLe a b) (h' : EnvLe b c) : EnvLe a c := ⟨fun i x => h'.1 i (h.1 i x), fun i x => h'.2 i (h.2 i x)⟩

theorem EnvLe.setVal (e : Env) (i : Nat) (v : Cell) : EnvLe e (e.setVal i v) := by
  refine ⟨fun k h => ?_, fun k h => h⟩
  simp only [Env.setVal]; split
  · rfl
  · exact h

theorem EnvLe.setNull (e : Env) (i : Nat) (b : Bool) : EnvLe e (e.setNull i b) := by
  refine ⟨fun k h => h, fun k h => ?_⟩
  simp only [Env.setNull]; split
  · rfl
  · exact h

theorem EnvOK.setVal {c : Cfg} {lay : Kids} {m : Mem} {base t : Nat} {e : Env} (h : EnvOK c lay m base t e) {i a : Nat}
    (hl : (lay.addrs (8 * base) t).lookup i = some a) : EnvOK c lay m base t (e.setVal i (cellAt m (c.ty i) a)) := by
  refine ⟨fun k v hv => ?_, h.2⟩
  simp only [Env.setVal] at hv
  split at hv
  · rename_i e1; subst e1
    simp only [Option.some.injEq] at hv
    exact ⟨a, hl, hv.symm⟩
  · exact h.1 k v hv

theorem EnvOK.setNull {c : Cfg} {lay : Kids} {m : Mem} {base t : Nat} {e : Env} (h : EnvOK c lay m base t e) {i nb : Nat}
    (hl : (lay.addrs (8 * base) t).lookup c.sch.length = some nb) : EnvOK c lay m base t (e.setNull i (bitAt m (nb + i))) := by
  refine ⟨h.1, fun k v hv => ?_⟩
  simp only [Env.setNull] at hv
  split at hv
  · rename_i e1; subst e1
    simp only [Option.some.injEq] at hv
    exact ⟨nb, hl, hv.symm⟩
  · exact h.2 k v hv

theorem EnvOK.empty (c : Cfg) (lay : Kids) (m : Mem) (base t : Nat) : EnvOK c lay m base t Env.empty :=
  ⟨fun _ _ h => by simp [Env.empty] at h, fun _ _ h => by simp [Env.empty] at h⟩

/-- NULL bitmap with bit stride. -/
theorem loadNullDyn_ok {c : Cfg} {lay : Kids} {m : Mem} {base t nb : Nat}
    (hl : (lay.addrs (8 * base) t).lookup c.sch.length = some nb) : ∀ (is : List Nat) (prev : Nat) (x : Int × BitVec 32) (e : Env),
    x = atBit (nb + prev : Nat) → EnvOK c lay m base t e →
    let r := loadNullDyn c m is prev x e
    r.1 = atBit (nb + r.2.1 : Nat) ∧ EnvOK c lay m base t r.2.2 ∧ EnvLe e r.2.2 ∧
    (∀ i ∈ is, c.nullable i = true → i ∈ c.ents → (r.2.2.nulls i).isSome = true)
  | [], prev, x, e, hx, he => ⟨hx, he, EnvLe.refl e, by simp⟩
  | i :: is, prev, x, e, hx, he => by
    simp only [loadNullDyn]
    split
    · have hx' : advance true ((i : Int) - prev) x = atBit (nb + i : Nat) := by
        rw [hx, advance_atBit]; congr 1; push_cast; ring
      have he' : EnvOK c lay m base t (e.setNull i (testMask (m (advance true ((i : Int) - prev) x).1)
          (advance true ((i : Int) - prev) x).2)) := by
        rw [hx', testMask_atBit]; exact he.setNull hl
      obtain ⟨r1, r2, r3, r4⟩ := loadNullDyn_ok hl is i _ _ hx' he'
      refine ⟨r1, r2, (EnvLe.setNull e i _).trans r3, fun k hk hn hc => ?_⟩
      rcases List.mem_cons.mp hk with rfl | hk
      · apply r3.2; simp [Env.setNull]
      · exact r4 k hk hn hc
    · rename_i hne
      obtain ⟨r1, r2, r3, r4⟩ := loadNullDyn_ok hl is prev x e hx he
      refine ⟨r1, r2, r3, fun k hk hn hc => ?_⟩
      rcases List.mem_cons.mp hk with rfl | hk
      · simp [hn, hc] at hne
      · exact r4 k hk hn hc

/-- NULL bitmap without bit stride: `hb` says that the bits are the right ones. -/
theorem loadNullStat_ok {c : Cfg} {lay : Kids} {m : Mem} {base t nb j : Nat} {f : Leaf} {p : Int}
    (hl : (lay.addrs (8 * base) t).lookup c.sch.length = some nb) (is : List Nat) :
    ∀ (e : Env), (∀ i ∈ is, c.nullable i = true → ∀ e, loadNullStat c m j f p [i] e = e.setNull i (bitAt m (nb + i))) →
    EnvOK c lay m base t e →
    let r := loadNullStat c m j f p is e
    EnvOK c lay m base t r ∧ EnvLe e r ∧ (∀ i ∈ is, c.nullable i = true → (r.nulls i).isSome = true) := by
  induction is with
  | nil => intro e _ he; exact ⟨he, EnvLe.refl e, by simp⟩
  | cons i is ih =>
    intro e hb he
    have hb' : ∀ k ∈ is, c.nullable k = true → ∀ e, loadNullStat c m j f p [k] e = e.setNull k (bitAt m (nb + k)) :=
      fun k hk => hb k (by simp [hk])
    by_cases hn : c.nullable i = true
    · have h1 := hb i (by simp) hn e
      have e1 : loadNullStat c m j f p (i :: is) e = loadNullStat c m j f p is (loadNullStat c m j f p [i] e) := by
        simp only [loadNullStat, hn, if_true]
      simp only [e1, h1]
      obtain ⟨r1, r2, r3⟩ := ih _ hb' (he.setNull (i := i) hl)
      refine ⟨r1, (EnvLe.setNull e i _).trans r2, fun k hk hkn => ?_⟩
      rcases List.mem_cons.mp hk with rfl | hk
      · apply r2.2; simp [Env.setNull]
      · exact r3 k hk hkn
    · have e1 : loadNullStat c m j f p (i :: is) e = loadNullStat c m j f p is e := by
        simp only [loadNullStat, hn, Bool.false_eq_true, if_false]
      simp only [e1]
      obtain ⟨r1, r2, r3⟩ := ih e hb' he
      refine ⟨r1, r2, fun k hk hkn => ?_⟩
      rcases List.mem_cons.mp hk with rfl | hk
      · exact absurd hkn hn
      · exact r3 k hk hkn

/-- What an access must deliver for tuple `t`. -/
def AccVal (c : Cfg) (lay : Kids) (m : Mem) (j base t : Nat) (v : Vars) : Acc → Prop
  | .nullDyn f => f.idx = c.sch.length
  | .nullStat f i => f.idx = c.sch.length ∧ ∃ nb, (lay.addrs (8 * base) t).lookup c.sch.length = some nb ∧ ∀ k ∈ c.ents, c.nullable k = true →
      ∀ e, loadNullStat c m j f (v.slot i).ptr [k] e = e.setNull k (bitAt m (nb + k))
  | .dyn f i lbo => f.idx ≠ c.sch.length ∧ ∃ a, (lay.addrs (8 * base) t).lookup f.idx = some a ∧
      loadDyn c m j ((v.slot i).ptr + lbo) (v.slot i).mask = cellAt m (c.ty f.idx) a
  | .stat f i => f.idx ≠ c.sch.length ∧ ∃ a, (lay.addrs (8 * base) t).lookup f.idx = some a ∧
      loadStat c m j f ((v.slot i).ptr + (f.off / 8 : Nat)) = cellAt m (c.ty f.idx) a

/-- The entries are attributes of the layout's schema. -/
def Cfg.EntsOK (c : Cfg) : Prop := ∀ i ∈ c.ents, i < c.sch.length

theorem nullLeaf_cons_other {a : Acc} {as : List Acc} (h : ∀ f, a ≠ .nullDyn f) : nullLeaf (a :: as) = nullLeaf as := by
  cases a <;> first | rfl | exact absurd rfl (h _)

theorem nullLeaf_none {as : List Acc} {n : Nat} (hn : ∀ a ∈ as, a.leaf.idx ≠ n) (h : ∀ a ∈ as, ∀ f, a = .nullDyn f → f.idx = n) :
    nullLeaf as = none := by
  by_contra hne
  obtain ⟨x, hx⟩ := Option.ne_none_iff_exists'.mp hne
  unfold nullLeaf at hx
  obtain ⟨b, hb, e⟩ := List.exists_of_findSome?_eq_some hx
  cases b with
  | nullDyn y => exact hn _ hb (h _ hb y rfl)
  | nullStat _ _ => simp at e
  | dyn _ _ _ => simp at e
  | stat _ _ => simp at e

/-- The accesses of a group. -/
theorem loadAccs_ok {c : Cfg} {lay : Kids} {m : Mem} {j base t : Nat} (hents : c.EntsOK) (at_ : Leaf → Nat) :
    ∀ (as : List Acc) (v : Vars) (e : Env), (∀ w : Vars, w.slots = v.slots → ∀ a ∈ as, AccVal c lay m j base t w a) →
    (as.map (fun a => a.leaf.idx)).Nodup →
    (∀ f, nullLeaf as = some f → v.null = some (atBit (at_ f)) ∧ (lay.addrs (8 * base) t).lookup c.sch.length = some (at_ f)) →
    EnvOK c lay m base t e →
    let r := loadAccs c m j as v e
    r.1.slots = v.slots ∧ r.1.null = (match nullLeaf as with | some f => some (atBit (at_ f + f.stride : Nat)) | none => v.null) ∧
    EnvOK c lay m base t r.2 ∧ EnvLe e r.2 ∧
    (∀ a ∈ as, a.leaf.idx ≠ c.sch.length → (r.2.vals a.leaf.idx).isSome = true) ∧
    (∀ a ∈ as, a.leaf.idx = c.sch.length → ∀ i ∈ c.ents, c.nullable i = true → (r.2.nulls i).isSome = true) := by
  intro as
  induction as with
  | nil => intro v e _ _ _ he; exact ⟨rfl, rfl, he, EnvLe.refl e, by simp, by simp⟩
  | cons a as ih =>
    intro v e hv hn hnull he
    simp only [List.map_cons, List.nodup_cons] at hn
    have hav := hv v rfl a (by simp)
    -- finish, given the effect of the first access
    have fin : ∀ (v' : Vars) (e' : Env), loadAcc c m j a v e = (v', e') → v'.slots = v.slots →
        v'.null = (match (nullLeaf [a]) with | some f => some (atBit (at_ f + f.stride : Nat)) | none => v.null) →
        EnvOK c lay m base t e' → EnvLe e e' → (a.leaf.idx ≠ c.sch.length → (e'.vals a.leaf.idx).isSome = true) →
        (a.leaf.idx = c.sch.length → ∀ i ∈ c.ents, c.nullable i = true → (e'.nulls i).isSome = true) →
        let r := loadAccs c m j (a :: as) v e
        r.1.slots = v.slots ∧ r.1.null = (match nullLeaf (a :: as) with | some f => some (atBit (at_ f + f.stride : Nat)) | none => v.null) ∧
        EnvOK c lay m base t r.2 ∧ EnvLe e r.2 ∧
        (∀ b ∈ a :: as, b.leaf.idx ≠ c.sch.length → (r.2.vals b.leaf.idx).isSome = true) ∧
        (∀ b ∈ a :: as, b.leaf.idx = c.sch.length → ∀ i ∈ c.ents, c.nullable i = true → (r.2.nulls i).isSome = true) := by
      intro v' e' hr hs hnl he' hle hv1 hn1
      simp only [loadAccs, hr]
      have hN : nullLeaf (a :: as) = match nullLeaf [a] with | some f => some f | none => nullLeaf as := by
        cases a <;> rfl
      have dis : ∀ f, nullLeaf [a] = some f → nullLeaf as = none := by
        intro f hf
        cases a with
        | nullDyn y =>
          refine nullLeaf_none (n := c.sch.length) (fun b hb hbe => hn.1 ?_) (fun b hb g hg => ?_)
          · simp only [AccVal] at hav
            refine List.mem_map.mpr ⟨b, hb, ?_⟩
            simp only [Acc.leaf] at hbe ⊢
            rw [hav]; exact hbe
          · have := hv v rfl b (by simp [hb])
            rw [hg] at this; exact this
        | nullStat _ _ => simp [nullLeaf] at hf
        | dyn _ _ _ => simp [nullLeaf] at hf
        | stat _ _ => simp [nullLeaf] at hf
      have hnull' : ∀ f, nullLeaf as = some f → v'.null = some (atBit (at_ f)) ∧
          (lay.addrs (8 * base) t).lookup c.sch.length = some (at_ f) := by
        intro f hf
        have h0 : nullLeaf [a] = none := by
          cases h : nullLeaf [a] with
          | none => rfl
          | some y => rw [dis y h] at hf; simp at hf
        rw [h0] at hnl hN
        simp only at hnl hN
        rw [hnl]
        exact hnull f (by rw [hN]; exact hf)
      obtain ⟨r1, r2, r3, r4, r5, r6⟩ := ih v' e' (fun w hw b hb => hv w (hw.trans hs) b (by simp [hb])) hn.2 hnull' he'
      refine ⟨r1.trans hs, ?_, r3, hle.trans r4, fun b hb hne => ?_, fun b hb hne i hi hni => ?_⟩
      · rw [r2, hN, hnl]
        cases h : nullLeaf [a] with
        | none => rfl
        | some y => rw [dis y h]
      · rcases List.mem_cons.mp hb with rfl | hb
        · exact r4.1 _ (hv1 hne)
        · exact r5 b hb hne
      · rcases List.mem_cons.mp hb with rfl | hb
        · exact r4.2 _ (hn1 hne i hi hni)
        · exact r6 b hb hne i hi hni
    cases a with
    | nullDyn f =>
      obtain ⟨h1, h2⟩ := hnull f rfl
      have := loadNullDyn_ok (m := m) h2 (List.range c.sch.length) 0 (atBit (at_ f)) e rfl he
      simp only at this
      obtain ⟨q1, q2, q3, q4⟩ := this
      refine fin ⟨v.slots, some (advance true ((f.stride : Int) - (loadNullDyn c m (List.range c.sch.length) 0 (atBit (at_ f)) e).2.1)
        (loadNullDyn c m (List.range c.sch.length) 0 (atBit (at_ f)) e).1)⟩ _ (by simp only [loadAcc, h1]) rfl ?_ q2 q3 (fun hne => absurd hav hne) (fun _ i hi hni => ?_)
      · simp only [nullLeaf, List.findSome?_cons]
        rw [q1, advance_atBit]
        congr 2; push_cast; ring
      · exact q4 i (List.mem_range.mpr (hents i hi)) hni hi
    | nullStat f i =>
      obtain ⟨h1, nb, h2, h3⟩ := hav
      obtain ⟨q1, q2, q3⟩ := loadNullStat_ok (m := m) (j := j) (f := f) h2 c.ents e h3 he
      exact fin _ _ rfl rfl rfl q1 q2 (fun hne => absurd h1 hne) (fun _ => q3)
    | dyn f i lbo =>
      obtain ⟨h1, x, h2, h3⟩ := hav
      refine fin _ _ rfl rfl rfl (h3 ▸ he.setVal h2) (EnvLe.setVal e _ _) (fun _ => ?_) (fun h => absurd h h1)
      simp [Env.setVal, Acc.leaf]
    | stat f i =>
      obtain ⟨h1, x, h2, h3⟩ := hav
      refine fin _ _ rfl rfl rfl (h3 ▸ he.setVal h2) (EnvLe.setVal e _ _) (fun _ => ?_) (fun h => absurd h h1)
      simp [Env.setVal, Acc.leaf]

/-! ### Combining values and NULL bits -/

theorem needsNull_of {c : Cfg} {i : Nat} (hi : i ∈ c.ents) (h : c.nullable i = true) : c.needsNull = true := by
  unfold Cfg.needsNull; exact List.any_eq_true.mpr ⟨i, hi, h⟩

theorem mapM_congr {α β : Type} {f g : α → Option β} : ∀ {l : List α}, (∀ x ∈ l, f x = g x) → l.mapM f = l.mapM g
  | [], _ => rfl
  | x :: xs, h => by
    rw [List.mapM_cons, List.mapM_cons, h x (by simp), mapM_congr (fun y hy => h y (by simp [hy]))]

/-- A complete and correct environment gives the row. -/
theorem combine_ok {c : Cfg} {lay : Kids} {m : Mem} {base t : Nat} {e : Env} {hn : Bool} (hents : c.EntsOK)
    (hhn : hn = true ↔ c.needsNull = true ∧ ((lay.addrs (8 * base) t).lookup c.sch.length).isSome = true)
    (he : EnvOK c lay m base t e)
    (h1 : ∀ i ∈ c.ents, ((lay.addrs (8 * base) t).lookup i).isSome = true → (e.vals i).isSome = true)
    (h2 : ∀ i ∈ c.ents, c.nullable i = true → ((lay.addrs (8 * base) t).lookup c.sch.length).isSome = true → (e.nulls i).isSome = true) :
    combine c hn e = rowAt c.sch c.ents lay m base t := by
  unfold combine rowAt
  apply mapM_congr
  intro i hi
  have hlt := hents i hi
  have hs : c.sch[i]? = some c.sch[i] := List.getElem?_eq_getElem hlt
  have hnu : c.nullable i = c.sch[i].nullable := by simp [Cfg.nullable, hs]
  have hty : c.ty i = c.sch[i].ty := by simp [Cfg.ty, hs]
  unfold valueAt
  rw [hs]
  cases hl : (lay.addrs (8 * base) t).lookup i with
  | none =>
    cases hv : e.vals i with
    | none => rfl
    | some v => obtain ⟨a, ha, _⟩ := he.1 i v hv; rw [hl] at ha; simp at ha
  | some a =>
    have hv := h1 i hi (by rw [hl]; rfl)
    obtain ⟨v, hv⟩ := Option.isSome_iff_exists.mp hv
    obtain ⟨a', ha', rfl⟩ := he.1 i v hv
    rw [hl] at ha'
    simp only [Option.some.injEq] at ha'
    subst ha'
    rw [hv]
    simp only [Option.bind_eq_bind, Option.bind_some, hnu, hty]
    by_cases hb : c.sch[i].nullable = true
    · simp only [hb, Bool.and_true, Bool.true_and]
      have hN := needsNull_of hi (hnu.trans hb)
      cases hln : (lay.addrs (8 * base) t).lookup c.sch.length with
      | none =>
        have : hn = false := by
          cases hn with
          | false => rfl
          | true => have := (hhn.mp rfl).2; rw [hln] at this; simp at this
        simp [this]
      | some nb =>
        have h3 : hn = true := hhn.mpr ⟨hN, by rw [hln]; rfl⟩
        obtain ⟨b, hb2⟩ := Option.isSome_iff_exists.mp (h2 i hi (hnu.trans hb) (by rw [hln]; rfl))
        obtain ⟨nb', hnb', rfl⟩ := he.2 i b hb2
        rw [hln] at hnb'
        simp only [Option.some.injEq] at hnb'
        subst hnb'
        rw [h3, hb2]
        simp only [if_true, Option.bind_some]
        split <;> rfl
    · simp only [hb, Bool.and_false, Bool.false_eq_true, if_false, Bool.false_and]
      cases (lay.addrs (8 * base) t).lookup c.sch.length <;> rfl

theorem hasNull_iff {c : Cfg} {lay : Kids} (ho : lay.Once) (base t : Nat) :
    hasNull c lay = true ↔ c.needsNull = true ∧ ((lay.addrs (8 * base) t).lookup c.sch.length).isSome = true := by
  unfold hasNull
  rw [Bool.and_eq_true]
  constructor
  · rintro ⟨h1, h2⟩
    refine ⟨h1, ?_⟩
    obtain ⟨g, hg, h3⟩ := List.any_eq_true.mp h2
    obtain ⟨f, hf, h4⟩ := List.any_eq_true.mp h3
    have := lookup_leaf ho hg hf (8 * base) t
    rw [beq_iff_eq] at h4
    rw [h4] at this
    rw [this]; rfl
  · rintro ⟨h1, h2⟩
    refine ⟨h1, ?_⟩
    obtain ⟨a, ha⟩ := Option.isSome_iff_exists.mp h2
    obtain ⟨g, hg, f, hf, e⟩ := lookup_some ha
    exact List.any_eq_true.mpr ⟨g, hg, List.any_eq_true.mpr ⟨f, hf, by rw [beq_iff_eq]; exact e⟩⟩

end Mutable.WLayout
