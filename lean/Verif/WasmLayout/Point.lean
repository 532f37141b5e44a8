import Verif.WasmLayout.StoreRun
/-
Point accesses.
-/
namespace Mutable.WLayout

theorem foldNull_ok {c : Cfg} {lay : Kids} {m : Mem} {base t nb : Nat} {f : Nat → Bool}
    (hl : (lay.addrs (8 * base) t).lookup c.sch.length = some nb) (hf : ∀ i ∈ c.ents, f i = bitAt m (nb + i)) :
    ∀ (is : List Nat), (∀ i ∈ is, i ∈ c.ents) → ∀ (e : Env), EnvOK c lay m base t e →
    let r := is.foldl (fun e i => if c.nullable i then e.setNull i (f i) else e) e
    EnvOK c lay m base t r ∧ EnvLe e r ∧ (∀ i ∈ is, c.nullable i = true → (r.nulls i).isSome = true)
  | [], _, e, he => ⟨he, EnvLe.refl e, by simp⟩
  | i :: is, hm, e, he => by
    have hm' : ∀ k ∈ is, k ∈ c.ents := fun k hk => hm k (by simp [hk])
    simp only [List.foldl_cons]
    by_cases hn : c.nullable i = true
    · rw [if_pos hn]
      have he' : EnvOK c lay m base t (e.setNull i (f i)) := by
        rw [hf i (hm i (by simp))]; exact he.setNull hl
      obtain ⟨r1, r2, r3⟩ := foldNull_ok hl hf is hm' _ he'
      refine ⟨r1, (EnvLe.setNull e i _).trans r2, fun k hk hkn => ?_⟩
      rcases List.mem_cons.mp hk with rfl | hk
      · apply r2.2; simp [Env.setNull]
      · exact r3 k hk hkn
    · rw [if_neg hn]
      obtain ⟨r1, r2, r3⟩ := foldNull_ok hl hf is hm' _ he
      refine ⟨r1, r2, fun k hk hkn => ?_⟩
      rcases List.mem_cons.mp hk with rfl | hk
      · exact absurd hkn hn
      · exact r3 k hk hkn

/-- Bit `k` behind the first bit of a leaf. -/
theorem point_bit {c : Cfg} {g : Group} (hok : g.OK c.sch) (f : Leaf) (m : Mem) (base t k : Nat) :
    test8 (m (((base : Int) + (g.ioff / 8 + addInode g.levels t : Nat)) + ((f.off + lvIter g.levels t * f.stride) >>> 3 : Nat) +
      ((((f.off + lvIter g.levels t * f.stride) &&& 7) + k) >>> 3 : Nat))) (1#8 <<< ((((f.off + lvIter g.levels t * f.stride) &&& 7) + k) &&& 7)) =
      bitAt m (g.at base t f.stride f.off + k) := by
  have hA := addInode_eq g.levels hok.strides t
  have hI := hok.ioff
  have e7 : ∀ x, x &&& 7 = x % 8 := fun x => Nat.and_two_pow_sub_one_eq_mod x 3
  rw [e7, e7, Nat.shiftRight_eq_div_pow, Nat.shiftRight_eq_div_pow, test8_bit _ (Nat.mod_lt _ (by omega))]
  unfold bitAt Group.at pos
  generalize lvIter g.levels t * f.stride = q
  have h1 : ((base : Int) + (g.ioff / 8 + addInode g.levels t : Nat)) + ((f.off + q) / 2 ^ 3 : Nat) + (((f.off + q) % 8 + k) / 2 ^ 3 : Nat) =
      ((8 * base + g.ioff + (lvAddr g.levels t + q) + f.off + k) / 8 : Nat) := by omega
  have h2 : ((f.off + q) % 8 + k) % 8 = (8 * base + g.ioff + (lvAddr g.levels t + q) + f.off + k) % 8 := by omega
  rw [h1, h2]

theorem slotVal_static (g : Group) (base it0 t : Nat) {f : Leaf} (hs : f.stride % 8 = 0) :
    (slotVal g base it0 t f.key).1 = (g.at base t f.stride 0 / 8 : Nat) := by
  unfold slotVal Leaf.key
  rw [if_neg (by simpa using hs)]
  simp only
  omega

theorem pointLeaf_ok {c : Cfg} {lay : Kids} {m : Mem} {base t : Nat} {g : Group} {lv : Level} {ups : List Level} (H : GHyp c lay base g lv ups)
    (hents : c.EntsOK) {f : Leaf} (hf : f ∈ g.leaves) {e : Env} (he : EnvOK c lay m base t e) :
    let r := pointLeaf c m ((base : Int) + (g.ioff / 8 + addInode g.levels t : Nat)) (inodeIter g.levels t) f e
    EnvOK c lay m base t r ∧ EnvLe e r ∧ (f.idx ≠ c.sch.length → f.idx ∈ c.ents → (r.vals f.idx).isSome = true) ∧
    (f.idx = c.sch.length → ∀ i ∈ c.ents, c.nullable i = true → (r.nulls i).isSome = true) := by
  have hit := iter_getD H.levels H.chain1 t
  have hlk := H.lookup f hf t
  unfold pointLeaf
  simp only [hit]
  by_cases hi : f.idx = c.sch.length
  · rw [if_pos hi]
    by_cases hnn : c.needsNull = true
    · rw [if_pos hnn]
      have hl : (lay.addrs (8 * base) t).lookup c.sch.length = some (g.at base t f.stride f.off) := hi ▸ hlk
      by_cases hs : f.stride % 8 ≠ 0
      · rw [if_pos hs]
        obtain ⟨r1, r2, r3⟩ := foldNull_ok hl (fun i _ => point_bit H.ok f m base t i) c.ents (fun _ h => h) e he
        exact ⟨r1, r2, fun h => absurd hi h, fun _ => r3⟩
      · rw [if_neg hs]
        simp only [ne_eq, not_not] at hs
        have h0 := congrArg Prod.fst (init_static H.ok H.levels H.chain1 hf hs base t 0)
        simp only at h0
        have hb : ∀ i ∈ c.ents, test8 (m ((base : Int) + (g.ioff / 8 + addInode g.levels t : Nat) + byteOff 0 (inodeIter g.levels t) f +
            ((f.off + i) / 8 : Nat))) (1#8 <<< ((f.off + i) % 8)) = bitAt m (g.at base t f.stride f.off + i) := by
          intro i _
          rw [← nullBit_ok H.ok hs]
          congr 3
          have : ((base : Int) + (g.ioff / 8 + addInode g.levels t : Nat) + byteOff 0 (inodeIter g.levels t) f) =
              (base : Int) + byteOff (g.ioff / 8 + addInode g.levels t) (inodeIter g.levels t) f := by
            unfold byteOff
            split
            · split
              · push_cast; ring
              · push_cast; ring
            · push_cast; ring
          rw [this, h0, slotVal_static g base 0 t hs]
        obtain ⟨r1, r2, r3⟩ := foldNull_ok hl hb c.ents (fun _ h => h) e he
        exact ⟨r1, r2, fun h => absurd hi h, fun _ => r3⟩
    · rw [if_neg hnn]
      exact ⟨he, EnvLe.refl e, fun h => absurd hi h, fun _ i hi' hn => absurd (needsNull_of hi' hn) hnn⟩
  · rw [if_neg hi]
    by_cases hen : f.idx ∈ c.ents
    · rw [if_pos hen]
      by_cases hs : f.stride % 8 ≠ 0
      · rw [if_pos hs]
        have pb := point_bit H.ok f m base t 0
        have e7 : ∀ x, x &&& 7 = x % 8 := fun x => Nat.and_two_pow_sub_one_eq_mod x 3
        simp only [Nat.add_zero, e7, Nat.mod_mod] at pb
        have z : ((f.off + lvIter g.levels t * f.stride) % 8) >>> 3 = 0 := by rw [Nat.shiftRight_eq_div_pow]; omega
        rw [z] at pb
        simp only [Int.natCast_zero, Int.add_zero] at pb
        rw [e7, pb]
        have hb := ty_of_dyn H.ok hents hf hen hs
        have : Cell.bit (bitAt m (g.at base t f.stride f.off)) = cellAt m (c.ty f.idx) (g.at base t f.stride f.off) := by rw [hb]; rfl
        rw [this]
        exact ⟨he.setVal hlk, EnvLe.setVal e _ _, fun _ _ => by simp [Env.setVal], fun h => absurd h hi⟩
      · rw [if_neg hs]
        simp only [ne_eq, not_not] at hs
        have h0 := congrArg Prod.fst (init_static H.ok H.levels H.chain1 hf hs base t 0)
        simp only at h0
        have h1 : ((base : Int) + (g.ioff / 8 + addInode g.levels t : Nat) + byteOff 0 (inodeIter g.levels t) f) = (g.at base t f.stride 0 / 8 : Nat) := by
          have : ((base : Int) + (g.ioff / 8 + addInode g.levels t : Nat) + byteOff 0 (inodeIter g.levels t) f) =
              (base : Int) + byteOff (g.ioff / 8 + addInode g.levels t) (inodeIter g.levels t) f := by
            unfold byteOff
            split
            · split
              · push_cast; ring
              · push_cast; ring
            · push_cast; ring
          rw [this, h0, slotVal_static g base 0 t hs]
        rw [h1, loadStat_ok H.ok hs]
        exact ⟨he.setVal hlk, EnvLe.setVal e _ _, fun _ _ => by simp [Env.setVal], fun h => absurd h hi⟩
    · rw [if_neg hen]
      exact ⟨he, EnvLe.refl e, fun _ h => absurd h hen, fun h => absurd h hi⟩

theorem pointLeaves_ok {c : Cfg} {lay : Kids} {m : Mem} {base t : Nat} {g : Group} {lv : Level} {ups : List Level} (H : GHyp c lay base g lv ups)
    (hents : c.EntsOK) : ∀ (fs : List Leaf), (∀ f ∈ fs, f ∈ g.leaves) → ∀ (e : Env), EnvOK c lay m base t e →
    let r := fs.foldl (fun e f => pointLeaf c m ((base : Int) + (g.ioff / 8 + addInode g.levels t : Nat)) (inodeIter g.levels t) f e) e
    EnvOK c lay m base t r ∧ EnvLe e r ∧ (∀ f ∈ fs, f.idx ≠ c.sch.length → f.idx ∈ c.ents → (r.vals f.idx).isSome = true) ∧
    (∀ f ∈ fs, f.idx = c.sch.length → ∀ i ∈ c.ents, c.nullable i = true → (r.nulls i).isSome = true)
  | [], _, e, he => ⟨he, EnvLe.refl e, by simp, by simp⟩
  | f :: fs, hm, e, he => by
    obtain ⟨q1, q2, q3, q4⟩ := pointLeaf_ok (m := m) H hents (hm f (by simp)) he
    obtain ⟨r1, r2, r3, r4⟩ := pointLeaves_ok H hents fs (fun x hx => hm x (by simp [hx])) _ q1
    refine ⟨r1, q2.trans r2, fun x hx hne hi => ?_, fun x hx heq i hi hn => ?_⟩
    · rcases List.mem_cons.mp hx with rfl | hx
      · exact r2.1 _ (q3 hne hi)
      · exact r3 x hx hne hi
    · rcases List.mem_cons.mp hx with rfl | hx
      · exact r2.2 _ (q4 heq i hi hn)
      · exact r4 x hx heq i hi hn

theorem pointGroups_ok {c : Cfg} {lay : Kids} {m : Mem} {base t : Nat} (hents : c.EntsOK) :
    ∀ (gs : List Group), (∀ g ∈ gs, ∃ lv ups, GHyp c lay base g lv ups) → ∀ (e : Env), EnvOK c lay m base t e →
    let r := gs.foldl (fun e g => pointGroup c m base t g e) e
    EnvOK c lay m base t r ∧ EnvLe e r ∧
    (∀ g ∈ gs, ∀ f ∈ g.leaves, f.idx ≠ c.sch.length → f.idx ∈ c.ents → (r.vals f.idx).isSome = true) ∧
    (∀ g ∈ gs, ∀ f ∈ g.leaves, f.idx = c.sch.length → ∀ i ∈ c.ents, c.nullable i = true → (r.nulls i).isSome = true)
  | [], _, e, he => ⟨he, EnvLe.refl e, by simp, by simp⟩
  | g :: gs, hH, e, he => by
    obtain ⟨lv, ups, H⟩ := hH g (by simp)
    obtain ⟨q1, q2, q3, q4⟩ := pointLeaves_ok (m := m) H hents g.leaves (fun _ h => h) e he
    obtain ⟨r1, r2, r3, r4⟩ := pointGroups_ok hents gs (fun x hx => hH x (by simp [hx])) _ q1
    refine ⟨r1, q2.trans r2, fun x hx f hf hne hi => ?_, fun x hx f hf heq i hi hn => ?_⟩
    · rcases List.mem_cons.mp hx with rfl | hx
      · exact r2.1 _ (q3 f hf hne hi)
      · exact r3 x hx f hf hne hi
    · rcases List.mem_cons.mp hx with rfl | hx
      · exact r2.2 _ (q4 f hf heq i hi hn)
      · exact r4 x hx f hf heq i hi hn

end Mutable.WLayout
