import Verif.WasmLayout.SimdModel
import Verif.WasmLayout.Factory
/-
C64: SIMDfied scans.
-/
namespace Mutable.WLayout

/-! ### Addresses of lanes -/

theorem RChain.dvd {L : Nat} : ∀ {rs : List Level}, RChain L rs → ∀ l ∈ rs, l.num ≠ 0 ∧ L ∣ l.num
  | [], _, l, hl => by simp at hl
  | x :: rs, h, l, hl => by
    rcases List.mem_cons.mp hl with rfl | hl
    · exact ⟨h.1, h.2.1⟩
    · exact RChain.dvd (RChain.mono h.2.1 h.2.2) l hl

theorem lane_div {L n t j : Nat} (hn : n ≠ 0) (hL : L ∣ n) (ht : L ∣ t) (hj : j < L) : (t + j) / n = t / n ∧ (t + j) % n = t % n + j := by
  obtain ⟨k, rfl⟩ := hL
  obtain ⟨q, rfl⟩ := ht
  have hL0 : 0 < L := by omega
  have e1 : (L * q + j) / (L * k) = q / k := by
    rw [← Nat.div_div_eq_div_mul, Nat.mul_add_div hL0, Nat.div_eq_of_lt hj, Nat.add_zero]
  have e2 : L * q / (L * k) = q / k := Nat.mul_div_mul_left _ _ hL0
  refine ⟨by rw [e1, e2], ?_⟩
  have h1 := Nat.div_add_mod (L * q + j) (L * k)
  have h2 := Nat.div_add_mod (L * q) (L * k)
  rw [e1] at h1; rw [e2] at h2
  omega

theorem lane_lv {L : Nat} {j : Nat} (hj : j < L) : ∀ (ls : List Level) (t : Nat), (∀ l ∈ ls, l.num ≠ 0 ∧ L ∣ l.num) → L ∣ t →
    lvAddr ls (t + j) = lvAddr ls t ∧ lvIter ls (t + j) = lvIter ls t + j
  | [], t, _, _ => ⟨rfl, rfl⟩
  | l :: ls, t, h, ht => by
    obtain ⟨h1, h2⟩ := h l (by simp)
    obtain ⟨e1, e2⟩ := lane_div h1 h2 ht hj
    have ih := lane_lv hj ls (t % l.num) (fun x hx => h x (by simp [hx])) ((Nat.dvd_mod_iff h2).mpr ht)
    simp only [lvAddr, lvIter, e1, e2]
    exact ⟨by rw [ih.1], ih.2⟩

theorem lane_at {c : Cfg} {lay : Kids} {base : Nat} {g : Group} {lv : Level} {ups : List Level} (H : GHyp c lay base g lv ups)
    {t j : Nat} (ht : c.lanes ∣ t) (hj : j < c.lanes) (s o : Nat) : g.at base (t + j) s o = g.at base t s o + j * s := by
  have hl : ∀ l ∈ g.levels, l.num ≠ 0 ∧ c.lanes ∣ l.num := by
    intro l hl
    rw [H.levels] at hl
    exact H.chain.dvd l (List.mem_reverse.mp hl)
  obtain ⟨e1, e2⟩ := lane_lv hj g.levels t hl ht
  unfold Group.at pos
  rw [e1, e2]
  ring

/-! ### NULL bitmaps in SIMD vectors -/

theorem null_mask : ∀ (i : Fin 32) (k : Fin 8), ((1#32 <<< i.val) >>> (8 * k.val)).setWidth 8 = if i.val / 8 = k.val then 1#8 <<< (i.val % 8) else 0#8 := by
  decide +kernel

theorem nullWidth_le (n : Nat) : nullWidth n ≤ 8 := by unfold nullWidth; split <;> try split <;> try split
                                                       all_goals omega

theorem null_any {w i : Nat} (hi : i < 32) (hw : i / 8 < w) (hw8 : w ≤ 8) (bits : List Byte) (hb : bits.length = w) :
    (List.range w).any (fun k => (bits.getD k 0) &&& (((1#32 <<< i) >>> (8 * k)).setWidth 8) != 0#8) = test8 (bits.getD (i / 8) 0) (1#8 <<< (i % 8)) := by
  have hm : ∀ k < 8, ((1#32 <<< i) >>> (8 * k)).setWidth 8 = if i / 8 = k then 1#8 <<< (i % 8) else 0#8 := fun k hk => null_mask ⟨i, hi⟩ ⟨k, hk⟩
  rw [Bool.eq_iff_iff, List.any_eq_true]
  constructor
  · rintro ⟨k, hk, h⟩
    have hk := List.mem_range.mp hk
    rw [hm k (by omega)] at h
    by_cases e : i / 8 = k
    · rw [if_pos e] at h; subst e; exact h
    · rw [if_neg e] at h; simp at h
  · intro h
    refine ⟨i / 8, List.mem_range.mpr hw, ?_⟩
    rw [hm _ (by omega), if_pos rfl]; exact h

theorem rd_getD (m : Mem) (a : Int) {n k : Nat} (hk : k < n) : (rd m a n).getD k 0 = m (a + (k : Nat)) := by
  simp [rd, List.getD_eq_getElem?_getD, hk]

/-- What is required of a leaf so that consecutive lanes are found at consecutive positions. -/
structure LaneLeaf (c : Cfg) (f : Leaf) : Prop where
  byte : c.needs f → f.stride % 8 = 0
  bool : f.idx ∈ c.ents → f.idx ≠ c.sch.length → c.ty f.idx = .bool → f.stride = 8
  num : f.idx ∈ c.ents → f.idx ≠ c.sch.length → ∀ n, c.ty f.idx = .num n → f.stride = 8 * n
  str : f.idx ∈ c.ents → f.idx ≠ c.sch.length → ∀ n, c.ty f.idx ≠ .str n
  null : f.idx = c.sch.length → c.needsNull = true → f.stride = 8 * nullWidth c.ents.length ∧ f.off % 8 = 0

/-- Every access delivers the values of tuple `t + j` in lane `j`. -/
theorem accVal_lane {c : Cfg} {lay : Kids} {m : Mem} {base it0 t j d : Nat} {g : Group} {lv : Level} {ups : List Level}
    {as : List Acc} {v : Vars} (H : GHyp c lay base g lv ups) (hl1 : c.lanes ≠ 1) (ht : c.lanes ∣ t) (hj : j < c.lanes)
    (hleaf : ∀ f ∈ g.leaves, LaneLeaf c f) (hnull : ∀ i ∈ c.ents, c.nullable i = true → i < 32 ∧ i < 8 * nullWidth c.ents.length)
    (hv : VarsOK g as base it0 t d v)
    {a : Acc} (ha : AccOK c it0 g.leaves (v.slots.map (·.key)) a) : AccVal c lay m j base (t + j) v a := by
  cases a with
  | nullDyn f => exact ha.2.1
  | nullStat f i =>
    obtain ⟨a1, a2, a3, a4, a5⟩ := ha
    refine ⟨a2, _, a2 ▸ H.lookup f a1 (t + j), fun k hk hn e => ?_⟩
    obtain ⟨n1, n2⟩ := (hleaf f a1).null a2 a3
    obtain ⟨k1, k2⟩ := hnull k hk hn
    have hw8 := nullWidth_le c.ents.length
    simp only [loadNullStat, hn, if_true, hl1, if_false]
    rw [ptr_static hv a5 a4, null_any k1 (by omega) hw8 _ (by simp [rd]), rd_getD _ _ (by omega)]
    obtain ⟨e1, e2⟩ := addr_static H.ok a4 base t f.off
    have e0 := lane_at H ht hj f.stride f.off
    have e5 : j * f.stride = 8 * (j * nullWidth c.ents.length) := by rw [n1]; ring
    rw [e0, e5, test8_bit _ (Nat.mod_lt _ (by omega))]
    unfold bitAt
    generalize g.at base t f.stride f.off = X at *
    generalize g.at base t f.stride 0 / 8 = Z at *
    generalize j * nullWidth c.ents.length = Y at *
    have e3 : (Z : Int) + ((f.off / 8 : Nat) : Int) + (Y : Int) + ((k / 8 : Nat) : Int) = (((X + 8 * Y + k) / 8 : Nat) : Int) := by omega
    have e4 : k % 8 = (X + 8 * Y + k) % 8 := by omega
    rw [e3, e4]
  | dyn f i lbo =>
    obtain ⟨a1, a2, a3, a4, a5, rfl⟩ := ha
    exact absurd ((hleaf f a1).byte (Or.inr ⟨a2, a3⟩)) a4
  | stat f i =>
    obtain ⟨a1, a2, a3, a4, a5⟩ := ha
    refine ⟨a2, _, H.lookup f a1 (t + j), ?_⟩
    obtain ⟨e1, e2⟩ := addr_static H.ok a4 base t f.off
    have e3 : ((g.at base t f.stride 0 / 8 : Nat) : Int) + (f.off / 8 : Nat) = (g.at base t f.stride f.off / 8 : Nat) := by omega
    rw [ptr_static hv a5 a4, lane_at H ht hj, e3]
    generalize hX : g.at base t f.stride f.off = X at *
    unfold loadStat cellAt
    cases hty : c.ty f.idx with
    | bool =>
      simp only
      rw [(hleaf f a1).bool a3 a2 hty, test8_bit _ (Nat.mod_lt _ (by omega))]
      unfold bitAt
      have q1 : ((X / 8 : Nat) : Int) + (j : Nat) = ((X + j * 8) / 8 : Nat) := by omega
      have q2 : f.off % 8 = (X + j * 8) % 8 := by omega
      rw [q1, q2]
    | num n =>
      simp only [rd]
      rw [(hleaf f a1).num a3 a2 n hty]
      have : X + j * (8 * n) = X + 8 * (j * n) := by ring
      rw [this]
      congr 1
      refine List.map_congr_left (fun k _ => ?_)
      congr 1
      generalize j * n = Y
      omega
    | str n => exact absurd hty ((hleaf f a1).str a3 a2 n)

/-! ### What `supports_simd` checks -/

/-- The conditions of `supports_simd` on a leaf. -/
structure LeafChecked (c : Cfg) (l : Nat) (f : Leaf) : Prop where
  null : f.idx = c.sch.length → c.needsNull = true → f.stride % 8 = 0 ∧ f.stride = 8 * nullWidth c.ents.length ∧ f.off % 8 = 0 ∧ 16 ≤ l
  bit : f.idx ≠ c.sch.length → f.idx ∈ c.ents → f.stride % 8 ≠ 0 → f.stride = 1
  bool : f.idx ≠ c.sch.length → f.idx ∈ c.ents → f.stride % 8 = 0 → c.ty f.idx = .bool → f.stride = 8
  str : f.idx ≠ c.sch.length → f.idx ∈ c.ents → f.stride % 8 = 0 → ∀ n, c.ty f.idx ≠ .str n
  lanes : f.idx ≠ c.sch.length → f.idx ∈ c.ents → 16 / (c.ty f.idx).bytes ≤ l

theorem pow_fin : ∀ k : Fin 65, max (Layout.ceilPow2 k.val) 8 = 8 * nullWidth k.val := by decide +kernel

theorem simdLeaves_spec {c : Cfg} : ∀ (k : Kids) (l0 l : Nat), simdLeaves c k l0 = some l →
    l0 ≤ l ∧ (∀ f ∈ k.leaves, LeafChecked c l f) ∧
    (∀ b, l0 ≤ b → (c.needsNull = true → 16 ≤ b) → (∀ i ∈ c.ents, 16 / (c.ty i).bytes ≤ b) → l ≤ b) ∧
    ∀ levels ioff, k.calls levels ioff = []
  | .nil, l0, l, h => by
    simp only [simdLeaves, Option.some.injEq] at h
    subst h
    exact ⟨le_refl _, by simp [Kids.leaves], fun b hb _ _ => hb, fun _ _ => rfl⟩
  | .inode _ _ _ _ _, _, _, h => by simp [simdLeaves] at h
  | .leaf i o s rest, l0, l, h => by
    unfold simdLeaves at h
    simp only [Kids.leaves, List.mem_cons, forall_eq_or_imp, Kids.calls]
    by_cases hi : i = c.sch.length
    · rw [if_pos hi] at h
      by_cases hn : c.needsNull = true
      · rw [if_pos hn] at h
        by_cases h1 : s % 8 ≠ 0
        · rw [if_pos h1] at h; cases h
        rw [if_neg h1] at h
        by_cases h2 : c.ents.length > 64
        · rw [if_pos h2] at h; cases h
        rw [if_neg h2] at h
        by_cases h3 : max (Layout.ceilPow2 c.ents.length) 8 ≠ s
        · rw [if_pos h3] at h; cases h
        rw [if_neg h3] at h
        by_cases h4 : o % 8 ≠ 0
        · rw [if_pos h4] at h; cases h
        rw [if_neg h4] at h
        obtain ⟨r1, r2, r3, r4⟩ := simdLeaves_spec rest _ l h
        have hp := pow_fin ⟨c.ents.length, by omega⟩
        simp only at hp
        refine ⟨by omega, ⟨⟨fun _ _ => ⟨by simpa using h1, by simp only; rw [← hp]; exact (not_not.mp h3).symm, by simpa using h4, by omega⟩, fun e => absurd hi e, fun e => absurd hi e,
          fun e => absurd hi e, fun e => absurd hi e⟩, r2⟩, fun b hb hb1 hb2 => r3 b (by have := hb1 hn; omega) hb1 hb2, r4⟩
      · rw [if_neg hn] at h
        obtain ⟨r1, r2, r3, r4⟩ := simdLeaves_spec rest _ l h
        exact ⟨r1, ⟨⟨fun _ e => absurd e hn, fun e => absurd hi e, fun e => absurd hi e,
          fun e => absurd hi e, fun e => absurd hi e⟩, r2⟩, r3, r4⟩
    · rw [if_neg hi] at h
      by_cases he : i ∈ c.ents
      · rw [if_pos he] at h
        by_cases h1 : s % 8 ≠ 0
        · rw [if_pos h1] at h
          by_cases h2 : s ≠ 1
          · rw [if_pos h2] at h; cases h
          rw [if_neg h2] at h
          obtain ⟨r1, r2, r3, r4⟩ := simdLeaves_spec rest _ l h
          exact ⟨by omega, ⟨⟨fun e => absurd e hi, fun _ _ _ => not_not.mp h2, fun _ _ e => absurd e h1, fun _ _ e => absurd e h1,
            fun _ _ => by simp only; omega⟩, r2⟩, fun b hb hb1 hb2 => r3 b (by have := hb2 i he; omega) hb1 hb2, r4⟩
        rw [if_neg h1] at h
        by_cases h2 : c.ty i = .bool ∧ s ≠ 8
        · rw [if_pos h2] at h; cases h
        rw [if_neg h2] at h
        by_cases h3 : (c.ty i).isStr = true
        · rw [if_pos h3] at h; cases h
        rw [if_neg h3] at h
        obtain ⟨r1, r2, r3, r4⟩ := simdLeaves_spec rest _ l h
        exact ⟨by omega, ⟨⟨fun e => absurd e hi, fun _ _ e => absurd e h1, fun _ _ _ e => by_contra fun hne => h2 ⟨e, hne⟩,
          fun _ _ _ n e => h3 (by simp only at e; rw [e]; rfl), fun _ _ => by simp only; omega⟩, r2⟩,
          fun b hb hb1 hb2 => r3 b (by have := hb2 i he; omega) hb1 hb2, r4⟩
      · rw [if_neg he] at h
        obtain ⟨r1, r2, r3, r4⟩ := simdLeaves_spec rest _ l h
        exact ⟨r1, ⟨⟨fun e => absurd e hi, fun _ e => absurd e he, fun _ e => absurd e he, fun _ e => absurd e he,
          fun _ e => absurd e he⟩, r2⟩, r3, r4⟩

/-- A layout that supports SIMD has one group of leaves; the number of tuples of its node is a multiple of the number of lanes. -/
theorem supports_spec {c : Cfg} : ∀ (k : Kids) (num : Nat), supportsSimd c k num = true →
    (∃ l, simdLeaves c k 1 = some l ∧ num % l = 0) ∨
    (k.leaves = [] ∧ ∃ kids l, simdLeaves c kids 1 = some l ∧ (∃ lv : Level, lv.num % l = 0 ∧ ∀ levels ioff, ∃ pre io,
      k.calls levels ioff = callLeaves kids.leaves (pre ++ [lv]) io))
  | .nil, num, h => by simp [supportsSimd] at h
  | .leaf i o s rest, num, h => by
    left
    simp only [supportsSimd] at h
    cases hs : simdLeaves c (.leaf i o s rest) 1 with
    | none => rw [hs] at h; simp at h
    | some l => rw [hs] at h; exact ⟨l, rfl, by simpa using h⟩
  | .inode n o s kids .nil, num, h => by
    right
    simp only [supportsSimd] at h
    refine ⟨rfl, ?_⟩
    rcases supports_spec kids n h with ⟨l, h1, h2⟩ | ⟨hk, kids', l, h1, lv, h2, h3⟩
    · refine ⟨kids, l, h1, ⟨s, n⟩, h2, fun levels ioff => ⟨levels, ioff + o, ?_⟩⟩
      simp only [Kids.calls, (simdLeaves_spec kids 1 l h1).2.2.2, List.nil_append, List.append_nil]
    · refine ⟨kids', l, h1, lv, h2, fun levels ioff => ?_⟩
      obtain ⟨pre, io, e⟩ := h3 (levels ++ [⟨s, n⟩]) (ioff + o)
      exact ⟨pre, io, by simp [Kids.calls, hk, callLeaves, e]⟩
  | .inode n o s kids (.leaf i' o' s' rest), num, h => by simp [supportsSimd, simdLeaves] at h
  | .inode n o s kids (.inode n' o' s' k' rest), num, h => by simp [supportsSimd, simdLeaves] at h

theorem supports_groups {c : Cfg} {lay : Kids} (hr : lay.noRootLeaf) (h : supportsSimd c lay 0 = true) :
    ∃ kids l, simdLeaves c kids 1 = some l ∧ ∀ g ∈ lay.groups, g.leaves = kids.leaves ∧ (lastLevel g.levels).num % l = 0 := by
  rcases supports_spec lay 0 h with ⟨l, h1, _⟩ | ⟨hk, kids, l, h1, lv, h2, h3⟩
  · refine ⟨lay, l, h1, fun g hg => ?_⟩
    unfold Kids.groups at hg
    rw [(simdLeaves_spec lay 1 l h1).2.2.2, hr] at hg
    simp [callLeaves] at hg
  · refine ⟨kids, l, h1, fun g hg => ?_⟩
    obtain ⟨pre, io, e⟩ := h3 [] 0
    unfold Kids.groups at hg
    rw [e, hr] at hg
    simp only [callLeaves, List.isEmpty_nil, if_true, List.append_nil] at hg
    split at hg
    · simp at hg
    · rw [List.mem_singleton] at hg
      subst hg
      exact ⟨rfl, by rw [lastLevel_snoc]; exact h2⟩

theorem numGo_spec {c : Cfg} : ∀ (is : List Nat) (l : Nat), (l ≤ 16 ∨ is.any c.nullable = false → l ≤ numLanesGo c is l) ∧
    (is.any c.nullable = true → numLanesGo c is l = 16) ∧
    (is.any c.nullable = false → (∀ i ∈ is, 16 / (c.ty i).bytes ≤ numLanesGo c is l) ∧
      ∀ b, l ≤ b → (∀ i ∈ is, 16 / (c.ty i).bytes ≤ b) → numLanesGo c is l ≤ b)
  | [], l => by simp [numLanesGo]
  | i :: is, l => by
    simp only [numLanesGo, List.any_cons, List.mem_cons, forall_eq_or_imp]
    by_cases hn : c.nullable i = true
    · simp [hn]
    · have hn' : c.nullable i = false := by simpa using hn
      simp only [hn', Bool.false_or, Bool.false_eq_true, if_false]
      obtain ⟨r1, r2, r3⟩ := numGo_spec (c := c) is (max l (16 / (c.ty i).bytes))
      have hdiv : 16 / (c.ty i).bytes ≤ 16 := Nat.div_le_self _ _
      refine ⟨fun h => ?_, r2, fun h => ⟨⟨?_, (r3 h).1⟩, fun b hb hb2 => (r3 h).2 b (by have := hb2.1; omega) hb2.2⟩⟩
      · have := r1 (by rcases h with h | h <;> [left; right] <;> [omega; exact h])
        omega
      · have := r1 (Or.inr h)
        omega

/-- The two functions agree on the number of lanes. -/
theorem lanes_agree {c : Cfg} {kids : Kids} {l : Nat} (h : simdLeaves c kids 1 = some l) (hents : c.EntsOK)
    (hhas : ∀ i ∈ c.ents, ∃ f ∈ kids.leaves, f.idx = i) (hnb : c.needsNull = true → ∃ f ∈ kids.leaves, f.idx = c.sch.length) :
    l = numLanes c := by
  obtain ⟨r1, r2, r3, _⟩ := simdLeaves_spec kids 1 l h
  obtain ⟨s1, s2, s3⟩ := numGo_spec (c := c) c.ents 1
  have hge : ∀ i ∈ c.ents, 16 / (c.ty i).bytes ≤ l := by
    intro i hi
    obtain ⟨f, hf, rfl⟩ := hhas i hi
    exact (r2 f hf).lanes (Nat.ne_of_lt (hents _ hi)) hi
  have h16 : ∀ i ∈ c.ents, 16 / (c.ty i).bytes ≤ 16 := fun i _ => Nat.div_le_self _ _
  unfold numLanes
  by_cases hn : c.needsNull = true
  · have hn' : c.ents.any c.nullable = true := hn
    rw [s2 hn']
    obtain ⟨f, hf, e⟩ := hnb hn
    have := (r2 f hf).null e hn
    have := r3 16 (by omega) (fun _ => le_refl _) h16
    omega
  · have hn' : c.ents.any c.nullable = false := by simpa [Cfg.needsNull] using hn
    obtain ⟨t1, t2⟩ := s3 hn'
    have a1 := t2 l r1 hge
    have a2 := r3 (numLanesGo c c.ents 1) (s1 (Or.inl (by omega))) (fun e => absurd e hn) t1
    omega

end Mutable.WLayout
