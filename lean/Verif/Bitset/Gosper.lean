import Verif.Common
import Verif.Bitset.Ops
/-! Gosper's hack and `pext`/`pdep`. -/
namespace Mutable
namespace SB

theorem mem_foldl_or (p : Nat → Bool) (l : List Nat) (hl : ∀ i ∈ l, i < 64) (acc : SB) (j : Nat) :
    Mem (l.foldl (fun acc i => if p i then acc ||| singleton i else acc) acc) j ↔ Mem acc j ∨ (j ∈ l ∧ p j = true) := by
  induction l generalizing acc with
  | nil => simp
  | cons a l ih =>
    rw [List.foldl_cons, ih (fun i hi => hl i (List.mem_cons_of_mem _ hi))]
    have ha := hl a List.mem_cons_self
    split
    · rename_i hpa
      rw [mem_or, mem_singleton, List.mem_cons]
      constructor
      · rintro ((h | ⟨_, rfl⟩) | ⟨h1, h2⟩)
        · exact Or.inl h
        · exact Or.inr ⟨Or.inl rfl, hpa⟩
        · exact Or.inr ⟨Or.inr h1, h2⟩
      · rintro (h | ⟨rfl | h1, h2⟩)
        · exact Or.inl (Or.inl h)
        · exact Or.inl (Or.inr ⟨ha, rfl⟩)
        · exact Or.inr ⟨h1, h2⟩
    · rename_i hpa
      rw [List.mem_cons]
      constructor
      · rintro (h | ⟨h1, h2⟩)
        · exact Or.inl h
        · exact Or.inr ⟨Or.inr h1, h2⟩
      · rintro (h | ⟨rfl | h1, h2⟩)
        · exact Or.inl h
        · exact absurd h2 hpa
        · exact Or.inr ⟨h1, h2⟩

theorem mem_ofPred (p : Nat → Bool) (i : Nat) : Mem (ofPred p) i ↔ i < 64 ∧ p i = true := by
  rw [ofPred, mem_foldl_or p _ (by simp)]
  simp

theorem mem_pdep (src mask : SB) (i : Nat) : Mem (pdep src mask) i ↔ Mem mask i ∧ Mem src (rank mask i) := by
  rw [pdep, mem_ofPred]
  simp only [Bool.and_eq_true]
  constructor
  · rintro ⟨_, h⟩; exact h
  · intro h; exact ⟨mem_lt h.1, h⟩

theorem mem_pext (src mask : SB) (k : Nat) :
    Mem (pext src mask) k ↔ ∃ i, Mem mask i ∧ rank mask i = k ∧ Mem src i := by
  rw [pext, mem_ofPred]
  simp only [List.any_eq_true, Bool.and_eq_true, beq_iff_eq, List.mem_range]
  constructor
  · rintro ⟨_, i, _, ⟨h1, h2⟩, h3⟩; exact ⟨i, h1, h2, h3⟩
  · rintro ⟨i, h1, h2, h3⟩
    have hi := mem_lt h1
    refine ⟨?_, i, hi, ⟨h1, h2⟩, h3⟩
    have : rank mask i ≤ i := by
      rw [rank]
      calc _ ≤ (List.range i).length := List.countP_le_length
        _ = i := by simp
    omega

theorem rank_succ (M : SB) (i : Nat) : rank M (i+1) = rank M i + if Mem M i then 1 else 0 := by
  rw [rank, List.range_succ, List.countP_append]
  by_cases h : Mem M i
  · rw [if_pos h]; unfold Mem at h; simp [rank, h]
  · rw [if_neg h]; unfold Mem at h; simp [rank, h]

theorem rank_mono (M : SB) {i j : Nat} (h : i ≤ j) : rank M i ≤ rank M j := by
  induction h with
  | refl => exact le_rfl
  | step _ ih => rw [rank_succ]; omega

theorem rank_lt (M : SB) {i j : Nat} (h : i < j) (hi : Mem M i) : rank M i < rank M j := by
  have := rank_mono M (show i + 1 ≤ j from h)
  rw [rank_succ, if_pos hi] at this
  omega

theorem rank_inj (M : SB) {i j : Nat} (hi : Mem M i) (hj : Mem M j) (h : rank M i = rank M j) : i = j := by
  rcases Nat.lt_trichotomy i j with h1 | h1 | h1
  · have := rank_lt M h1 hi; omega
  · exact h1
  · have := rank_lt M h1 hj; omega

theorem exists_rank (M : SB) (n k : Nat) (h : k < rank M n) : ∃ i, i < n ∧ Mem M i ∧ rank M i = k := by
  induction n with
  | zero => simp [rank] at h
  | succ n ih =>
    rw [rank_succ] at h
    by_cases hk : k < rank M n
    · obtain ⟨i, h1, h2⟩ := ih hk
      exact ⟨i, by omega, h2⟩
    · split at h
      · exact ⟨n, by omega, by assumption, by omega⟩
      · omega

theorem size_eq_rank (M : SB) : size M = rank M 64 := rfl

theorem pext_self (m : SB) : pext m m = all (size m) := by
  apply ext; intro k
  rw [mem_pext, mem_all (size_le m), size_eq_rank]
  constructor
  · rintro ⟨i, h1, rfl, _⟩
    exact rank_lt m (mem_lt h1) h1
  · intro h
    obtain ⟨i, _, h2, h3⟩ := exists_rank m 64 k h
    exact ⟨i, h2, h3, h2⟩

/-- the set `{i | a ≤ i < b}` -/
def block (a b : Nat) : SB := ofPred fun i => decide (a ≤ i ∧ i < b)

theorem mem_block {a b : Nat} (hb : b ≤ 64) (i : Nat) : Mem (block a b) i ↔ a ≤ i ∧ i < b := by
  rw [block, mem_ofPred]; simp; omega

theorem block_add {a b : Nat} (hab : a ≤ b) (hb : b < 64) : block a b + singleton a = singleton b := by
  have h1 : block a b &&& ((1#64 <<< a) - 1#64) = 0#64 := by
    apply ext; intro i
    simp only [mem_and, mem_block (by omega : b ≤ 64), mem_lowMask (by omega : a < 64), not_mem_zero, iff_false]
    omega
  have h2 : (1#64 <<< b) - 1#64 = block a b + ((1#64 <<< a) - 1#64) := by
    rw [BitVec.add_eq_or_of_and_eq_zero _ _ h1]
    apply ext; intro i
    simp only [mem_or, mem_block (by omega : b ≤ 64), mem_lowMask (by omega : a < 64), mem_lowMask hb]
    omega
  have h3 : singleton b = ((1#64 <<< b) - 1#64) + 1#64 := by
    rw [BitVec.sub_add_cancel]; rfl
  rw [h3, h2, BitVec.add_assoc, BitVec.sub_add_cancel]; rfl

/-- Lowest block of one-bits is `[z, h)`. -/
structure LowBlock (s : SB) (z h : Nat) : Prop where
  least : IsLeast s z
  lt : z < h
  bnd : h < 64
  mem : ∀ i, z ≤ i → i < h → Mem s i
  gap : ¬ Mem s h

theorem exists_lowBlock {s : SB} (h0 : s ≠ 0#64) {n : Nat} (hn : n < 64) (hs : ∀ i, Mem s i → i < n) :
    ∃ z h, LowBlock s z h ∧ h ≤ n := by
  obtain ⟨z, hz⟩ := exists_least h0
  have hex : ∃ k, z < k ∧ ¬ Mem s k := ⟨n, hs z hz.1, fun hc => absurd (hs n hc) (by omega)⟩
  have hf := Nat.find_spec hex
  have hle : Nat.find hex ≤ n := Nat.find_min' hex ⟨hs z hz.1, fun hc => absurd (hs n hc) (by omega)⟩
  refine ⟨z, Nat.find hex, ⟨hz, hf.1, by omega, ?_, hf.2⟩, hle⟩
  intro i h1 h2
  rcases Nat.eq_or_lt_of_le h1 with rfl | h3
  · exact hz.1
  · have := Nat.find_min hex h2
    by_contra hc
    exact this ⟨h3, hc⟩

theorem mem_gosper_r {s : SB} {z h : Nat} (H : LowBlock s z h) (i : Nat) :
    Mem (s + singleton z) i ↔ i = h ∨ (h < i ∧ Mem s i) := by
  have hb := H.bnd
  have hz := H.lt
  let T : SB := ofPred fun i => decide (h < i ∧ Mem s i)
  have hT : ∀ i, Mem T i ↔ h < i ∧ Mem s i := by
    intro i
    simp only [T, mem_ofPred, decide_eq_true_eq]
    exact ⟨fun h => h.2, fun h => ⟨mem_lt h.2, h⟩⟩
  have h1 : s = T + block z h := by
    rw [BitVec.add_eq_or_of_and_eq_zero]
    · apply ext; intro i
      rw [mem_or, hT, mem_block (by omega)]
      constructor
      · intro hi
        have h1 := H.least.2 i hi
        rcases Nat.lt_trichotomy i h with h2 | rfl | h2
        · right; exact ⟨h1, h2⟩
        · exact absurd hi H.gap
        · left; exact ⟨h2, hi⟩
      · rintro (h1 | h1)
        · exact h1.2
        · exact H.mem i h1.1 h1.2
    · apply ext; intro i
      rw [mem_and, hT, mem_block (by omega)]
      simp only [not_mem_zero, iff_false]
      omega
  have h2 : s + singleton z = T ||| singleton h := by
    conv_lhs => rw [h1]
    rw [BitVec.add_assoc, block_add (by omega) hb, BitVec.add_eq_or_of_and_eq_zero]
    apply ext; intro i
    rw [mem_and, hT, mem_singleton]
    simp only [not_mem_zero, iff_false]
    omega
  rw [h2, mem_or, hT, mem_singleton]
  constructor
  · rintro (h | h)
    · exact Or.inr h
    · exact Or.inl h.2
  · rintro (rfl | h)
    · exact Or.inr ⟨hb, rfl⟩
    · exact Or.inl h

theorem gosper_c {s : SB} {z h : Nat} (H : LowBlock s z h) : s &&& (-s) = singleton z := lo_eq_singleton H.least

theorem mem_gosper_m {s : SB} {z h : Nat} (H : LowBlock s z h) (i : Nat) :
    Mem ((s + singleton z) ^^^ s) i ↔ z ≤ i ∧ i < h + 1 := by
  have hz := H.lt
  rw [mem_xor, mem_gosper_r H]
  by_cases hi : Mem s i
  · have h1 := H.least.2 i hi
    have : i ≠ h := by rintro rfl; exact H.gap hi
    simp only [hi, iff_true, and_true]
    omega
  · have : ¬ (z ≤ i ∧ i < h) := fun hc => hi (H.mem i hc.1 hc.2)
    simp only [hi, iff_false, and_false, or_false, not_not]
    omega

theorem size_eq_of_range {S : SB} {a b : Nat} (h : ∀ i, Mem S i ↔ a ≤ i ∧ i < b) : size S = b - a := by
  have : toFin S = Finset.Ico a b := by ext i; simp [h]
  rw [size_eq_card, this, Nat.card_Ico]

theorem mem_gosperNext {s : SB} {z h : Nat} (H : LowBlock s z h) (i : Nat) :
    Mem (gosperNext s) i ↔ i < h - z - 1 ∨ i = h ∨ (h < i ∧ Mem s i) := by
  have hb := H.bnd
  have hz := H.lt
  simp only [gosperNext]
  rw [gosper_c H, pext_self, mem_or, mem_gosper_r H]
  have hsz : size ((s + singleton z) ^^^ s) = h + 1 - z := size_eq_of_range (mem_gosper_m H)
  rw [hsz]
  have : Mem (all (h + 1 - z) >>> 2) i ↔ i < h - z - 1 := by
    have h1 : Mem (all (h + 1 - z) >>> 2) i ↔ Mem (all (h+1-z)) (2 + i) := by
      simp [Mem, BitVec.getLsbD_ushiftRight]
    rw [h1, mem_all (by omega)]
    omega
  rw [this]

theorem lt_gosperNext {s : SB} {z h : Nat} (H : LowBlock s z h) : s < gosperNext s := by
  rw [lt_iff]
  refine ⟨h, H.gap, (mem_gosperNext H h).2 (Or.inr (Or.inl rfl)), fun j hj => ?_⟩
  rw [mem_gosperNext H]
  constructor
  · intro h1; exact Or.inr (Or.inr ⟨hj, h1⟩)
  · rintro (h1 | h1 | h1)
    · omega
    · omega
    · exact h1.2

/-- elements below / above a cut -/
theorem card_split (S : SB) (h : Nat) : size S =
    ((toFin S).filter (· < h)).card + ((toFin S).filter (fun i => ¬ i < h)).card := by
  rw [size_eq_card]; exact (Finset.card_filter_add_card_filter_not _).symm

theorem size_gosperNext {s : SB} {z h : Nat} (H : LowBlock s z h) : size (gosperNext s) = size s := by
  have hz := H.lt
  rw [card_split _ (h+1), card_split s (h+1)]
  have e1 : (toFin (gosperNext s)).filter (· < h+1) = insert h (Finset.range (h - z - 1)) := by
    ext i; simp [mem_gosperNext H]; omega
  have e2 : (toFin s).filter (· < h+1) = Finset.Ico z h := by
    ext i; simp only [Finset.mem_filter, mem_toFin, Finset.mem_Ico]
    constructor
    · rintro ⟨h1, h2⟩
      have := H.least.2 i h1
      have : i ≠ h := by rintro rfl; exact H.gap h1
      omega
    · rintro ⟨h1, h2⟩; exact ⟨H.mem i h1 h2, by omega⟩
  have e3 : (toFin (gosperNext s)).filter (fun i => ¬ i < h+1) = (toFin s).filter (fun i => ¬ i < h+1) := by
    ext i; simp only [Finset.mem_filter, mem_toFin, mem_gosperNext H]
    constructor
    · rintro ⟨h1 | h1 | h1, h2⟩
      · omega
      · omega
      · exact ⟨h1.2, h2⟩
    · rintro ⟨h1, h2⟩; exact ⟨Or.inr (Or.inr ⟨by omega, h1⟩), h2⟩
  rw [e1, e2, e3, Finset.card_insert_of_notMem (by simp; omega), Finset.card_range, Nat.card_Ico]
  omega

theorem gosperNext_le {s U : SB} {z h : Nat} (H : LowBlock s z h) (hU : size U = size s) (hlt : s < U) :
    gosperNext s ≤ U := by
  have hz := H.lt
  obtain ⟨w, hw1, hw2, hw3⟩ := (lt_iff _ _).1 hlt
  rcases Nat.lt_trichotomy w h with hwh | rfl | hwh
  · -- `U` would be larger than `s`
    exfalso
    have hwz : w < z := by
      by_contra hc
      exact hw1 (H.mem w (by omega) hwh)
    have hsub : Sub s U := by
      intro i hi
      have := H.least.2 i hi
      exact (hw3 i (by omega)).1 hi
    have hne : s ≠ U := by rintro rfl; exact hw1 hw2
    have := size_lt_of_ssub hsub hne
    omega
  · -- equal cut
    by_contra hc
    have hlt2 : U < gosperNext s := by
      rw [BitVec.le_def] at hc; rw [BitVec.lt_def]; omega
    obtain ⟨v, hv1, hv2, hv3⟩ := (lt_iff _ _).1 hlt2
    have hagree : ∀ i, w < i → (Mem (gosperNext s) i ↔ Mem U i) := by
      intro i hi
      rw [mem_gosperNext H, ← hw3 i hi]
      constructor
      · rintro (h1 | h1 | h1)
        · omega
        · omega
        · exact h1.2
      · intro h1; exact Or.inr (Or.inr ⟨hi, h1⟩)
    have hvw : v < w - z - 1 := by
      rcases (mem_gosperNext H v).1 hv2 with h1 | h1 | h1
      · exact h1
      · subst h1; contradiction
      · exact absurd ((hagree v h1.1).1 hv2) hv1
    have hsub : Sub U (gosperNext s) ∨ ∃ i, i < v ∧ Mem U i ∧ ¬ Mem (gosperNext s) i := by
      by_contra hcc
      push Not at hcc
      apply hcc.1
      intro i hi
      by_contra hn
      rcases Nat.lt_trichotomy i v with h1 | rfl | h1
      · exact hn (hcc.2 i h1 hi)
      · contradiction
      · exact hn ((hv3 i h1).1 hi)
    rcases hsub with hsub | ⟨i, hi1, hi2, hi3⟩
    · have hne : U ≠ gosperNext s := by rintro rfl; exact hv1 hv2
      have := size_lt_of_ssub hsub hne
      rw [size_gosperNext H] at this
      omega
    · apply hi3
      rw [mem_gosperNext H]; left; omega
  · -- cut above
    have : gosperNext s < U := by
      rw [lt_iff]
      refine ⟨w, ?_, hw2, ?_⟩
      · rw [mem_gosperNext H]
        rintro (h1 | h1 | h1)
        · omega
        · omega
        · exact hw1 h1.2
      · intro j hj
        rw [mem_gosperNext H, ← hw3 j hj]
        constructor
        · rintro (h1 | h1 | h1)
          · omega
          · omega
          · exact h1.2
        · intro h1; exact Or.inr (Or.inr ⟨by omega, h1⟩)
    rw [BitVec.le_def]; rw [BitVec.lt_def] at this; omega

theorem lt_limit_iff {n : Nat} (hn : n < 64) (S : SB) : S < (1#64 <<< n) ↔ ∀ i, Mem S i → i < n := by
  have hs : (1#64 <<< n) = singleton n := rfl
  rw [hs, lt_iff]
  constructor
  · rintro ⟨z, h1, h2, h3⟩ i hi
    rw [mem_singleton] at h2
    obtain ⟨_, rfl⟩ := h2
    rcases Nat.lt_trichotomy i z with h | rfl | h
    · exact h
    · contradiction
    · have := (h3 i h).1 hi
      rw [mem_singleton] at this; omega
  · intro h
    refine ⟨n, fun hc => absurd (h n hc) (by omega), by simp [hn], fun j hj => ?_⟩
    rw [mem_singleton]
    constructor
    · intro hc; have := h j hc; omega
    · rintro ⟨_, rfl⟩; omega

theorem toNat_limit {n : Nat} (hn : n < 64) : (1#64 <<< n).toNat = 2^n := by
  have : 2^n < 2^64 := Nat.pow_lt_pow_right (by omega) hn
  rw [BitVec.toNat_shiftLeft]
  simp only [BitVec.toNat_ofNat, Nat.shiftLeft_eq]
  generalize 2^n = q at *
  omega

theorem gosperLoop_spec {n k : Nat} (hn : n < 64) (hk : 1 ≤ k) (fuel : Nat) (s : SB) (hs : size s = k)
    (hf : 2^n ≤ fuel + s.toNat) :
    (gosperLoop (1#64 <<< n) fuel s).Pairwise (· < ·) ∧
    ∀ U, U ∈ gosperLoop (1#64 <<< n) fuel s ↔ (∀ i, Mem U i → i < n) ∧ size U = k ∧ s ≤ U := by
  have hlim := toNat_limit hn
  induction fuel generalizing s with
  | zero =>
    refine ⟨by simp [gosperLoop], fun U => ?_⟩
    simp only [gosperLoop, List.not_mem_nil, false_iff]
    rintro ⟨h1, _, h3⟩
    rw [← lt_limit_iff hn, BitVec.lt_def, hlim] at h1
    rw [BitVec.le_def] at h3
    omega
  | succ f ih =>
    rw [gosperLoop]
    split
    · rename_i hlt
      have h0 : s ≠ 0#64 := by rintro rfl; rw [size_zero] at hs; omega
      obtain ⟨z, h, H, _⟩ := exists_lowBlock h0 hn ((lt_limit_iff hn s).1 hlt)
      have hl := lt_gosperNext H
      have hl' := hl
      rw [BitVec.lt_def] at hl'
      obtain ⟨h1, h2⟩ := ih (gosperNext s) (by rw [size_gosperNext H, hs]) (by omega)
      refine ⟨?_, ?_⟩
      · rw [List.pairwise_cons]
        refine ⟨fun U hU => ?_, h1⟩
        have := ((h2 U).1 hU).2.2
        rw [BitVec.lt_def]; rw [BitVec.le_def] at this; omega
      · intro U
        rw [List.mem_cons, h2]
        constructor
        · rintro (rfl | ⟨h3, h4, h5⟩)
          · exact ⟨(lt_limit_iff hn U).1 hlt, hs, by rw [BitVec.le_def]⟩
          · exact ⟨h3, h4, by rw [BitVec.le_def] at *; omega⟩
        · rintro ⟨h3, h4, h5⟩
          by_cases hU : U = s
          · exact Or.inl hU
          · right
            refine ⟨h3, h4, gosperNext_le H (by omega) ?_⟩
            rw [BitVec.le_def] at h5
            rw [BitVec.lt_def]
            have : U.toNat ≠ s.toNat := fun hc => hU (BitVec.eq_of_toNat_eq hc)
            omega
    · rename_i hge
      refine ⟨by simp, fun U => ?_⟩
      simp only [List.not_mem_nil, false_iff]
      rintro ⟨h1, _, h3⟩
      rw [← lt_limit_iff hn, BitVec.lt_def] at h1
      rw [BitVec.lt_def] at hge
      rw [BitVec.le_def] at h3
      omega

theorem size_all {k : Nat} (h : k ≤ 64) : size (all k) = k := by
  rw [size_eq_of_range (a := 0) (b := k) (fun i => by rw [mem_all h]; omega)]; omega

theorem all_le {k : Nat} (h : k ≤ 64) {U : SB} (hU : size U = k) : all k ≤ U := by
  by_contra hc
  have hlt : U < all k := by
    rw [BitVec.le_def] at hc; rw [BitVec.lt_def]; omega
  obtain ⟨v, hv1, hv2, hv3⟩ := (lt_iff _ _).1 hlt
  have hvk := (mem_all h v).1 hv2
  have hsub : Sub U (all k) := by
    intro i hi
    rcases Nat.lt_trichotomy i v with h1 | rfl | h1
    · rw [mem_all h]; omega
    · contradiction
    · exact (hv3 i h1).1 hi
  have := size_lt_of_ssub hsub (by rintro rfl; exact hv1 hv2)
  rw [size_all h] at this
  omega

theorem gosperAll_spec {k n : Nat} (hk : 1 ≤ k) (hkn : k ≤ n) (hn : n < 64) :
    (gosperAll k n).Pairwise (· < ·) ∧ ∀ U, U ∈ gosperAll k n ↔ (∀ i, Mem U i → i < n) ∧ size U = k := by
  obtain ⟨h1, h2⟩ := gosperLoop_spec hn hk (2^n) (all k) (size_all (by omega)) (by omega)
  refine ⟨h1, fun U => ?_⟩
  rw [gosperAll, gosperFrom, h2]
  constructor
  · rintro ⟨h3, h4, _⟩; exact ⟨h3, h4⟩
  · rintro ⟨h3, h4⟩; exact ⟨h3, h4, all_le (by omega) h4⟩

theorem gosperLoop_fuel {n k : Nat} (hn : n < 64) (hk : 1 ≤ k) (f g : Nat) (s : SB) (hs : size s = k)
    (hf : 2^n ≤ f + s.toNat) (hg : 2^n ≤ g + s.toNat) :
    gosperLoop (1#64 <<< n) f s = gosperLoop (1#64 <<< n) g s := by
  have hlim := toNat_limit hn
  induction f generalizing g s with
  | zero =>
    cases g with
    | zero => rfl
    | succ g =>
      rw [gosperLoop, gosperLoop, if_neg]
      rw [BitVec.lt_def, hlim]; omega
  | succ f ih =>
    cases g with
    | zero =>
      rw [gosperLoop, gosperLoop, if_neg]
      rw [BitVec.lt_def, hlim]; omega
    | succ g =>
      rw [gosperLoop, gosperLoop]
      split
      · rename_i hlt
        have h0 : s ≠ 0#64 := by rintro rfl; rw [size_zero] at hs; omega
        obtain ⟨z, h, H, _⟩ := exists_lowBlock h0 hn ((lt_limit_iff hn s).1 hlt)
        have hl := lt_gosperNext H
        rw [BitVec.lt_def] at hl
        rw [ih g _ (by rw [size_gosperNext H, hs]) (by omega) (by omega)]
      · rfl

/-! ### pdep is an order isomorphism between subsets of `{0..|M|-1}` and subsets of `M` -/

theorem pdep_lt {M A B : SB} (hA : ∀ i, Mem A i → i < size M) (hB : ∀ i, Mem B i → i < size M) (h : A < B) :
    pdep A M < pdep B M := by
  obtain ⟨z, h1, h2, h3⟩ := (lt_iff _ _).1 h
  obtain ⟨i, _, hi, hr⟩ := exists_rank M 64 z (hB z h2)
  rw [lt_iff]
  refine ⟨i, ?_, ?_, ?_⟩
  · rw [mem_pdep, hr]; exact fun hc => h1 hc.2
  · rw [mem_pdep, hr]; exact ⟨hi, h2⟩
  · intro j hj
    rw [mem_pdep, mem_pdep]
    have := rank_lt M hj hi
    rw [h3 _ (by omega)]

theorem size_pdep {M A : SB} (hA : ∀ i, Mem A i → i < size M) : size (pdep A M) = size A := by
  rw [size_eq_card, size_eq_card]
  have : toFin A = (toFin (pdep A M)).image (rank M) := by
    ext k
    simp only [mem_toFin, Finset.mem_image, mem_pdep]
    constructor
    · intro hk
      obtain ⟨i, _, hi, hr⟩ := exists_rank M 64 k (hA k hk)
      exact ⟨i, ⟨hi, by rwa [hr]⟩, hr⟩
    · rintro ⟨i, ⟨_, h⟩, rfl⟩; exact h
  rw [this, Finset.card_image_of_injOn]
  intro i hi j hj h
  simp only [Finset.mem_coe, mem_toFin, mem_pdep] at hi hj
  exact rank_inj M hi.1 hj.1 h

theorem pdep_pext {M U : SB} (h : Sub U M) : pdep (pext U M) M = U := by
  apply ext; intro i
  rw [mem_pdep, mem_pext]
  constructor
  · rintro ⟨h1, j, h2, h3, h4⟩
    rwa [← rank_inj M h2 h1 h3]
  · intro hi; exact ⟨h i hi, i, h i hi, rfl, hi⟩

theorem pext_lt (M U : SB) : ∀ i, Mem (pext U M) i → i < size M := by
  intro i hi
  rw [mem_pext] at hi
  obtain ⟨j, h1, rfl, _⟩ := hi
  exact rank_lt M (mem_lt h1) h1

theorem subsetsOfSize_spec {S : SB} {k : Nat} (hk : 1 ≤ k) (hkn : k ≤ size S) (hn : size S < 64) :
    (subsetsOfSize S k).Pairwise (· < ·) ∧ ∀ U, U ∈ subsetsOfSize S k ↔ Sub U S ∧ size U = k := by
  obtain ⟨h1, h2⟩ := gosperAll_spec hk hkn hn
  refine ⟨?_, fun U => ?_⟩
  · rw [subsetsOfSize, List.pairwise_map]
    apply h1.imp_of_mem
    intro A B hA hB hlt
    exact pdep_lt ((h2 A).1 hA).1 ((h2 B).1 hB).1 hlt
  · rw [subsetsOfSize, List.mem_map]
    constructor
    · rintro ⟨A, hA, rfl⟩
      rw [h2] at hA
      refine ⟨?_, by rw [size_pdep hA.1, hA.2]⟩
      intro i hi
      exact ((mem_pdep _ _ _).1 hi).1
    · rintro ⟨h3, h4⟩
      refine ⟨pext U S, ?_, pdep_pext h3⟩
      rw [h2]
      refine ⟨pext_lt S U, ?_⟩
      rw [← size_pdep (pext_lt S U), pdep_pext h3, h4]

/-! ### the portable branch -/

theorem gosperNextPortable_eq {s : SB} {z h : Nat} (H : LowBlock s z h) (hh : h < 32) :
    gosperNextPortable s = gosperNext s := by
  have hz := H.lt
  simp only [gosperNextPortable, gosperNext]
  rw [gosper_c H, pext_self]
  have hsz : size ((s + singleton z) ^^^ s) = h + 1 - z := size_eq_of_range (mem_gosper_m H)
  have hp : popcount32 ((s + singleton z) ^^^ s) = h + 1 - z := by
    show rank _ 32 = _
    rw [rank_eq]
    have : (Finset.range 32).filter (fun i => Mem ((s + singleton z) ^^^ s) i) = Finset.Ico z (h+1) := by
      ext i; simp [-mem_xor, mem_gosper_m H]; omega
    rw [this, Nat.card_Ico]
  rw [hsz, hp, all, if_neg (by omega)]

end SB
end Mutable
