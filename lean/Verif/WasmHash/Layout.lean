import Verif.WasmHash.Model
import Mathlib.Algebra.Group.Nat.Even
import Mathlib.Tactic.NormNum

/-! # The layout of an entry, and NULL bits -/

namespace Mutable.WHash

/-- The types that occur in a schema: integers of 1, 2, 4 or 8 bytes, floats of 4 or 8 bytes, decimals of a power of two of
bytes (`DECIMAL(1)`, of four bits, is rejected by the code, `WasmAlgo.cpp:1937-1943`). -/
def Ty.WF : Ty → Prop
  | .int n => n = 1 ∨ n = 2 ∨ n = 4 ∨ n = 8
  | .float n => n = 32 ∨ n = 64
  | .decimal n => ∃ k, n = 8 * 2 ^ k
  | _ => True

/-- Size and alignment in bytes. -/
def Ty.bytes (t : Ty) : Nat := toBytes t.size
def Ty.align (t : Ty) : Nat := toBytes t.alignment

theorem toBytes_mul (n : Nat) : toBytes (8 * n) = n := by unfold toBytes; omega

theorem Ty.align_pow {t : Ty} (h : t.WF) : ∃ k, t.align = 2 ^ k := by
  cases t with
  | bool => exact ⟨0, rfl⟩
  | bitmap n => exact ⟨0, by simp [Ty.align, Ty.alignment, toBytes]⟩
  | char n => exact ⟨0, by simp [Ty.align, Ty.alignment, toBytes]⟩
  | varchar n => exact ⟨0, by simp [Ty.align, Ty.alignment, toBytes]⟩
  | date => exact ⟨2, rfl⟩
  | datetime => exact ⟨3, rfl⟩
  | int n =>
    rcases h with rfl | rfl | rfl | rfl
    · exact ⟨0, rfl⟩
    · exact ⟨1, rfl⟩
    · exact ⟨2, rfl⟩
    · exact ⟨3, rfl⟩
  | float n =>
    rcases h with rfl | rfl
    · exact ⟨2, rfl⟩
    · exact ⟨3, rfl⟩
  | decimal n =>
    obtain ⟨k, rfl⟩ := h
    exact ⟨k, toBytes_mul _⟩

theorem Ty.align_dvd {t : Ty} (h : t.WF) : t.align ∣ t.bytes := by
  cases t with
  | bool => exact dvd_rfl
  | bitmap n => rw [show Ty.align (.bitmap n) = 1 from by simp [Ty.align, Ty.alignment, toBytes]]; exact Nat.one_dvd _
  | char n => rw [show Ty.align (.char n) = 1 from by simp [Ty.align, Ty.alignment, toBytes]]; exact Nat.one_dvd _
  | varchar n => rw [show Ty.align (.varchar n) = 1 from by simp [Ty.align, Ty.alignment, toBytes]]; exact Nat.one_dvd _
  | date => exact dvd_rfl
  | datetime => exact dvd_rfl
  | int n => exact dvd_rfl
  | float n => exact dvd_rfl
  | decimal n => exact dvd_rfl

theorem align_mono {a b : Nat} (h : a ≤ b) : toBytes a ≤ toBytes b := by unfold toBytes; omega

theorem pow_dvd_of_le {a b i j : Nat} (ha : a = 2 ^ i) (hb : b = 2 ^ j) (h : a ≤ b) : a ∣ b := by
  rw [ha, hb] at *
  exact Nat.pow_dvd_pow 2 ((Nat.pow_le_pow_iff_right (by norm_num)).1 h)

theorem offsetsLoop_spec (types : List Ty) (hw : ∀ t ∈ types, t.WF) : ∀ (is : List Nat) (offs : Nat → Nat) (cur m : Nat),
    is.Nodup → (∀ i ∈ is, i < types.length) →
    is.Pairwise (fun l r => (types.getD l .bool).alignment ≥ (types.getD r .bool).alignment) →
    (∀ i ∈ is, (types.getD i .bool).align ∣ cur) → (∃ k, m = 2 ^ k) →
    let r := offsetsLoop types is (offs, cur, m)
    cur ≤ r.2.1 ∧ (∃ k, r.2.2 = 2 ^ k) ∧ m ≤ r.2.2 ∧ (∀ i ∈ is, (types.getD i .bool).align ∣ r.2.2) ∧
      (∀ j, j ∉ is → r.1 j = offs j) ∧
      (∀ i ∈ is, (types.getD i .bool).align ∣ r.1 i ∧ cur ≤ r.1 i ∧ r.1 i + (types.getD i .bool).bytes ≤ r.2.1) ∧
      (∀ i ∈ is, ∀ j ∈ is, i ≠ j → r.1 i + (types.getD i .bool).bytes ≤ r.1 j ∨ r.1 j + (types.getD j .bool).bytes ≤ r.1 i)
  | [], offs, cur, m, _, _, _, _, hm => by
    refine ⟨le_rfl, hm, le_rfl, by simp, fun _ _ => rfl, by simp, by simp⟩
  | i :: is, offs, cur, m, hn, hi, hp, hd, hm => by
    have wf : ∀ j, j ∈ i :: is → (types.getD j .bool).WF := by
      intro j hj
      rw [List.getD_eq_getElem?_getD, List.getElem?_eq_getElem (hi j hj)]
      exact hw _ (List.getElem_mem _)
    obtain ⟨ki, hki⟩ := Ty.align_pow (wf i List.mem_cons_self)
    obtain ⟨km, hkm⟩ := hm
    have hm' : ∃ k, max m (types.getD i .bool).align = 2 ^ k := by
      rcases max_choice m (types.getD i .bool).align with h | h
      · exact ⟨km, h.trans hkm⟩
      · exact ⟨ki, h.trans hki⟩
    have hdi : ∀ j ∈ is, (types.getD j .bool).align ∣ (types.getD i .bool).align := by
      intro j hj
      obtain ⟨kj, hkj⟩ := Ty.align_pow (wf j (List.mem_cons_of_mem _ hj))
      exact pow_dvd_of_le hkj hki (align_mono ((List.pairwise_cons.1 hp).1 j hj))
    have ih := offsetsLoop_spec types hw is (fun j => if j = i then cur else offs j) (cur + (types.getD i .bool).bytes)
      (max m (types.getD i .bool).align) (List.nodup_cons.1 hn).2 (fun j h => hi j (List.mem_cons_of_mem _ h)) (List.pairwise_cons.1 hp).2
      (fun j hj => Nat.dvd_add ((hd j (List.mem_cons_of_mem _ hj))) ((hdi j hj).trans (Ty.align_dvd (wf i List.mem_cons_self)))) hm'
    have hni := (List.nodup_cons.1 hn).1
    rw [show offsetsLoop types (i :: is) (offs, cur, m) = offsetsLoop types is (fun j => if j = i then cur else offs j, cur + (types.getD i .bool).bytes, max m (types.getD i .bool).align) from rfl]
    generalize offsetsLoop types is (fun j => if j = i then cur else offs j, cur + (types.getD i .bool).bytes, max m (types.getD i .bool).align) = r at ih ⊢
    obtain ⟨i1, i2, i3, i4, i5, i6, i7⟩ := ih
    have hri : r.1 i = cur := by rw [i5 i hni, if_pos rfl]
    refine ⟨by omega, i2, by omega, ?_, ?_, ?_, ?_⟩
    · intro j hj
      rcases List.mem_cons.1 hj with rfl | hj
      · obtain ⟨k, hk⟩ := i2
        exact pow_dvd_of_le hki hk (by omega)
      · exact i4 j hj
    · intro j hj
      rw [i5 j (fun h => hj (List.mem_cons_of_mem _ h)), if_neg (fun h => hj (by rw [h]; exact List.mem_cons_self))]
    · intro j hj
      rcases List.mem_cons.1 hj with rfl | hj
      · rw [hri]
        exact ⟨hd _ List.mem_cons_self, le_rfl, i1⟩
      · obtain ⟨a, b, c⟩ := i6 j hj
        exact ⟨a, by omega, c⟩
    · intro j hj l hl hjl
      rcases List.mem_cons.1 hj with e1 | hj
      · rcases List.mem_cons.1 hl with e2 | hl
        · exact absurd (e1.trans e2.symm) hjl
        · left
          have := (i6 l hl).2.1
          rw [e1, hri]; exact this
      · rcases List.mem_cons.1 hl with e2 | hl
        · right
          have := (i6 j hj).2.1
          rw [e2, hri]; exact this
        · exact i7 j hj l hl hjl

theorem layout (types : List Ty) (hw : ∀ t ∈ types, t.WF) :
    let r := setByteOffsets types 0 1
    (∃ k, r.2.2 = 2 ^ k) ∧ r.2.2 ∣ r.2.1 ∧
      (∀ i (h : i < types.length), types[i].align ∣ r.2.2 ∧ types[i].align ∣ r.1 i ∧ r.1 i + types[i].bytes ≤ r.2.1) ∧
      (∀ i j (hi : i < types.length) (hj : j < types.length), i ≠ j → r.1 i + types[i].bytes ≤ r.1 j ∨ r.1 j + types[j].bytes ≤ r.1 i) := by
  by_cases he : types = []
  · subst he
    refine ⟨⟨0, rfl⟩, dvd_zero _, fun i h => absurd h (by simp), fun i j hi => absurd hi (by simp)⟩
  have hne : types.isEmpty = false := by cases types <;> simp_all
  obtain ⟨idx, hidx⟩ : ∃ l, l = (List.range types.length).insertionSort fun l r =>
      (types.getD l .bool).alignment ≥ (types.getD r .bool).alignment := ⟨_, rfl⟩
  have hperm : idx.Perm (List.range types.length) := by rw [hidx]; exact List.perm_insertionSort _ _
  have hsort : idx.Pairwise (fun l r => (types.getD l .bool).alignment ≥ (types.getD r .bool).alignment) := by
    haveI : Std.Total (fun l r : Nat => (types.getD l .bool).alignment ≥ (types.getD r .bool).alignment) := ⟨fun a b => Nat.le_total _ _⟩
    haveI : IsTrans Nat (fun l r : Nat => (types.getD l .bool).alignment ≥ (types.getD r .bool).alignment) := ⟨fun a b c h1 h2 => Nat.le_trans h2 h1⟩
    rw [hidx]
    exact List.pairwise_insertionSort _ _
  have hmem : ∀ i, i ∈ idx ↔ i < types.length := fun i => by rw [hperm.mem_iff, List.mem_range]
  have main := offsetsLoop_spec types hw idx (fun _ => 0) 0 1 (hperm.nodup_iff.2 List.nodup_range) (fun i h => (hmem i).1 h) hsort
    (fun _ _ => dvd_zero _) ⟨0, rfl⟩
  have e : setByteOffsets types 0 1 =
      let r := offsetsLoop types idx (fun _ => 0, 0, 1)
      (r.1, (if r.2.1 % r.2.2 ≠ 0 then r.2.1 + (r.2.2 - r.2.1 % r.2.2) else r.2.1), r.2.2) := by
    unfold setByteOffsets
    rw [hne, hidx]
    rfl
  rw [e]
  generalize offsetsLoop types idx (fun _ => 0, 0, 1) = r at main ⊢
  obtain ⟨i1, i2, i3, i4, i5, i6, i7⟩ := main
  have get : ∀ i (h : i < types.length), types.getD i .bool = types[i] := by
    intro i h
    rw [List.getD_eq_getElem?_getD, List.getElem?_eq_getElem h]; rfl
  have hlt : r.2.1 % r.2.2 < r.2.2 := Nat.mod_lt _ (by omega)
  have hsz : r.2.1 ≤ (if r.2.1 % r.2.2 ≠ 0 then r.2.1 + (r.2.2 - r.2.1 % r.2.2) else r.2.1) := by split <;> omega
  refine ⟨i2, ?_, ?_, ?_⟩
  · show r.2.2 ∣ (if r.2.1 % r.2.2 ≠ 0 then r.2.1 + (r.2.2 - r.2.1 % r.2.2) else r.2.1)
    split
    · have hx := Nat.div_add_mod r.2.1 r.2.2
      have : r.2.1 + (r.2.2 - r.2.1 % r.2.2) = r.2.2 * (r.2.1 / r.2.2) + r.2.2 := by omega
      rw [this]
      exact Nat.dvd_add (dvd_mul_right _ _) dvd_rfl
    · rename_i h
      exact Nat.dvd_of_mod_eq_zero (by omega)
  · intro i h
    have a := i4 i ((hmem i).2 h)
    have b := i6 i ((hmem i).2 h)
    rw [get i h] at a b
    exact ⟨a, b.1, b.2.2.trans hsz⟩
  · intro i j hi hj hij
    have := i7 i ((hmem i).2 hi) j ((hmem j).2 hj) hij
    rwa [get i hi, get j hj] at this

/-! ## NULL bits -/

theorem getLsbD_mask (k i : Nat) (hk : k < 8) (hi : i < 8) : (1#8 <<< k).getLsbD i = decide (i = k) := by
  have : ∀ k < 8, ∀ i < 8, (1#8 <<< k).getLsbD i = decide (i = k) := by decide
  exact this k hk i hi

theorem setbit_get (b : BitVec 8) (v : Bool) (k i : Nat) (hk : k < 8) (hi : i < 8) :
    (setbit b v (1#8 <<< k)).getLsbD i = if i = k then v else b.getLsbD i := by
  have hneg : ∀ v : Bool, ∀ i < 8, (-(if v then 1 else 0) : BitVec 8).getLsbD i = v := by decide
  unfold setbit
  rw [BitVec.getLsbD_xor, BitVec.getLsbD_and, BitVec.getLsbD_xor, getLsbD_mask k i hk hi, hneg v i hi]
  by_cases h : i = k
  · rw [h]
    cases v <;> cases b.getLsbD k <;> simp
  · simp [h]

theorem and_mask (b : BitVec 8) (k : Nat) (hk : k < 8) : (b &&& (1#8 <<< k) != 0) = b.getLsbD k := by
  by_cases h : b.getLsbD k = true
  · rw [h]
    rw [bne_iff_ne]
    intro e
    have := congrArg (fun x => x.getLsbD k) e
    simp only [BitVec.getLsbD_and, h, getLsbD_mask k k hk hk] at this
    simp at this
  · have hf : b.getLsbD k = false := by simpa using h
    rw [hf]
    have : b &&& (1#8 <<< k) = 0 := by
      apply BitVec.eq_of_getLsbD_eq
      intro i hi
      rw [BitVec.getLsbD_and, getLsbD_mask k i hk hi]
      by_cases h : i = k
      · rw [h, hf]; simp
      · simp [h]
    rw [this]; rfl

theorem getNull_setNull (bm : Nat → BitVec 8) (i j : Nat) (v : Bool) :
    getNull (setNull bm i v) j = if j % 256 = i % 256 then v else getNull bm j := by
  unfold getNull setNull nullBit
  simp only
  have hi : i % 256 % 8 < 8 := Nat.mod_lt _ (by norm_num)
  have hj : j % 256 % 8 < 8 := Nat.mod_lt _ (by norm_num)
  rw [and_mask _ _ hj]
  by_cases h1 : j % 256 / 8 = i % 256 / 8
  · rw [if_pos h1, setbit_get _ _ _ _ hi hj, and_mask _ _ hj]
    by_cases h2 : j % 256 % 8 = i % 256 % 8
    · rw [if_pos h2, if_pos (by omega)]
    · rw [if_neg h2, if_neg (by omega)]
  · rw [if_neg h1, if_neg (by omega), and_mask _ _ hj]

end Mutable.WHash
