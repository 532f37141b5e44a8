import Verif.WasmLayout.Arith
/-
Pointers with masks as bit positions.
-/
namespace Mutable.WLayout

/-- Pointer and mask for bit position `P`. -/
def atBit (P : Int) : Int × BitVec 32 := (P / 8, 1#32 <<< (P % 8).toNat)

theorem mask_step : ∀ b d : Fin 8,
    (if (1#32 <<< b.val <<< d.val) &&& 0xff#32 = 0#32 then
      (1, (1#32 <<< b.val <<< d.val) >>> 8) else (0, 1#32 <<< b.val <<< d.val)) =
    ((b.val + d.val) / 8, 1#32 <<< ((b.val + d.val) % 8)) := by decide +kernel

theorem mask_low : ∀ b : Fin 8, (1#32 <<< b.val) &&& 0xff#32 ≠ 0#32 := by decide +kernel

theorem advance_atBit (d P : Int) : advance true d (atBit P) = atBit (P + d) := by
  have hb : (P % 8).toNat < 8 := by omega
  have hd : (d % 8).toNat < 8 := by omega
  have ms := mask_step ⟨_, hb⟩ ⟨_, hd⟩
  simp only at ms
  have fin : ∀ q : Int, (if d / 8 ≠ 0 then (q + d / 8, 1#32 <<< ((P + d) % 8).toNat) else (q, 1#32 <<< ((P + d) % 8).toNat)) =
      (q + d / 8, 1#32 <<< ((P + d) % 8).toNat) := by
    intro q; split
    · rfl
    · rename_i h; simp only [ne_eq, not_not] at h; rw [h, Int.add_zero]
  unfold advance atBit
  simp only [if_true]
  by_cases h0 : d % 8 = 0
  · have e1 : (P + d) % 8 = P % 8 := by omega
    have e2 : (P + d) / 8 = P / 8 + d / 8 := by omega
    simp only [h0, ne_eq, not_true_eq_false, if_false]
    have := fin (P / 8)
    rw [e1] at this
    rw [e1, e2]
    exact this
  · simp only [ne_eq, h0, not_false_eq_true, if_true]
    have em : ((P + d) % 8).toNat = ((P % 8).toNat + (d % 8).toNat) % 8 := by omega
    have ed : (P + d) / 8 = P / 8 + (((P % 8).toNat + (d % 8).toNat) / 8 : Nat) + d / 8 := by omega
    split at ms
    · rename_i hz
      simp only [hz, if_true]
      obtain ⟨m1, m2⟩ := Prod.mk.inj ms
      have := fin (P / 8 + 1)
      rw [em] at this
      rw [ed, em, ← m1]
      rw [← m2] at this ⊢
      exact this
    · rename_i hz
      simp only [hz, if_false]
      obtain ⟨m1, m2⟩ := Prod.mk.inj ms
      have := fin (P / 8)
      rw [em] at this
      rw [ed, em, ← m1]
      rw [← m2] at this ⊢
      simpa using this

theorem advance_false (d P : Int) : advance false d (atBit P) = atBit P := by
  have hb : (P % 8).toNat < 8 := by omega
  have ml := mask_low ⟨_, hb⟩
  simp only at ml
  unfold advance atBit
  simp only [Bool.false_eq_true, if_false, BitVec.shiftLeft_zero, if_neg ml, Int.add_zero, ite_self]

theorem atBit_add_bytes (P D : Int) : atBit (P + 8 * D) = ((atBit P).1 + D, (atBit P).2) := by
  unfold atBit
  have e1 : (P + 8 * D) % 8 = P % 8 := by omega
  have e2 : (P + 8 * D) / 8 = P / 8 + D := by omega
  rw [e1, e2]

theorem addPtr_true (d x : Int) : addPtr true d x = x + d := rfl
theorem addPtr_false (d x : Int) : addPtr false d x = x := by simp [addPtr]

/-- The jump to the next instance of the parent node. -/
theorem lowJump_atBit {lv : Level} {o s : Nat} {P : Int} (ho : o < 8) (hS : lv.stride % 8 = 0)
    (hP : P % 8 = ((o + lv.num * s) % 8 : Nat)) : lowJump true lv o s (atBit P) = atBit (P + remaining lv s) := by
  unfold lowJump
  simp only [addPtr_true]
  generalize hr : remaining lv s = r
  have hr8 : (r % 8 : Int) = (-(lv.num * s : Nat) : Int) % 8 := by rw [← hr]; unfold remaining; omega
  generalize lv.num * s = q at hP hr8 ⊢
  by_cases h0 : r % 8 = 0
  · have e1 : (P + r) % 8 = P % 8 := by omega
    have e2 : (P + r) / 8 = P / 8 + r / 8 := by omega
    simp only [h0, ne_eq, not_true_eq_false, if_false]
    unfold atBit
    rw [e1, e2]
    split
    · rfl
    · rename_i h; simp only [ne_eq, not_not] at h; rw [h, Int.add_zero]
  · simp only [ne_eq, h0, not_false_eq_true, if_true]
    unfold atBit
    have e1 : ((P + r) % 8).toNat = o := by omega
    have e2 : (P + r) / 8 = P / 8 + (if (o + q) % 8 > o then 1 else 0) + r / 8 := by
      split <;> omega
    rw [e1, e2]
    split
    · rfl
    · rename_i h; simp only [ne_eq, not_not] at h; rw [h, Int.add_zero]

theorem lowJump_atBit_false {lv : Level} {o s : Nat} {P : Int} (hP : P % 8 = o) :
    lowJump false lv o s (atBit P) = atBit P := by
  unfold lowJump
  simp only [addPtr_false]
  have e : (P % 8).toNat = o := by omega
  split <;> split <;> first | rfl | (unfold atBit; rw [e])

/-- Without bit stride. -/
theorem lowJump_static {lv : Level} {o s : Nat} {p : Bool} {x : Int} {k : BitVec 32} (hS : lv.stride % 8 = 0) (hs : s % 8 = 0) :
    lowJump p lv o s (x, k) = (addPtr p (remaining lv s / 8) x, k) ∧ remaining lv s % 8 = 0 := by
  have h0 : remaining lv s % 8 = 0 := by
    unfold remaining
    have : lv.num * s % 8 = 0 := by rw [Nat.mul_mod, hs]; simp
    omega
  refine ⟨?_, h0⟩
  unfold lowJump
  simp only [h0, ne_eq, not_true_eq_false, if_false]
  split
  · rfl
  · rename_i h; simp only [not_not] at h; rw [h]; simp [addPtr]

/-! ### Tests of bits -/

theorem test8_fin : ∀ (k : Fin 8) (b : Fin 256), test8 (BitVec.ofFin (w := 8) b) (1#8 <<< k.val) = (BitVec.ofFin (w := 8) b).getLsbD k.val := by
  decide +kernel

theorem test8_bit (b : Byte) {k : Nat} (hk : k < 8) : test8 b (1#8 <<< k) = b.getLsbD k := test8_fin ⟨k, hk⟩ b.toFin

theorem setWidth_mask : ∀ k : Fin 8, (1#32 <<< k.val).setWidth 8 = 1#8 <<< k.val := by decide +kernel

theorem testMask_fin : ∀ (k : Fin 8) (b : Fin 256),
    testMask (BitVec.ofFin (w := 8) b) (1#32 <<< k.val) = (BitVec.ofFin (w := 8) b).getLsbD k.val := by
  decide +kernel

/-- Reading the bit at a position. -/
theorem testMask_atBit (m : Mem) (a : Nat) : testMask (m (atBit a).1) (atBit a).2 = bitAt m a := by
  have hk : ((a : Int) % 8).toNat < 8 := by omega
  have e : ((a : Int) % 8).toNat = a % 8 := by omega
  have e2 : (a : Int) / 8 = (a / 8 : Nat) := by omega
  have := testMask_fin ⟨_, hk⟩ (m ((a : Int) / 8)).toFin
  unfold atBit bitAt
  rw [← e2, ← e]
  exact this

theorem test8_atBit (m : Mem) (a : Nat) : test8 (m (atBit a).1) ((atBit a).2.setWidth 8) = bitAt m a := by
  have hk : ((a : Int) % 8).toNat < 8 := by omega
  have e : ((a : Int) % 8).toNat = a % 8 := by omega
  have e2 : (a : Int) / 8 = (a / 8 : Nat) := by omega
  unfold atBit bitAt
  have := setWidth_mask ⟨_, hk⟩
  simp only at this
  rw [this, test8_bit _ hk, e2, e]

end Mutable.WLayout
