import Verif.WasmLayout.Spec
import Mathlib.Data.Nat.ModEq
import Mathlib.Tactic.Ring
import Mathlib.Tactic.Linarith
/-
Arithmetic: positions of leaves below a stack of levels, and how much they change from one tuple to the next.
-/
namespace Mutable.WLayout

/-! ### Powers of two -/

theorem isPow2_iff {n : Nat} (h : isPow2 n = true) : n = 2 ^ n.log2 := by
  unfold isPow2 at h
  simp only [Bool.and_eq_true, bne_iff_ne, ne_eq, beq_iff_eq] at h
  obtain ⟨h0, h1⟩ := h
  by_contra hne
  have hle : 2 ^ n.log2 ≤ n := Nat.log2_self_le h0
  have hlt : n < 2 ^ (n.log2 + 1) := Nat.lt_log2_self
  have hlt' : 2 ^ n.log2 < n := lt_of_le_of_ne hle (Ne.symm hne)
  have b1 : n.testBit n.log2 = true := by
    rw [Nat.testBit_eq_decide_div_mod_eq]
    have : n / 2 ^ n.log2 = 1 := by
      apply Nat.div_eq_of_lt_le
      · omega
      · rw [pow_succ] at hlt; omega
    simp [this]
  have b2 : (n - 1).testBit n.log2 = true := by
    rw [Nat.testBit_eq_decide_div_mod_eq]
    have : (n - 1) / 2 ^ n.log2 = 1 := by
      apply Nat.div_eq_of_lt_le
      · omega
      · rw [pow_succ] at hlt; omega
    simp [this]
  have : (n &&& (n - 1)).testBit n.log2 = true := by rw [Nat.testBit_and, b1, b2]; rfl
  rw [h1] at this
  simp at this

theorem pow2_and {n : Nat} (h : isPow2 n = true) (t : Nat) : t &&& (n - 1) = t % n := by
  have e := isPow2_iff h
  rw [e, Nat.and_two_pow_sub_one_eq_mod]

theorem pow2_shift {n : Nat} (h : isPow2 n = true) (t : Nat) : t >>> n.log2 = t / n := by
  rw [Nat.shiftRight_eq_div_pow, ← isPow2_iff h]

theorem jumpCond_eq (c : Cfg) (t n : Nat) : jumpCond c t n = (t % n == 0) := by
  unfold jumpCond
  split
  · rename_i h
    simp only [Bool.and_eq_true] at h
    rw [pow2_and h.1]
  · rfl

/-! ### Levels -/

/-- Offset in bits of the innermost node containing tuple `t`. -/
def lvAddr : List Level → Nat → Nat
  | [], _ => 0
  | l :: ls, t => t / l.num * l.stride + lvAddr ls (t % l.num)

/-- Index of tuple `t` in its innermost node. -/
def lvIter : List Level → Nat → Nat
  | [], t => t
  | l :: ls, t => lvIter ls (t % l.num)

theorem lvAddr_snoc (ls : List Level) (l : Level) (t : Nat) :
    lvAddr (ls ++ [l]) t = lvAddr ls t + lvIter ls t / l.num * l.stride := by
  induction ls generalizing t with
  | nil => simp [lvAddr, lvIter]
  | cons a as ih => simp only [List.cons_append, lvAddr, lvIter, ih]; omega

theorem lvIter_snoc (ls : List Level) (l : Level) (t : Nat) : lvIter (ls ++ [l]) t = lvIter ls t % l.num := by
  induction ls generalizing t with
  | nil => simp [lvIter]
  | cons a as ih => simp only [List.cons_append, lvIter, ih]

theorem addInode_eq (ls : List Level) (h : ∀ l ∈ ls, l.stride % 8 = 0) (t : Nat) : 8 * addInode ls t = lvAddr ls t := by
  induction ls generalizing t with
  | nil => rfl
  | cons l ls ih =>
    have hs : l.stride = 8 * (l.stride / 8) := by have := h l (by simp); omega
    have ih' := fun t => ih (fun x hx => h x (by simp [hx])) t
    have e : addInode (l :: ls) t = t / l.num * (l.stride / 8) + addInode ls (t % l.num) := by
      simp only [addInode]
      split
      · rename_i hp; rw [pow2_shift hp, pow2_and hp]
      · rfl
    rw [e, Nat.mul_add, ih']
    show _ = t / l.num * l.stride + _
    conv_rhs => rw [hs]
    ring_nf

/-- Every level contains a whole number of instances of the next one (outermost first). -/
def Chain : List Level → Prop
  | [] => True
  | [l] => l.num ≠ 0
  | a :: b :: ls => a.num ≠ 0 ∧ a.num % b.num = 0 ∧ Chain (b :: ls)

/-- The same from the inside: `u` divides all of them. -/
def RChain : Nat → List Level → Prop
  | _, [] => True
  | u, l :: ls => l.num ≠ 0 ∧ u ∣ l.num ∧ RChain l.num ls

theorem lvIter_eq : ∀ (rs : List Level) (u : Nat), RChain u rs → ∀ t,
    lvIter rs.reverse t = match rs with | [] => t | l :: _ => t % l.num
  | [], _, _, t => rfl
  | l :: rs, u, h, t => by
    rw [List.reverse_cons, lvIter_snoc, lvIter_eq rs l.num h.2.2 t]
    cases rs with
    | nil => rfl
    | cons a rs => exact Nat.mod_mod_of_dvd t h.2.2.2.1

/-- Position of a leaf of stride `s` per `u` tuples, levels from the inside. -/
def posR : List Level → Nat → Nat → Nat → Int
  | [], u, s, t => (t / u : Nat) * (s : Int)
  | l :: ls, u, s, t => posR ls l.num l.stride t + ((t % l.num) / u : Nat) * (s : Int)

/-- The jumps between the levels. -/
def upSum : Nat → Nat → List Level → Nat → Int
  | _, _, [], _ => 0
  | u, s, l :: ls, t => (if t % l.num = 0 then (l.stride : Int) - (l.num / u * s : Nat) else 0) + upSum l.num l.stride ls t

theorem upSum_zero : ∀ (rs : List Level) (u s t : Nat), RChain u rs → t % u ≠ 0 → upSum u s rs t = 0
  | [], _, _, _, _, _ => rfl
  | l :: rs, u, s, t, h, ht => by
    have hl : t % l.num ≠ 0 := fun e => ht (Nat.mod_eq_zero_of_dvd (h.2.1.trans (Nat.dvd_of_mod_eq_zero e)))
    simp only [upSum, if_neg hl, upSum_zero rs l.num l.stride t h.2.2 hl, add_zero]

/-- From `t` to `t + L` with `L` dividing `u`: the quotient by `u` grows by one iff a multiple of `u` is reached. -/
theorem div_step {L u t : Nat} (hL : 0 < L) (hu : 0 < u) (hLu : L ∣ u) (hLt : L ∣ t) :
    ((t + L) / u = if (t + L) % u = 0 then t / u + 1 else t / u) ∧
    ((t + L) % u = if (t + L) % u = 0 then 0 else t % u + L) ∧ t % u + L ≤ u ∧
    ((t + L) % u = 0 → t % u = u - L) := by
  obtain ⟨k, rfl⟩ := hLu
  obtain ⟨q, rfl⟩ := hLt
  have hk : 0 < k := Nat.pos_of_mul_pos_left hu
  have e1 : L * q + L = L * (q + 1) := by ring
  rw [e1, Nat.mul_div_mul_left _ _ hL, Nat.mul_div_mul_left _ _ hL, Nat.mul_mod_mul_left, Nat.mul_mod_mul_left]
  have hz : (L * ((q + 1) % k) = 0) ↔ (q + 1) % k = 0 := by
    constructor
    · intro h; rcases Nat.mul_eq_zero.mp h with h | h <;> omega
    · intro h; rw [h]; rfl
  simp only [hz]
  have hq := Nat.div_add_mod q k
  have hm : q % k < k := Nat.mod_lt _ hk
  have key : (if (q % k) + 1 = k then (q + 1) / k = q / k + 1 ∧ (q + 1) % k = 0 else (q + 1) / k = q / k ∧ (q + 1) % k = q % k + 1) := by
    split
    · rename_i h
      have : q + 1 = k * (q / k + 1) := by rw [Nat.mul_add]; omega
      rw [this]
      exact ⟨Nat.mul_div_cancel_left _ hk, Nat.mul_mod_right _ _⟩
    · rename_i h
      have hlt : q % k + 1 < k := by omega
      have : q + 1 = (q % k + 1) + k * (q / k) := by omega
      rw [this]
      exact ⟨by rw [Nat.add_mul_div_left _ _ hk, Nat.div_eq_of_lt hlt]; omega, by
        rw [Nat.add_mul_mod_self_left, Nat.mod_eq_of_lt hlt]⟩
  split at key
  · rename_i h
    obtain ⟨k1, k2⟩ := key
    refine ⟨by simp [k1, k2], by simp [k2], ?_, fun _ => ?_⟩
    · calc L * (q % k) + L = L * (q % k + 1) := by ring
        _ ≤ L * k := Nat.mul_le_mul_left _ (by omega)
    · have : q % k = k - 1 := by omega
      rw [this, Nat.mul_sub]; simp
  · rename_i h
    obtain ⟨k1, k2⟩ := key
    have k3 : ¬ ((q + 1) % k = 0) := by omega
    refine ⟨by simp [k1, k3], by simp only [k2]; simp; ring, ?_, fun h0 => absurd h0 k3⟩
    calc L * (q % k) + L = L * (q % k + 1) := by ring
        _ ≤ L * k := Nat.mul_le_mul_left _ (by omega)

/-- The change of the position from one batch to the next. -/
theorem posR_step : ∀ (rs : List Level) (u s L t : Nat), 0 < L → 0 < u → L ∣ u → L ∣ t → RChain u rs →
    posR rs u s (t + L) - posR rs u s t = if (t + L) % u = 0 then (s : Int) + upSum u s rs (t + L) else 0
  | [], u, s, L, t, hL, hu, hLu, hLt, _ => by
    simp only [posR, upSum, add_zero]
    rw [(div_step hL hu hLu hLt).1]
    split
    · push_cast; ring
    · ring
  | l :: rs, u, s, L, t, hL, hu, hLu, hLt, h => by
    have hn : 0 < l.num := Nat.pos_of_ne_zero h.1
    have ih := posR_step rs l.num l.stride L t hL hn (hLu.trans h.2.1) hLt h.2.2
    have d := div_step hL hn (hLu.trans h.2.1) hLt
    simp only [posR, upSum]
    have e : posR rs l.num l.stride (t + L) + (((t + L) % l.num / u : Nat) : Int) * (s : Int) -
        (posR rs l.num l.stride t + ((t % l.num / u : Nat) : Int) * (s : Int)) =
        (posR rs l.num l.stride (t + L) - posR rs l.num l.stride t) +
        ((((t + L) % l.num / u : Nat) : Int) * (s : Int) - ((t % l.num / u : Nat) : Int) * (s : Int)) := by ring
    rw [e, ih]
    obtain ⟨w, hw⟩ := h.2.1
    by_cases c : (t + L) % l.num = 0
    · have cu : (t + L) % u = 0 := Nat.mod_eq_zero_of_dvd (h.2.1.trans (Nat.dvd_of_mod_eq_zero c))
      have e2 : t % l.num = l.num - L := d.2.2.2 c
      have hw0 : 0 < w := by rcases Nat.eq_zero_or_pos w with rfl | h'; · omega
                             · exact h'
      have e3 : (l.num - L) / u = l.num / u - 1 := by
        rw [hw, Nat.mul_div_cancel_left _ hu]
        have hLu' : L ≤ u := Nat.le_of_dvd hu hLu
        have : u * w - L = (u - L) + u * (w - 1) := by
          obtain ⟨v, rfl⟩ : ∃ v, w = v + 1 := ⟨w - 1, by omega⟩
          rw [Nat.mul_add]; simp; omega
        rw [this, Nat.add_mul_div_left _ _ hu, Nat.div_eq_of_lt (by omega)]; omega
      have e4 : l.num / u = w := by rw [hw, Nat.mul_div_cancel_left _ hu]
      rw [e2, e3, if_pos c, if_pos cu, if_pos c, c, e4]
      have : ((w - 1 : Nat) : Int) = (w : Int) - 1 := by omega
      rw [this, Nat.zero_div]
      push_cast; ring
    · rw [if_neg c, if_neg c, upSum_zero rs l.num l.stride (t + L) h.2.2 c]
      have e2 : (t + L) % l.num = t % l.num + L := by have := d.2.1; rwa [if_neg c] at this
      have d2 := div_step (t := t % l.num) hL hu hLu
        ((Nat.dvd_mod_iff (hLu.trans h.2.1)).mpr hLt)
      have e3 : (t % l.num + L) % u = (t + L) % u := by
        rw [← e2, Nat.mod_mod_of_dvd _ h.2.1]
      rw [e2, d2.1, e3]
      split
      · push_cast; ring
      · ring

/-- Position of a leaf of stride `s` in the model of the levels. -/
theorem posR_eq : ∀ (rs : List Level) (u : Nat), RChain u rs → ∀ s t,
    posR rs u s t = (lvAddr rs.reverse t : Int) + (lvIter rs.reverse t / u : Nat) * (s : Int)
  | [], u, _, s, t => by simp [posR, lvAddr, lvIter]
  | l :: rs, u, h, s, t => by
    simp only [posR, posR_eq rs l.num h.2.2, List.reverse_cons, lvAddr_snoc, lvIter_snoc]
    have e : lvIter rs.reverse t % l.num = t % l.num := by
      rw [lvIter_eq rs l.num h.2.2 t]
      cases rs with
      | nil => rfl
      | cons a rs => exact Nat.mod_mod_of_dvd t h.2.2.2.1
    rw [e]; push_cast; ring

/-- Position of tuple `t` for a leaf of stride `s`, relative to the node's offset and the leaf's offset. -/
def pos (ls : List Level) (s t : Nat) : Nat := lvAddr ls t + lvIter ls t * s

/-- The step of one batch of `L` tuples: the leaf's jump, the jump to the next instance of the parent, the jumps further up. -/
theorem pos_step {lv : Level} {ups : List Level} {L s t : Nat} (hL : 0 < L) (h : RChain L (lv :: ups)) (hLt : L ∣ t) :
    (pos (lv :: ups).reverse s (t + L) : Int) = pos (lv :: ups).reverse s t + L * s +
      (if (t + L) % lv.num = 0 then remaining lv s else 0) + upSum lv.num lv.stride ups (t + L) := by
  have hLi : ∀ t, L ∣ t → L ∣ lvIter (lv :: ups).reverse t := fun t ht => by
    rw [lvIter_eq (lv :: ups) L h t]; exact (Nat.dvd_mod_iff h.2.1).mpr ht
  have e : ∀ t, L ∣ t → posR (lv :: ups) L (L * s) t = (pos (lv :: ups).reverse s t : Int) := fun t ht => by
    rw [posR_eq _ _ h]
    obtain ⟨k, hk⟩ := hLi t ht
    rw [hk, Nat.mul_div_cancel_left _ hL]
    unfold pos; rw [hk]; push_cast; ring
  have st := posR_step (lv :: ups) L (L * s) L t hL hL (dvd_refl _) hLt h
  rw [e _ hLt, e _ (Nat.dvd_add hLt (dvd_refl L)), if_pos (Nat.mod_eq_zero_of_dvd (Nat.dvd_add hLt (dvd_refl L)))] at st
  simp only [upSum] at st
  have r : (lv.stride : Int) - ((lv.num / L * (L * s) : Nat) : Int) = remaining lv s := by
    unfold remaining
    obtain ⟨w, hw⟩ := h.2.1
    rw [hw, Nat.mul_div_cancel_left _ hL]
    have : w * (L * s) = L * w * s := by ring
    rw [this]
  rw [r] at st
  have e5 : ((L * s : Nat) : Int) = (L : Int) * s := by push_cast; rfl
  rw [e5] at st
  linarith

end Mutable.WLayout
