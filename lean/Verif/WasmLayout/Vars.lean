import Verif.WasmLayout.Groups
/-
The variables of a group after any number of steps.
-/
namespace Mutable.WLayout

/-- First bit of a leaf of stride `s` and offset `o` for tuple `t`. -/
def Group.at (g : Group) (base t s o : Nat) : Nat := 8 * base + g.ioff + pos g.levels s t + o

/-- Pointer and mask for key `k` and tuple `t`, if the scan started at iteration `it0` of the innermost node. -/
def slotVal (g : Group) (base it0 t : Nat) (k : Nat × Nat) : Int × BitVec 32 :=
  if k.2 % 8 ≠ 0 then atBit ((g.at base t k.2 k.1 : Int) - 8 * ((k.1 + it0 * k.2) / 8 : Nat))
  else ((g.at base t k.2 0 : Int) / 8, 0)

/-- The variables are those of tuple `t`; the pointer to the NULL bitmap is `d` strides further. -/
structure VarsOK (g : Group) (accs : List Acc) (base it0 t d : Nat) (v : Vars) : Prop where
  slots : ∀ s ∈ v.slots, (s.ptr, s.mask) = slotVal g base it0 t s.key ∧ s.key.1 < 8
  null : v.null = (nullLeaf accs).map (fun f => atBit (g.at base t f.stride f.off + d * f.stride : Nat))

/-! ### Jumps between levels -/

theorem shiftAll_zero (p : Bool) (v : Vars) : shiftAll p 0 v = v := by
  unfold shiftAll addPtr
  cases v with
  | mk sl n => cases p <;> simp

theorem shiftAll_add (p : Bool) (a b : Int) (v : Vars) : shiftAll p a (shiftAll p b v) = shiftAll p (b + a) v := by
  unfold shiftAll addPtr
  cases p
  · simp
  · simp [Function.comp_def, Int.add_assoc]

theorem upSum_dvd : ∀ (rs : List Level) (u s t : Nat), s % 8 = 0 → (∀ l ∈ rs, l.stride % 8 = 0) → upSum u s rs t % 8 = 0
  | [], _, _, _, _, _ => rfl
  | l :: rs, u, s, t, hs, h => by
    have ih := upSum_dvd rs l.num l.stride t (h l (by simp)) (fun x hx => h x (by simp [hx]))
    have h1 := h l (by simp)
    have h2 : l.num / u * s % 8 = 0 := by rw [Nat.mul_mod, hs]; simp
    simp only [upSum]
    split <;> omega

theorem upJumps_eq (c : Cfg) (p : Bool) (t : Nat) : ∀ (rs : List Level) (inner : Level) (v : Vars), inner.stride % 8 = 0 →
    (∀ l ∈ rs, l.stride % 8 = 0) → RChain inner.num rs →
    upJumps c p t inner rs v = shiftAll p (upSum inner.num inner.stride rs t / 8) v
  | [], inner, v, _, _, _ => by simp [upJumps, upSum, shiftAll_zero]
  | l :: rs, inner, v, hi, h, hc => by
    have hl := h l (by simp)
    have hr : ∀ x ∈ rs, x.stride % 8 = 0 := fun x hx => h x (by simp [hx])
    have ih := fun v => upJumps_eq c p t rs l v hl hr hc.2.2
    have h2 : l.num / inner.num * inner.stride % 8 = 0 := by rw [Nat.mul_mod, hi]; simp
    have hd : upSum l.num l.stride rs t % 8 = 0 := upSum_dvd rs _ _ t hl hr
    simp only [upJumps, upSum, jumpCond_eq]
    generalize hD : (l.stride : Int) - ((l.num / inner.num * inner.stride : Nat) : Int) = D
    have hD8 : D % 8 = 0 := by omega
    by_cases ht : t % l.num = 0
    · have e : (D + upSum l.num l.stride rs t) / 8 = D / 8 + upSum l.num l.stride rs t / 8 := by omega
      simp only [ht, if_true, e]
      split
      · split
        · rw [if_pos (by simp), ih, shiftAll_add]
        · rw [ih, shiftAll_add]
      · rename_i h0; simp only [ne_eq, not_not] at h0; rw [ih, h0, Int.zero_add]
    · have z := upSum_zero rs l.num l.stride t hc.2.2 ht
      have n1 : l.num ≠ 1 := fun e => ht (by rw [e]; exact Nat.mod_one t)
      simp only [ht, if_false, z, Int.add_zero]
      rw [ih, z]
      simp only [ne_eq, n1, not_false_eq_true, if_true, Int.zero_ediv, shiftAll_zero, beq_iff_eq, ht, if_false, ite_self]
      simp only [Bool.false_eq_true, ite_self, if_false, ite_not, ite_eq_right_iff]
      intro _; rw [ih, z, Int.zero_ediv, shiftAll_zero]

theorem lowJump_zero {p : Bool} {lv : Level} {o s : Nat} {x : Int × BitVec 32} (h : remaining lv s = 0) : lowJump p lv o s x = x := by
  unfold lowJump; simp [h]

theorem lowJumps_empty {p : Bool} {lv : Level} {nf : Option Leaf} {v : Vars} (h : lowEmpty lv nf v = true) : lowJumps p lv nf v = v := by
  unfold lowEmpty at h
  simp only [Bool.and_eq_true, List.all_eq_true, beq_iff_eq] at h
  unfold lowJumps
  cases v with
  | mk sl n =>
    have e1 : sl.map (fun s => Slot.mk s.key (lowJump p lv s.key.1 s.key.2 (s.ptr, s.mask)).1
        (lowJump p lv s.key.1 s.key.2 (s.ptr, s.mask)).2) = sl := by
      conv_rhs => rw [← List.map_id sl]
      apply List.map_congr_left
      intro s hs
      rw [lowJump_zero (h.1 s hs)]; rfl
    congr 1
    cases nf with
    | none => rfl
    | some f =>
      cases n with
      | none => rfl
      | some x =>
        have := h.2
        simp only [beq_iff_eq] at this
        simp only [lowJump_zero this]

/-- All jumps of a group. -/
theorem groupJumps_eq {c : Cfg} {p : Bool} {t : Nat} {s : GSt} {lv : Level} {ups : List Level} (hg : s.g.levels = (lv :: ups).reverse)
    (h8 : ∀ l ∈ s.g.levels, l.stride % 8 = 0) (hc : RChain 1 (lv :: ups)) :
    groupJumps c p t s = ⟨s.g, s.accs, shiftAll p (upSum lv.num lv.stride ups t / 8)
      (if t % lv.num = 0 then lowJumps p lv (nullLeaf s.accs) ⟨s.vars.slots.map (leafJump c p), s.vars.null⟩
       else ⟨s.vars.slots.map (leafJump c p), s.vars.null⟩)⟩ := by
  have hlv : lv.stride % 8 = 0 := h8 lv (by rw [hg]; simp)
  have hups : ∀ l ∈ ups, l.stride % 8 = 0 := fun l hl => h8 l (by rw [hg]; simp [hl])
  have up := fun v => upJumps_eq c p t ups lv v hlv hups hc.2.2
  have hrev : s.g.levels.reverse = lv :: ups := by rw [hg, List.reverse_reverse]
  unfold groupJumps
  rw [hrev]
  simp only [jumpCond_eq]
  split
  · rename_i he
    rw [up, lowJumps_empty he, ite_self]
  · by_cases ht : t % lv.num = 0
    · simp only [ht, if_true, beq_self_eq_true]
      rw [up, ite_self]
    · have n1 : lv.num ≠ 1 := fun e => ht (by rw [e]; exact Nat.mod_one t)
      have z := upSum_zero ups lv.num lv.stride t hc.2.2 ht
      have hb : (t % lv.num == 0) = false := by simpa using ht
      simp only [ne_eq, n1, not_false_eq_true, if_true, hb, Bool.false_eq_true, if_false, ht, z, Int.zero_ediv, shiftAll_zero]

/-! ### One slot -/

theorem lvAddr_mod (ls : List Level) (h : ∀ l ∈ ls, l.stride % 8 = 0) (t : Nat) : lvAddr ls t % 8 = 0 := by
  rw [← addInode_eq ls h]; omega

/-- Pointer and mask after the per-leaf jump. -/
def leafX (c : Cfg) (p : Bool) (k : Nat × Nat) (x : Int × BitVec 32) : Int × BitVec 32 :=
  ((leafJump c p ⟨k, x.1, x.2⟩).ptr, (leafJump c p ⟨k, x.1, x.2⟩).mask)

theorem leafJump_key (c : Cfg) (p : Bool) (s : Slot) : (leafJump c p s).key = s.key := by
  unfold leafJump; split <;> split <;> rfl

theorem leafJump_eq (c : Cfg) (p : Bool) (s : Slot) :
    leafJump c p s = ⟨s.key, (leafX c p s.key (s.ptr, s.mask)).1, (leafX c p s.key (s.ptr, s.mask)).2⟩ := by
  have := leafJump_key c p s
  cases h : leafJump c p s with
  | mk k a b => rw [h] at this; simp only at this; subst this; simp only [leafX]; rw [h]

theorem leafX_dyn {c : Cfg} {k : Nat × Nat} {P : Int} (hk : k.2 % 8 ≠ 0) (h1 : c.lanes = 1) :
    leafX c true k (atBit P) = atBit (P + k.2) := by
  unfold leafX leafJump
  simp only [ne_eq, hk, not_false_eq_true, if_true, h1, Nat.one_mul]
  rw [show ((atBit P).1, (atBit P).2) = atBit P from rfl, advance_atBit]
  have e : atBit (P + k.2) = ((atBit (P + (k.2 % 8 : Nat))).1 + (k.2 / 8 : Nat), (atBit (P + (k.2 % 8 : Nat))).2) := by
    rw [← atBit_add_bytes]; congr 1; omega
  rw [e]
  split
  · split <;> rfl
  · rename_i h; simp only [not_not] at h; rw [h]; simp

theorem leafX_dyn_false {c : Cfg} {k : Nat × Nat} {P : Int} (hk : k.2 % 8 ≠ 0) (hp : c.predicated = true) :
    leafX c false k (atBit P) = atBit P := by
  unfold leafX leafJump
  simp only [ne_eq, hk, not_false_eq_true, if_true, hp, addPtr_false]
  rw [show ((atBit P).1, (atBit P).2) = atBit P from rfl, advance_false]
  split <;> rfl

theorem leafX_static {c : Cfg} {k : Nat × Nat} {x : Int} {q : BitVec 32} (hk : k.2 % 8 = 0) (hp : c.predicated = true → c.lanes = 1) :
    leafX c true k (x, q) = (x + (c.lanes * (k.2 / 8) : Nat), q) := by
  unfold leafX leafJump
  simp only [hk, ne_eq, not_true_eq_false, if_false, addPtr_true]
  split
  · split
    · rename_i h; rw [hp h, Nat.one_mul]
    · rfl
  · rename_i h; simp only [not_not] at h; rw [h]; simp

theorem leafX_static_false {c : Cfg} {k : Nat × Nat} {x : Int} {q : BitVec 32} (hk : k.2 % 8 = 0) (hp : c.predicated = true) :
    leafX c false k (x, q) = (x, q) := by
  unfold leafX leafJump
  simp only [hk, ne_eq, not_true_eq_false, if_false, addPtr_false, hp, if_true, ite_self]

theorem mod_helper {n s : Nat} (hn : 0 < n) : (n - 1) * s + s = n * s := by
  obtain ⟨m, rfl⟩ : ∃ m, n = m + 1 := ⟨n - 1, by omega⟩
  simp; ring

/-- One slot over one step of `L` tuples. -/
theorem slot_step {c : Cfg} {g : Group} {sch : List Attr} {lv : Level} {ups : List Level} (hok : g.OK sch)
    (hg : g.levels = (lv :: ups).reverse) (hL : 0 < c.lanes) (hc : RChain c.lanes (lv :: ups)) (hp : c.predicated = true → c.lanes = 1)
    {base it0 t : Nat} (hLt : c.lanes ∣ t) {k : Nat × Nat} (hk1 : k.1 < 8) (hdyn : k.2 % 8 ≠ 0 → c.lanes = 1) :
    let x := leafX c true k (slotVal g base it0 t k)
    let y := if (t + c.lanes) % lv.num = 0 then lowJump true lv k.1 k.2 x else x
    (y.1 + upSum lv.num lv.stride ups (t + c.lanes) / 8, y.2) = slotVal g base it0 (t + c.lanes) k := by
  have hlv : lv.stride % 8 = 0 := hok.strides lv (by rw [hg]; simp)
  have hups : ∀ l ∈ ups, l.stride % 8 = 0 := fun l hl => hok.strides l (by rw [hg]; simp [hl])
  have hU := upSum_dvd ups lv.num lv.stride (t + c.lanes) hlv hups
  have st := pos_step (s := k.2) hL hc hLt
  rw [← hg] at st
  have hA := lvAddr_mod g.levels hok.strides t
  intro x y
  by_cases hb : k.2 % 8 ≠ 0
  · have h1 := hdyn hb
    have hx : x = atBit ((g.at base t k.2 k.1 : Int) - 8 * ((k.1 + it0 * k.2) / 8 : Nat) + k.2) := by
      show leafX c true k (slotVal g base it0 t k) = _
      unfold slotVal; rw [if_pos hb, leafX_dyn hb h1]
    have hy : y = atBit ((g.at base t k.2 k.1 : Int) - 8 * ((k.1 + it0 * k.2) / 8 : Nat) + k.2 +
        (if (t + c.lanes) % lv.num = 0 then remaining lv k.2 else 0)) := by
      show (if _ then _ else _) = _
      rw [hx]
      split
      · rename_i ht
        rw [lowJump_atBit hk1 hlv]
        have hn : 0 < lv.num := Nat.pos_of_ne_zero hc.1
        have ei : lvIter g.levels t = lv.num - 1 := by
          rw [hg, lvIter_eq (lv :: ups) c.lanes hc t]
          have := (div_step hL hn hc.2.1 hLt).2.2.2 ht
          rw [h1] at this; exact this
        have e2 : pos g.levels k.2 t + k.2 = lvAddr g.levels t + lv.num * k.2 := by
          unfold pos; rw [ei, ← mod_helper (n := lv.num) (s := k.2) hn]; omega
        have := hok.ioff
        unfold Group.at
        generalize lv.num * k.2 = q at e2 ⊢
        omega
      · rw [Int.add_zero]
    unfold slotVal
    rw [if_pos hb, hy]
    rw [← atBit_add_bytes]
    congr 1
    have e8 : 8 * (upSum lv.num lv.stride ups (t + c.lanes) / 8) = upSum lv.num lv.stride ups (t + c.lanes) := by omega
    rw [e8]
    unfold Group.at
    rw [h1] at st ⊢
    push_cast
    push_cast at st
    rw [st]
    ring
  · simp only [ne_eq, not_not] at hb
    have hx : x = ((g.at base t k.2 0 : Int) / 8 + (c.lanes * (k.2 / 8) : Nat), 0) := by
      show leafX c true k (slotVal g base it0 t k) = _
      unfold slotVal; rw [if_neg (by simpa using hb), leafX_static hb hp]
    have hr := (lowJump_static (lv := lv) (o := k.1) (p := true) (x := (0 : Int)) (k := 0) hlv hb).2
    have hy : y = ((g.at base t k.2 0 : Int) / 8 + (c.lanes * (k.2 / 8) : Nat) +
        (if (t + c.lanes) % lv.num = 0 then remaining lv k.2 / 8 else 0), 0) := by
      show (if _ then _ else _) = _
      rw [hx]
      split
      · rw [(lowJump_static hlv hb).1]; rfl
      · rw [Int.add_zero]
    unfold slotVal
    rw [if_neg (by simpa using hb), hy]
    have e8 : ((c.lanes * (k.2 / 8) : Nat) : Int) * 8 = (c.lanes : Int) * k.2 := by
      have : ((k.2 : Nat) : Int) = 8 * (k.2 / 8 : Nat) := by omega
      conv_rhs => rw [this]
      push_cast; ring
    have eg : (g.at base (t + c.lanes) k.2 0 : Int) = g.at base t k.2 0 + c.lanes * k.2 +
        (if (t + c.lanes) % lv.num = 0 then remaining lv k.2 else 0) + upSum lv.num lv.stride ups (t + c.lanes) := by
      unfold Group.at; push_cast; push_cast at st; rw [st]; ring
    rw [eg]
    congr 1
    rw [← e8]
    split <;> omega

/-- One slot if the predicate is false. -/
theorem slot_stay {c : Cfg} {g : Group} {sch : List Attr} {lv : Level} {ups : List Level} (hok : g.OK sch)
    (hg : g.levels = (lv :: ups).reverse) (hc : RChain 1 (lv :: ups)) (hp : c.predicated = true)
    {base it0 t : Nat} {k : Nat × Nat} (hk1 : k.1 < 8) :
    let x := leafX c false k (slotVal g base it0 t k)
    (if t % lv.num = 0 then lowJump false lv k.1 k.2 x else x) = slotVal g base it0 t k := by
  have hlv : lv.stride % 8 = 0 := hok.strides lv (by rw [hg]; simp)
  have hA := lvAddr_mod g.levels hok.strides t
  intro x
  by_cases hb : k.2 % 8 ≠ 0
  · have hx : x = slotVal g base it0 t k := by
      show leafX c false k (slotVal g base it0 t k) = _
      unfold slotVal; rw [if_pos hb, leafX_dyn_false hb hp]
    rw [hx]
    split
    · rename_i ht
      unfold slotVal
      rw [if_pos hb]
      apply lowJump_atBit_false
      have ei : lvIter g.levels t = 0 := by
        rw [hg, lvIter_eq (lv :: ups) 1 hc t]; exact ht
      have := hok.ioff
      unfold Group.at pos
      rw [ei]
      omega
    · rfl
  · simp only [ne_eq, not_not] at hb
    have hx : x = slotVal g base it0 t k := by
      show leafX c false k (slotVal g base it0 t k) = _
      unfold slotVal; rw [if_neg (by simpa using hb), leafX_static_false hb hp]
    rw [hx]
    split
    · unfold slotVal
      rw [if_neg (by simpa using hb), (lowJump_static hlv hb).1, addPtr_false]
    · rfl

end Mutable.WLayout
