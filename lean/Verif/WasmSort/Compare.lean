import Mathlib.Tactic.Ring
import Mathlib.Tactic.Push
import Verif.WasmSort.Quick
/-! # The comparisons of tuples -/
namespace Mutable.WSort
variable {V : Type} [LinearOrder V] {R : Type}

/-! ### Specification of `ORDER BY` -/

/-- By one ordering expression `x` comes strictly before `y`: NULL is first, other values are in the given direction. -/
def Before (asc : Bool) (x y : Cell V) : Prop :=
  (x.null = true ∧ y.null = false) ∨ (x.null = false ∧ y.null = false ∧ if asc then x.val < y.val else y.val < x.val)

/-- The ordering expression has the same value in both: both are NULL, or neither is and the values are equal. -/
def Same (x y : Cell V) : Prop := (x.null = true ∧ y.null = true) ∨ (x.null = false ∧ y.null = false ∧ x.val = y.val)

/-- Tuple `l` comes strictly before tuple `r` in the order `ks`: at the first ordering expression in which they differ. -/
def RowBefore (ks : List (Key R V)) (l r : R) : Prop :=
  ∃ pre k post, ks = pre ++ k :: post ∧ (∀ k' ∈ pre, Same (k'.eval l) (k'.eval r)) ∧ Before k.asc (k.eval l) (k.eval r)

/-- An expression which cannot be NULL is not NULL. -/
def Typed (ks : List (Key R V)) (r : R) : Prop := ∀ k ∈ ks, k.nullable = false → (k.eval r).null = false

/-! ### Lexicographic order -/

omit [LinearOrder V] in
theorem Same.symm {x y : Cell V} (h : Same x y) : Same y x := by
  rcases h with ⟨h1, h2⟩ | ⟨h1, h2, h3⟩
  · exact Or.inl ⟨h2, h1⟩
  · exact Or.inr ⟨h2, h1, h3.symm⟩

omit [LinearOrder V] in
theorem Same.refl (x : Cell V) : Same x x := by
  unfold Same
  cases x.null <;> simp

theorem tri (asc : Bool) (x y : Cell V) : Before asc x y ∨ Same x y ∨ Before asc y x := by
  unfold Before Same
  cases x.null <;> cases y.null <;> simp
  rcases lt_trichotomy x.val y.val with h | h | h <;> cases asc <;> simp [h]

theorem Before.asymm {asc : Bool} {x y : Cell V} (h : Before asc x y) : ¬ Before asc y x := by
  unfold Before at *
  cases asc <;> cases hx : x.null <;> cases hy : y.null <;> simp_all [le_of_lt]

theorem Before.not_same {asc : Bool} {x y : Cell V} (h : Before asc x y) : ¬ Same x y := by
  unfold Before Same at *
  cases asc <;> cases hx : x.null <;> cases hy : y.null <;> simp_all [ne_of_lt, ne_of_gt]

omit [LinearOrder V] in
theorem Same.trans {x y z : Cell V} (h : Same x y) (h' : Same y z) : Same x z := by
  unfold Same at *
  cases hx : x.null <;> cases hy : y.null <;> cases hz : z.null <;> simp_all

theorem Before.trans {asc : Bool} {x y z : Cell V} (h : Before asc x y) (h' : Before asc y z) : Before asc x z := by
  unfold Before at *
  cases asc <;> cases hx : x.null <;> cases hy : y.null <;> cases hz : z.null <;> simp_all
  · exact h'.trans h
  · exact h.trans h'

theorem Before.same_left {asc : Bool} {x y z : Cell V} (h : Same x y) (h' : Before asc y z) : Before asc x z := by
  unfold Before Same at *
  cases asc <;> cases hx : x.null <;> cases hy : y.null <;> cases hz : z.null <;> simp_all

theorem Before.same_right {asc : Bool} {x y z : Cell V} (h : Before asc x y) (h' : Same y z) : Before asc x z := by
  unfold Before Same at *
  cases asc <;> cases hx : x.null <;> cases hy : y.null <;> cases hz : z.null <;> simp_all

theorem rowBefore_nil (l r : R) : ¬ RowBefore ([] : List (Key R V)) l r := by
  rintro ⟨pre, k, post, h, -⟩
  simp at h

theorem rowBefore_cons (k : Key R V) (ks : List (Key R V)) (l r : R) :
    RowBefore (k :: ks) l r ↔ Before k.asc (k.eval l) (k.eval r) ∨ (Same (k.eval l) (k.eval r) ∧ RowBefore ks l r) := by
  constructor
  · rintro ⟨pre, k', post, h, h1, h2⟩
    cases pre with
    | nil =>
      simp only [List.nil_append, List.cons.injEq] at h
      rw [h.1]
      exact Or.inl h2
    | cons q pre =>
      simp only [List.cons_append, List.cons.injEq] at h
      rw [h.1]
      exact Or.inr ⟨h1 q (by simp), pre, k', post, h.2, fun k'' hk => h1 k'' (by simp [hk]), h2⟩
  · rintro (h | ⟨h, pre, k', post, h1, h2, h3⟩)
    · exact ⟨[], k, ks, rfl, by simp, h⟩
    · refine ⟨k :: pre, k', post, by rw [h1]; rfl, ?_, h3⟩
      intro q hq
      rcases List.mem_cons.1 hq with rfl | hq
      · exact h
      · exact h2 q hq

/-- `l` does not come after `r`. -/
def rowLe (ks : List (Key R V)) (l r : R) : Prop := ¬ RowBefore ks r l

theorem rowLe_cons (k : Key R V) (ks : List (Key R V)) (l r : R) :
    rowLe (k :: ks) l r ↔ Before k.asc (k.eval l) (k.eval r) ∨ (Same (k.eval l) (k.eval r) ∧ rowLe ks l r) := by
  unfold rowLe
  rw [rowBefore_cons]
  constructor
  · intro h
    push Not at h
    rcases tri k.asc (k.eval l) (k.eval r) with h1 | h1 | h1
    · exact Or.inl h1
    · exact Or.inr ⟨h1, h.2 h1.symm⟩
    · exact absurd h1 h.1
  · rintro (h | ⟨h, h'⟩) (h2 | ⟨h2, h3⟩)
    · exact h.asymm h2
    · exact h.not_same h2.symm
    · exact h2.not_same h.symm
    · exact h' h3

theorem rowLe_refl (ks : List (Key R V)) (l : R) : rowLe ks l l := by
  induction ks with
  | nil => exact rowBefore_nil _ _
  | cons k ks ih => rw [rowLe_cons]; exact Or.inr ⟨Same.refl _, ih⟩

theorem rowLe_trans (ks : List (Key R V)) (x y z : R) (h : rowLe ks x y) (h' : rowLe ks y z) : rowLe ks x z := by
  induction ks with
  | nil => exact rowBefore_nil _ _
  | cons k ks ih =>
    rw [rowLe_cons] at *
    rcases h with h | ⟨h, h1⟩ <;> rcases h' with h' | ⟨h', h2⟩
    · exact Or.inl (h.trans h')
    · exact Or.inl (h.same_right h')
    · exact Or.inl (Before.same_left h h')
    · exact Or.inr ⟨h.trans h', ih h1 h2⟩

theorem rowBefore_le {ks : List (Key R V)} {l r : R} (h : RowBefore ks l r) : rowLe ks l r := by
  induction ks with
  | nil => exact rowBefore_nil _ _
  | cons k ks ih =>
    rw [rowBefore_cons] at h
    rw [rowLe_cons]
    exact h.imp id (fun h => ⟨h.1, ih h.2⟩)

/-! ### The branching comparison -/

omit [LinearOrder V] in
theorem Typed.cons {k : Key R V} {ks : List (Key R V)} {r : R} (h : Typed (k :: ks) r) :
    (k.nullable = false → (k.eval r).null = false) ∧ Typed ks r :=
  ⟨h k (by simp), fun k' hk => h k' (by simp [hk])⟩

theorem cmpBranch_spec : ∀ (ks : List (Key R V)) (l r : R), Typed ks l → Typed ks r →
    (cmpBranch ks l r = -1 ∧ RowBefore ks l r) ∨ (cmpBranch ks l r = 0 ∧ ¬ RowBefore ks l r ∧ ¬ RowBefore ks r l) ∨
      (cmpBranch ks l r = 1 ∧ RowBefore ks r l) := by
  intro ks
  induction ks with
  | nil => intro l r _ _; exact Or.inr (Or.inl ⟨rfl, rowBefore_nil _ _, rowBefore_nil _ _⟩)
  | cons k ks ih =>
    intro l r hl hr
    obtain ⟨hl1, hl2⟩ := hl.cons
    obtain ⟨hr1, hr2⟩ := hr.cons
    have IH := ih l r hl2 hr2
    have key : (cmpBranch (k :: ks) l r = -1 ∧ Before k.asc (k.eval l) (k.eval r)) ∨
        (cmpBranch (k :: ks) l r = cmpBranch ks l r ∧ Same (k.eval l) (k.eval r)) ∨
        (cmpBranch (k :: ks) l r = 1 ∧ Before k.asc (k.eval r) (k.eval l)) := by
      rw [cmpBranch]
      generalize cmpBranch ks l r = z
      unfold Before Same
      generalize k.eval l = x at *
      generalize k.eval r = y at *
      rcases lt_trichotomy x.val y.val with h | h | h <;>
      cases hn : k.nullable <;> cases ha : k.asc <;> cases hx : x.null <;> cases hy : y.null <;>
        first
        | (have h' := not_lt.2 (le_of_lt h); simp [hn, ha, hx, hy, h, h']; done)
        | (simp [hn, ha, hx, hy, h]; done)
        | (simp [hn, hx] at hl1; done)
        | (simp [hn, hy] at hr1; done)
    rcases key with ⟨h1, h2⟩ | ⟨h1, h2⟩ | ⟨h1, h2⟩
    · exact Or.inl ⟨h1, (rowBefore_cons _ _ _ _).2 (Or.inl h2)⟩
    · rw [h1, rowBefore_cons, rowBefore_cons]
      have n1 : ¬ Before k.asc (k.eval l) (k.eval r) := fun h => h.not_same h2
      have n2 : ¬ Before k.asc (k.eval r) (k.eval l) := fun h => h.not_same h2.symm
      rcases IH with ⟨h3, h4⟩ | ⟨h3, h4, h5⟩ | ⟨h3, h4⟩
      · exact Or.inl ⟨h3, Or.inr ⟨h2, h4⟩⟩
      · exact Or.inr (Or.inl ⟨h3, by simp [n1, h4], by simp [n2, h5]⟩)
      · exact Or.inr (Or.inr ⟨h3, Or.inr ⟨h2.symm, h4⟩⟩)
    · exact Or.inr (Or.inr ⟨h1, (rowBefore_cons _ _ _ _).2 (Or.inl h2)⟩)

/-! ### The predicated comparison -/

/-- How many bits of the 32-bit result an ordering expression takes. -/
def bits (ks : List (Key R V)) : Nat := (ks.map fun k => if k.nullable then 2 else 1).sum

/-- All NULLs of an expression which is not a string have the same value part (in the two tuples). -/
def SameNull (ks : List (Key R V)) (l r : R) : Prop :=
  ∀ k ∈ ks, k.str = false → (k.eval l).null = true → (k.eval r).null = true → (k.eval l).val = (k.eval r).val

def cmpValI (asc : Bool) (x y : V) : Int :=
  let lt : Int := if x < y then 1 else 0
  let gt : Int := if y < x then 1 else 0
  if asc then gt - lt else lt - gt

def predStepI (l r : R) (i : Int) (k : Key R V) : Int :=
  let x := k.eval l
  let y := k.eval r
  if k.nullable then
    4 * i + (2 * ((if y.null then 1 else 0) - (if x.null then 1 else 0)) + if k.str && (x.null || y.null) then 0 else cmpValI k.asc x.val y.val)
  else 2 * i + cmpValI k.asc x.val y.val

theorem ofInt_shl1 (i : Int) : BitVec.ofInt 32 i <<< 1 = BitVec.ofInt 32 (2 * i) := by
  rw [BitVec.shiftLeft_eq_mul_twoPow, mul_comm 2 i, BitVec.ofInt_mul]; rfl

theorem ofInt_shl2 (i : Int) : BitVec.ofInt 32 i <<< 2 = BitVec.ofInt 32 (4 * i) := by
  rw [BitVec.shiftLeft_eq_mul_twoPow, mul_comm 4 i, BitVec.ofInt_mul]; rfl

theorem cmpVal_ofInt (asc : Bool) (x y : V) : cmpVal asc x y = BitVec.ofInt 32 (cmpValI asc x y) := by
  unfold cmpVal cmpValI b32
  rcases lt_trichotomy x y with h | h | h <;> cases asc <;>
    first
    | (have h' := not_lt.2 (le_of_lt h); simp [h, h']; done)
    | (have h' := not_lt.2 (le_of_lt h); simp [h, h']; decide)
    | (simp [h]; done)

theorem cmpPredStep_ofInt (l r : R) (i : Int) (k : Key R V) :
    cmpPredStep l r (BitVec.ofInt 32 i) k = BitVec.ofInt 32 (predStepI l r i k) := by
  unfold cmpPredStep predStepI
  dsimp only
  cases hn : k.nullable
  · simp only [Bool.false_eq_true, if_false]
    rw [ofInt_shl1, cmpVal_ofInt, BitVec.ofInt_add]
  · simp only [if_true]
    rw [ofInt_shl2, BitVec.ofInt_add, BitVec.ofInt_add]
    congr 2
    · unfold b32
      cases (k.eval l).null <;> cases (k.eval r).null <;> decide
    · unfold cmpValNullable
      split
      · rfl
      · exact cmpVal_ofInt _ _ _

theorem foldl_ofInt (l r : R) : ∀ (ks : List (Key R V)) (i : Int),
    ks.foldl (cmpPredStep l r) (BitVec.ofInt 32 i) = BitVec.ofInt 32 (ks.foldl (predStepI l r) i)
  | [], i => rfl
  | k :: ks, i => by rw [List.foldl_cons, List.foldl_cons, cmpPredStep_ofInt]; exact foldl_ofInt l r ks _

theorem cmpValI_bound (asc : Bool) (x y : V) : -1 ≤ cmpValI asc x y ∧ cmpValI asc x y ≤ 1 := by
  unfold cmpValI
  cases asc <;> simp only [] <;> split_ifs <;> simp_all

/-- The size and the sign of the result, once something differs. -/
theorem foldI_pos (l r : R) : ∀ (ks : List (Key R V)) (i : Int), 1 ≤ i → 1 ≤ ks.foldl (predStepI l r) i
  | [], i, h => h
  | k :: ks, i, h => by
    rw [List.foldl_cons]
    refine foldI_pos l r ks _ ?_
    have hb := cmpValI_bound k.asc (k.eval l).val (k.eval r).val
    unfold predStepI
    dsimp only
    split_ifs <;> omega

theorem foldI_neg (l r : R) : ∀ (ks : List (Key R V)) (i : Int), i ≤ -1 → ks.foldl (predStepI l r) i ≤ -1
  | [], i, h => h
  | k :: ks, i, h => by
    rw [List.foldl_cons]
    refine foldI_neg l r ks _ ?_
    have hb := cmpValI_bound k.asc (k.eval l).val (k.eval r).val
    unfold predStepI
    dsimp only
    split_ifs <;> omega

theorem foldI_bound (l r : R) : ∀ (ks : List (Key R V)) (i : Int) (m : Nat), -(2 ^ m : Int) < i → i < 2 ^ m →
    -(2 ^ (m + bits ks) : Int) < ks.foldl (predStepI l r) i ∧ ks.foldl (predStepI l r) i < 2 ^ (m + bits ks)
  | [], i, m, h1, h2 => by simpa [bits] using ⟨h1, h2⟩
  | k :: ks, i, m, h1, h2 => by
    rw [List.foldl_cons]
    have hb := cmpValI_bound k.asc (k.eval l).val (k.eval r).val
    cases hn : k.nullable
    · have := foldI_bound l r ks (predStepI l r i k) (m + 1)
        (by unfold predStepI; simp [hn, pow_succ]; omega) (by unfold predStepI; simp [hn, pow_succ]; omega)
      have hbits : m + bits (k :: ks) = m + 1 + bits ks := by simp [bits, hn]; omega
      rw [hbits]; exact this
    · have := foldI_bound l r ks (predStepI l r i k) (m + 2)
        (by unfold predStepI; simp only [hn, pow_succ, if_true]; split_ifs <;> omega)
        (by unfold predStepI; simp only [hn, pow_succ, if_true]; split_ifs <;> omega)
      have hbits : m + bits (k :: ks) = m + 2 + bits ks := by simp [bits, hn]; omega
      rw [hbits]; exact this

theorem foldI_spec (l r : R) : ∀ (ks : List (Key R V)), Typed ks l → Typed ks r → SameNull ks l r →
    (ks.foldl (predStepI l r) 0 ≤ -1 ∧ RowBefore ks l r) ∨ (ks.foldl (predStepI l r) 0 = 0 ∧ ¬ RowBefore ks l r ∧ ¬ RowBefore ks r l) ∨
      (1 ≤ ks.foldl (predStepI l r) 0 ∧ RowBefore ks r l) := by
  intro ks
  induction ks with
  | nil => intro _ _ _; exact Or.inr (Or.inl ⟨rfl, rowBefore_nil _ _, rowBefore_nil _ _⟩)
  | cons k ks ih =>
    intro hl hr hs
    obtain ⟨hl1, hl2⟩ := hl.cons
    obtain ⟨hr1, hr2⟩ := hr.cons
    have IH := ih hl2 hr2 (fun k' hk => hs k' (by simp [hk]))
    have hs1 := hs k (by simp)
    rw [List.foldl_cons]
    have key : (predStepI l r 0 k ≤ -1 ∧ Before k.asc (k.eval l) (k.eval r)) ∨
        (predStepI l r 0 k = 0 ∧ Same (k.eval l) (k.eval r)) ∨
        (1 ≤ predStepI l r 0 k ∧ Before k.asc (k.eval r) (k.eval l)) := by
      unfold predStepI Before Same cmpValI
      generalize k.eval l = x at *
      generalize k.eval r = y at *
      rcases lt_trichotomy x.val y.val with h | h | h <;>
      cases hn : k.nullable <;> cases ha : k.asc <;> cases ht : k.str <;> cases hx : x.null <;> cases hy : y.null <;>
        simp_all [le_of_lt, not_lt.2]
    rcases key with ⟨h1, h2⟩ | ⟨h1, h2⟩ | ⟨h1, h2⟩
    · exact Or.inl ⟨foldI_neg _ _ _ _ h1, (rowBefore_cons _ _ _ _).2 (Or.inl h2)⟩
    · rw [h1, rowBefore_cons, rowBefore_cons]
      have n1 : ¬ Before k.asc (k.eval l) (k.eval r) := fun h => h.not_same h2
      have n2 : ¬ Before k.asc (k.eval r) (k.eval l) := fun h => h.not_same h2.symm
      rcases IH with ⟨h3, h4⟩ | ⟨h3, h4, h5⟩ | ⟨h3, h4⟩
      · exact Or.inl ⟨h3, Or.inr ⟨h2, h4⟩⟩
      · exact Or.inr (Or.inl ⟨h3, by simp [n1, h4], by simp [n2, h5]⟩)
      · exact Or.inr (Or.inr ⟨h3, Or.inr ⟨h2.symm, h4⟩⟩)
    · exact Or.inr (Or.inr ⟨foldI_pos _ _ _ _ h1, (rowBefore_cons _ _ _ _).2 (Or.inl h2)⟩)

theorem cmpPred_eq (ks : List (Key R V)) (l r : R) (hb : bits ks ≤ 31) : cmpPred ks l r = ks.foldl (predStepI l r) 0 := by
  unfold cmpPred
  have h := foldl_ofInt l r ks 0
  rw [show (0#32 : BitVec 32) = BitVec.ofInt 32 0 from rfl, h]
  obtain ⟨h1, h2⟩ := foldI_bound l r ks 0 0 (by norm_num) (by norm_num)
  have h3 : (2 : Int) ^ (0 + bits ks) ≤ 2 ^ 31 := by
    rw [Nat.zero_add]; exact pow_le_pow_right₀ (by norm_num) hb
  rw [BitVec.toInt_ofInt]
  apply Int.bmod_eq_of_le <;> norm_num at * <;> omega

end Mutable.WSort
