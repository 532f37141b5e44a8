import Mathlib.Order.Defs.LinearOrder
import Verif.Common
import Verif.PlanEnum.Model
import Verif.Graph.Reach
/-! Specification (join trees) and the generic bottom-up dynamic-programming argument. -/
namespace Mutable
open SB
namespace PE

/-- Join trees. -/
inductive Tree where
  | leaf (i : Nat)
  | node (l r : Tree)

/-- The relations joined by a tree. -/
def Tree.rels : Tree → SB
  | .leaf i => singleton i
  | .node l r => l.rels ||| r.rels

variable {C D : Type}

/-- Cost of a tree when `est S` is the data model of the join of `S`. -/
def Tree.cost (E : Env C D) (est : SB → D) (base : Nat → C) : Tree → C
  | .leaf i => base i
  | .node l r => E.jc l.rels r.rels (est (l.rels ||| r.rels)) (est l.rels) (est r.rels) (l.cost E est base) (r.cost E est base)

/-- `t` is a join tree over exactly the relations in `S`, each used once, all of them `< n`, and each join joins two
sides for which `may` holds. -/
inductive IsPlan (n : Nat) (may : SB → SB → Prop) : Tree → SB → Prop
  | leaf (i : Nat) (h : i < n) : IsPlan n may (.leaf i) (singleton i)
  | node {l r : Tree} {A B : SB} (hl : IsPlan n may l A) (hr : IsPlan n may r B) (hd : A &&& B = 0#64) (hm : may A B) :
      IsPlan n may (.node l r) (A ||| B)

/-- The tree obtained by following the recorded splits. -/
inductive Recorded (T : PT C D) : SB → Tree → Prop
  | leaf (i : Nat) (h : i < 64) : Recorded T (singleton i) (.leaf i)
  | node {S : SB} {l r : Tree} (hs : size S ≠ 1) (hl : Recorded T (T S).left l) (hr : Recorded T (T S).right r)
      (hu : (T S).left ||| (T S).right = S) : Recorded T S (.node l r)

/-- Initial tables: singletons have their base cost and model, all other entries have no plan and no wrong model. -/
structure Init (est : SB → D) (base : Nat → C) (n : Nat) (T : PT C D) : Prop where
  single : ∀ i, i < n → (T (singleton i)).model = some (est (singleton i)) ∧ (T (singleton i)).cost = base i
  noplan : ∀ S, size S ≠ 1 → (T S).left = 0#64
  model : ∀ S d, (T S).model = some d → d = est S

theorem isPlan_rels {n : Nat} {may : SB → SB → Prop} {t : Tree} {S : SB} (h : IsPlan n may t S) : t.rels = S := by
  induction h with
  | leaf => rfl
  | node hl hr hd hm ihl ihr => rw [Tree.rels, ihl, ihr]

theorem isPlan_ne {n : Nat} (hn : n ≤ 64) {may : SB → SB → Prop} {t : Tree} {S : SB} (h : IsPlan n may t S) : S ≠ 0#64 := by
  induction h with
  | leaf i hi => exact (ne_zero_iff _).2 ⟨i, by simp; omega⟩
  | node hl hr hd hm ihl ihr =>
    obtain ⟨i, hi⟩ := (ne_zero_iff _).1 ihl
    exact (ne_zero_iff _).2 ⟨i, by simp [hi]⟩

theorem isPlan_sub {n : Nat} (hn : n ≤ 64) {may : SB → SB → Prop} {t : Tree} {S : SB} (h : IsPlan n may t S) : Sub S (all n) := by
  induction h with
  | leaf i hi => intro j hj; rw [mem_singleton] at hj; rw [mem_all hn]; omega
  | node hl hr hd hm ihl ihr =>
    intro j hj; rw [mem_or] at hj
    rcases hj with h | h; exacts [ihl j h, ihr j h]

theorem disj_iff (A B : SB) : A &&& B = 0#64 ↔ ∀ i, Mem A i → ¬ Mem B i := by
  constructor
  · intro h i ha hb
    have : Mem (A &&& B) i := by simp [ha, hb]
    rw [h] at this; exact not_mem_zero i this
  · intro h; apply ext; intro i; simp only [mem_and, not_mem_zero, iff_false]
    exact fun hc => h i hc.1 hc.2

theorem union_ne_left {A B : SB} (hd : A &&& B = 0#64) (hB : B ≠ 0#64) : A ||| B ≠ A := by
  intro h
  obtain ⟨i, hi⟩ := (ne_zero_iff _).1 hB
  have : Mem A i := by rw [← h]; simp [hi]
  exact (disj_iff A B).1 hd i this hi

theorem union_ne_right {A B : SB} (hd : A &&& B = 0#64) (hA : A ≠ 0#64) : A ||| B ≠ B := by
  intro h
  obtain ⟨i, hi⟩ := (ne_zero_iff _).1 hA
  have : Mem B i := by rw [← h]; simp [hi]
  exact (disj_iff A B).1 hd i hi this

theorem or_comm' (A B : SB) : A ||| B = B ||| A := by apply ext; intro i; simp only [mem_or]; exact or_comm
theorem and_comm' (A B : SB) : A &&& B = B &&& A := by apply ext; intro i; simp only [mem_and]; exact and_comm

theorem sub_left (A B : SB) : Sub A (A ||| B) := fun i h => by simp [h]
theorem sub_right (A B : SB) : Sub B (A ||| B) := fun i h => by simp [h]

theorem size_union_left {A B : SB} (hd : A &&& B = 0#64) (hB : B ≠ 0#64) : size A < size (A ||| B) :=
  size_lt_of_ssub (sub_left A B) (fun h => union_ne_left hd hB h.symm)
theorem size_union_right {A B : SB} (hd : A &&& B = 0#64) (hA : A ≠ 0#64) : size B < size (A ||| B) :=
  size_lt_of_ssub (sub_right A B) (fun h => union_ne_right hd hA h.symm)

theorem size_pos {A : SB} (h : A ≠ 0#64) : 0 < size A := by
  rw [Nat.pos_iff_ne_zero]; exact fun hc => h ((size_eq_zero_iff A).1 hc)

theorem size_union_ne_one {A B : SB} (hd : A &&& B = 0#64) (hA : A ≠ 0#64) (hB : B ≠ 0#64) : size (A ||| B) ≠ 1 := by
  have := size_union_left hd hB
  have := size_pos hA
  omega

/-- Models: never wrong, and present where there is a plan. -/
structure ModelOK (est : SB → D) (n : Nat) (T : PT C D) : Prop where
  ok : ∀ S d, (T S).model = some d → d = est S
  some : ∀ S, Sub S (all n) → hasPlan T S = true → (T S).model = some (est S)

theorem sub_all_union {n : Nat} {A B : SB} (hA : Sub A (all n)) (hB : Sub B (all n)) : Sub (A ||| B) (all n) := by
  intro i hi; rw [mem_or] at hi; rcases hi with h | h; exacts [hA i h, hB i h]

/-- Join cost with the estimator's models. -/
def Env.J (E : Env C D) (est : SB → D) (L R : SB) (cl cr : C) : C := E.jc L R (est (L ||| R)) (est L) (est R) cl cr

/-- The assumptions on estimator and cost function: estimates depend only on the joined set, and join costs are monotone
in the costs of the inputs. -/
structure Sane [LE C] (E : Env C D) (est : SB → D) : Prop where
  join : ∀ A B, A &&& B = 0#64 → E.estJoin (est A) (est B) = est (A ||| B)
  mono : ∀ L R cl cl' cr cr', cl ≤ cl' → cr ≤ cr' → E.J est L R cl cr ≤ E.J est L R cl' cr'

section
variable [LinearOrder C] {E : Env C D} {est : SB → D}

/-- Result of `update` on a sane table. -/
structure Updated (E : Env C D) (est : SB → D) (T T' : PT C D) (A B : SB) : Prop where
  other : ∀ X, X ≠ A ||| B → T' X = T X
  hasp : hasPlan T' (A ||| B) = true
  model : (T' (A ||| B)).model = some (est (A ||| B))
  le1 : (T' (A ||| B)).cost ≤ E.J est A B (T A).cost (T B).cost
  le2 : (T' (A ||| B)).cost ≤ E.J est B A (T B).cost (T A).cost
  old : hasPlan T (A ||| B) = true → (T' (A ||| B)).cost ≤ (T (A ||| B)).cost
  cases : ((T' (A ||| B)).left = A ∧ (T' (A ||| B)).right = B ∧ (T' (A ||| B)).cost = E.J est A B (T A).cost (T B).cost) ∨
    ((T' (A ||| B)).left = B ∧ (T' (A ||| B)).right = A ∧ (T' (A ||| B)).cost = E.J est B A (T B).cost (T A).cost) ∨
    (hasPlan T (A ||| B) = true ∧ (T' (A ||| B)).left = (T (A ||| B)).left ∧ (T' (A ||| B)).right = (T (A ||| B)).right ∧
      (T' (A ||| B)).cost = (T (A ||| B)).cost)

theorem updateWith_spec (T : PT C D) (A B : SB) (hA : A ≠ 0#64) (hB : B ≠ 0#64) :
    Updated E est T (updateWith E T A B (est (A ||| B)) (est A) (est B)) A B := by
  have hself : (A ||| B = A ||| B) := rfl
  have c1 : E.jc A B (est (A ||| B)) (est A) (est B) (T A).cost (T B).cost = E.J est A B (T A).cost (T B).cost := rfl
  have c2 : E.jc B A (est (A ||| B)) (est B) (est A) (T B).cost (T A).cost = E.J est B A (T B).cost (T A).cost := by
    rw [Env.J, or_comm' B A]
  have hAe : isEmpty A = false := by rw [isEmpty]; simpa using hA
  have hBe : isEmpty B = false := by rw [isEmpty]; simpa using hB
  unfold updateWith
  simp only [c1, c2]
  generalize hx : E.J est A B (T A).cost (T B).cost = x
  generalize hy : E.J est B A (T B).cost (T A).cost = y
  by_cases hxy : y < x
  · rw [if_pos hxy]
    simp only
    by_cases h : (!hasPlan T (A ||| B) || decide (y < (T (A ||| B)).cost)) = true
    · rw [if_pos h]
      refine ⟨fun X hX => by simp [setEntry, hX], ?_, ?_, ?_, ?_, ?_, ?_⟩
      · simp [hasPlan, setEntry, hBe]
      · simp [setEntry, hx, hy]
      · simp only [setEntry, if_true, hx, hy]; exact hxy.le
      · simp [setEntry, hx, hy]
      · intro hp; simp only [setEntry, if_true, hx, hy]
        simp [hp] at h; exact h.le
      · right; left; simp [setEntry, hx, hy]
    · rw [if_neg h]
      simp only [Bool.or_eq_true, Bool.not_eq_true', decide_eq_true_eq, not_or, Bool.not_eq_false, not_lt] at h
      refine ⟨fun X hX => by simp [setEntry, hX], ?_, ?_, ?_, ?_, ?_, ?_⟩
      · have := h.1; simp only [hasPlan, setEntry, if_true] at this ⊢; exact this
      · simp [setEntry, hx, hy]
      · simp only [setEntry, if_true, hx, hy]; exact h.2.trans hxy.le
      · simp only [setEntry, if_true, hx, hy]; exact h.2
      · intro hp; simp only [setEntry, if_true, hx, hy]; exact le_rfl
      · right; right; simp [setEntry, h.1]
  · rw [if_neg hxy]
    rw [not_lt] at hxy
    simp only
    by_cases h : (!hasPlan T (A ||| B) || decide (x < (T (A ||| B)).cost)) = true
    · rw [if_pos h]
      refine ⟨fun X hX => by simp [setEntry, hX], ?_, ?_, ?_, ?_, ?_, ?_⟩
      · simp [hasPlan, setEntry, hAe]
      · simp [setEntry, hx, hy]
      · simp [setEntry, hx, hy]
      · simp only [setEntry, if_true, hx, hy]; exact hxy
      · intro hp; simp only [setEntry, if_true, hx, hy]
        simp [hp] at h; exact h.le
      · left; simp [setEntry, hx, hy]
    · rw [if_neg h]
      simp only [Bool.or_eq_true, Bool.not_eq_true', decide_eq_true_eq, not_or, Bool.not_eq_false, not_lt] at h
      refine ⟨fun X hX => by simp [setEntry, hX], ?_, ?_, ?_, ?_, ?_, ?_⟩
      · have := h.1; simp only [hasPlan, setEntry, if_true] at this ⊢; exact this
      · simp [setEntry, hx, hy]
      · simp only [setEntry, if_true, hx, hy]; exact h.2
      · simp only [setEntry, if_true, hx, hy]; exact h.2.trans hxy
      · intro hp; simp only [setEntry, if_true, hx, hy]; exact le_rfl
      · right; right; simp [setEntry, h.1]

theorem update_ok (hE : Sane E est) {n : Nat} {T : PT C D} (hT : ModelOK est n T) {A B : SB} (hA : A ≠ 0#64) (hB : B ≠ 0#64)
    (hd : A &&& B = 0#64) (hmA : (T A).model = some (est A)) (hmB : (T B).model = some (est B)) :
    ∃ T', update E T A B = some T' ∧ Updated E est T T' A B ∧ ModelOK est n T' := by
  have hAe : isEmpty A = false := by rw [isEmpty]; simpa using hA
  have hBe : isEmpty B = false := by rw [isEmpty]; simpa using hB
  refine ⟨updateWith E T A B (est (A ||| B)) (est A) (est B), ?_, updateWith_spec T A B hA hB, ?_⟩
  · rw [update, hAe, hBe, hmA, hmB]
    simp only [Bool.or_self, Bool.false_eq_true, if_false]
    cases hm : (T (A ||| B)).model with
    | none => simp only [hE.join A B hd]
    | some m => simp only [hT.ok _ _ hm]
  · have hu := updateWith_spec (E := E) (est := est) T A B hA hB
    constructor
    · intro S d hS
      by_cases h : S = A ||| B
      · subst h; rw [hu.model] at hS; exact (Option.some.inj hS).symm
      · rw [hu.other S h] at hS; exact hT.ok S d hS
    · intro S hS hp
      by_cases h : S = A ||| B
      · subst h; exact hu.model
      · rw [hu.other S h]
        refine hT.some S hS ?_
        rw [hasPlan, hu.other S h] at hp; exact hp

theorem Updated.mono {T T' : PT C D} {A B : SB} (h : Updated E est T T' A B) {S : SB} (hp : hasPlan T S = true) :
    hasPlan T' S = true := by
  by_cases hS : S = A ||| B
  · rw [hS]; exact h.hasp
  · rw [hasPlan, h.other S hS]; exact hp

end
end PE
end Mutable
