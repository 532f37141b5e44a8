import Verif.Common
import Mathlib.Logic.Relation
import Verif.Bitset.Gosper
import Verif.Graph.Model
/-! Reachability, neighbourhood and connectedness lemmas. -/
namespace Mutable
open SB

theorem rtg_mono {α} {r p : α → α → Prop} (h : ∀ a b, r a b → p a b) {a b : α} (hr : Relation.ReflTransGen r a b) :
    Relation.ReflTransGen p a b := by
  induction hr with
  | refl => exact .refl
  | tail _ h2 ih => exact .tail ih (h _ _ h2)

namespace AdjMat

/-- Directed edge `i → j`. -/
def Edge (M : AdjMat) (i j : Nat) : Prop := Mem (M.m i) j

/-- step relation inside a set -/
def EdgeIn (M : AdjMat) (S : SB) (i j : Nat) : Prop := M.Edge i j ∧ Mem S i ∧ Mem S j

def Symm (M : AdjMat) : Prop := ∀ i j, M.Edge i j → M.Edge j i

theorem mem_members (S : SB) (i : Nat) : i ∈ members S ↔ Mem S i :=
  (iterLoop_spec 64 S (size_le S)).2.2 i

theorem members_sorted (S : SB) : (members S).Pairwise (· < ·) :=
  (iterLoop_spec 64 S (size_le S)).2.1

theorem mem_foldl_rows (row : Nat → SB) (l : List Nat) (acc : SB) (j : Nat) :
    Mem (l.foldl (fun acc x => acc ||| row x) acc) j ↔ Mem acc j ∨ ∃ x ∈ l, Mem (row x) j := by
  induction l generalizing acc with
  | nil => simp
  | cons a l ih =>
    rw [List.foldl_cons, ih, mem_or]
    simp only [List.mem_cons, exists_eq_or_imp, or_assoc]

theorem mem_orRows (row : Nat → SB) (R acc : SB) (j : Nat) :
    Mem (orRows row R acc) j ↔ Mem acc j ∨ ∃ x, Mem R x ∧ Mem (row x) j := by
  rw [orRows, mem_foldl_rows]; simp only [mem_members]

theorem mem_neighbors (M : AdjMat) (S : SB) (j : Nat) :
    Mem (M.neighbors S) j ↔ ¬ Mem S j ∧ ∃ x, Mem S x ∧ M.Edge x j := by
  rw [neighbors, mem_diff, mem_orRows]
  simp only [not_mem_zero, false_or, Edge]; tauto

theorem isConnected2_iff (M : AdjMat) (L R : SB) :
    M.isConnected2 L R = true ↔ ∃ x y, Mem R x ∧ Mem L y ∧ M.Edge x y := by
  rw [isConnected2, Bool.not_eq_true', ← Bool.not_eq_true, SB.isEmpty_iff]
  push Not
  simp only [mem_and, mem_orRows, not_mem_zero, false_or, Edge]
  constructor
  · rintro ⟨y, h1, x, h2, h3⟩; exact ⟨x, y, h2, h1, h3⟩
  · rintro ⟨x, y, h2, h1, h3⟩; exact ⟨y, h1, x, h2, h3⟩

section loop
variable (row : Nat → SB) (src : SB)

theorem reachLoop_spec (fuel : Nat) (Rold Rnew : SB) (hsub : Sub Rold Rnew)
    (hclosed : ∀ x y, Mem Rold x → Mem (row x) y → Mem Rnew y) (hf : 65 ≤ fuel + size Rold) :
    ∀ j, Mem (reachLoop row fuel Rold Rnew) j ↔
      ∃ s, Mem Rnew s ∧ Relation.ReflTransGen (fun x y => Mem (row x) y) s j := by
  induction fuel generalizing Rold Rnew with
  | zero => have := size_le Rold; omega
  | succ f ih =>
    intro j
    rw [reachLoop]
    split
    · rename_i he
      rw [SB.isEmpty_iff] at he
      have hsub' : Sub Rnew Rold := by
        intro i hi
        by_contra hc
        exact he i ((mem_diff _ _ _).2 ⟨hi, hc⟩)
      constructor
      · intro h; exact ⟨j, h, Relation.ReflTransGen.refl⟩
      · rintro ⟨s, hs, hp⟩
        induction hp with
        | refl => exact hs
        | tail _ h2 ih => exact hclosed _ _ (hsub' _ ih) h2
    · rename_i hne
      have hne' : Rold ≠ Rnew := by
        rintro rfl
        apply hne
        rw [SB.isEmpty_iff]
        intro i hi
        rw [mem_diff] at hi
        exact hi.2 hi.1
      have hsz := size_lt_of_ssub hsub hne'
      rw [ih]
      · constructor
        · rintro ⟨s, hs, hp⟩
          rw [mem_orRows] at hs
          rcases hs with hs | ⟨x, hx, hxs⟩
          · exact ⟨s, hs, hp⟩
          · rw [mem_diff] at hx
            exact ⟨x, hx.1, Relation.ReflTransGen.head hxs hp⟩
        · rintro ⟨s, hs, hp⟩
          exact ⟨s, (mem_orRows _ _ _ _).2 (Or.inl hs), hp⟩
      · intro i hi; exact (mem_orRows _ _ _ _).2 (Or.inl hi)
      · intro x y hx hy
        rw [mem_orRows]
        by_cases hxo : Mem Rold x
        · exact Or.inl (hclosed x y hxo hy)
        · exact Or.inr ⟨x, (mem_diff _ _ _).2 ⟨hx, hxo⟩, hy⟩
      · omega

theorem reachLoop_fuel (f g : Nat) (Rold Rnew : SB) (hsub : Sub Rold Rnew)
    (hf : 65 ≤ f + size Rold) (hg : 65 ≤ g + size Rold) : reachLoop row f Rold Rnew = reachLoop row g Rold Rnew := by
  induction f generalizing g Rold Rnew with
  | zero => have := size_le Rold; omega
  | succ f ih =>
    cases g with
    | zero => have := size_le Rold; omega
    | succ g =>
      rw [reachLoop, reachLoop]
      split
      · rfl
      · rename_i hne
        have hne' : Rold ≠ Rnew := by
          rintro rfl
          apply hne
          rw [SB.isEmpty_iff]
          intro i hi
          rw [mem_diff] at hi
          exact hi.2 hi.1
        have hsz := size_lt_of_ssub hsub hne'
        apply ih
        · intro i hi; exact (mem_orRows _ _ _ _).2 (Or.inl hi)
        · omega
        · omega
end loop

theorem mem_reachable (M : AdjMat) (src : SB) (j : Nat) :
    Mem (M.reachable src) j ↔ ∃ s, Mem src s ∧ Relation.ReflTransGen M.Edge s j := by
  rw [reachable, reachLoop_spec M.m 65 0#64 src (fun i hi => absurd hi (not_mem_zero i))
    (fun x y hx => absurd hx (not_mem_zero x)) (by omega)]
  rfl

theorem mem_reachableIn (M : AdjMat) (src S : SB) (j : Nat) :
    Mem (M.reachableIn src S) j ↔ ∃ s, Mem src s ∧ Mem S s ∧ Relation.ReflTransGen (M.EdgeIn S) s j := by
  rw [reachableIn, reachLoop_spec _ 65 0#64 (src &&& S) (fun i hi => absurd hi (not_mem_zero i))
    (fun x y hx => absurd hx (not_mem_zero x)) (by omega)]
  simp only [mem_and]
  constructor
  · rintro ⟨s, ⟨h1, h2⟩, hp⟩
    refine ⟨s, h1, h2, ?_⟩
    have : Mem S j ∧ Relation.ReflTransGen (M.EdgeIn S) s j := by
      induction hp with
      | refl => exact ⟨h2, Relation.ReflTransGen.refl⟩
      | tail _ hs ih => exact ⟨hs.2, Relation.ReflTransGen.tail ih.2 ⟨hs.1, ih.1, hs.2⟩⟩
    exact this.2
  · rintro ⟨s, h1, h2, hp⟩
    exact ⟨s, ⟨h1, h2⟩, rtg_mono (fun a b h => ⟨h.1, h.2.2⟩) hp⟩

theorem mem_reachableIn_mem (M : AdjMat) (src S : SB) (j : Nat) (h : Mem (M.reachableIn src S) j) : Mem S j := by
  rw [mem_reachableIn] at h
  obtain ⟨s, _, h2, hp⟩ := h
  induction hp with
  | refl => exact h2
  | tail _ hs _ => exact hs.2.2

/-- The subgraph induced by `S` is connected (the empty set counts as connected). -/
def ConnSet (M : AdjMat) (S : SB) : Prop :=
  ∀ i j, Mem S i → Mem S j → Relation.ReflTransGen (M.EdgeIn S) i j

theorem EdgeIn.symm {M : AdjMat} (hM : M.Symm) {S : SB} {i j : Nat} (h : M.EdgeIn S i j) : M.EdgeIn S j i :=
  ⟨hM _ _ h.1, h.2.2, h.2.1⟩

theorem reach_symm {M : AdjMat} (hM : M.Symm) {S : SB} {i j : Nat} (h : Relation.ReflTransGen (M.EdgeIn S) i j) :
    Relation.ReflTransGen (M.EdgeIn S) j i := by
  induction h with
  | refl => exact Relation.ReflTransGen.refl
  | tail _ h2 ih => exact Relation.ReflTransGen.head (EdgeIn.symm hM h2) ih

theorem connSet_of_root {M : AdjMat} (hM : M.Symm) {S : SB} (r : Nat)
    (h : ∀ j, Mem S j → Relation.ReflTransGen (M.EdgeIn S) r j) : M.ConnSet S :=
  fun i j hi hj => (reach_symm hM (h i hi)).trans (h j hj)

theorem isConnected_iff {M : AdjMat} (hM : M.Symm) (S : SB) : M.isConnected S = true ↔ M.ConnSet S := by
  rw [isConnected, beq_iff_eq]
  by_cases h0 : S = 0#64
  · subst h0
    constructor
    · intro _ i j hi; exact absurd hi (not_mem_zero i)
    · intro _
      apply ext; intro i
      simp only [not_mem_zero, iff_false]
      exact fun h => not_mem_zero i (mem_reachableIn_mem _ _ _ _ h)
  · obtain ⟨z, hz⟩ := exists_least h0
    constructor
    · intro h
      apply connSet_of_root hM z
      intro j hj
      rw [← h, mem_reachableIn] at hj
      obtain ⟨s, h1, _, h3⟩ := hj
      rwa [(mem_lo hz s).1 h1] at h3
    · intro h
      apply ext; intro j
      constructor
      · exact mem_reachableIn_mem _ _ _ _
      · intro hj
        rw [mem_reachableIn]
        exact ⟨z, (mem_lo hz z).2 rfl, hz.1, h z j hz.1 hj⟩

/-! ### cut characterisation -/

theorem exists_cross {α} {r : α → α → Prop} (P : α → Prop) {a b : α} (h : Relation.ReflTransGen r a b) (ha : P a)
    (hb : ¬ P b) : ∃ x y, Relation.ReflTransGen r a x ∧ r x y ∧ P x ∧ ¬ P y := by
  induction h with
  | refl => contradiction
  | tail h1 h2 ih =>
    rename_i c d
    by_cases hc : P c
    · exact ⟨c, d, h1, h2, hc, hb⟩
    · exact ih hc

theorem ConnSet.cut {M : AdjMat} {S : SB} (h : M.ConnSet S) {A : SB} (hA : Sub A S) (h0 : A ≠ 0#64) (hne : A ≠ S) :
    ∃ x y, Mem A x ∧ Mem S y ∧ ¬ Mem A y ∧ M.Edge x y := by
  obtain ⟨a, ha⟩ := (ne_zero_iff A).1 h0
  have : ∃ b, Mem S b ∧ ¬ Mem A b := by
    by_contra hc
    push Not at hc
    exact hne (sub_antisymm hA hc)
  obtain ⟨b, hb, hb'⟩ := this
  obtain ⟨x, y, _, h2, h3, h4⟩ := exists_cross (Mem A) (h a b (hA a ha) hb) ha hb'
  exact ⟨x, y, h3, h2.2.2, h4, h2.1⟩

/-- union of two connected sets joined by an edge is connected -/
theorem ConnSet.union {M : AdjMat} (hM : M.Symm) {A B : SB} (hA : M.ConnSet A) (hB : M.ConnSet B)
    {x y : Nat} (hx : Mem A x) (hy : Mem B y) (he : M.Edge x y) : M.ConnSet (A ||| B) := by
  have mA : ∀ i j, Relation.ReflTransGen (M.EdgeIn A) i j → Relation.ReflTransGen (M.EdgeIn (A ||| B)) i j :=
    fun i j h => rtg_mono (fun a b h => ⟨h.1, by simp [h.2.1], by simp [h.2.2]⟩) h
  have mB : ∀ i j, Relation.ReflTransGen (M.EdgeIn B) i j → Relation.ReflTransGen (M.EdgeIn (A ||| B)) i j :=
    fun i j h => rtg_mono (fun a b h => ⟨h.1, by simp [h.2.1], by simp [h.2.2]⟩) h
  apply connSet_of_root hM x
  intro j hj
  rcases (mem_or _ _ _).1 hj with h | h
  · exact mA _ _ (hA x j hx h)
  · exact Relation.ReflTransGen.head ⟨he, by simp [hx], by simp [hy]⟩ (mB _ _ (hB y j hy h))

theorem connSet_singleton (M : AdjMat) (i : Nat) : M.ConnSet (singleton i) := by
  intro a b ha hb
  rw [mem_singleton] at ha hb
  rw [ha.2, hb.2]

end AdjMat
end Mutable
