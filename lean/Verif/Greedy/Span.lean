import Mathlib.Algebra.Order.PUnit
import Verif.Graph.Prim
/-! `minimum_spanning_forest` returns a spanning forest whatever the weights and whatever edge the queue yields. -/
namespace Mutable
open SB
namespace AdjMat
variable {W : Type}

/-- `pick` returns a position. -/
def PickAny (pick : List (WEdge W) → Nat) : Prop := ∀ Q : List (WEdge W), Q ≠ [] → pick Q < Q.length

/-- the edge with its weight -/
def reW (w : Nat → Nat → W) (e : WEdge PUnit) : WEdge W := ⟨e.src, e.snk, w e.src e.snk⟩

theorem primSearch_map (pick : List (WEdge W) → Nat) (w : Nat → Nat → W) (rem : SB) (fuel : Nat) (Q : List (WEdge PUnit)) :
    primSearch pick rem fuel (Q.map (reW w)) =
      ((primSearch (fun Q => pick (Q.map (reW w))) rem fuel Q).1.map (reW w),
       (primSearch (fun Q => pick (Q.map (reW w))) rem fuel Q).2.map (reW w)) := by
  induction fuel generalizing Q with
  | zero => rfl
  | succ fuel ih =>
    rw [primSearch, primSearch, List.getElem?_map]
    cases h : Q[pick (Q.map (reW w))]? with
    | none => rfl
    | some e =>
      simp only [Option.map_some]
      have hs : (reW w e).snk = e.snk := rfl
      rw [hs, List.eraseIdx_map]
      split
      · exact ih _
      · rfl

theorem primLoop_map (pick : List (WEdge W) → Nat) (w : Nat → Nat → W) (M : AdjMat) (fuel : Nat) (u : Nat)
    (Q : List (WEdge PUnit)) (rem : SB) (F : AdjMat) :
    primLoop pick M w fuel u (Q.map (reW w)) rem F =
      (((primLoop (fun Q => pick (Q.map (reW w))) M (fun _ _ => PUnit.unit) fuel u Q rem F).1.map (reW w)),
       (primLoop (fun Q => pick (Q.map (reW w))) M (fun _ _ => PUnit.unit) fuel u Q rem F).2) := by
  induction fuel generalizing u Q rem F with
  | zero => rfl
  | succ fuel ih =>
    rw [primLoop, primLoop]
    have hQ : (Q.map (reW w) ++ (members (M.neighbors (singleton u) &&& rem)).map fun v => (⟨u, v, w u v⟩ : WEdge W)) =
        (Q ++ (members (M.neighbors (singleton u) &&& rem)).map fun v => (⟨u, v, PUnit.unit⟩ : WEdge PUnit)).map (reW w) := by
      rw [List.map_append, List.map_map]; rfl
    simp only [hQ, List.length_map]
    rw [primSearch_map]
    generalize primSearch (fun Q => pick (Q.map (reW w))) rem
      ((Q ++ (members (M.neighbors (singleton u) &&& rem)).map fun v => (⟨u, v, PUnit.unit⟩ : WEdge PUnit)).length + 1)
      (Q ++ (members (M.neighbors (singleton u) &&& rem)).map fun v => (⟨u, v, PUnit.unit⟩ : WEdge PUnit)) = r
    obtain ⟨o, Q2⟩ := r
    cases o with
    | none => rfl
    | some e => exact ih _ _ _ _

theorem msfLoop_map (pick : List (WEdge W) → Nat) (w : Nat → Nat → W) (M : AdjMat) (fuel : Nat)
    (Q : List (WEdge PUnit)) (rem : SB) (F : AdjMat) :
    msfLoop pick M w fuel (Q.map (reW w)) rem F =
      msfLoop (fun Q => pick (Q.map (reW w))) M (fun _ _ => PUnit.unit) fuel Q rem F := by
  induction fuel generalizing Q rem F with
  | zero => rfl
  | succ fuel ih =>
    rw [msfLoop, msfLoop]
    split
    · rfl
    · dsimp only
      rw [primLoop_map]
      exact ih _ _ _

theorem msf_map (pick : List (WEdge W) → Nat) (w : Nat → Nat → W) (M : AdjMat) :
    msf pick M w = msf (fun Q => pick (Q.map (reW w))) M (fun _ _ => PUnit.unit) := by
  rw [msf, msf]
  split
  · rfl
  · exact msfLoop_map pick w M 65 [] _ _

theorem msf_any {M : AdjMat} (hW : M.WF) (hS : M.Symm) (w : Nat → Nat → W) {pick : List (WEdge W) → Nat} (hp : PickAny pick) :
    (msf pick M w).n = M.n ∧ (msf pick M w).Symm ∧ (∀ a b, (msf pick M w).Edge a b → M.Edge a b) ∧ (msf pick M w).Acyclic ∧
    ∀ a b, M.Edge a b → Relation.ReflTransGen (msf pick M w).Edge a b := by
  rw [msf_map]
  have h := msf_inv hW hS (w := fun _ _ => PUnit.unit) (fun _ _ => rfl) (pick := fun Q => pick (Q.map (reW w)))
    (fun Q hQ => ⟨by simpa using hp (Q.map (reW w)) (by simpa using hQ), fun q _ => le_refl _⟩)
  refine ⟨h.n, h.symm, h.sub, h.acyc, fun a b hab => ?_⟩
  by_cases hne : a = b
  · subst hne; exact .refl
  · exact h.conn a b hab (not_mem_zero a) (not_mem_zero b) hne

end AdjMat
end Mutable
