import Verif.Graph.Props
import Verif.Graph.AGaT
/-!
# Property C10: `MinCutAGaT::partition`
-/
namespace Mutable
open SB
namespace AdjMat

/-- On a connected set of at least two vertices `partition` violates none of its assertions, terminates, and calls back
exactly the ways of splitting `S` into two connected parts, the first of which contains the least vertex of `S`;
each exactly once. -/
theorem C10_partition (M : AdjMat) (hM : M.Symmetric) (S : SB) (hS : M.Connected (elems S)) (h2 : 2 ≤ (elems S).ncard) :
    ∃ L, M.agatPartition S = some L ∧ L.Nodup ∧
      ∀ A B, (A, B) ∈ L ↔ (elems A ∪ elems B = elems S ∧ elems A ∩ elems B = ∅ ∧ elems B ≠ ∅ ∧
        (∃ z ∈ elems A, ∀ y ∈ elems S, z ≤ y) ∧ M.Connected (elems A) ∧ M.Connected (elems B)) := by
  rw [← C01_size] at h2
  obtain ⟨L, h3, h4, h5⟩ := agatPartition_spec ((symmetric_iff M).1 hM) ((connected_iff M S).1 hS) h2
  refine ⟨L, h3, h4.of_map _, fun A B => ?_⟩
  rw [h5, connected_iff, connected_iff]
  constructor
  · rintro ⟨a1, a2, ⟨z, hz, hzA⟩, rfl, a5, a6⟩
    have a1' := (sub_iff_elems _ _).1 a1
    rw [C01_diff]
    refine ⟨Set.union_diff_cancel a1', by simp, ?_, ⟨z, (mem_elems _ _).2 hzA, fun y hy => hz.2 y ((mem_elems _ _).1 hy)⟩, a5, a6⟩
    intro h
    rw [Set.diff_eq_empty, ← sub_iff_elems] at h
    exact a2 (ext fun i => ⟨a1 i, h i⟩)
  · rintro ⟨a1, a2, a3, ⟨z, hz, hmin⟩, a5, a6⟩
    have hmem : ∀ i, Mem S i ↔ Mem A i ∨ Mem B i := by
      intro i; rw [← mem_elems, ← a1, Set.mem_union, mem_elems, mem_elems]
    have hdis : ∀ i, Mem A i → ¬ Mem B i := by
      intro i h1 h2
      have : i ∈ elems A ∩ elems B := ⟨(mem_elems _ _).2 h1, (mem_elems _ _).2 h2⟩
      rw [a2] at this; exact this
    have hB : B = diff S A := by
      apply ext; intro i
      rw [mem_diff, hmem]
      constructor
      · intro h; exact ⟨Or.inr h, fun ha => hdis i ha h⟩
      · rintro ⟨h1 | h1, h2⟩
        · contradiction
        · exact h1
    have hz' := (mem_elems _ _).1 hz
    refine ⟨fun i hi => (hmem i).2 (Or.inl hi), ?_, ⟨z, ⟨(hmem z).2 (Or.inl hz'), fun y hy => hmin y ((mem_elems _ _).2 hy)⟩, hz'⟩,
      hB, a5, a6⟩
    rintro rfl
    apply a3
    ext i
    rw [mem_elems]
    constructor
    · intro hi; exact absurd hi (hdis i ((hmem i).2 (Or.inr hi)))
    · intro h; exact absurd h (by simp)

/-- Termination: any number of loop iterations beyond `S` (as a number) gives the same result. -/
theorem C10_terminates (M : AdjMat) (hM : M.Symmetric) (S : SB) (hS : M.Connected (elems S)) (h2 : 2 ≤ (elems S).ncard)
    (k : Nat) (hk : S.toNat + 1 ≤ k) : M.agatLoop S k [(lo S, 0#64, lo S)] = M.agatPartition S := by
  rw [← C01_size] at h2
  have hM := (symmetric_iff M).1 hM
  have hS := (connected_iff M S).1 hS
  have hne0 : S ≠ 0#64 := by intro h; rw [h, size_zero] at h2; omega
  obtain ⟨z, hz⟩ := exists_least hne0
  have hsing : S ≠ singleton z := by
    intro h; rw [h, size_singleton (mem_lt hz.1)] at h2; omega
  have hinit := AInv.init hS hz hsing
  obtain ⟨L, h3, h4, h5⟩ := agatPartition_spec hM hS h2
  rw [agatPartition, lo_eq_singleton hz] at *
  split at h3
  · rename_i h; rw [if_pos h]
    have hl := agatRec_length hM hS hinit
    rw [agatLoop_eq hM hS _ _ (by simpa using hinit) (by simp; omega),
      agatLoop_eq hM hS _ _ (by simpa using hinit) (by simp; omega)]
  · simp at h3

set_option maxRecDepth 100000 in
/-- the 4-cycle 0-1-2-3 has six partitions into connected parts (vertex 4 is isolated and excluded) -/
example : exC4.Symmetric ∧ exC4.isConnected 0b1111#64 = true ∧
    (exC4.agatPartition 0b1111#64).map List.length = some 6 := ⟨exC4_ok.2, by decide, by decide +kernel⟩

end AdjMat
end Mutable
