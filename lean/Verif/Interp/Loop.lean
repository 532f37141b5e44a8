import Verif.Interp.Correct

/-! The loop of the nested-loops join visits all combinations of buffered tuples. -/
namespace Mutable.Interp

variable {T : Type}

theorem NLJRun.unique {lens : List Nat} {c : NLJ} {l l' : List (List Nat)} (h : NLJRun lens c l) (h' : NLJRun lens c l') :
    l = l' := by
  induction h generalizing l' with
  | stop e =>
    cases h' with
    | stop => rfl
    | move e' _ => rw [e] at e'; simp at e'
    | emit e' _ => rw [e] at e'; simp at e'
  | move e _ ih =>
    cases h' with
    | stop e' => rw [e] at e'; simp at e'
    | move e' h' => rw [e] at e'; simp at e'; subst e'; exact ih h'
    | emit e' _ => rw [e] at e'; simp at e'
  | emit e _ ih =>
    cases h' with
    | stop e' => rw [e] at e'; simp at e'
    | move e' _ => rw [e] at e'; simp at e'
    | emit e' h' =>
      rw [e] at e'
      simp at e'
      obtain ⟨rfl, rfl⟩ := e'
      rw [ih h']

/-- All combinations of positions. -/
def allPos (lens : List Nat) : List (List Nat) := tuplesOf (lens.map List.range)

def upd (pos : Nat → Option Nat) (j : Nat) (v : Option Nat) : Nat → Option Nat := fun i => if i = j then v else pos i

/-- The previous position. -/
def prev : Nat → Option Nat
  | 0 => none
  | q + 1 => some q

/-- Positions of the children before `j`. -/
def pre (j : Nat) (pos : Nat → Option Nat) : List Nat := (List.range j).map fun i => (pos i).getD 0

theorem pre_upd (j : Nat) (pos : Nat → Option Nat) (v : Option Nat) : pre j (upd pos j v) = pre j pos := by
  unfold pre upd
  apply List.map_congr_left
  intro i hi
  rw [List.mem_range] at hi
  simp [show ¬ i = j by omega]

/-- How the run continues once the children from `j` on are exhausted. -/
def Cont (lens : List Nat) (j : Nat) (pos : Nat → Option Nat) (rest : List (List Nat)) : Prop :=
  if j = 0 then rest = [] else NLJRun lens ⟨j - 1, pos⟩ rest

theorem run_from (lens : List Nat) (hn : lens ≠ []) (d : Nat) : ∀ (j : Nat) (pos : Nat → Option Nat)
    (rest : List (List Nat)), j + d = lens.length → (∀ i, j ≤ i → pos i = none) → Cont lens j pos rest →
    NLJRun lens ⟨j, pos⟩ ((allPos (lens.drop j)).map (pre j pos ++ ·) ++ rest) := by
  have hpos : 0 < lens.length := List.length_pos_iff.mpr hn
  induction d with
  | zero =>
    intro j pos rest hj _ hc
    have hjl : j = lens.length := by omega
    subst hjl
    rw [List.drop_length]
    unfold Cont at hc
    rw [if_neg (by omega)] at hc
    simp only [allPos, List.map_nil, tuplesOf, List.map_cons, List.append_nil, List.singleton_append]
    refine NLJRun.emit ?_ hc
    simp [nljStep, pre]
  | succ d ih =>
    intro j pos rest hj hnone hc
    have hjl : j < lens.length := by omega
    have hdrop : lens.drop j = lens[j] :: lens.drop (j + 1) := List.drop_eq_getElem_cons hjl
    have hget : lens.getD j 0 = lens[j] := by simp [List.getD_eq_getElem?_getD, hjl]
    have inner : ∀ m q, q + m = lens[j] →
        NLJRun lens ⟨j, upd pos j (prev q)⟩ (((List.range' q m).flatMap fun t =>
          (allPos (lens.drop (j + 1))).map fun c => pre j pos ++ t :: c) ++ rest) := by
      intro m
      induction m with
      | zero =>
        intro q hq
        simp only [List.range'_zero, List.flatMap_nil, List.nil_append]
        have hstep : nljStep lens ⟨j, upd pos j (prev q)⟩ = if j = 0 then none else some (none, ⟨j - 1, pos⟩) := by
          unfold nljStep
          rw [if_neg (by simp only; omega)]
          have hp : next (upd pos j (prev q) j) = q := by
            unfold upd; cases q <;> simp [prev, next]
          simp only [hp, hget]
          rw [if_pos (by omega)]
          split
          · rfl
          · congr 3
            funext i
            by_cases hi : i = j
            · simp [hi, hnone j (le_refl _)]
            · simp [hi, upd]
        unfold Cont at hc
        by_cases h0 : j = 0
        · rw [if_pos h0] at hstep hc
          subst hc
          exact NLJRun.stop hstep
        · rw [if_neg h0] at hstep hc
          exact NLJRun.move hstep hc
      | succ m ihm =>
        intro q hq
        have hstep : nljStep lens ⟨j, upd pos j (prev q)⟩ = some (none, ⟨j + 1, upd pos j (some q)⟩) := by
          unfold nljStep
          rw [if_neg (by simp only; omega)]
          have hp : next (upd pos j (prev q) j) = q := by
            unfold upd; cases q <;> simp [prev, next]
          simp only [hp, hget]
          rw [if_neg (by omega)]
          congr 3
          funext i
          by_cases hi : i = j <;> simp [hi, upd]
        refine NLJRun.move hstep ?_
        have hnext := ihm (q + 1) (by omega)
        have := ih (j + 1) (upd pos j (some q)) _ (by omega) (fun i hi => by
          unfold upd; rw [if_neg (by omega)]; exact hnone i (by omega)) (show Cont lens (j + 1) _ _ by
          unfold Cont; rw [if_neg (by omega)]; exact hnext)
        have hpre : pre (j + 1) (upd pos j (some q)) = pre j pos ++ [q] := by
          rw [← pre_upd j pos (some q)]
          unfold pre
          rw [List.range_succ, List.map_append]
          simp [upd]
        rw [hpre] at this
        rw [List.range'_succ, List.flatMap_cons, List.append_assoc]
        simpa using this
    have h0 := inner lens[j] 0 (by omega)
    have hu : upd pos j (prev 0) = pos := by
      funext i
      unfold upd prev
      split
      · rename_i h; rw [h, hnone j (le_refl _)]
      · rfl
    rw [hu] at h0
    rw [hdrop]
    have heq : (allPos (lens[j] :: lens.drop (j + 1))).map (pre j pos ++ ·) =
        (List.range' 0 lens[j]).flatMap fun t => (allPos (lens.drop (j + 1))).map fun c => pre j pos ++ t :: c := by
      unfold allPos
      rw [List.map_cons, tuplesOf, List.map_flatMap, List.range_eq_range']
      simp [Function.comp_def]
    rw [heq]
    exact h0

theorem nlj_loop (lens : List Nat) (hn : lens ≠ []) (l : List (List Nat)) :
    NLJRun lens ⟨0, fun _ => none⟩ l ↔ l = allPos lens := by
  have h := run_from lens hn lens.length 0 (fun _ => none) [] (by omega) (fun _ _ => rfl) (by simp [Cont])
  have e : (allPos (lens.drop 0)).map (pre 0 (fun _ => none) ++ ·) ++ [] = allPos lens := by
    simp [pre]
  rw [e] at h
  constructor
  · intro h'; exact h'.unique h
  · rintro rfl; exact h

/-- The positions denote the buffered tuples. -/
theorem combos_pos [Inhabited T] (bufs : List (List T)) :
    combos bufs = (allPos (bufs.map List.length)).map fun ps => List.zipWith (fun b i => b.getD i default) bufs ps := by
  unfold allPos
  induction bufs with
  | nil => rfl
  | cons b bs ih =>
    simp only [combos, List.map_cons, tuplesOf, List.map_flatMap, List.map_map]
    rw [ih]
    conv_lhs => rw [show b = (List.range b.length).map fun i => b.getD i default from by
      rw [map_getD_range b b.length (le_refl _), List.take_length]]
    rw [List.flatMap_map]
    simp [Function.comp_def]

end Mutable.Interp
