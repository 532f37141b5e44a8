import Verif.Grid.Model
import Mathlib.Tactic.Ring
import Mathlib.Tactic.Linarith
import Mathlib.Data.List.Basic
/-! # `GridSearch::search` is an odometer -/
namespace Mutable.Grid

/-- The number a counter reads, with the last space least significant. -/
def val : List ℕ → List ℕ → ℕ
  | n :: ns, x :: c => x * (ns.map (· + 1)).prod + val ns c
  | _, _ => 0

/-- All counters within their bounds. -/
def Valid : List ℕ → List ℕ → Prop := List.Forall₂ (fun n x => x ≤ n)

theorem val_lt : ∀ {ns c : List ℕ}, Valid ns c → val ns c < (ns.map (· + 1)).prod
  | [], _, h => by cases h; simp [val]
  | n :: ns, _, h => by
    cases h with
    | cons h1 h2 =>
      rename_i x c
      have := val_lt h2
      simp only [val, List.map_cons, List.prod_cons]
      nlinarith

theorem val_inj : ∀ {ns c c' : List ℕ}, Valid ns c → Valid ns c' → val ns c = val ns c' → c = c'
  | [], _, _, h, h', _ => by cases h; cases h'; rfl
  | n :: ns, _, _, h, h', he => by
    cases h with
    | cons h1 h2 =>
      cases h' with
      | cons h1' h2' =>
        rename_i x c x' c'
        have l1 := val_lt h2
        have l2 := val_lt h2'
        simp only [val] at he
        have hx : x = x' := by
          rcases lt_trichotomy x x' with hl | hl | hl
          · nlinarith
          · exact hl
          · nlinarith
        subst hx
        rw [val_inj h2 h2' (by omega)]

theorem val_lex : ∀ {ns c c' : List ℕ}, Valid ns c → Valid ns c' → val ns c < val ns c' → c < c'
  | [], _, _, h, h', he => by cases h; cases h'; simp [val] at he
  | n :: ns, _, _, h, h', he => by
    cases h with
    | cons h1 h2 =>
      cases h' with
      | cons h1' h2' =>
        rename_i x c x' c'
        have l1 := val_lt h2
        have l2 := val_lt h2'
        simp only [val] at he
        rcases lt_trichotomy x x' with hl | hl | hl
        · exact List.Lex.rel hl
        · subst hl
          exact List.Lex.cons (val_lex h2 h2' (by omega))
        · nlinarith

/-- The odometer by recursion on the spaces. -/
def nxt : List ℕ → List ℕ → Option (List ℕ)
  | n :: ns, x :: c =>
    match nxt ns c with
    | some c' => some (x :: c')
    | none => if x = n then none else some ((x + 1) :: List.replicate c.length 0)
  | _, _ => none

theorem val_zeros : ∀ ns : List ℕ, val ns (List.replicate ns.length 0) = 0
  | [] => rfl
  | n :: ns => by simp [val, List.replicate_succ, val_zeros ns]

theorem valid_zeros : ∀ ns : List ℕ, Valid ns (List.replicate ns.length 0)
  | [] => .nil
  | n :: ns => .cons (Nat.zero_le _) (valid_zeros ns)

theorem nxt_spec : ∀ {ns c : List ℕ}, Valid ns c →
    match nxt ns c with
    | some c' => Valid ns c' ∧ val ns c' = val ns c + 1
    | none => val ns c + 1 = (ns.map (· + 1)).prod
  | [], _, h => by cases h; simp [nxt, val]
  | n :: ns, _, h => by
    cases h with
    | cons h1 h2 =>
      rename_i x c
      have ih := nxt_spec h2
      have hl : c.length = ns.length := h2.length_eq.symm
      simp only [nxt]
      split at ih
      · rename_i c' hc'
        simp only [val]
        exact ⟨.cons h1 ih.1, by omega⟩
      · rename_i hc'
        by_cases hx : x = n
        · rw [if_pos hx]
          simp only [val, List.map_cons, List.prod_cons]; subst hx; rw [Nat.add_mul]; omega
        · rw [if_neg hx]
          simp only [val, hl, val_zeros]
          exact ⟨.cons (by omega) (valid_zeros ns), by rw [Nat.add_mul]; omega⟩

theorem bump_cons (n x : ℕ) (ns : List ℕ) : ∀ (idx : ℕ) (c : List ℕ), idx < c.length →
    bump (n :: ns) (x :: c) (idx + 1) =
      match bump ns c idx with
      | some c' => some (x :: c')
      | none => if x = n then none else some ((x + 1) :: (List.replicate (idx + 1) 0 ++ c.drop (idx + 1)))
  | 0, c, h => by
    cases c with
    | nil => simp at h
    | cons y c =>
      cases ns with
      | nil => simp only [bump, List.getD_cons_succ, List.getD_cons_zero, List.set_cons_succ, List.set_cons_zero]; split_ifs <;> simp
      | cons m ns => simp only [bump, List.getD_cons_succ, List.getD_cons_zero, List.set_cons_succ, List.set_cons_zero]; split_ifs <;> simp
  | idx + 1, c, h => by
    conv_lhs => unfold bump
    conv_rhs => unfold bump
    simp only [List.getD_cons_succ, List.set_cons_succ]
    by_cases hc : c.getD (idx + 1) 0 = ns.getD (idx + 1) 0
    · rw [if_pos hc, if_pos hc, bump_cons n x ns idx (c.set (idx + 1) 0) (by simp; omega)]
      have e : List.replicate (idx + 1) 0 ++ (c.set (idx + 1) 0).drop (idx + 1) =
          List.replicate (idx + 1 + 1) 0 ++ c.drop (idx + 1 + 1) := by
        rw [List.drop_set]
        simp only [Nat.lt_irrefl, Nat.sub_self]
        rw [List.drop_eq_getElem_cons h, if_false, List.set_cons_zero, List.replicate_succ' (n := idx + 1), List.append_assoc]
        rfl
      rw [e]
    · rw [if_neg hc, if_neg hc]

theorem bump_eq_nxt : ∀ (ns c : List ℕ), c.length = ns.length → ns ≠ [] → bump ns c (ns.length - 1) = nxt ns c
  | [], _, _, h => absurd rfl h
  | [n], c, h, _ => by
    match c, h with
    | [x], _ => simp [bump, nxt]
  | n :: m :: ns, c, h, _ => by
    match c, h with
    | x :: c, h =>
      have hl : c.length = (m :: ns).length := by simpa using h
      have ih := bump_eq_nxt (m :: ns) c hl (by simp)
      have hb := bump_cons n x (m :: ns) ((m :: ns).length - 1) c (by rw [hl]; simp)
      simp only [List.length_cons, Nat.add_sub_cancel] at hb ih ⊢
      rw [hb, ih]
      simp only [nxt]
      have : List.drop (ns.length + 1) c = [] := by rw [List.drop_eq_nil_iff]; simp at hl; omega
      rw [this, List.append_nil, show ns.length + 1 = c.length by simpa using hl.symm]

/-- A run of the loop from a valid state. -/
theorem searchLoop_spec {ns : List ℕ} (hne : ns ≠ []) : ∀ (fuel : ℕ) (c : List ℕ) (out : List (List ℕ)), Valid ns c →
    (ns.map (· + 1)).prod - val ns c ≤ fuel →
    ∃ l, searchLoop ns fuel c out = some (out ++ l) ∧ (∀ d ∈ l, Valid ns d) ∧
      l.map (val ns) = List.range' (val ns c) ((ns.map (· + 1)).prod - val ns c)
  | 0, c, out, hv, hf => by have := val_lt hv; omega
  | fuel + 1, c, out, hv, hf => by
    have hlt := val_lt hv
    have hb := bump_eq_nxt ns c hv.length_eq.symm hne
    have hs := nxt_spec hv
    unfold searchLoop
    rw [hb]
    split at hs
    · rename_i c' hc'
      rw [hc']
      obtain ⟨l, h1, h2, h3⟩ := searchLoop_spec hne fuel c' (out ++ [c]) hs.1 (by omega)
      refine ⟨c :: l, by simp [h1], ?_, ?_⟩
      · intro d hd
        rcases List.mem_cons.1 hd with h | h
        · exact h ▸ hv
        · exact h2 d h
      · rw [List.map_cons, h3, hs.2]
        rw [show (ns.map (· + 1)).prod - val ns c = ((ns.map (· + 1)).prod - (val ns c + 1)) + 1 by omega]
        rw [List.range'_succ]
    · rename_i hc'
      rw [hc']
      refine ⟨[c], rfl, by simpa using hv, ?_⟩
      rw [show (ns.map (· + 1)).prod - val ns c = 1 by omega]
      simp

theorem search_spec {ns : List ℕ} (hne : ns ≠ []) (fuel : ℕ) (hf : (ns.map (· + 1)).prod ≤ fuel) :
    ∃ l, search ns fuel = some l ∧ (∀ d ∈ l, Valid ns d) ∧ l.map (val ns) = List.range (ns.map (· + 1)).prod := by
  obtain ⟨l, h1, h2, h3⟩ := searchLoop_spec hne fuel (List.replicate ns.length 0) [] (valid_zeros ns) (by omega)
  refine ⟨l, by simpa [search] using h1, h2, ?_⟩
  rw [h3, val_zeros, List.range_eq_range', Nat.sub_zero]

theorem map_mem_exists {ns : List ℕ} {l : List (List ℕ)} (h1 : ∀ d ∈ l, Valid ns d)
    (h2 : l.map (val ns) = List.range (ns.map (· + 1)).prod) {c : List ℕ} (hc : Valid ns c) : c ∈ l := by
  have : val ns c ∈ l.map (val ns) := by rw [h2, List.mem_range]; exact val_lt hc
  obtain ⟨d, hd, he⟩ := List.mem_map.1 this
  exact val_inj (h1 d hd) hc he ▸ hd

theorem sorted_of_vals {ns : List ℕ} {l : List (List ℕ)} (h1 : ∀ d ∈ l, Valid ns d)
    (h2 : l.map (val ns) = List.range (ns.map (· + 1)).prod) : l.Pairwise (· < ·) := by
  have h : (l.map (val ns)).Pairwise (· < ·) := by rw [h2]; exact List.pairwise_lt_range
  rw [List.pairwise_map] at h
  exact h.imp_of_mem (fun ha hb hab => val_lex (h1 _ ha) (h1 _ hb) hab)

theorem numPoints_eq : ∀ (ns : List ℕ), ns ≠ [] → numPoints ns = (ns.map (· + 1)).prod % 2 ^ 32
  | [], h => absurd rfl h
  | [n], _ => by simp [numPoints]
  | n :: m :: ns, _ => by
    have ih := numPoints_eq (m :: ns) (by simp)
    simp only [numPoints, List.map_cons, List.prod_cons] at ih ⊢
    rw [ih]
    simp [Nat.mul_mod]

end Mutable.Grid
