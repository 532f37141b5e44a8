import Verif.StoreManip.Model
import Mathlib.Data.List.Perm.Basic
import Mathlib.Data.List.Perm.Subperm
import Mathlib.Data.List.Nodup
import Mathlib.Tactic.Ring
/-! # Lemmas: filling columns, distinct numbers -/
namespace Mutable.StoreManip
variable {T : Type}

/-- The contents of `w` cells from `p`. -/
def seg (m : ℕ → T) (p w : ℕ) : List T := (List.range' p w).map m

theorem seg_zero (m : ℕ → T) (p : ℕ) : seg m p 0 = [] := rfl
theorem seg_succ (m : ℕ → T) (p w : ℕ) : seg m p (w + 1) = m p :: seg m (p + 1) w := by simp [seg, List.range'_succ]
theorem seg_length (m : ℕ → T) (p w : ℕ) : (seg m p w).length = w := by simp [seg]
theorem seg_congr {m m' : ℕ → T} {p w : ℕ} (h : ∀ x, p ≤ x → x < p + w → m x = m' x) : seg m p w = seg m' p w := by
  refine List.map_congr_left fun x hx => ?_
  rw [List.mem_range'_1] at hx
  exact h x hx.1 hx.2
theorem seg_append (m : ℕ → T) (p a b : ℕ) : seg m p (a + b) = seg m p a ++ seg m (p + a) b := by
  unfold seg
  rw [← List.map_append, List.range'_append_1]

/-- One pass writes as many of the values as there are cells. -/
theorem fillPass_spec : ∀ (vs : List T) (m : ℕ → T) (p left : ℕ), 0 < left →
    (fillPass m p left vs).2.1 = p + min left vs.length ∧ (fillPass m p left vs).2.2 = left - vs.length ∧
    seg (fillPass m p left vs).1 p (min left vs.length) = vs.take left ∧
    ∀ x, x < p ∨ p + min left vs.length ≤ x → (fillPass m p left vs).1 x = m x
  | [], m, p, left, h => by simp [fillPass, seg_zero]
  | v :: vs, m, p, left, h => by
    unfold fillPass
    simp only
    by_cases h1 : left - 1 = 0
    · have : left = 1 := by omega
      subst this
      have hm : min 1 (v :: vs).length = 1 := by simp
      rw [if_pos rfl, hm]
      refine ⟨rfl, by simp, by simp [seg_succ, seg_zero], ?_⟩
      intro x hx
      simp only
      rw [if_neg (by omega)]
    · rw [if_neg h1]
      obtain ⟨a, b, c, d⟩ := fillPass_spec vs (fun x => if x = p then v else m x) (p + 1) (left - 1) (by omega)
      have hm : min left (v :: vs).length = min (left - 1) vs.length + 1 := by simp only [List.length_cons]; omega
      refine ⟨by rw [a, hm]; omega, by rw [b]; simp only [List.length_cons]; omega, ?_, ?_⟩
      · rw [hm, seg_succ, c, d p (by omega)]
        simp only [if_true]
        conv_rhs => rw [show left = (left - 1) + 1 by omega, List.take_succ_cons]
      · intro x hx
        rw [d x (by omega)]
        rw [if_neg (by omega)]

/-- The loop fills the cells block by block, each block a permutation of the values; the last one may be cut off. -/
theorem fillLoop_spec {shuf : ℕ → List T → List T} (hs : ∀ k l, (shuf k l).Perm l) :
    ∀ (fuel k : ℕ) (m : ℕ → T) (p left : ℕ) (vals : List T), vals ≠ [] → left < fuel →
    ∃ m', fillLoop shuf fuel k m p left vals = some (m', p + left) ∧
      (∀ x, x < p ∨ p + left ≤ x → m' x = m x) ∧
      (∀ j, (j + 1) * vals.length ≤ left → (seg m' (p + j * vals.length) vals.length).Perm vals) ∧
      (seg m' (p + left / vals.length * vals.length) (left % vals.length)).Subperm vals
  | 0, _, _, _, _, _, _, hf => by omega
  | fuel + 1, k, m, p, left, vals, hv, hf => by
    have hn : 0 < vals.length := List.length_pos_iff.2 hv
    unfold fillLoop
    by_cases h0 : left = 0
    · rw [if_pos h0]
      subst h0
      refine ⟨m, rfl, fun _ _ => rfl, ?_, ?_⟩
      · intro j hj; nlinarith
      · simp [seg_zero]
    · rw [if_neg h0]
      simp only
      have hlen : (shuf k vals).length = vals.length := (hs k vals).length_eq
      obtain ⟨a, b, c, d⟩ := fillPass_spec (shuf k vals) m p left (by omega)
      rw [hlen] at a b c d
      by_cases hle : left ≤ vals.length
      · rw [b, if_pos (by omega)]
        have hmin : min left vals.length = left := by omega
        rw [hmin] at a c d
        refine ⟨_, by rw [a], d, ?_, ?_⟩
        · intro j hj
          have hj0 : j = 0 := by
            rcases Nat.eq_zero_or_pos j with h | h
            · exact h
            · nlinarith
          subst hj0
          have : left = vals.length := by omega
          rw [Nat.zero_mul, Nat.add_zero, ← this, c, List.take_of_length_le (by omega)]
          exact hs k vals
        · rcases hle.eq_or_lt with he | hl
          · rw [he, Nat.mod_self, seg_zero]; exact List.nil_subperm
          · rw [Nat.div_eq_of_lt hl, Nat.mod_eq_of_lt hl, Nat.zero_mul, Nat.add_zero, c]
            exact ((List.take_sublist _ _).subperm).trans (hs k vals).subperm
      · rw [b, if_neg (by omega), a]
        have hmin : min left vals.length = vals.length := by omega
        rw [hmin] at c d ⊢
        have hv' : shuf k vals ≠ [] := by intro h; rw [h] at hlen; simp at hlen; omega
        obtain ⟨m', e1, e2, e3, e4⟩ := fillLoop_spec hs fuel (k + 1) (fillPass m p left (shuf k vals)).1 (p + vals.length)
          (left - vals.length) (shuf k vals) hv' (by omega)
        rw [hlen] at e3 e4
        refine ⟨m', by rw [e1]; congr 2; omega, ?_, ?_, ?_⟩
        · intro x hx
          rw [e2 x (by omega), d x (by omega)]
        · intro j hj
          rcases j with _ | j
          · rw [Nat.zero_mul, Nat.add_zero]
            rw [seg_congr (m' := (fillPass m p left (shuf k vals)).1) (fun x h1 h2 => e2 x (by omega)), c,
              List.take_of_length_le (by omega)]
            exact hs k vals
          · have := e3 j (by have : (j + 1 + 1) * vals.length = (j + 1) * vals.length + vals.length := by ring
                             omega)
            rw [show p + (j + 1) * vals.length = p + vals.length + j * vals.length by ring]
            exact this.trans (hs k vals)
        · have q1 : left / vals.length = (left - vals.length) / vals.length + 1 := by
            conv_lhs => rw [show left = (left - vals.length) + vals.length by omega]
            rw [Nat.add_div_right _ hn]
          have q2 : left % vals.length = (left - vals.length) % vals.length := by
            conv_lhs => rw [show left = (left - vals.length) + vals.length by omega]
            rw [Nat.add_mod_right]
          rw [q1, q2, show p + ((left - vals.length) / vals.length + 1) * vals.length =
            p + vals.length + (left - vals.length) / vals.length * vals.length by ring]
          exact e4.trans (hs k vals).subperm

/-- The blocks determine how often a value occurs. -/
theorem count_blocks [DecidableEq T] {m : ℕ → T} {vals : List T} (hn : 0 < vals.length) (v : T) : ∀ (q p r : ℕ),
    (∀ j, j < q → (seg m (p + j * vals.length) vals.length).Perm vals) →
    (seg m (p + q * vals.length) r).Subperm vals →
    q * vals.count v ≤ (seg m p (q * vals.length + r)).count v ∧ (seg m p (q * vals.length + r)).count v ≤ (q + 1) * vals.count v
  | 0, p, r, _, h => by
    simp only [Nat.zero_mul, Nat.add_zero, Nat.zero_add, Nat.one_mul] at h ⊢
    exact ⟨Nat.zero_le _, h.count_le v⟩
  | q + 1, p, r, hj, h => by
    have h0 := (hj 0 (by omega)).count_eq v
    rw [Nat.zero_mul, Nat.add_zero] at h0
    have ih := count_blocks hn v q (p + vals.length) r (fun j hjq => by
      have := hj (j + 1) (by omega)
      rwa [show p + (j + 1) * vals.length = p + vals.length + j * vals.length by ring] at this)
      (by rwa [show p + (q + 1) * vals.length = p + vals.length + q * vals.length by ring] at h)
    rw [show (q + 1) * vals.length + r = vals.length + (q * vals.length + r) by ring, seg_append, List.count_append, h0]
    have e1 : (q + 1) * vals.count v = q * vals.count v + vals.count v := by ring
    have e2 : (q + 1 + 1) * vals.count v = (q + 1) * vals.count v + vals.count v := by ring
    omega

/-! ## Distinct numbers -/

theorem distinctLoop_spec {ty : Grid.IntTy} {draw : ℕ → ℤ} {lo c0 hi : ℤ} (hd : ∀ i, lo ≤ draw i ∧ draw i ≤ c0)
    (hconv : ∀ v, c0 ≤ v → v ≤ hi → ty.conv v = v) (hc0 : lo ≤ c0) : ∀ (n i : ℕ) (taken : List ℤ) (counter : ℤ) (out : List ℤ),
    c0 ≤ counter → counter + n ≤ hi → out.Nodup → (∀ v ∈ out, v ∈ taken ∨ (c0 < v ∧ v ≤ counter)) → (∀ v ∈ taken, lo ≤ v ∧ v ≤ c0) →
    (distinctLoop ty draw n i taken counter out).Nodup ∧ (distinctLoop ty draw n i taken counter out).length = out.length + n ∧
    ∀ v ∈ distinctLoop ty draw n i taken counter out, lo ≤ v ∧ v ≤ hi
  | 0, i, taken, counter, out, h1, h2, h3, h4, h5 => by
    refine ⟨h3, rfl, fun v hv => ?_⟩
    have hc : c0 ≤ hi := by push_cast at h2; omega
    rcases h4 v hv with h | h
    · have := h5 v h; exact ⟨this.1, by omega⟩
    · push_cast at h2; omega
  | n + 1, i, taken, counter, out, h1, h2, h3, h4, h5 => by
    push_cast at h2
    unfold distinctLoop
    have hcv : ty.conv (counter + 1) = counter + 1 := hconv _ (by omega) (by omega)
    split_ifs with ht
    · rw [hcv]
      obtain ⟨a, b, c⟩ := distinctLoop_spec hd hconv hc0 n (i + 1) taken (counter + 1) (out ++ [counter + 1]) (by omega) (by omega)
        (by
          rw [List.nodup_append]
          refine ⟨h3, by simp, ?_⟩
          intro v hv w hw he
          simp at hw
          rcases h4 v hv with h | h
          · have := h5 v h; omega
          · omega)
        (by
          intro v hv
          rcases List.mem_append.1 hv with h | h
          · rcases h4 v h with h' | h'
            · exact Or.inl h'
            · exact Or.inr ⟨h'.1, by omega⟩
          · simp at h; exact Or.inr (by omega))
        h5
      exact ⟨a, by rw [b]; simp; omega, c⟩
    · obtain ⟨a, b, c⟩ := distinctLoop_spec hd hconv hc0 n (i + 1) (draw i :: taken) counter (out ++ [draw i]) h1 (by omega)
        (by
          rw [List.nodup_append]
          refine ⟨h3, by simp, ?_⟩
          intro v hv w hw he
          simp at hw
          rcases h4 v hv with h | h
          · exact ht (by rw [← hw, ← he]; exact h)
          · have := hd i; omega)
        (by
          intro v hv
          rcases List.mem_append.1 hv with h | h
          · rcases h4 v h with h' | h'
            · exact Or.inl (List.mem_cons_of_mem _ h')
            · exact Or.inr h'
          · simp at h; exact Or.inl (by simp [h]))
        (by
          intro v hv
          rcases List.mem_cons.1 hv with h | h
          · rw [h]; exact hd i
          · exact h5 v h)
      exact ⟨a, by rw [b]; simp; omega, c⟩

/-- Every number produced is in the type and in the bounds of the draws or a converted counter; there are `count` of them. -/
theorem distinctLoop_length (ty : Grid.IntTy) (draw : ℕ → ℤ) : ∀ (n i : ℕ) (taken : List ℤ) (counter : ℤ) (out : List ℤ),
    (distinctLoop ty draw n i taken counter out).length = out.length + n
  | 0, _, _, _, _ => rfl
  | n + 1, i, taken, counter, out => by
    unfold distinctLoop
    split_ifs <;> rw [distinctLoop_length] <;> simp <;> omega

theorem distinctLoop_mem (ty : Grid.IntTy) (draw : ℕ → ℤ) {P : ℤ → Prop} (h1 : ∀ i, P (draw i)) (h2 : ∀ v, P (ty.conv v)) :
    ∀ (n i : ℕ) (taken : List ℤ) (counter : ℤ) (out : List ℤ), (∀ v ∈ out, P v) →
    ∀ v ∈ distinctLoop ty draw n i taken counter out, P v
  | 0, _, _, _, _, h => h
  | n + 1, i, taken, counter, out, h => by
    unfold distinctLoop
    split_ifs
    · refine distinctLoop_mem ty draw h1 h2 n _ _ _ _ fun v hv => ?_
      rcases List.mem_append.1 hv with h' | h'
      · exact h v h'
      · simp at h'; rw [h']; exact h2 _
    · refine distinctLoop_mem ty draw h1 h2 n _ _ _ _ fun v hv => ?_
      rcases List.mem_append.1 hv with h' | h'
      · exact h v h'
      · simp at h'; rw [h']; exact h1 _

end Mutable.StoreManip
