import Verif.Common
import Mathlib.Data.Finset.Prod
import Verif.Graph.Reach
/-! Correctness of the two transitive-closure algorithms. -/
namespace Mutable
open SB
namespace AdjMat

/-- All edges are between vertices `< n ≤ 64` (guaranteed by the assertions of `Proxy`). -/
structure WF (M : AdjMat) : Prop where
  le : M.n ≤ 64
  row : ∀ i j, M.Edge i j → i < M.n ∧ j < M.n

theorem edge_setAt (M : AdjMat) (i j : Nat) (hj : j < 64) (v : Bool) (a b : Nat) :
    (M.setAt i j v).Edge a b ↔ if a = i ∧ b = j then v = true else M.Edge a b := by
  unfold Edge setAt
  simp only
  by_cases ha : a = i
  · subst ha
    simp only [if_true, mem_setOp _ _ hj, true_and]
  · simp [ha]

theorem at'_iff (M : AdjMat) (i j : Nat) : M.at' i j = true ↔ M.Edge i j := get_iff _ _

/-- number of edges -/
noncomputable def edgeCount (M : AdjMat) (n : Nat) : Nat := by
  classical exact ((Finset.range n ×ˢ Finset.range n).filter fun p => M.Edge p.1 p.2).card

theorem edgeCount_le (M : AdjMat) (n : Nat) : M.edgeCount n ≤ n * n := by
  classical
  unfold edgeCount
  refine (Finset.card_filter_le _ _).trans ?_
  simp

theorem edgeCount_mono {M M' : AdjMat} (n : Nat) (h : ∀ a b, M.Edge a b → M'.Edge a b) :
    M.edgeCount n ≤ M'.edgeCount n := by
  classical
  unfold edgeCount
  apply Finset.card_le_card
  intro p; simp only [Finset.mem_filter]
  exact fun hp => ⟨hp.1, h _ _ hp.2⟩

theorem edgeCount_lt {M M' : AdjMat} (n : Nat) (h : ∀ a b, M.Edge a b → M'.Edge a b) (i j : Nat) (hi : i < n) (hj : j < n)
    (h1 : ¬ M.Edge i j) (h2 : M'.Edge i j) : M.edgeCount n < M'.edgeCount n := by
  classical
  unfold edgeCount
  apply Finset.card_lt_card
  rw [Finset.ssubset_iff_of_subset]
  · exact ⟨(i, j), by simp [hi, hj, h2], by simp [h1]⟩
  · intro p; simp only [Finset.mem_filter]
    exact fun hp => ⟨hp.1, h _ _ hp.2⟩

/-! ### folds over a list of index pairs -/

theorem tcDirPass_eq (M : AdjMat) : M.tcDirPass =
    ((List.range M.n).flatMap fun i => (List.range M.n).map fun j => (i, j)).foldl
      (fun st p => tcDirStep p.1 p.2 st) (M, false) := by
  rw [tcDirPass, List.foldl_flatMap]
  congr 1
  funext st i
  rw [List.foldl_map]

theorem tcDirStep_spec (i j : Nat) (hj : j < 64) (st : AdjMat × Bool) :
    (tcDirStep i j st).1.n = st.1.n ∧
    (∀ a b, st.1.Edge a b → (tcDirStep i j st).1.Edge a b) ∧
    (∀ a b, (tcDirStep i j st).1.Edge a b → st.1.Edge a b ∨ (a = i ∧ b = j ∧ ∃ k, st.1.Edge i k ∧ st.1.Edge k j)) ∧
    ((tcDirStep i j st).2 = true ∨ ((tcDirStep i j st) = st ∧
      ((∃ k, st.1.Edge i k ∧ st.1.Edge k j) → st.1.Edge i j))) ∧
    (st.2 = true → (tcDirStep i j st).2 = true) ∧
    ((tcDirStep i j st).2 = true → st.2 = true ∨ (¬ st.1.Edge i j ∧ (tcDirStep i j st).1.Edge i j)) := by
  have hany : (members (st.1.m i)).any (fun k => ! SB.isEmpty (st.1.m k &&& singleton j)) = true ↔
      ∃ k, st.1.Edge i k ∧ st.1.Edge k j := by
    rw [List.any_eq_true]
    constructor
    · rintro ⟨k, hk, h⟩
      rw [mem_members] at hk
      rw [Bool.not_eq_true', ← Bool.not_eq_true, SB.isEmpty_iff] at h
      push Not at h
      obtain ⟨b, hb⟩ := h
      rw [mem_and, mem_singleton] at hb
      obtain ⟨h1, _, rfl⟩ := hb
      exact ⟨k, hk, h1⟩
    · rintro ⟨k, hk, h⟩
      refine ⟨k, (mem_members _ _).2 hk, ?_⟩
      rw [Bool.not_eq_true', ← Bool.not_eq_true, SB.isEmpty_iff]
      push Not
      exact ⟨j, by rw [mem_and, mem_singleton]; exact ⟨h, hj, rfl⟩⟩
  unfold tcDirStep
  by_cases h1 : st.1.at' i j = true
  · rw [if_pos h1]
    rw [at'_iff] at h1
    exact ⟨rfl, fun _ _ h => h, fun _ _ h => Or.inl h, Or.inr ⟨rfl, fun _ => h1⟩, id, Or.inl⟩
  · rw [if_neg h1]
    rw [at'_iff] at h1
    by_cases h2 : (members (st.1.m i)).any (fun k => ! SB.isEmpty (st.1.m k &&& singleton j)) = true
    · rw [if_pos h2]
      rw [hany] at h2
      refine ⟨rfl, ?_, ?_, Or.inl rfl, fun _ => rfl, fun _ => Or.inr ⟨h1, ?_⟩⟩
      · intro a b hab; rw [edge_setAt _ _ _ hj]; split <;> simp_all
      · intro a b hab; rw [edge_setAt _ _ _ hj] at hab
        split at hab
        · rename_i hh; exact Or.inr ⟨hh.1, hh.2, h2⟩
        · exact Or.inl hab
      · rw [edge_setAt _ _ _ hj]; simp
    · rw [if_neg h2]
      refine ⟨rfl, fun _ _ h => h, fun _ _ h => Or.inl h, Or.inr ⟨rfl, fun h => absurd (hany.2 h) h2⟩, id, Or.inl⟩

theorem tcDirFold (R : Nat → Nat → Prop) (hR : ∀ a b c, R a b → R b c → R a c) (n : Nat) (hn : n ≤ 64)
    (l : List (Nat × Nat)) (hl : ∀ p ∈ l, p.1 < n ∧ p.2 < n)
    (st : AdjMat × Bool) (hs : ∀ a b, st.1.Edge a b → R a b) :
    let r := l.foldl (fun st p => tcDirStep p.1 p.2 st) st
    r.1.n = st.1.n ∧ (∀ a b, st.1.Edge a b → r.1.Edge a b) ∧ (∀ a b, r.1.Edge a b → R a b) ∧
    (∀ a b, r.1.Edge a b → st.1.Edge a b ∨ (a < n ∧ b < n)) ∧
    (r.2 = true ∨ (r = st ∧ ∀ p ∈ l, (∃ k, st.1.Edge p.1 k ∧ st.1.Edge k p.2) → st.1.Edge p.1 p.2)) ∧
    (r.2 = true → st.2 = true ∨ st.1.edgeCount n < r.1.edgeCount n) := by
  induction l generalizing st with
  | nil =>
    exact ⟨rfl, fun _ _ h => h, hs, fun _ _ h => Or.inl h, Or.inr ⟨rfl, by simp⟩, Or.inl⟩
  | cons p l ih =>
    have hp := hl p List.mem_cons_self
    obtain ⟨s1, s2, s3, s4, s5, s6⟩ := tcDirStep_spec p.1 p.2 (by omega) st
    obtain ⟨r1, r2, r3, r4, r5, r6⟩ := ih (fun q hq => hl q (List.mem_cons_of_mem _ hq)) (tcDirStep p.1 p.2 st) (by
      intro a b hab
      rcases s3 a b hab with h | ⟨rfl, rfl, k, h1, h2⟩
      · exact hs a b h
      · exact hR _ _ _ (hs _ _ h1) (hs _ _ h2))
    simp only [List.foldl_cons]
    refine ⟨r1.trans s1, fun a b h => r2 a b (s2 a b h), r3, ?_, ?_, ?_⟩
    · intro a b hab
      rcases r4 a b hab with h | h
      · rcases s3 a b h with h | ⟨rfl, rfl, _⟩
        · exact Or.inl h
        · exact Or.inr hp
      · exact Or.inr h
    · rcases r5 with h | ⟨h1, h2⟩
      · exact Or.inl h
      · rcases s4 with h3 | ⟨h3, h4⟩
        · left; rw [h1]; exact h3
        · right
          refine ⟨h1.trans h3, ?_⟩
          intro q hq
          rcases List.mem_cons.1 hq with rfl | hq
          · exact h4
          · have := h2 q hq
            rwa [h3] at this
    · intro h
      rcases r6 h with h | h
      · rcases s6 h with h | ⟨h1, h2⟩
        · exact Or.inl h
        · right
          exact lt_of_lt_of_le (edgeCount_lt n s2 p.1 p.2 hp.1 hp.2 h1 h2) (edgeCount_mono n r2)
      · right
        exact lt_of_le_of_lt (edgeCount_mono n s2) h

theorem mem_pairs (n : Nat) (p : Nat × Nat) :
    p ∈ ((List.range n).flatMap fun i => (List.range n).map fun j => (i, j)) ↔ p.1 < n ∧ p.2 < n := by
  simp only [List.mem_flatMap, List.mem_range, List.mem_map]
  constructor
  · rintro ⟨i, hi, j, hj, rfl⟩; exact ⟨hi, hj⟩
  · rintro ⟨h1, h2⟩; exact ⟨p.1, h1, p.2, h2, rfl⟩

theorem tcDirLoop_spec (R : Nat → Nat → Prop) (hR : ∀ a b c, R a b → R b c → R a c) (fuel : Nat) (M : AdjMat) (hM : M.WF)
    (hs : ∀ a b, M.Edge a b → R a b) (hf : M.n * M.n + 1 ≤ fuel + M.edgeCount M.n) :
    (∀ a b, M.Edge a b → (tcDirLoop fuel M).Edge a b) ∧ (∀ a b, (tcDirLoop fuel M).Edge a b → R a b) ∧
    (∀ a b c, (tcDirLoop fuel M).Edge a b → (tcDirLoop fuel M).Edge b c → (tcDirLoop fuel M).Edge a c) ∧
    (tcDirLoop fuel M).n = M.n ∧ (tcDirLoop fuel M).WF := by
  induction fuel generalizing M with
  | zero => have := M.edgeCount_le M.n; omega
  | succ f ih =>
    obtain ⟨r1, r2, r3, r4, r5, r6⟩ := tcDirFold R hR M.n hM.le _ (fun p hp => (mem_pairs M.n p).1 hp) (M, false) hs
    rw [← tcDirPass_eq] at r1 r2 r3 r4 r5 r6
    have hwf : M.tcDirPass.1.WF := by
      refine ⟨by rw [r1]; exact hM.le, fun i j h => ?_⟩
      rw [r1]
      rcases r4 i j h with h | h
      · exact hM.row i j h
      · exact h
    rw [tcDirLoop]
    by_cases hc : M.tcDirPass.2 = true
    · simp only [hc, if_true]
      have hcount : M.edgeCount M.n < M.tcDirPass.1.edgeCount M.n := by
        rcases r6 hc with h | h
        · simp at h
        · exact h
      have := ih M.tcDirPass.1 hwf r3 (by rw [r1]; simp only; omega)
      obtain ⟨t1, t2, t3, t4, t5⟩ := this
      exact ⟨fun a b h => t1 a b (r2 a b h), t2, t3, t4.trans r1, t5⟩
    · simp only [hc]
      refine ⟨r2, r3, ?_, r1, hwf⟩
      rcases r5 with h | ⟨h1, h2⟩
      · exact absurd h hc
      · simp only [Bool.false_eq_true, if_false]
        rw [h1]
        intro a b c hab hbc
        exact h2 (a, c) ((mem_pairs _ _).2 ⟨(hM.row a b hab).1, (hM.row b c hbc).2⟩) ⟨b, hab, hbc⟩

theorem tcDirected_spec (M : AdjMat) (hM : M.WF) (i j : Nat) :
    M.tcDirected.Edge i j ↔ Relation.TransGen M.Edge i j := by
  obtain ⟨h1, h2, h3, _⟩ := tcDirLoop_spec (Relation.TransGen M.Edge) (fun a b c => Relation.TransGen.trans)
    (M.n * M.n + 1) M hM (fun a b h => .single h) (by omega)
  refine ⟨h2 i j, fun h => ?_⟩
  induction h with
  | single h => exact h1 _ _ h
  | tail _ h ih => exact h3 _ _ _ ih (h1 _ _ h)

theorem tcDirLoop_fuel (f g : Nat) (M : AdjMat) (hM : M.WF) (hf : M.n * M.n + 1 ≤ f + M.edgeCount M.n)
    (hg : M.n * M.n + 1 ≤ g + M.edgeCount M.n) : tcDirLoop f M = tcDirLoop g M := by
  induction f generalizing g M with
  | zero => have := M.edgeCount_le M.n; omega
  | succ f ih =>
    cases g with
    | zero => have := M.edgeCount_le M.n; omega
    | succ g =>
      obtain ⟨r1, r2, r3, r4, r5, r6⟩ := tcDirFold (fun _ _ => True) (fun _ _ _ _ _ => trivial) M.n hM.le _
        (fun p hp => (mem_pairs M.n p).1 hp) (M, false) (fun _ _ _ => trivial)
      rw [← tcDirPass_eq] at r1 r2 r3 r4 r5 r6
      rw [tcDirLoop, tcDirLoop]
      by_cases hc : M.tcDirPass.2 = true
      · simp only [hc, if_true]
        have hcount : M.edgeCount M.n < M.tcDirPass.1.edgeCount M.n := by
          rcases r6 hc with h | h
          · simp at h
          · exact h
        have hwf : M.tcDirPass.1.WF := by
          refine ⟨by rw [r1]; exact hM.le, fun i j h => ?_⟩
          rw [r1]
          rcases r4 i j h with h | h
          · exact hM.row i j h
          · exact h
        apply ih _ _ hwf <;> · rw [r1]; simp only; omega
      · simp [hc]

/-! ### undirected -/

theorem tcUndirStep_spec (i j n : Nat) (hi : i < n) (hj : j < n) (hn : n ≤ 64) (st : AdjMat × Bool)
    (hsym : st.1.Symm) (hii : i = j ∨ (∀ x, st.1.Edge i x → st.1.Edge i i)) :
    let r := tcUndirStep i j st
    r.1.n = st.1.n ∧ r.1.Symm ∧
    (∀ a b, st.1.Edge a b → r.1.Edge a b) ∧
    (∀ a b, r.1.Edge a b → st.1.Edge a b ∨
      (((a = i ∧ b = j) ∨ (a = j ∧ b = i)) ∧ ∃ k, st.1.Edge i k ∧ st.1.Edge k j)) ∧
    (i = j → ∀ x, r.1.Edge i x → r.1.Edge i i) ∧
    (r.2 = true ∨ ((∀ a b, r.1.Edge a b ↔ st.1.Edge a b) ∧
      ((∃ k, st.1.Edge i k ∧ st.1.Edge k j) → st.1.Edge i j))) ∧
    (st.2 = true → r.2 = true) ∧
    (r.2 = true → st.2 = true ∨ (¬ st.1.Edge i j ∧ r.1.Edge i j)) := by
  intro r
  have hdot : (! SB.isEmpty (st.1.m i &&& st.1.m j)) = true ↔ ∃ k, st.1.Edge i k ∧ st.1.Edge k j := by
    rw [Bool.not_eq_true', ← Bool.not_eq_true, SB.isEmpty_iff]
    push Not
    constructor
    · rintro ⟨k, hk⟩
      rw [mem_and] at hk
      exact ⟨k, hk.1, hsym _ _ hk.2⟩
    · rintro ⟨k, h1, h2⟩
      exact ⟨k, (mem_and _ _ _).2 ⟨h1, hsym _ _ h2⟩⟩
  have hr : ∀ a b, r.1.Edge a b ↔
      if (a = i ∧ b = j) ∨ (a = j ∧ b = i) then ∃ k, st.1.Edge i k ∧ st.1.Edge k j else st.1.Edge a b := by
    intro a b
    show ((st.1.setAt j i _).setAt i j _).Edge a b ↔ _
    rw [edge_setAt _ _ _ (by omega), edge_setAt _ _ _ (by omega), hdot]
    by_cases h1 : a = i ∧ b = j
    · simp [h1]
    · by_cases h2 : a = j ∧ b = i
      · rw [if_neg h1, if_pos h2, if_pos (Or.inr h2)]
      · rw [if_neg h1, if_neg h2, if_neg (by omega)]
  have hmono : ∀ a b, st.1.Edge a b → r.1.Edge a b := by
    intro a b hab
    rw [hr]
    split
    · rename_i hcond
      have hij : st.1.Edge i j := by
        rcases hcond with ⟨rfl, rfl⟩ | ⟨rfl, rfl⟩
        · exact hab
        · exact hsym _ _ hab
      rcases hii with rfl | hii
      · exact ⟨i, hij, hij⟩
      · exact ⟨i, hii j hij, hij⟩
    · exact hab
  have hsound : ∀ a b, r.1.Edge a b → st.1.Edge a b ∨
      (((a = i ∧ b = j) ∨ (a = j ∧ b = i)) ∧ ∃ k, st.1.Edge i k ∧ st.1.Edge k j) := by
    intro a b hab
    rw [hr] at hab
    split at hab
    · exact Or.inr ⟨by assumption, hab⟩
    · exact Or.inl hab
  have hflag : r.2 = (st.2 || (st.1.at' i j != ! SB.isEmpty (st.1.m i &&& st.1.m j))) := rfl
  have hne : (st.1.at' i j != ! SB.isEmpty (st.1.m i &&& st.1.m j)) = true ↔
      ¬ (st.1.Edge i j ↔ ∃ k, st.1.Edge i k ∧ st.1.Edge k j) := by
    rw [← hdot, ← at'_iff, bne_iff_ne]
    cases st.1.at' i j <;> cases (! SB.isEmpty (st.1.m i &&& st.1.m j)) <;> simp
  have hrij : r.1.Edge i j ↔ ∃ k, st.1.Edge i k ∧ st.1.Edge k j := by
    rw [hr, if_pos (Or.inl ⟨rfl, rfl⟩)]
  refine ⟨rfl, ?_, hmono, hsound, ?_, ?_, ?_, ?_⟩
  · intro a b hab
    rw [hr] at hab ⊢
    by_cases h : (a = i ∧ b = j) ∨ (a = j ∧ b = i)
    · rw [if_pos h] at hab
      rw [if_pos (by omega)]; exact hab
    · rw [if_neg h] at hab
      rw [if_neg (by omega)]; exact hsym _ _ hab
  · rintro rfl x hx
    rw [hrij]
    rcases hsound _ _ hx with h | ⟨_, h⟩
    · exact ⟨x, h, hsym _ _ h⟩
    · exact h
  · by_cases h : st.1.Edge i j ↔ ∃ k, st.1.Edge i k ∧ st.1.Edge k j
    · right
      refine ⟨fun a b => ⟨fun hab => ?_, hmono a b⟩, h.2⟩
      rcases hsound a b hab with h1 | ⟨h1, h2⟩
      · exact h1
      · rcases h1 with ⟨rfl, rfl⟩ | ⟨rfl, rfl⟩
        · exact h.2 h2
        · exact hsym _ _ (h.2 h2)
    · left
      rw [hflag, hne.2 h, Bool.or_true]
  · intro h; rw [hflag, h, Bool.true_or]
  · intro h
    rw [hflag, Bool.or_eq_true, hne] at h
    rcases h with h | h
    · exact Or.inl h
    · right
      rw [hrij]
      have h3 := hmono i j
      rw [hrij] at h3
      by_cases h1 : st.1.Edge i j
      · exact absurd ⟨fun _ => h3 h1, fun _ => h1⟩ h
      · refine ⟨h1, ?_⟩
        by_contra h2
        exact h ⟨fun h => absurd h h1, fun h => absurd h h2⟩

/-- inner loop over `j = i, …` -/
theorem tcUndirInner (R : Nat → Nat → Prop) (hR : ∀ a b c, R a b → R b c → R a c) (hRs : ∀ a b, R a b → R b a)
    (n i : Nat) (hi : i < n) (hn : n ≤ 64)
    (l : List Nat) (hl : ∀ j ∈ l, j < n) (st : AdjMat × Bool) (hsym : st.1.Symm) (hs : ∀ a b, st.1.Edge a b → R a b)
    (hii : (∃ l', l = i :: l') ∨ (∀ x, st.1.Edge i x → st.1.Edge i i)) :
    let r := l.foldl (fun st j => tcUndirStep i j st) st
    r.1.n = st.1.n ∧ r.1.Symm ∧ (∀ a b, st.1.Edge a b → r.1.Edge a b) ∧ (∀ a b, r.1.Edge a b → R a b) ∧
    (∀ a b, r.1.Edge a b → st.1.Edge a b ∨ (a < n ∧ b < n)) ∧
    (r.2 = true ∨ ((∀ a b, r.1.Edge a b ↔ st.1.Edge a b) ∧
      ∀ j ∈ l, (∃ k, st.1.Edge i k ∧ st.1.Edge k j) → st.1.Edge i j)) ∧
    (r.2 = true → st.2 = true ∨ st.1.edgeCount n < r.1.edgeCount n) := by
  induction l generalizing st with
  | nil => exact ⟨rfl, hsym, fun _ _ h => h, hs, fun _ _ h => Or.inl h, Or.inr ⟨fun _ _ => Iff.rfl, by simp⟩, Or.inl⟩
  | cons j l ih =>
    have hj := hl j List.mem_cons_self
    have hii' : i = j ∨ (∀ x, st.1.Edge i x → st.1.Edge i i) := by
      rcases hii with ⟨l', h⟩ | h
      · left; exact (List.cons.inj h).1.symm
      · exact Or.inr h
    obtain ⟨s1, s2, s3, s4, s6, s7, s8, s9⟩ := tcUndirStep_spec i j n hi hj hn st hsym hii'
    have hii2 : ∀ x, (tcUndirStep i j st).1.Edge i x → (tcUndirStep i j st).1.Edge i i := by
      rcases hii' with h | h
      · exact s6 h
      · intro x hx
        rcases s4 _ _ hx with h1 | ⟨h1, k, hk, _⟩
        · exact s3 _ _ (h x h1)
        · exact s3 _ _ (h k hk)
    obtain ⟨r1, r2, r3, r4, r5, r6, r7⟩ := ih (fun q hq => hl q (List.mem_cons_of_mem _ hq)) (tcUndirStep i j st) s2 (by
      intro a b hab
      rcases s4 a b hab with h | ⟨⟨rfl, rfl⟩ | ⟨rfl, rfl⟩, k, h1, h2⟩
      · exact hs a b h
      · exact hR _ _ _ (hs _ _ h1) (hs _ _ h2)
      · exact hRs _ _ (hR _ _ _ (hs _ _ h1) (hs _ _ h2))) (Or.inr hii2)
    simp only [List.foldl_cons]
    refine ⟨r1.trans s1, r2, fun a b h => r3 a b (s3 a b h), r4, ?_, ?_, ?_⟩
    · intro a b hab
      rcases r5 a b hab with h | h
      · rcases s4 a b h with h | ⟨⟨rfl, rfl⟩ | ⟨rfl, rfl⟩, _⟩
        · exact Or.inl h
        · exact Or.inr ⟨hi, hj⟩
        · exact Or.inr ⟨hj, hi⟩
      · exact Or.inr h
    · rcases r6 with h | ⟨h1, h2⟩
      · exact Or.inl h
      · rcases s7 with h3 | ⟨h3, h4⟩
        · -- flag stays
          left
          have hmonoflag : ∀ (l : List Nat) (st : AdjMat × Bool), st.2 = true →
              (l.foldl (fun st j => tcUndirStep i j st) st).2 = true := by
            intro l
            induction l with
            | nil => intro st h; exact h
            | cons a l ih => intro st h; exact ih _ (by simp [tcUndirStep, h])
          exact hmonoflag l _ h3
        · right
          refine ⟨fun a b => (h1 a b).trans (h3 a b), ?_⟩
          intro q hq
          rcases List.mem_cons.1 hq with rfl | hq
          · exact h4
          · have := h2 q hq
            simpa only [h3] using this
    · intro h
      rcases r7 h with h | h
      · rcases s9 h with h | ⟨h1, h2⟩
        · exact Or.inl h
        · right
          exact lt_of_lt_of_le (edgeCount_lt n s3 i j hi hj h1 h2) (edgeCount_mono n r3)
      · right
        exact lt_of_le_of_lt (edgeCount_mono n s3) h

theorem tcUndirOuter (R : Nat → Nat → Prop) (hR : ∀ a b c, R a b → R b c → R a c) (hRs : ∀ a b, R a b → R b a)
    (n : Nat) (hn : n ≤ 64) (l : List Nat) (hl : ∀ i ∈ l, i < n) (st : AdjMat × Bool) (hsym : st.1.Symm)
    (hs : ∀ a b, st.1.Edge a b → R a b) :
    let r := l.foldl (fun st i => (List.range' i (n - i)).foldl (fun st j => tcUndirStep i j st) st) st
    r.1.n = st.1.n ∧ r.1.Symm ∧ (∀ a b, st.1.Edge a b → r.1.Edge a b) ∧ (∀ a b, r.1.Edge a b → R a b) ∧
    (∀ a b, r.1.Edge a b → st.1.Edge a b ∨ (a < n ∧ b < n)) ∧
    (r.2 = true ∨ ((∀ a b, r.1.Edge a b ↔ st.1.Edge a b) ∧
      ∀ i ∈ l, ∀ j, i ≤ j → j < n → (∃ k, st.1.Edge i k ∧ st.1.Edge k j) → st.1.Edge i j)) ∧
    (r.2 = true → st.2 = true ∨ st.1.edgeCount n < r.1.edgeCount n) ∧ (st.2 = true → r.2 = true) := by
  induction l generalizing st with
  | nil => exact ⟨rfl, hsym, fun _ _ h => h, hs, fun _ _ h => Or.inl h, Or.inr ⟨fun _ _ => Iff.rfl, by simp⟩, Or.inl, id⟩
  | cons i l ih =>
    have hi := hl i List.mem_cons_self
    have hflag : ∀ (l : List Nat) (st : AdjMat × Bool), st.2 = true →
        (l.foldl (fun st j => tcUndirStep i j st) st).2 = true := by
      intro l
      induction l with
      | nil => intro st h; exact h
      | cons a l ih => intro st h; exact ih _ (by simp [tcUndirStep, h])
    obtain ⟨s1, s2, s3, s4, s5, s6, s7⟩ := tcUndirInner R hR hRs n i hi hn (List.range' i (n - i))
      (fun j hj => by rw [List.mem_range'_1] at hj; omega) st hsym hs
      (Or.inl ⟨List.range' (i+1) (n - i - 1), by
        obtain ⟨k, hk⟩ : ∃ k, n - i = k + 1 := ⟨n - i - 1, by omega⟩
        rw [hk, List.range'_succ]; rfl⟩)
    obtain ⟨r1, r2, r3, r4, r5, r6, r7, r8⟩ := ih (fun q hq => hl q (List.mem_cons_of_mem _ hq)) _ s2 s4
    simp only [List.foldl_cons]
    refine ⟨r1.trans s1, r2, fun a b h => r3 a b (s3 a b h), r4, ?_, ?_, ?_, fun h => r8 (hflag _ _ h)⟩
    · intro a b hab
      rcases r5 a b hab with h | h
      · exact s5 a b h
      · exact Or.inr h
    · rcases s6 with h | ⟨h3, h4⟩
      · exact Or.inl (r8 h)
      · rcases r6 with h | ⟨h1, h2⟩
        · exact Or.inl h
        · right
          refine ⟨fun a b => (h1 a b).trans (h3 a b), ?_⟩
          intro q hq j hqj hjn
          rcases List.mem_cons.1 hq with rfl | hq
          · exact h4 j (by rw [List.mem_range'_1]; omega)
          · have := h2 q hq j hqj hjn
            simpa only [h3] using this
    · intro h
      rcases r7 h with h | h
      · rcases s7 h with h | h
        · exact Or.inl h
        · right; exact lt_of_lt_of_le h (edgeCount_mono n r3)
      · right
        exact lt_of_le_of_lt (edgeCount_mono n s3) h

theorem tcUndirLoop_spec (R : Nat → Nat → Prop) (hR : ∀ a b c, R a b → R b c → R a c) (hRs : ∀ a b, R a b → R b a)
    (fuel : Nat) (M : AdjMat) (hM : M.WF) (hsym : M.Symm)
    (hs : ∀ a b, M.Edge a b → R a b) (hf : M.n * M.n + 1 ≤ fuel + M.edgeCount M.n) :
    (∀ a b, M.Edge a b → (tcUndirLoop fuel M).Edge a b) ∧ (∀ a b, (tcUndirLoop fuel M).Edge a b → R a b) ∧
    (∀ a b c, (tcUndirLoop fuel M).Edge a b → (tcUndirLoop fuel M).Edge b c → (tcUndirLoop fuel M).Edge a c) := by
  induction fuel generalizing M with
  | zero => have := M.edgeCount_le M.n; omega
  | succ f ih =>
    have := tcUndirOuter R hR hRs M.n hM.le (List.range M.n) (fun i hi => List.mem_range.1 hi) (M, false) hsym hs
    obtain ⟨r1, r2, r3, r4, r5, r6, r7, _⟩ := this
    change M.tcUndirPass.1.n = M.n at r1
    change M.tcUndirPass.1.Symm at r2
    change ∀ a b, M.Edge a b → M.tcUndirPass.1.Edge a b at r3
    change ∀ a b, M.tcUndirPass.1.Edge a b → R a b at r4
    change ∀ a b, M.tcUndirPass.1.Edge a b → _ at r5
    change M.tcUndirPass.2 = true ∨ (∀ a b, M.tcUndirPass.1.Edge a b ↔ M.Edge a b) ∧ _ at r6
    change M.tcUndirPass.2 = true → _ ∨ M.edgeCount M.n < M.tcUndirPass.1.edgeCount M.n at r7
    have hwf : M.tcUndirPass.1.WF := by
      refine ⟨by rw [r1]; exact hM.le, fun i j h => ?_⟩
      rw [r1]
      rcases r5 i j h with h | h
      · exact hM.row i j h
      · exact h
    rw [tcUndirLoop]
    by_cases hc : M.tcUndirPass.2 = true
    · simp only [hc, if_true]
      have hcount : M.edgeCount M.n < M.tcUndirPass.1.edgeCount M.n := by
        rcases r7 hc with h | h
        · simp at h
        · exact h
      obtain ⟨t1, t2, t3⟩ := ih M.tcUndirPass.1 hwf r2 r4 (by rw [r1]; omega)
      exact ⟨fun a b h => t1 a b (r3 a b h), t2, t3⟩
    · simp only [hc]
      refine ⟨r3, r4, ?_⟩
      rcases r6 with h | ⟨h1, h2⟩
      · exact absurd h hc
      · simp only [Bool.false_eq_true, if_false]
        intro a b c hab hbc
        rw [h1] at hab hbc ⊢
        have ha := (hM.row a b hab).1
        have hcn := (hM.row b c hbc).2
        rcases Nat.le_total a c with hle | hle
        · exact h2 a (List.mem_range.2 ha) c hle hcn ⟨b, hab, hbc⟩
        · exact hsym _ _ (h2 c (List.mem_range.2 hcn) a hle ha ⟨b, hsym _ _ hbc, hsym _ _ hab⟩)

theorem tcUndirLoop_fuel (f g : Nat) (M : AdjMat) (hM : M.WF) (hsym : M.Symm)
    (hf : M.n * M.n + 1 ≤ f + M.edgeCount M.n)
    (hg : M.n * M.n + 1 ≤ g + M.edgeCount M.n) : tcUndirLoop f M = tcUndirLoop g M := by
  induction f generalizing g M with
  | zero => have := M.edgeCount_le M.n; omega
  | succ f ih =>
    cases g with
    | zero => have := M.edgeCount_le M.n; omega
    | succ g =>
      have := tcUndirOuter (fun _ _ => True) (fun _ _ _ _ _ => trivial) (fun _ _ _ => trivial) M.n hM.le
        (List.range M.n) (fun i hi => List.mem_range.1 hi) (M, false) hsym (fun _ _ _ => trivial)
      obtain ⟨r1, r2, r3, r4, r5, r6, r7, _⟩ := this
      change M.tcUndirPass.1.n = M.n at r1
      change M.tcUndirPass.1.Symm at r2
      change ∀ a b, M.tcUndirPass.1.Edge a b → _ at r5
      change M.tcUndirPass.2 = true → _ ∨ M.edgeCount M.n < M.tcUndirPass.1.edgeCount M.n at r7
      rw [tcUndirLoop, tcUndirLoop]
      by_cases hc : M.tcUndirPass.2 = true
      · simp only [hc, if_true]
        have hcount : M.edgeCount M.n < M.tcUndirPass.1.edgeCount M.n := by
          rcases r7 hc with h | h
          · simp at h
          · exact h
        have hwf : M.tcUndirPass.1.WF := by
          refine ⟨by rw [r1]; exact hM.le, fun i j h => ?_⟩
          rw [r1]
          rcases r5 i j h with h | h
          · exact hM.row i j h
          · exact h
        apply ih _ _ hwf r2 <;> · rw [r1]; omega
      · simp [hc]

theorem transGen_symm {M : AdjMat} (hM : M.Symm) {a b : Nat} (h : Relation.TransGen M.Edge a b) :
    Relation.TransGen M.Edge b a := by
  induction h with
  | single h => exact .single (hM _ _ h)
  | tail _ h ih => exact .head (hM _ _ h) ih

theorem tcUndirected_spec (M : AdjMat) (hM : M.WF) (hsym : M.Symm) (i j : Nat) :
    M.tcUndirected.Edge i j ↔ Relation.TransGen M.Edge i j := by
  obtain ⟨h1, h2, h3⟩ := tcUndirLoop_spec (Relation.TransGen M.Edge) (fun a b c => Relation.TransGen.trans)
    (fun a b h => transGen_symm hsym h) (M.n * M.n + 1) M hM hsym (fun a b h => .single h) (by omega)
  refine ⟨h2 i j, fun h => ?_⟩
  induction h with
  | single h => exact h1 _ _ h
  | tail _ h ih => exact h3 _ _ _ ih (h1 _ _ h)

end AdjMat
end Mutable
