import Verif.Common
import Mathlib.Algebra.BigOperators.Group.Finset.Basic
import Mathlib.Algebra.Order.BigOperators.Group.Finset
import Mathlib.Algebra.Order.Group.Defs
import Verif.Graph.PrimModel
import Verif.Graph.Tree
/-! Prim's algorithm computes a minimum spanning forest. -/
namespace Mutable
open SB
namespace AdjMat

variable {W : Type} [AddCommGroup W] [LinearOrder W] [IsOrderedAddMonoid W]

/-- `pick` returns the position of a minimal element of a non-empty queue. -/
def PickMin (pick : List (WEdge W) → Nat) : Prop :=
  ∀ Q : List (WEdge W), Q ≠ [] → ∃ h : pick Q < Q.length, ∀ q ∈ Q, (Q[pick Q]).w ≤ q.w

/-- `H` is a symmetric subgraph of `M` with the same connectivity. -/
structure Spans (M H : AdjMat) : Prop where
  n : H.n = M.n
  symm : H.Symm
  sub : ∀ a b, H.Edge a b → M.Edge a b
  conn : ∀ a b, M.Edge a b → Relation.ReflTransGen H.Edge a b

open Classical in
/-- The undirected edges `{a, b}`, `a < b < n`. -/
noncomputable def edges (H : AdjMat) : Finset (Nat × Nat) :=
  (Finset.range H.n ×ˢ Finset.range H.n).filter fun p => p.1 < p.2 ∧ H.Edge p.1 p.2

/-- Total weight of the undirected edges. -/
noncomputable def totalWeight (w : Nat → Nat → W) (H : AdjMat) : W := ∑ p ∈ H.edges, w p.1 p.2

theorem mem_edges (H : AdjMat) (p : Nat × Nat) :
    p ∈ H.edges ↔ p.1 < H.n ∧ p.2 < H.n ∧ p.1 < p.2 ∧ H.Edge p.1 p.2 := by
  simp [edges, and_assoc]

/-- a crossing edge, with the prefix of the path inside `P` -/
theorem exists_cross_in {α} {r : α → α → Prop} (P : α → Prop) {a b : α} (h : Relation.ReflTransGen r a b) (ha : P a)
    (hb : ¬ P b) : ∃ x y, Relation.ReflTransGen (fun c d => r c d ∧ P c ∧ P d) a x ∧ r x y ∧ P x ∧ ¬ P y := by
  have : (Relation.ReflTransGen (fun c d => r c d ∧ P c ∧ P d) a b ∧ P b) ∨
      ∃ x y, Relation.ReflTransGen (fun c d => r c d ∧ P c ∧ P d) a x ∧ r x y ∧ P x ∧ ¬ P y := by
    clear hb
    induction h with
    | refl => exact Or.inl ⟨.refl, ha⟩
    | tail h1 h2 ih =>
      rename_i c d
      rcases ih with ⟨h3, h4⟩ | h3
      · by_cases hd : P d
        · exact Or.inl ⟨.tail h3 ⟨h2, h4, hd⟩, hd⟩
        · exact Or.inr ⟨c, d, h3, h2, h4, hd⟩
      · exact Or.inr h3
  rcases this with h1 | h1
  · exact absurd h1.2 hb
  · exact h1

omit [AddCommGroup W] [IsOrderedAddMonoid W] in
theorem primSearch_spec {pick : List (WEdge W) → Nat} (hp : PickMin pick) (rem : SB) (fuel : Nat) (Q : List (WEdge W))
    (hf : Q.length < fuel) :
    (∃ E Q', primSearch pick rem fuel Q = (some E, Q') ∧ E ∈ Q ∧ Mem rem E.snk ∧
      (∀ q ∈ Q, Mem rem q.snk → E.w ≤ q.w) ∧ (∀ q ∈ Q', q ∈ Q) ∧ (∀ q ∈ Q, Mem rem q.snk → q = E ∨ q ∈ Q')) ∨
    (primSearch pick rem fuel Q = (none, []) ∧ ∀ q ∈ Q, ¬ Mem rem q.snk) := by
  induction fuel generalizing Q with
  | zero => omega
  | succ f ih =>
    rw [primSearch]
    by_cases hQ : Q = []
    · subst hQ; right; simp
    · obtain ⟨hlt, hmin⟩ := hp Q hQ
      have hget : Q[pick Q]? = some Q[pick Q] := List.getElem?_eq_getElem hlt
      rw [hget]
      simp only
      have hperm : (Q[pick Q] :: Q.eraseIdx (pick Q)).Perm Q := List.getElem_cons_eraseIdx_perm hlt
      have hmem : ∀ q, q ∈ Q ↔ q = Q[pick Q] ∨ q ∈ Q.eraseIdx (pick Q) := by
        intro q; rw [← hperm.mem_iff, List.mem_cons]
      by_cases hr : get rem (Q[pick Q]).snk = true
      · left
        refine ⟨Q[pick Q], Q.eraseIdx (pick Q), by simp [hr], List.getElem_mem hlt, (get_iff _ _).1 hr,
          fun q hq _ => hmin q hq, fun q hq => (hmem q).2 (Or.inr hq), fun q hq _ => (hmem q).1 hq⟩
      · have hr' : ¬ Mem rem (Q[pick Q]).snk := fun h => hr ((get_iff _ _).2 h)
        have hlen : (Q.eraseIdx (pick Q)).length < f := by
          have := List.length_eraseIdx_of_lt hlt
          omega
        simp only [hr, Bool.not_false, if_true]
        rcases ih (Q.eraseIdx (pick Q)) hlen with ⟨E, Q', h1, h2, h3, h4, h5, h6⟩ | ⟨h1, h2⟩
        · left
          refine ⟨E, Q', h1, (hmem E).2 (Or.inr h2), h3, ?_, fun q hq => (hmem q).2 (Or.inr (h5 q hq)), ?_⟩
          · intro q hq hqr
            rcases (hmem q).1 hq with rfl | h
            · exact absurd hqr hr'
            · exact h4 q h hqr
          · intro q hq hqr
            rcases (hmem q).1 hq with rfl | h
            · exact absurd hqr hr'
            · exact h6 q h hqr
        · right
          refine ⟨h1, fun q hq => ?_⟩
          rcases (hmem q).1 hq with rfl | h
          · exact hr'
          · exact h2 q h

/-- Invariant that does not depend on the current component. `rem` = vertices not yet in the forest. -/
structure PrimInv (M : AdjMat) (w : Nat → Nat → W) (rem : SB) (F : AdjMat) : Prop where
  n : F.n = M.n
  symm : F.Symm
  sub : ∀ a b, F.Edge a b → M.Edge a b
  vis : ∀ a b, F.Edge a b → ¬ Mem rem a
  acyc : F.Acyclic
  conn : ∀ a b, M.Edge a b → ¬ Mem rem a → ¬ Mem rem b → a ≠ b → Relation.ReflTransGen F.Edge a b
  opt : ∀ H, Spans M H → ∃ H', Spans M H' ∧ (∀ a b, F.Edge a b → H'.Edge a b) ∧ totalWeight w H' ≤ totalWeight w H

/-- Invariant of the inner loop: `C` is the vertex set of the current tree, `u` the vertex to explore. -/
structure PrimIn (M : AdjMat) (w : Nat → Nat → W) (u : Nat) (Q : List (WEdge W)) (rem : SB) (F : AdjMat)
    (C : Nat → Prop) : Prop where
  cu : C u
  crem : ∀ x, C x → ¬ Mem rem x
  tree : ∀ x, C x → Relation.ReflTransGen F.Edge u x
  done : ∀ x y, ¬ Mem rem x → ¬ C x → Mem rem y → ¬ M.Edge x y
  q : ∀ e ∈ Q, C e.src ∧ M.Edge e.src e.snk ∧ e.w = w e.src e.snk
  cut : ∀ x y, C x → x ≠ u → Mem rem y → M.Edge x y → ⟨x, y, w x y⟩ ∈ Q

theorem edge_add (F : AdjMat) (s v : Nat) (hs : s < 64) (hv : v < 64) (a b : Nat) :
    ((F.setAt v s true).setAt s v true).Edge a b ↔ (a = s ∧ b = v) ∨ (a = v ∧ b = s) ∨ F.Edge a b := by
  rw [edge_setAt _ _ _ hv, edge_setAt _ _ _ hs]
  by_cases h1 : a = s ∧ b = v
  · simp [h1]
  · rw [if_neg h1]
    by_cases h2 : a = v ∧ b = s
    · simp [h2]
    · simp [h1, h2]

theorem edge_del (F : AdjMat) (s v : Nat) (hs : s < 64) (hv : v < 64) (a b : Nat) :
    ((F.setAt v s false).setAt s v false).Edge a b ↔ ¬ (a = s ∧ b = v) ∧ ¬ (a = v ∧ b = s) ∧ F.Edge a b := by
  rw [edge_setAt _ _ _ hv, edge_setAt _ _ _ hs]
  by_cases h1 : a = s ∧ b = v
  · simp [h1]
  · rw [if_neg h1]
    by_cases h2 : a = v ∧ b = s
    · simp [h2]
    · simp [h1, h2]

theorem acyclic_add (F : AdjMat) (s v : Nat) (hs : s < 64) (hv : v < 64) (hne : s ≠ v) (hF : F.Acyclic)
    (hiso : ∀ a, ¬ F.Edge a v ∧ ¬ F.Edge v a) : ((F.setAt v s true).setAt s v true).Acyclic := by
  intro a b hab hpath
  rw [edge_add F s v hs hv] at hab
  rcases hab with ⟨rfl, rfl⟩ | ⟨rfl, rfl⟩ | hab
  · rcases hpath.cases_tail with h | ⟨c, _, hc⟩
    · exact hne h.symm
    · obtain ⟨h1, h2, h3⟩ := hc
      rw [edge_add F _ _ hs hv] at h1
      rcases h1 with h1 | h1 | h1
      · exact h2 h1
      · exact h3 h1
      · exact (hiso c).1 h1
  · rcases hpath.cases_head with h | ⟨c, hc, _⟩
    · exact hne h.symm
    · obtain ⟨h1, h2, h3⟩ := hc
      rw [edge_add F _ _ hs hv] at h1
      rcases h1 with h1 | h1 | h1
      · exact h3 h1
      · exact h2 h1
      · exact (hiso c).2 h1
  · have hav : a ≠ v := by rintro rfl; exact (hiso b).2 hab
    have hbv : b ≠ v := by rintro rfl; exact (hiso a).1 hab
    let φ : Nat → Nat := fun x => if x = v then s else x
    have key : Relation.ReflTransGen (F.EdgeMinus a b) (φ a) (φ b) := by
      have : ∀ x y, Relation.ReflTransGen (((F.setAt v s true).setAt s v true).EdgeMinus a b) x y →
          Relation.ReflTransGen (F.EdgeMinus a b) (φ x) (φ y) := by
        intro x y h
        induction h with
        | refl => exact .refl
        | tail hh h2 ih =>
          rename_i c d
          obtain ⟨h1, h2, h3⟩ := h2
          rw [edge_add F _ _ hs hv] at h1
          rcases h1 with ⟨rfl, rfl⟩ | ⟨rfl, rfl⟩ | h1
          · have e1 : φ c = c := by simp only [φ]; split <;> simp_all
            have e2 : φ d = c := by simp [φ]
            rw [e2]; rwa [e1] at ih
          · have e1 : φ c = d := by simp [φ]
            have e2 : φ d = d := by simp only [φ]; split <;> simp_all
            rw [e2]; rwa [e1] at ih
          · have hc : c ≠ v := by rintro rfl; exact (hiso d).2 h1
            have hd : d ≠ v := by rintro rfl; exact (hiso c).1 h1
            have e1 : φ c = c := by simp [φ, hc]
            have e2 : φ d = d := by simp [φ, hd]
            rw [e1] at ih; rw [e2]
            exact .tail ih ⟨h1, h2, h3⟩
      exact this a b hpath
    have e1 : φ a = a := by simp [φ, hav]
    have e2 : φ b = b := by simp [φ, hbv]
    rw [e1, e2] at key
    exact hF a b hab key

/-- ordered pair of an undirected edge -/
def ord (a b : Nat) : Nat × Nat := if a < b then (a, b) else (b, a)

theorem weight_exchange {w : Nat → Nat → W} (hw : ∀ a b, w a b = w b a) (H : AdjMat) (hs : H.Symm)
    (x y s v : Nat) (hx : x < H.n) (hy : y < H.n) (hsn : s < H.n) (hvn : v < H.n) (hn : H.n ≤ 64) (hxy : x ≠ y) (hsv : s ≠ v)
    (he : H.Edge x y) (hnew : ¬ H.Edge s v) (hle : w s v ≤ w x y) :
    totalWeight w ((((H.setAt y x false).setAt x y false).setAt v s true).setAt s v true) ≤ totalWeight w H := by
  classical
  set H'' := ((((H.setAt y x false).setAt x y false).setAt v s true).setAt s v true) with hH''
  have hE : ∀ a b, H''.Edge a b ↔ (a = s ∧ b = v) ∨ (a = v ∧ b = s) ∨
      (¬ (a = x ∧ b = y) ∧ ¬ (a = y ∧ b = x) ∧ H.Edge a b) := by
    intro a b
    rw [hH'', edge_add _ s v (by omega) (by omega), edge_del _ x y (by omega) (by omega)]
  have hn'' : H''.n = H.n := rfl
  have hord : ∀ a b, w (ord a b).1 (ord a b).2 = w a b := by
    intro a b; unfold ord; split
    · rfl
    · exact hw b a
  have hmemf : ord x y ∈ H.edges := by
    rw [mem_edges]; unfold ord
    split
    · exact ⟨hx, hy, by assumption, he⟩
    · exact ⟨hy, hx, by simp only; omega, hs _ _ he⟩
  have hnotin : ord s v ∉ H.edges.erase (ord x y) := by
    rw [Finset.mem_erase, mem_edges]
    rintro ⟨_, _, _, _, h⟩
    unfold ord at h
    split at h
    · exact hnew h
    · exact hnew (hs _ _ h)
  have heq : H''.edges = insert (ord s v) (H.edges.erase (ord x y)) := by
    ext p
    rw [mem_edges, hn'', hE, Finset.mem_insert, Finset.mem_erase, mem_edges]
    constructor
    · rintro ⟨h1, h2, h3, h4⟩
      rcases h4 with h4 | h4 | h4
      · left; unfold ord; rw [if_pos (by omega)]; exact Prod.ext h4.1 h4.2
      · left; unfold ord; rw [if_neg (by omega)]; exact Prod.ext h4.1 h4.2
      · right
        refine ⟨?_, h1, h2, h3, h4.2.2⟩
        rintro rfl
        unfold ord at h4
        split at h4
        · exact h4.1 ⟨rfl, rfl⟩
        · exact h4.2.1 ⟨rfl, rfl⟩
    · rintro (rfl | ⟨h0, h1, h2, h3, h4⟩)
      · unfold ord
        split
        · exact ⟨hsn, hvn, by assumption, Or.inl ⟨rfl, rfl⟩⟩
        · exact ⟨hvn, hsn, by simp only; omega, Or.inr (Or.inl ⟨rfl, rfl⟩)⟩
      · refine ⟨h1, h2, h3, Or.inr (Or.inr ⟨?_, ?_, h4⟩)⟩
        · rintro ⟨h5, h6⟩
          apply h0
          unfold ord; rw [if_pos (by omega)]; exact Prod.ext h5 h6
        · rintro ⟨h5, h6⟩
          apply h0
          unfold ord; rw [if_neg (by omega)]; exact Prod.ext h5 h6
  unfold totalWeight
  rw [heq, Finset.sum_insert hnotin, ← Finset.add_sum_erase _ _ hmemf, hord, hord]
  exact add_le_add_left hle _

/-- One step: the cheapest edge `s — v` crossing from the tree `C` to `rem` is added. -/
theorem PrimInv.add {M : AdjMat} (hW : M.WF) (hS : M.Symm) {w : Nat → Nat → W} (hw : ∀ a b, w a b = w b a)
    {rem : SB} {F : AdjMat} (h : PrimInv M w rem F) {u s v : Nat} {C : Nat → Prop}
    (htree : ∀ x, C x → Relation.ReflTransGen F.Edge u x) (hcrem : ∀ x, C x → ¬ Mem rem x)
    (hdone : ∀ x y, ¬ Mem rem x → ¬ C x → Mem rem y → ¬ M.Edge x y)
    (hs : C s) (hv : Mem rem v) (he : M.Edge s v)
    (hmin : ∀ x y, C x → Mem rem y → M.Edge x y → w s v ≤ w x y) :
    PrimInv M w (set rem v false) ((F.setAt v s true).setAt s v true) := by
  have hsn := (hW.row s v he).1
  have hvn := (hW.row s v he).2
  have h64 := hW.le
  have hsv : s ≠ v := by rintro rfl; exact hcrem s hs hv
  have hE := edge_add F s v (by omega) (by omega)
  have hrem : ∀ x, Mem (set rem v false) x ↔ x ≠ v ∧ Mem rem x := by
    intro x; rw [mem_setOp _ _ (by omega)]; split <;> simp_all
  have hiso : ∀ a, ¬ F.Edge a v ∧ ¬ F.Edge v a :=
    fun a => ⟨fun hc => h.vis _ _ (h.symm _ _ hc) hv, fun hc => h.vis _ _ hc hv⟩
  have hmono : ∀ a b, F.Edge a b → ((F.setAt v s true).setAt s v true).Edge a b := fun a b hab =>
    (hE a b).2 (Or.inr (Or.inr hab))
  have hFs : ∀ x, C x → Relation.ReflTransGen F.Edge s x := fun x hx =>
    (rtg_symm h.symm (htree s hs)).trans (htree x hx)
  constructor
  · exact h.n
  · intro a b hab
    rw [hE] at hab ⊢
    rcases hab with h1 | h1 | h1
    · exact Or.inr (Or.inl ⟨h1.2, h1.1⟩)
    · exact Or.inl ⟨h1.2, h1.1⟩
    · exact Or.inr (Or.inr (h.symm _ _ h1))
  · intro a b hab
    rw [hE] at hab
    rcases hab with ⟨rfl, rfl⟩ | ⟨rfl, rfl⟩ | h1
    · exact he
    · exact hS _ _ he
    · exact h.sub _ _ h1
  · intro a b hab
    rw [hE] at hab
    rw [hrem]
    rcases hab with ⟨rfl, rfl⟩ | ⟨rfl, rfl⟩ | h1
    · exact fun hc => hcrem _ hs hc.2
    · exact fun hc => hc.1 rfl
    · exact fun hc => h.vis _ _ h1 hc.2
  · exact acyclic_add F s v (by omega) (by omega) hsv h.acyc hiso
  · have hvC : ∀ y, M.Edge v y → ¬ Mem rem y → C y := by
      intro y hy hyr
      by_contra hc
      exact hdone y v hyr hc hv (hS _ _ hy)
    have hvpath : ∀ y, C y → Relation.ReflTransGen ((F.setAt v s true).setAt s v true).Edge v y := by
      intro y hy
      exact .head ((hE v s).2 (Or.inr (Or.inl ⟨rfl, rfl⟩))) (rtg_mono hmono (hFs y hy))
    have hsymm' : ∀ a b, ((F.setAt v s true).setAt s v true).Edge a b → ((F.setAt v s true).setAt s v true).Edge b a := by
      intro a b hab
      rw [hE] at hab ⊢
      rcases hab with h1 | h1 | h1
      · exact Or.inr (Or.inl ⟨h1.2, h1.1⟩)
      · exact Or.inl ⟨h1.2, h1.1⟩
      · exact Or.inr (Or.inr (h.symm _ _ h1))
    intro a b hab ha hb hne
    rw [hrem] at ha hb
    by_cases hav : a = v
    · subst hav
      have hbr : ¬ Mem rem b := fun hc => hb ⟨fun hc' => hne hc'.symm, hc⟩
      exact hvpath b (hvC b hab hbr)
    · by_cases hbv : b = v
      · subst hbv
        have har : ¬ Mem rem a := fun hc => ha ⟨hne, hc⟩
        exact rtg_symm hsymm' (hvpath a (hvC a (hS _ _ hab) har))
      · exact rtg_mono hmono (h.conn a b hab (fun hc => ha ⟨hav, hc⟩) (fun hc => hb ⟨hbv, hc⟩) hne)
  · intro H hH
    obtain ⟨H', h1, h2, h3⟩ := h.opt H hH
    by_cases hsv' : H'.Edge s v
    · refine ⟨H', h1, fun a b hab => ?_, h3⟩
      rw [hE] at hab
      rcases hab with ⟨rfl, rfl⟩ | ⟨rfl, rfl⟩ | hab
      · exact hsv'
      · exact h1.symm _ _ hsv'
      · exact h2 _ _ hab
    · -- exchange
      have hp := rtg_symm h1.symm (h1.conn s v he)
      obtain ⟨y, x, hvy, hyx, hy, hx⟩ := exists_cross_in (Mem rem) hp hv (hcrem s hs)
      have hxy : M.Edge x y := hS _ _ (h1.sub _ _ hyx)
      have hxC : C x := by
        by_contra hc
        exact hdone x y hx hc hy hxy
      have hxn := (hW.row x y hxy).1
      have hyn := (hW.row x y hxy).2
      have hxney : x ≠ y := by rintro rfl; exact hx hy
      have hEx : ∀ a b, ((((H'.setAt y x false).setAt x y false).setAt v s true).setAt s v true).Edge a b ↔
          (a = s ∧ b = v) ∨ (a = v ∧ b = s) ∨ (¬ (a = x ∧ b = y) ∧ ¬ (a = y ∧ b = x) ∧ H'.Edge a b) := by
        intro a b
        rw [edge_add _ s v (by omega) (by omega), edge_del _ x y (by omega) (by omega)]
      have hn' := h1.n
      refine ⟨((((H'.setAt y x false).setAt x y false).setAt v s true).setAt s v true), ⟨h1.n, ?_, ?_, ?_⟩, ?_,
        (weight_exchange hw H' h1.symm x y s v (by omega) (by omega) (by omega) (by omega) (by omega) hxney hsv
          (h1.symm _ _ hyx) hsv' (hmin x y hxC hy hxy)).trans h3⟩
      · intro a b hab
        rw [hEx] at hab ⊢
        rcases hab with h4 | h4 | ⟨h4, h5, h6⟩
        · exact Or.inr (Or.inl ⟨h4.2, h4.1⟩)
        · exact Or.inl ⟨h4.2, h4.1⟩
        · exact Or.inr (Or.inr ⟨fun hc => h5 ⟨hc.2, hc.1⟩, fun hc => h4 ⟨hc.2, hc.1⟩, h1.symm _ _ h6⟩)
      · intro a b hab
        rw [hEx] at hab
        rcases hab with ⟨rfl, rfl⟩ | ⟨rfl, rfl⟩ | ⟨h4, h5, h6⟩
        · exact he
        · exact hS _ _ he
        · exact h1.sub _ _ h6
      · -- connectivity
        have hsymm' : ∀ a b, ((((H'.setAt y x false).setAt x y false).setAt v s true).setAt s v true).Edge a b →
            ((((H'.setAt y x false).setAt x y false).setAt v s true).setAt s v true).Edge b a := by
          intro a b hab
          rw [hEx] at hab ⊢
          rcases hab with h4 | h4 | ⟨h4, h5, h6⟩
          · exact Or.inr (Or.inl ⟨h4.2, h4.1⟩)
          · exact Or.inl ⟨h4.2, h4.1⟩
          · exact Or.inr (Or.inr ⟨fun hc => h5 ⟨hc.2, hc.1⟩, fun hc => h4 ⟨hc.2, hc.1⟩, h1.symm _ _ h6⟩)
        have hFx : Relation.ReflTransGen ((((H'.setAt y x false).setAt x y false).setAt v s true).setAt s v true).Edge x s := by
          refine rtg_mono ?_ (rtg_symm h.symm (hFs x hxC))
          intro a b hab
          rw [hEx]
          refine Or.inr (Or.inr ⟨?_, ?_, h2 _ _ hab⟩)
          · rintro ⟨_, rfl⟩; exact h.vis _ _ (h.symm _ _ hab) hy
          · rintro ⟨rfl, _⟩; exact h.vis _ _ hab hy
        have hvy' : Relation.ReflTransGen ((((H'.setAt y x false).setAt x y false).setAt v s true).setAt s v true).Edge v y := by
          refine rtg_mono ?_ hvy
          rintro a b ⟨hab, har, hbr⟩
          rw [hEx]
          refine Or.inr (Or.inr ⟨?_, ?_, hab⟩)
          · rintro ⟨rfl, _⟩; exact hx har
          · rintro ⟨_, rfl⟩; exact hx hbr
        have hxy' : Relation.ReflTransGen ((((H'.setAt y x false).setAt x y false).setAt v s true).setAt s v true).Edge x y :=
          (hFx.tail ((hEx s v).2 (Or.inl ⟨rfl, rfl⟩))).trans hvy'
        intro a b hab
        have hp := h1.conn a b hab
        clear hab
        induction hp with
        | refl => exact .refl
        | tail hh hcd ih =>
          rename_i c d
          refine ih.trans ?_
          by_cases h4 : c = x ∧ d = y
          · rw [h4.1, h4.2]; exact hxy'
          · by_cases h5 : c = y ∧ d = x
            · rw [h5.1, h5.2]; exact rtg_symm hsymm' hxy'
            · exact .single ((hEx c d).2 (Or.inr (Or.inr ⟨h4, h5, hcd⟩)))
      · intro a b hab
        rw [hE] at hab
        rw [hEx]
        rcases hab with h4 | h4 | hab
        · exact Or.inl h4
        · exact Or.inr (Or.inl h4)
        · refine Or.inr (Or.inr ⟨?_, ?_, h2 _ _ hab⟩)
          · rintro ⟨_, rfl⟩; exact h.vis _ _ (h.symm _ _ hab) hy
          · rintro ⟨rfl, _⟩; exact h.vis _ _ hab hy

theorem primLoop_spec {M : AdjMat} (hW : M.WF) (hS : M.Symm) {w : Nat → Nat → W} (hw : ∀ a b, w a b = w b a)
    {pick : List (WEdge W) → Nat} (hp : PickMin pick)
    (fuel : Nat) (u : Nat) (Q : List (WEdge W)) (rem : SB) (F : AdjMat) (C : Nat → Prop)
    (h : PrimInv M w rem F) (hin : PrimIn M w u Q rem F C) (hu : u < 64) (hf : size rem < fuel) :
    let r := primLoop pick M w fuel u Q rem F
    r.1 = [] ∧ PrimInv M w r.2.1 r.2.2 ∧ Sub r.2.1 rem ∧ (∀ x y, ¬ Mem r.2.1 x → Mem r.2.1 y → ¬ M.Edge x y) := by
  induction fuel generalizing u Q rem F C with
  | zero => omega
  | succ f ih =>
    rw [primLoop]
    set N := M.neighbors (SB.singleton u) &&& rem with hN
    set Q1 := Q ++ (members N).map (fun v => (⟨u, v, w u v⟩ : WEdge W)) with hQ1
    have hmemN : ∀ v, Mem N v ↔ v ≠ u ∧ M.Edge u v ∧ Mem rem v := by
      intro v
      rw [hN, mem_and, mem_neighbors]
      constructor
      · rintro ⟨⟨h1, x, hx, he⟩, h2⟩
        rw [mem_singleton] at hx h1
        rw [hx.2] at he
        exact ⟨fun hc => h1 ⟨by omega, hc⟩, he, h2⟩
      · rintro ⟨h1, h2, h3⟩
        exact ⟨⟨by rw [mem_singleton]; exact fun hc => h1 hc.2, u, by simp [hu], h2⟩, h3⟩
    have hq1 : ∀ e ∈ Q1, C e.src ∧ M.Edge e.src e.snk ∧ e.w = w e.src e.snk := by
      intro e he
      rw [hQ1, List.mem_append, List.mem_map] at he
      rcases he with he | ⟨v, hv, rfl⟩
      · exact hin.q e he
      · rw [mem_members, hmemN] at hv
        exact ⟨hin.cu, hv.2.1, rfl⟩
    have hcut1 : ∀ x y, C x → Mem rem y → M.Edge x y → (⟨x, y, w x y⟩ : WEdge W) ∈ Q1 := by
      intro x y hx hy he
      rw [hQ1, List.mem_append, List.mem_map]
      by_cases hxu : x = u
      · right
        subst hxu
        refine ⟨y, ?_, rfl⟩
        rw [mem_members, hmemN]
        refine ⟨?_, he, hy⟩
        rintro rfl
        exact hin.crem _ hx hy
      · left; exact hin.cut x y hx hxu hy he
    rcases primSearch_spec hp rem (Q1.length + 1) Q1 (by omega) with ⟨E, Q', h1, h2, h3, h4, h5, h6⟩ | ⟨h1, h2⟩
    · simp only [h1]
      obtain ⟨hCs, hEe, hEw⟩ := hq1 E h2
      have hmin : ∀ x y, C x → Mem rem y → M.Edge x y → w E.src E.snk ≤ w x y := by
        intro x y hx hy he
        have := h4 _ (hcut1 x y hx hy he) hy
        rwa [hEw] at this
      have hv64 : E.snk < 64 := mem_lt h3
      have hs64 : E.src < 64 := by have := (hW.row _ _ hEe).1; have := hW.le; omega
      have hrem : ∀ x, Mem (set rem E.snk false) x ↔ x ≠ E.snk ∧ Mem rem x := by
        intro x; rw [mem_setOp _ _ hv64]; split <;> simp_all
      have hinv := h.add hW hS hw (u := u) hin.tree hin.crem hin.done hCs h3 hEe hmin
      have hsub : Sub (set rem E.snk false) rem := fun i hi => ((hrem i).1 hi).2
      have hsz : size (set rem E.snk false) < size rem := by
        apply size_lt_of_ssub hsub
        intro hc
        have := (hrem E.snk).1 (by rw [hc]; exact h3)
        exact this.1 rfl
      have hE := edge_add F E.src E.snk hs64 hv64
      have hmono : ∀ a b, F.Edge a b → ((F.setAt E.snk E.src true).setAt E.src E.snk true).Edge a b := fun a b hab =>
        (hE a b).2 (Or.inr (Or.inr hab))
      have hin' : PrimIn M w E.snk Q' (set rem E.snk false) ((F.setAt E.snk E.src true).setAt E.src E.snk true)
          (fun x => C x ∨ x = E.snk) := by
        constructor
        · exact Or.inr rfl
        · intro x hx
          rw [hrem]
          rintro ⟨h7, h8⟩
          rcases hx with hx | hx
          · exact hin.crem x hx h8
          · exact h7 hx
        · intro x hx
          rcases hx with hx | rfl
          · refine .head ((hE E.snk E.src).2 (Or.inr (Or.inl ⟨rfl, rfl⟩))) (rtg_mono hmono ?_)
            exact (rtg_symm h.symm (hin.tree _ hCs)).trans (hin.tree x hx)
          · exact .refl
        · intro x y hx hxC hy he
          rw [hrem] at hx hy
          push Not at hxC
          exact hin.done x y (fun hc => hx ⟨hxC.2, hc⟩) hxC.1 hy.2 he
        · intro e he
          obtain ⟨h7, h8⟩ := hq1 e (h5 e he)
          exact ⟨Or.inl h7, h8⟩
        · intro x y hx hxne hy he
          rw [hrem] at hy
          have hxC : C x := by
            rcases hx with hx | hx
            · exact hx
            · exact absurd hx hxne
          rcases h6 _ (hcut1 x y hxC hy.2 he) hy.2 with h7 | h7
          · exact absurd (congrArg WEdge.snk h7) hy.1
          · exact h7
      obtain ⟨r1, r2, r3, r4⟩ := ih E.snk Q' _ _ _ hinv hin' hv64 (by omega)
      exact ⟨r1, r2, r3.trans hsub, r4⟩
    · simp only [h1]
      refine ⟨trivial, h, Sub.refl _, ?_⟩
      intro x y hx hy he
      by_cases hxC : C x
      · exact h2 _ (hcut1 x y hxC hy he) hy
      · exact hin.done x y hx hxC hy he

theorem msfLoop_spec {M : AdjMat} (hW : M.WF) (hS : M.Symm) {w : Nat → Nat → W} (hw : ∀ a b, w a b = w b a)
    {pick : List (WEdge W) → Nat} (hp : PickMin pick)
    (fuel : Nat) (rem : SB) (F : AdjMat) (h : PrimInv M w rem F)
    (hcl : ∀ x y, ¬ Mem rem x → Mem rem y → ¬ M.Edge x y) (hf : size rem < fuel) :
    PrimInv M w 0#64 (msfLoop pick M w fuel [] rem F) := by
  induction fuel generalizing rem F with
  | zero => omega
  | succ f ih =>
    rw [msfLoop]
    split
    · rename_i he
      rw [SB.isEmpty_iff] at he
      have : rem = 0#64 := SB.ext fun i => by simp [he i]
      rwa [this] at h
    · rename_i he
      have h0 : rem ≠ 0#64 := by
        rintro rfl; apply he; rw [SB.isEmpty_iff]; simp
      obtain ⟨z, hz⟩ := exists_least h0
      have hz64 := mem_lt hz.1
      have hctz : ctz (lo rem) = z := by
        rw [lo_eq_singleton hz]; exact ctz_eq (isLeast_singleton hz64)
      have hrem : ∀ x, Mem (diff rem (lo rem)) x ↔ Mem rem x ∧ x ≠ z := by
        intro x; rw [mem_diff, mem_lo hz]
      simp only [hctz]
      have hinv : PrimInv M w (diff rem (lo rem)) F := by
        refine ⟨h.n, h.symm, h.sub, fun a b hab => ?_, h.acyc, ?_, h.opt⟩
        · rw [hrem]; exact fun hc => h.vis a b hab hc.1
        · intro a b hab ha hb hne
          rw [hrem] at ha hb
          by_cases haz : a = z
          · subst haz
            have hbr : ¬ Mem rem b := fun hc => hb ⟨hc, fun hc' => hne hc'.symm⟩
            exact absurd (hS _ _ hab) (hcl b a hbr hz.1)
          · by_cases hbz : b = z
            · subst hbz
              have har : ¬ Mem rem a := fun hc => ha ⟨hc, hne⟩
              exact absurd hab (hcl a b har hz.1)
            · exact h.conn a b hab (fun hc => ha ⟨hc, haz⟩) (fun hc => hb ⟨hc, hbz⟩) hne
      have hin : PrimIn M w z [] (diff rem (lo rem)) F (fun x => x = z) := by
        constructor
        · rfl
        · rintro x rfl; rw [hrem]; exact fun hc => hc.2 rfl
        · rintro x rfl; exact .refl
        · intro x y hx hxC hy
          rw [hrem] at hx hy
          exact hcl x y (fun hc => hx ⟨hc, hxC⟩) hy.1
        · intro e he; simp at he
        · rintro x y rfl hne; exact absurd rfl hne
      obtain ⟨r1, r2, r3, r4⟩ := primLoop_spec hW hS hw hp 65 z [] (diff rem (lo rem)) F _ hinv hin hz64
        (by have := size_le (diff rem (lo rem)); omega)
      rw [r1]
      refine ih _ _ r2 r4 ?_
      have h1 := size_le_of_sub r3
      have h2 : size (diff rem (lo rem)) < size rem := by
        apply size_lt_of_ssub
        · intro i hi; exact ((hrem i).1 hi).1
        · intro hc
          have := (hrem z).1 (by rw [hc]; exact hz.1)
          exact this.2 rfl
      omega

theorem msf_inv {M : AdjMat} (hW : M.WF) (hS : M.Symm) {w : Nat → Nat → W} (hw : ∀ a b, w a b = w b a)
    {pick : List (WEdge W) → Nat} (hp : PickMin pick) : PrimInv M w 0#64 (msf pick M w) := by
  have hmk : ∀ a b, ¬ (mk0 M.n).Edge a b := fun a b => by simp [Edge, mk0]
  have h0 : PrimInv M w (all M.n) (mk0 M.n) := by
    refine ⟨rfl, fun a b h => absurd h (hmk a b), fun a b h => absurd h (hmk a b), fun a b h => absurd h (hmk a b),
      fun a b h => absurd h (hmk a b), ?_, ?_⟩
    · intro a b hab ha _ _
      rw [mem_all hW.le] at ha
      exact absurd (hW.row a b hab).1 ha
    · intro H hH
      exact ⟨H, hH, fun a b h => absurd h (hmk a b), le_rfl⟩
  rw [msf]
  split
  · rename_i hn
    have : all M.n = 0#64 := by
      apply SB.ext; intro i; rw [mem_all hW.le]; simp [hn]
    rwa [this] at h0
  · apply msfLoop_spec hW hS hw hp 65 (all M.n) (mk0 M.n) h0
    · intro x y hx _ he
      rw [mem_all hW.le] at hx
      exact hx (hW.row x y he).1
    · have := size_le (all M.n); omega

theorem totalWeight_mono {w : Nat → Nat → W} (hpos : ∀ a b, 0 ≤ w a b) {F H : AdjMat} (hn : F.n = H.n)
    (h : ∀ a b, F.Edge a b → H.Edge a b) : totalWeight w F ≤ totalWeight w H := by
  unfold totalWeight
  apply Finset.sum_le_sum_of_subset_of_nonneg
  · intro p; rw [mem_edges, mem_edges, hn]
    rintro ⟨h1, h2, h3, h4⟩
    exact ⟨h1, h2, h3, h _ _ h4⟩
  · intro p _ _; exact hpos _ _

end AdjMat
end Mutable
