import Verif.Common
import Verif.Graph.Closure
/-! `tree_directed_away_from`. -/
namespace Mutable
open SB
namespace AdjMat

/-- Edge relation with the undirected edge `{a, b}` removed. -/
def EdgeMinus (M : AdjMat) (a b : Nat) (x y : Nat) : Prop :=
  M.Edge x y ∧ ¬ (x = a ∧ y = b) ∧ ¬ (x = b ∧ y = a)

/-- Acyclic: every edge is a bridge. -/
def Acyclic (M : AdjMat) : Prop := ∀ a b, M.Edge a b → ¬ Relation.ReflTransGen (M.EdgeMinus a b) a b

theorem edgeMinus_symm {M : AdjMat} (hM : M.Symm) {a b x y : Nat} (h : M.EdgeMinus a b x y) : M.EdgeMinus a b y x :=
  ⟨hM _ _ h.1, fun hc => h.2.2 ⟨hc.2, hc.1⟩, fun hc => h.2.1 ⟨hc.2, hc.1⟩⟩

theorem rtg_symm {α} {r : α → α → Prop} (hr : ∀ a b, r a b → r b a) {a b : α} (h : Relation.ReflTransGen r a b) :
    Relation.ReflTransGen r b a := by
  induction h with
  | refl => exact .refl
  | tail _ h2 ih => exact .head (hr _ _ h2) ih

theorem treeRows_row (M : AdjMat) (V X : SB) (D : AdjMat) :
    (M.treeRows V X D).n = D.n ∧
    ∀ k, (M.treeRows V X D).m k = if Mem V k then diff (M.m k) X else D.m k := by
  have key : ∀ (l : List Nat) (D : AdjMat),
      (l.foldl (fun D v => (⟨D.n, fun k => if k = v then diff (M.m v) X else D.m k⟩ : AdjMat)) D).n = D.n ∧
      ∀ k, (l.foldl (fun D v => (⟨D.n, fun k => if k = v then diff (M.m v) X else D.m k⟩ : AdjMat)) D).m k =
        if k ∈ l then diff (M.m k) X else D.m k := by
    intro l
    induction l with
    | nil => intro D; simp
    | cons a l ih =>
      intro D
      rw [List.foldl_cons]
      refine ⟨(ih _).1, fun k => ?_⟩
      rw [(ih _).2]
      by_cases h1 : k ∈ l
      · simp [h1]
      · by_cases h2 : k = a
        · subst h2; simp [h1]
        · simp [h1, h2]
  refine ⟨(key _ D).1, fun k => ?_⟩
  rw [treeRows, (key _ D).2]
  simp only [mem_members]

structure TreeInv (M : AdjMat) (root : Nat) (V X : SB) (D : AdjMat) : Prop where
  disj : ∀ i, Mem V i → ¬ Mem X i
  hroot : Mem X root ∨ Mem V root
  pathX : ∀ x, Mem X x → Relation.ReflTransGen (M.EdgeIn X) root x
  pathV : ∀ v, Mem V v → Relation.ReflTransGen (M.EdgeIn (X ||| SB.singleton v)) root v
  out : ∀ x, ¬ Mem X x → D.m x = 0#64
  row : ∀ x, Mem X x → ∀ y, D.Edge x y ↔ M.Edge x y ∧ Relation.ReflTransGen (M.EdgeMinus x y) root x
  front : ∀ x, Mem X x → ∀ y, M.Edge x y → Mem X y ∨ Mem V y

theorem path_minus {M : AdjMat} {S : SB} {r x y : Nat} (hy : ¬ Mem S y)
    (h : Relation.ReflTransGen (M.EdgeIn S) r x) : Relation.ReflTransGen (M.EdgeMinus x y) r x :=
  rtg_mono (fun a b h => ⟨h.1, fun hc => hy (by rw [← hc.2]; exact h.2.2), fun hc => hy (by rw [← hc.1]; exact h.2.1)⟩) h

theorem edgeIn_mono {M : AdjMat} {S T : SB} (hST : Sub S T) {a b : Nat}
    (h : Relation.ReflTransGen (M.EdgeIn S) a b) : Relation.ReflTransGen (M.EdgeIn T) a b :=
  rtg_mono (fun _ _ h => ⟨h.1, hST _ h.2.1, hST _ h.2.2⟩) h

theorem TreeInv.step {M : AdjMat} (hS : M.Symm) (hA : M.Acyclic) {root : Nat} {V X : SB} {D : AdjMat}
    (h : TreeInv M root V X D) :
    TreeInv M root ((M.treeRows V (X ||| V) D).neighbors V) (X ||| V) (M.treeRows V (X ||| V) D) := by
  have hrow := (treeRows_row M V (X ||| V) D).2
  have hDV : ∀ v y, Mem V v → ((M.treeRows V (X ||| V) D).Edge v y ↔ M.Edge v y ∧ ¬ Mem (X ||| V) y) := by
    intro v y hv
    rw [Edge, hrow, if_pos hv, mem_diff]; rfl
  have hsubX : Sub X (X ||| V) := fun i hi => by simp [hi]
  have hsubV : ∀ v, Mem V v → Sub (X ||| SB.singleton v) (X ||| V) := by
    intro v hv i hi
    rw [mem_or, mem_singleton] at hi
    rw [mem_or]
    rcases hi with hi | ⟨_, rfl⟩
    · exact Or.inl hi
    · exact Or.inr hv
  -- paths avoiding another vertex
  have hav : ∀ v y, Mem V v → Mem (X ||| V) y → y ≠ v → Relation.ReflTransGen (M.EdgeMinus y v) root y := by
    intro v y hv hy hne
    rcases (mem_or _ _ _).1 hy with hy | hy
    · exact path_minus (h.disj v hv) (h.pathX y hy)
    · refine path_minus ?_ (h.pathV y hy)
      rw [mem_or, mem_singleton]
      rintro (hc | ⟨_, hc⟩)
      · exact h.disj v hv hc
      · exact hne hc.symm
  constructor
  · intro i hi hX
    rw [mem_neighbors] at hi
    obtain ⟨_, v, hv, he⟩ := hi
    exact ((hDV v i hv).1 he).2 hX
  · left
    rw [mem_or]
    exact h.hroot
  · intro x hx
    rcases (mem_or _ _ _).1 hx with hx | hx
    · exact edgeIn_mono hsubX (h.pathX x hx)
    · exact edgeIn_mono (hsubV x hx) (h.pathV x hx)
  · intro i hi
    rw [mem_neighbors] at hi
    obtain ⟨_, v, hv, he⟩ := hi
    have he' := ((hDV v i hv).1 he)
    have hi64 : i < 64 := mem_lt he'.1
    refine .tail (edgeIn_mono ?_ (h.pathV v hv)) ⟨he'.1, ?_, ?_⟩
    · exact (hsubV v hv).trans (fun j hj => by rw [mem_or]; exact Or.inl hj)
    · rw [mem_or, mem_or]; exact Or.inl (Or.inr hv)
    · rw [mem_or, mem_singleton]; exact Or.inr ⟨hi64, rfl⟩
  · intro x hx
    rw [mem_or] at hx
    push Not at hx
    rw [hrow, if_neg hx.2, h.out x hx.1]
  · intro x hx y
    by_cases hxV : Mem V x
    · rw [hDV x y hxV]
      constructor
      · rintro ⟨h1, h2⟩
        refine ⟨h1, path_minus ?_ (h.pathV x hxV)⟩
        exact fun hc => h2 (hsubV x hxV y hc)
      · rintro ⟨h1, h2⟩
        refine ⟨h1, fun hc => ?_⟩
        have hne : y ≠ x := by
          rintro rfl
          exact hA _ _ h1 .refl
        have h3 := hav x y hxV hc hne
        apply hA y x (hS _ _ h1)
        have h2' : Relation.ReflTransGen (M.EdgeMinus y x) root x :=
          rtg_mono (fun a b h => ⟨h.1, h.2.2, h.2.1⟩) h2
        exact (rtg_symm (fun a b h => edgeMinus_symm hS h) h3).trans h2'
    · have hxX : Mem X x := by
        rcases (mem_or _ _ _).1 hx with h1 | h1
        · exact h1
        · contradiction
      have : (M.treeRows V (X ||| V) D).Edge x y ↔ D.Edge x y := by
        rw [Edge, hrow, if_neg hxV]; rfl
      rw [this]; exact h.row x hxX y
  · intro x hx y hxy
    by_cases hyX : Mem (X ||| V) y
    · exact Or.inl hyX
    · right
      rcases (mem_or _ _ _).1 hx with h1 | h1
      · have := h.front x h1 y hxy
        rw [mem_or] at hyX
        contradiction
      · rw [mem_neighbors]
        refine ⟨fun hc => hyX (by rw [mem_or]; exact Or.inr hc), x, h1, (hDV x y h1).2 ⟨hxy, hyX⟩⟩

theorem treeLoop_spec {M : AdjMat} (hS : M.Symm) (hA : M.Acyclic) (root : Nat) (fuel : Nat) (V X : SB) (D : AdjMat)
    (h : TreeInv M root V X D) (hf : 65 ≤ fuel + size X) :
    ∃ X', TreeInv M root 0#64 X' (treeLoop M fuel V X D) ∧ (treeLoop M fuel V X D).n = D.n := by
  induction fuel generalizing V X D with
  | zero => have := size_le X; omega
  | succ f ih =>
    rw [treeLoop]
    split
    · rename_i he
      rw [SB.isEmpty_iff] at he
      have : V = 0#64 := SB.ext fun i => by simp [he i]
      subst this
      exact ⟨X, h, rfl⟩
    · rename_i he
      have hlt : size X < size (X ||| V) := by
        apply size_lt_of_ssub
        · intro i hi; simp [hi]
        · intro hc
          apply he
          rw [SB.isEmpty_iff]
          intro i hi
          apply h.disj i hi
          rw [hc, mem_or]; exact Or.inr hi
      obtain ⟨X', h1, h2⟩ := ih _ _ _ (h.step hS hA) (by omega)
      exact ⟨X', h1, h2.trans (treeRows_row M V (X ||| V) D).1⟩

theorem treeDirected_spec {M : AdjMat} (hW : M.WF) (hS : M.Symm) (hA : M.Acyclic) (hC : M.ConnSet (all M.n))
    (root : Nat) (hr : root < M.n) (a b : Nat) :
    (M.treeDirectedAwayFrom (singleton root)).Edge a b ↔
      M.Edge a b ∧ Relation.ReflTransGen (M.EdgeMinus a b) root a := by
  have hr64 : root < 64 := by have := hW.le; omega
  have hinit : TreeInv M root (singleton root) 0#64 (mk0 M.n) := by
    constructor
    · intro i _; simp
    · right; simp [hr64]
    · intro x hx; simp at hx
    · intro v hv; rw [mem_singleton] at hv; rw [hv.2]
    · intro x _; rfl
    · intro x hx; simp at hx
    · intro x hx; simp at hx
  obtain ⟨X', h, _⟩ := treeLoop_spec hS hA root 65 (singleton root) 0#64 (mk0 M.n) hinit (by omega)
  change TreeInv M root 0#64 X' (M.treeDirectedAwayFrom (singleton root)) at h
  have hclosed : ∀ x, x < M.n → Mem X' x := by
    intro x hx
    have hp := hC root x ((mem_all hW.le _).2 hr) ((mem_all hW.le _).2 hx)
    clear hx
    induction hp with
    | refl =>
      rcases h.hroot with h1 | h1
      · exact h1
      · simp at h1
    | tail _ h2 ih =>
      rcases h.front _ ih _ h2.1 with h3 | h3
      · exact h3
      · simp at h3
  by_cases ha : Mem X' a
  · exact h.row a ha b
  · have h1 : ¬ M.Edge a b := fun hc => ha (hclosed a (hW.row a b hc).1)
    have h2 : ¬ (M.treeDirectedAwayFrom (singleton root)).Edge a b := by
      rw [Edge, h.out a ha]; simp
    simp [h1, h2]

/-- exactly one direction of every tree edge survives -/
theorem tree_one_direction {M : AdjMat} (hW : M.WF) (hS : M.Symm) (hA : M.Acyclic) (hC : M.ConnSet (all M.n))
    (root : Nat) (hr : root < M.n) (a b : Nat) (he : M.Edge a b) :
    Xor (Relation.ReflTransGen (M.EdgeMinus a b) root a) (Relation.ReflTransGen (M.EdgeMinus b a) root b) := by
  have hsw : ∀ x y, M.EdgeMinus b a x y ↔ M.EdgeMinus a b x y :=
    fun x y => ⟨fun h => ⟨h.1, h.2.2, h.2.1⟩, fun h => ⟨h.1, h.2.2, h.2.1⟩⟩
  have hsw' : M.EdgeMinus b a = M.EdgeMinus a b := by funext x y; exact propext (hsw x y)
  rw [hsw']
  by_cases h1 : Relation.ReflTransGen (M.EdgeMinus a b) root a
  · refine Or.inl ⟨h1, fun h2 => ?_⟩
    exact hA a b he ((rtg_symm (fun _ _ h => edgeMinus_symm hS h) h1).trans h2)
  · refine Or.inr ⟨?_, h1⟩
    by_contra h2
    have hp := hC root a ((mem_all hW.le _).2 hr) ((mem_all hW.le _).2 (hW.row a b he).1)
    obtain ⟨x, y, _, hxy, hx, hy⟩ := exists_cross (fun x => Relation.ReflTransGen (M.EdgeMinus a b) root x) hp .refl h1
    apply hy
    refine .tail hx ⟨hxy.1, ?_, ?_⟩
    · rintro ⟨rfl, rfl⟩; exact h1 hx
    · rintro ⟨rfl, rfl⟩; exact h2 hx

end AdjMat
end Mutable
