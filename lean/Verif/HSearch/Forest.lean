import Verif.HSearch.Join
/-! Join trees as search paths, and replaying a path in the plan table. -/
namespace Mutable
open SB
namespace PE

/-- The intermediate and final results of a join tree. -/
def Tree.inner : Tree → List SB
  | .leaf _ => []
  | .node l r => (l.rels ||| r.rels) :: (l.inner ++ r.inner)

/-- The cost *C_out* of a join tree: the sum of the sizes of all its join results. -/
def Tree.cout {K : Type} [AddMonoid K] (card : SB → K) (t : Tree) : K := (t.inner.map card).sum

theorem inner_sub {n : Nat} {may : SB → SB → Prop} {t : Tree} {S : SB} (h : IsPlan n may t S) : ∀ X ∈ t.inner, Sub X S := by
  induction h with
  | leaf i hi => simp [Tree.inner]
  | @node l r A B hl hr hd hm ihl ihr =>
    intro X hX
    simp only [Tree.inner, List.mem_cons, List.mem_append] at hX
    rw [isPlan_rels hl, isPlan_rels hr] at hX
    rcases hX with rfl | hX | hX
    · exact fun i h => h
    · exact fun i h => sub_left A B i (ihl X hX i h)
    · exact fun i h => sub_right A B i (ihr X hX i h)

end PE
namespace HS
open PE

section
variable {K : Type} [Field K] [LinearOrder K] {M : AdjMat} {n : Nat} {card : SB → K}

/-- Cost of a tree as the search counts it. -/
def xcost (n : Nat) (card : SB → K) (t : Tree) : K := t.cout (actionCost n card)

theorem xcost_leaf (i : Nat) : xcost n card (.leaf i) = 0 := rfl

theorem xcost_node (l r : Tree) : xcost n card (.node l r) = actionCost n card (l.rels ||| r.rels) + (xcost n card l + xcost n card r) := by
  simp [xcost, Tree.cout, Tree.inner]

/-- The search does not count the final result. -/
theorem cout_eq (hn : n ≤ 64) (h2 : 2 ≤ n) {may : SB → SB → Prop} {t : Tree} (h : IsPlan n may t (all n)) :
    t.cout card = card (all n) + xcost n card t := by
  generalize hS : all n = S at h
  cases h with
  | leaf i hi =>
    exfalso
    have h3 : size (all n) = 1 := by rw [hS, size_singleton (by omega)]
    rw [size_all hn] at h3; omega
  | @node l r A B hl hr hd hm =>
    rw [xcost_node, isPlan_rels hl, isPlan_rels hr, actionCost, if_pos hS.symm, zero_add]
    have key : ∀ (t : Tree) (X : SB), IsPlan n may t X → X ≠ A ||| B → Sub X (A ||| B) → t.cout card = xcost n card t := by
      intro t X ht hX hsub
      rw [xcost, Tree.cout, Tree.cout]
      congr 1
      refine List.map_congr_left fun Y hY => ?_
      rw [actionCost, if_neg]
      rintro rfl
      have h1 := inner_sub ht _ hY
      rw [hS] at h1
      exact hX (SB.ext fun i => ⟨fun h => hsub i h, fun h => h1 i h⟩)
    rw [← key l A hl (union_ne_left hd (isPlan_ne hn hr)).symm (sub_left A B),
      ← key r B hr (union_ne_right hd (isPlan_ne hn hl)).symm (sub_right A B)]
    simp [Tree.cout, Tree.inner, isPlan_rels hl, isPlan_rels hr]

theorem plan_single {may : SB → SB → Prop} (hn : n ≤ 64) {t : Tree} {S : SB} (h : IsPlan n may t S) (hs : isSingleton S = true) :
    xcost n card t = 0 := by
  cases h with
  | leaf i hi => rfl
  | node hl hr hd hm =>
    have := size_union_ne_one hd (isPlan_ne hn hl) (isPlan_ne hn hr)
    rw [isSingleton] at hs; simp at hs; exact absurd hs this

/-- The cost of a forest of join trees. -/
def fcost (n : Nat) (card : SB → K) (f : SB → Tree) (l : List SB) : K := (l.map (fun P => xcost n card (f P))).sum

/-- `f` assigns to every part a join tree without cross products. -/
def Plans (M : AdjMat) (n : Nat) (f : SB → Tree) (l : List SB) : Prop := ∀ P ∈ l, IsPlan n (Adjacent M) (f P) P

theorem fcost_bottom (hn : n ≤ 64) {f : SB → Tree} {l : List SB} (hf : Plans M n f l) (h : ∀ P ∈ l, isSingleton P = true) :
    fcost n card f l = 0 := by
  refine List.sum_eq_zero fun x hx => ?_
  obtain ⟨P, hP, rfl⟩ := List.mem_map.1 hx
  exact plan_single hn (hf P hP) (h P hP)

theorem fcost_congr {f g : SB → Tree} {l : List SB} (h : ∀ P ∈ l, f P = g P) : fcost n card f l = fcost n card g l := by
  unfold fcost; congr 1; exact List.map_congr_left fun P hP => by rw [h P hP]

theorem fcost_perm (f : SB → Tree) {l l' : List SB} (h : l.Perm l') : fcost n card f l = fcost n card f l' :=
  (h.map _).sum_eq

theorem fcost_cons (f : SB → Tree) (P : SB) (l : List SB) : fcost n card f (P :: l) = xcost n card (f P) + fcost n card f l := by
  simp [fcost]

/-- A join's forest: the trees of both sides below a new root. -/
theorem JoinRel.fcost_eq (hM : M.Symm) {before after : List SB} {A B : SB} (h : JoinRel M before after A B) (hw : Wf M n before)
    {f g : SB → Tree} (hg : ∀ P ∈ before, P ≠ A → P ≠ B → g P = f P)
    (hr : xcost n card (g (A ||| B)) = actionCost n card (A ||| B) + (xcost n card (f A) + xcost n card (f B))) :
    fcost n card g after = fcost n card f before + actionCost n card (A ||| B) := by
  obtain ⟨rest, h1, h2, h3⟩ := h.perm hw (nodup_of_sorted (h.wf hM hw).sorted)
  rw [fcost_perm g h2, fcost_perm f h1, fcost_cons, fcost_cons, fcost_cons, hr,
    fcost_congr (f := g) (g := f) (fun P hP => hg P (h3 P hP).1 (h3 P hP).2.1 (h3 P hP).2.2)]
  ring

/-- Undoing a join of a forest. -/
theorem JoinRel.undo (hM : M.Symm) {before after : List SB} {A B : SB} (h : JoinRel M before after A B) (hw : Wf M n before)
    {f : SB → Tree} (hf : Plans M n f after) {a b : Tree} (ha : IsPlan n (Adjacent M) a A) (hb : IsPlan n (Adjacent M) b B)
    (hab : xcost n card (f (A ||| B)) = actionCost n card (A ||| B) + (xcost n card a + xcost n card b)) :
    ∃ g, Plans M n g before ∧ fcost n card f after = fcost n card g before + actionCost n card (A ||| B) := by
  refine ⟨fun P => if P = A then a else if P = B then b else f P, fun P hP => ?_, ?_⟩
  · by_cases h1 : P = A
    · subst h1; simpa using ha
    · by_cases h2 : P = B
      · subst h2; simpa [h1] using hb
      · simpa [h1, h2] using hf P ((h.mem P).2 (Or.inr ⟨hP, h1, h2⟩))
  · refine h.fcost_eq hM hw (fun P _ h1 h2 => by simp [h1, h2]) ?_
    rw [hab]; simp [Ne.symm h.ne]

/-- The root of a tree over several relations, with its sides in order. -/
theorem plan_split (hM : M.Symm) (hn : n ≤ 64) {t : Tree} {S : SB} (h : IsPlan n (Adjacent M) t S) (hs : isSingleton S = false) :
    ∃ A B a b, IsPlan n (Adjacent M) a A ∧ IsPlan n (Adjacent M) b B ∧ A &&& B = 0#64 ∧ Adjacent M A B ∧ A < B ∧ A ||| B = S ∧
      xcost n card t = actionCost n card S + (xcost n card a + xcost n card b) := by
  cases h with
  | leaf i hi => rw [isSingleton, size_singleton (by omega)] at hs; simp at hs
  | @node l r A B hl hr hd hm =>
    have hne : A ≠ B := by
      intro hc; subst hc
      obtain ⟨i, hi⟩ := (ne_zero_iff _).1 (isPlan_ne hn hl)
      exact disj_mem hd hi hi
    rcases slt_total hne with h | h
    · exact ⟨A, B, l, r, hl, hr, hd, hm, h, rfl, by rw [xcost_node, isPlan_rels hl, isPlan_rels hr]⟩
    · exact ⟨B, A, r, l, hr, hl, disj_comm hd, adjacent_symm hM hm, h, or_comm' B A, by
        rw [xcost_node, isPlan_rels hl, isPlan_rels hr, add_comm (xcost n card l)]⟩

end

/-! ### Replaying joins in the plan table -/

section
variable {K : Type} [Field K] [LinearOrder K] {C D : Type} [LinearOrder C] {E : PE.Env C D} {est : SB → D} {base : Nat → C}
  {card : SB → K}

theorem recorded_ne {T : PT C D} {S : SB} {t : Tree} (h : Recorded T S t) : S ≠ 0#64 := by
  induction h with
  | leaf i hi => exact (ne_zero_iff _).2 ⟨i, (mem_singleton _ _).2 ⟨hi, rfl⟩⟩
  | @node S l r hs hl hr hu ihl ihr =>
    obtain ⟨i, hi⟩ := (ne_zero_iff _).1 ihl
    exact (ne_zero_iff _).2 ⟨i, hu ▸ (mem_or _ _ _).2 (Or.inl hi)⟩

theorem recorded_has {T : PT C D} {S : SB} {t : Tree} (h : Recorded T S t) : hasPlan T S = true := by
  cases h with
  | leaf i hi => simp [hasPlan, size_singleton hi]
  | node hs hl hr hu =>
    have := recorded_ne hl
    simp [hasPlan, isEmpty, this]

theorem recorded_congr {T T' : PT C D} {S : SB} {t : Tree} (h : Recorded T S t) (hx : ∀ X, Sub X S → T' X = T X) : Recorded T' S t := by
  induction h with
  | leaf i hi => exact .leaf i hi
  | @node S l r hs hl hr hu ihl ihr =>
    have hS := hx S (fun _ h => h)
    refine .node hs ?_ ?_ (by rw [hS]; exact hu)
    · rw [hS]; exact ihl (fun X hX => hx X (fun i hi => hu ▸ sub_left _ _ i (hX i hi)))
    · rw [hS]; exact ihr (fun X hX => hx X (fun i hi => hu ▸ sub_right _ _ i (hX i hi)))

/-- The plan table holds a join tree for each of the parts, and no others; the trees cost `c` in the search. -/
structure Forest (E : PE.Env C D) (est : SB → D) (base : Nat → C) (card : SB → K) (T : PT C D) (l : List SB) (c : K) : Prop where
  models : ModelOK est E.n T
  only : ∀ S, hasPlan T S = true → size S = 1 ∨ ∃ P ∈ l, Sub S P
  plans : ∃ f, (∀ P ∈ l, Recorded T P (f P) ∧ (f P).cost E est base = (T P).cost) ∧ Plans E.M E.n f l ∧
    fcost E.n card f l = c

theorem Forest.init (hn : E.n ≤ 64) {T : PT C D} (hT : Init est base E.n T) : Forest E est base card T (bottom E.n).parts 0 := by
  have hmem : ∀ P ∈ (bottom E.n).parts, ∃ k, k < E.n ∧ P = SB.singleton k := by
    intro P hP; simp only [bottom, List.mem_map, List.mem_range] at hP
    obtain ⟨k, h1, h2⟩ := hP; exact ⟨k, h1, h2.symm⟩
  have hp : ∀ S, hasPlan T S = true → size S = 1 := by
    intro S h
    by_contra hc
    simp [hasPlan, hc, hT.noplan S hc, isEmpty] at h
  refine ⟨⟨hT.model, fun S hS h => ?_⟩, fun S h => Or.inl (hp S h), ?_⟩
  · obtain ⟨k, hk, rfl⟩ := (isSingleton_iff S).1 (by rw [isSingleton, hp S h]; rfl)
    exact (hT.single k ((mem_all hn k).1 (hS k ((mem_singleton _ _).2 ⟨hk, rfl⟩)))).1
  · -- the tree of a single relation is a leaf
    have hleaf : ∀ P : SB, ∃ t : Tree, ∀ k, k < E.n → P = SB.singleton k → t = .leaf k := by
      intro P
      by_cases h : ∃ k, k < E.n ∧ P = SB.singleton k
      · obtain ⟨k, hk, rfl⟩ := h
        refine ⟨.leaf k, fun j hj he => ?_⟩
        have : Mem (SB.singleton j) k := by rw [← he]; exact (mem_singleton _ _).2 ⟨by omega, rfl⟩
        rw [((mem_singleton _ _).1 this).2]
      · exact ⟨.leaf 0, fun k hk he => absurd ⟨k, hk, he⟩ h⟩
    choose f hf using hleaf
    have hpl : Plans E.M E.n f (bottom E.n).parts := by
      intro P hP
      obtain ⟨k, hk, rfl⟩ := hmem P hP
      rw [hf _ k hk rfl]; exact .leaf k hk
    refine ⟨f, fun P hP => ?_, hpl, fcost_bottom hn hpl fun P hP => ?_⟩
    · obtain ⟨k, hk, rfl⟩ := hmem P hP
      rw [hf _ k hk rfl]
      exact ⟨.leaf k (by omega), ((hT.single k hk).2).symm⟩
    · obtain ⟨k, hk, rfl⟩ := hmem P hP
      exact (isSingleton_iff _).2 ⟨k, by omega, rfl⟩

/-- A join is replayed without violating an assertion. -/
theorem Forest.join (hE : Sane E est) (hM : E.M.Symm) (hn : E.n ≤ 64) {T : PT C D} {before after : List SB} {A B : SB} {c : K}
    (hF : Forest E est base card T before c) (hw : Wf E.M E.n before) (h : JoinRel E.M before after A B) :
    hasPlan T (A ||| B) = false ∧ ∃ T', PE.update E T A B = some T' ∧
      Forest E est base card T' after (c + actionCost E.n card (A ||| B)) := by
  have hd := hw.disj _ h.memA _ h.memB h.ne
  have hA := hw.ne _ h.memA
  have hB := hw.ne _ h.memB
  -- no part contains both sides
  have hsub : ∀ P ∈ before, ¬ Sub (A ||| B) P := by
    intro P hP hs
    have h1 : P = A := by
      by_contra hc
      obtain ⟨i, hi⟩ := (ne_zero_iff _).1 hA
      exact disj_mem (hw.disj P hP A h.memA hc) (hs i (sub_left _ _ i hi)) hi
    have h2 : P = B := by
      by_contra hc
      obtain ⟨i, hi⟩ := (ne_zero_iff _).1 hB
      exact disj_mem (hw.disj P hP B h.memB hc) (hs i (sub_right _ _ i hi)) hi
    exact h.ne (h1.symm.trans h2)
  have hno : hasPlan T (A ||| B) = false := by
    by_contra hc
    rcases hF.only _ (by simpa using hc) with h1 | ⟨P, hP, hs⟩
    · exact size_union_ne_one hd hA hB h1
    · exact hsub P hP hs
  obtain ⟨f, h1, h2, h3⟩ := hF.plans
  have hall : ∀ P ∈ before, Sub P (all E.n) := fun P hP i hi => (mem_all hn i).2 ((hw.cover i).2 ⟨P, hP, hi⟩)
  obtain ⟨T', h4, h5, h6⟩ := update_ok hE hF.models hA hB hd
    (hF.models.some A (hall A h.memA) (recorded_has (h1 A h.memA).1)) (hF.models.some B (hall B h.memB) (recorded_has (h1 B h.memB).1))
  refine ⟨hno, T', h4, h6, fun S hS => ?_, ?_⟩
  · by_cases hSJ : S = A ||| B
    · exact Or.inr ⟨A ||| B, (h.mem _).2 (Or.inl rfl), by rw [hSJ]; exact fun _ h => h⟩
    · rw [hasPlan, h5.other S hSJ] at hS
      rcases hF.only S hS with hs | ⟨P, hP, hs⟩
      · exact Or.inl hs
      · right
        by_cases hPA : P = A
        · exact ⟨A ||| B, (h.mem _).2 (Or.inl rfl), fun i hi => sub_left _ _ i (hPA ▸ hs i hi)⟩
        · by_cases hPB : P = B
          · exact ⟨A ||| B, (h.mem _).2 (Or.inl rfl), fun i hi => sub_right _ _ i (hPB ▸ hs i hi)⟩
          · exact ⟨P, (h.mem _).2 (Or.inr ⟨hP, hPA, hPB⟩), hs⟩
  · have hagree : ∀ P ∈ before, ∀ X, Sub X P → T' X = T X := by
      intro P hP X hX
      exact h5.other X (fun hc => hsub P hP (hc ▸ hX))
    have hrec : ∀ P ∈ before, Recorded T' P (f P) ∧ T' P = T P :=
      fun P hP => ⟨recorded_congr (h1 P hP).1 (hagree P hP), hagree P hP P (fun _ h => h)⟩
    have hJ : ∃ t, Recorded T' (A ||| B) t ∧ IsPlan E.n (Adjacent E.M) t (A ||| B) ∧ t.cost E est base = (T' (A ||| B)).cost ∧
        xcost E.n card t = actionCost E.n card (A ||| B) + (xcost E.n card (f A) + xcost E.n card (f B)) := by
      have rA := isPlan_rels (h2 A h.memA)
      have rB := isPlan_rels (h2 B h.memB)
      rcases h5.cases with ⟨e1, e2, e3⟩ | ⟨e1, e2, e3⟩ | ⟨e1, _⟩
      · refine ⟨.node (f A) (f B), .node (size_union_ne_one hd hA hB) ?_ ?_ ?_, .node (h2 A h.memA) (h2 B h.memB) hd h.adj, ?_, ?_⟩
        · rw [e1]; exact (hrec A h.memA).1
        · rw [e2]; exact (hrec B h.memB).1
        · rw [e1, e2]
        · rw [e3, Tree.cost, rA, rB, (h1 A h.memA).2, (h1 B h.memB).2]; rfl
        · rw [xcost_node, rA, rB]
      · refine ⟨.node (f B) (f A), .node (size_union_ne_one hd hA hB) ?_ ?_ ?_, ?_, ?_, ?_⟩
        · rw [e1]; exact (hrec B h.memB).1
        · rw [e2]; exact (hrec A h.memA).1
        · rw [e1, e2]; exact or_comm' B A
        · rw [or_comm' A B]; exact .node (h2 B h.memB) (h2 A h.memA) (disj_comm hd) (adjacent_symm hM h.adj)
        · rw [e3, Tree.cost, rA, rB, (h1 A h.memA).2, (h1 B h.memB).2]; rfl
        · rw [xcost_node, rA, rB, or_comm' B A, add_comm (xcost E.n card (f B))]
      · rw [hno] at e1; cases e1
    obtain ⟨t, t1, t2, t3, t4⟩ := hJ
    have hne : ∀ P ∈ before, P ≠ A ||| B := fun P hP hc => hsub P hP (by rw [← hc]; exact fun _ h => h)
    refine ⟨fun P => if P = A ||| B then t else f P, fun P hP => ?_, fun P hP => ?_, ?_⟩
    · rcases (h.mem P).1 hP with rfl | ⟨hP, _, _⟩
      · simp only [if_true]; exact ⟨t1, t3⟩
      · simp only [if_neg (hne P hP)]
        exact ⟨(hrec P hP).1, by rw [(hrec P hP).2]; exact (h1 P hP).2⟩
    · rcases (h.mem P).1 hP with rfl | ⟨hP, _, _⟩
      · simp only [if_true]; exact t2
      · simp only [if_neg (hne P hP)]; exact h2 P hP
    · rw [h.fcost_eq hM hw (f := f) (fun P hP _ _ => by simp [hne P hP]) (by simpa using t4), h3]

end
end HS
end Mutable
