import Verif.QGraph.Final
import Verif.PlanEnum.Props
import Verif.PlanEnum.DPccpProps

/-! Plan enumerators leave the entries of single relations without a split. -/
namespace Mutable.QG
open SQL CNF SB PE AdjMat

theorem foldlM_inv {α σ : Type} {P : σ → Prop} {g : σ → α → Option σ} : ∀ (l : List α) {s s' : σ},
    (∀ a ∈ l, ∀ s s', P s → g s a = some s' → P s') → P s → l.foldlM g s = some s' → P s' := by
  intro l
  induction l with
  | nil => intro s s' _ h e; simp only [List.foldlM_nil] at e; cases e; exact h
  | cons a l ih =>
    intro s s' hg h e
    rw [List.foldlM_cons] at e
    cases hx : g s a with
    | none => rw [hx] at e; cases e
    | some s1 =>
      rw [hx] at e
      exact ih (fun b hb => hg b (List.mem_cons_of_mem _ hb)) (hg a (by simp) _ _ h hx) e

variable {C D : Type} [LinearOrder C] {E : Env C D}

theorem update_singles {T T' : PT C D} {A B : SB} (hd : A &&& B = 0#64) (h : Singles T) (hu : update E T A B = some T') : Singles T' := by
  rw [update] at hu
  split at hu
  · cases hu
  · rename_i hne
    simp only [Bool.or_eq_true, isEmpty_iff', not_or] at hne
    have key : ∀ m ml mr, Singles (updateWith E T A B m ml mr) := by
      intro m ml mr i hi
      have hS : SB.singleton i ≠ A ||| B := by
        intro e
        have := size_union_ne_one hd hne.1 hne.2
        rw [← e, size_singleton hi] at this
        exact this rfl
      have : ∀ e, setEntry T (A ||| B) e (SB.singleton i) = T (SB.singleton i) := fun e => by rw [setEntry, if_neg hS]
      rw [updateWith]
      dsimp only
      generalize (if E.jc B A m mr ml (T B).cost (T A).cost < E.jc A B m ml mr (T A).cost (T B).cost then _ else _) = b
      split <;> rw [this] <;> exact h i hi
    split at hu
    · split at hu <;> (cases hu; exact key _ _ _)
    · cases hu

theorem tryUpdate_singles {T T' : PT C D} {A B : SB} (hd : A &&& B = 0#64) (h : Singles T) (hu : tryUpdate E T A B = some T') : Singles T' := by
  rw [tryUpdate] at hu
  split at hu
  · cases hu; exact h
  · split at hu
    · cases hu; exact h
    · exact update_singles hd h hu

theorem sizeLoops_singles {l1 : List SB} {l2 : SB → List SB} {T T' : PT C D} (h : Singles T) (e : sizeLoops E l1 l2 T = some T') : Singles T' := by
  rw [sizeLoops] at e
  refine foldlM_inv l1 ?_ h e
  intro S1 _ s s' hs he
  split at he
  · cases he; exact hs
  · refine foldlM_inv (l2 S1) ?_ hs he
    intro S2 _ s s' hs he
    split at he
    · cases he; exact hs
    · split at he
      · cases he; exact hs
      · rename_i hd
        split at he
        · cases he; exact hs
        · exact update_singles ((isEmpty_iff' _).1 (by simpa using hd)) hs he

theorem subLoop_singles {S l : SB} {T T' : PT C D} (h : Singles T) (e : subLoop E S l T = some T') : Singles T' := by
  rw [subLoop] at e
  refine foldlM_inv _ ?_ h e
  intro O _ s s' hs he
  dsimp only at he
  split at he
  · cases he
  · exact tryUpdate_singles (inter_diff _ _) hs he

theorem peAll_singles {T T' : PT C D} (h : Singles T) (e : peAll E T = some T') : Singles T' := by
  rw [peAll] at e
  refine foldlM_inv _ ?_ h e
  intro S _ s s' hs he
  split at he
  · cases he; exact hs
  · refine foldlM_inv _ ?_ hs he
    intro O _ s s' hs he
    dsimp only at he
    split at he
    · exact update_singles (inter_diff _ _) hs he
    · cases he

theorem dpSize_singles {T T' : PT C D} (h : Singles T) (e : dpSize E T = some T') : Singles T' := by
  rw [dpSize] at e
  refine foldlM_inv _ ?_ h e
  intro S _ s s' hs he
  exact foldlM_inv _ (fun _ _ _ _ hs he => sizeLoops_singles hs he) hs he

theorem dpSizeOpt_singles {T T' : PT C D} (h : Singles T) (e : dpSizeOpt E T = some T') : Singles T' := by
  rw [dpSizeOpt] at e
  refine foldlM_inv _ ?_ h e
  intro S _ s s' hs he
  refine foldlM_inv _ (fun _ _ _ _ hs he => ?_) hs he
  split at he <;> exact sizeLoops_singles hs he

theorem dpSizeSub_singles {T T' : PT C D} (h : Singles T) (e : dpSizeSub E T = some T') : Singles T' := by
  rw [dpSizeSub] at e
  refine foldlM_inv _ ?_ h e
  intro S _ s s' hs he
  refine foldlM_inv _ (fun _ _ _ _ hs he => ?_) hs he
  split at he
  · cases he; exact hs
  · exact subLoop_singles hs he

theorem dpSub_singles {T T' : PT C D} (h : Singles T) (e : dpSub E T = some T') : Singles T' := by
  rw [dpSub] at e
  refine foldlM_inv _ (fun _ _ _ _ hs he => ?_) h e
  split at he
  · cases he; exact hs
  · split at he
    · cases he; exact hs
    · exact subLoop_singles hs he

theorem dpSubOpt_singles {T T' : PT C D} (h : Singles T) (e : dpSubOpt E T = some T') : Singles T' := by
  rw [dpSubOpt] at e
  refine foldlM_inv _ (fun _ _ _ _ hs he => ?_) h e
  split at he
  · cases he; exact hs
  · split at he
    · cases he; exact hs
    · exact subLoop_singles hs he

theorem dpCcp_singles (hM : E.M.Symm) {T T' : PT C D} (h : Singles T) (e : dpCcp E T = some T') : Singles T' := by
  rw [dpCcp] at e
  refine foldlM_inv _ (fun p hp _ _ hs he => ?_) h e
  obtain ⟨A, B⟩ := p
  have := ((csgPairs_spec E.M (all E.n) hM).1 A B).1 hp
  refine update_singles ((disj_iff _ _).2 fun i a b => ?_) hs he
  exact this.2.2.2.2.1 i ⟨a, b⟩

theorem tdGen_singles {parts : SB → Option (List (SB × SB))} (hp : ∀ S l, parts S = some l → ∀ p ∈ l, p.1 &&& p.2 = 0#64) :
    ∀ (fuel : Nat) (S : SB) {T T' : PT C D}, Singles T → tdGen E parts fuel S T = some T' → Singles T' := by
  intro fuel
  induction fuel with
  | zero => intro S T T' _ e; rw [tdGen] at e; cases e
  | succ fuel ih =>
    intro S T T' h e
    rw [tdGen] at e
    split at e
    · cases e; exact h
    · split at e
      · cases e
      · rename_i l hl
        refine foldlM_inv _ (fun p hpl s s' hs he => ?_) h e
        cases h1 : tdGen E parts fuel p.1 s with
        | none => rw [h1] at he; cases he
        | some s1 =>
          rw [h1, Option.bind_some] at he
          cases h2 : tdGen E parts fuel p.2 s1 with
          | none => rw [h2] at he; cases he
          | some s2 =>
            rw [h2, Option.bind_some] at he
            exact update_singles (hp S l hl p hpl) (ih _ (ih _ hs h1) h2) he

theorem tdBasic_singles {T T' : PT C D} (h : Singles T) (e : tdBasic E T = some T') : Singles T' := by
  rw [tdBasic] at e
  refine tdGen_singles ?_ _ _ h e
  intro S l hl p hp
  rw [basicParts] at hl
  cases hl
  obtain ⟨x, _, rfl⟩ := List.mem_map.1 hp
  exact inter_diff _ _

theorem agatLoop_disj (M : AdjMat) (S : SB) : ∀ (fuel : Nat) (W : List AgatEntry) (l : List (SB × SB)),
    agatLoop M S fuel W = some l → ∀ p ∈ l, p.1 &&& p.2 = 0#64 := by
  intro fuel
  induction fuel with
  | zero =>
    intro W l e p hp
    cases W with
    | nil => rw [agatLoop] at e; cases e; simp at hp
    | cons => rw [agatLoop] at e; cases e
  | succ fuel ih =>
    intro W l e p hp
    cases W with
    | nil => rw [agatLoop] at e; cases e; simp at hp
    | cons a W =>
      rw [agatLoop] at e
      split at e
      · rw [Option.map_eq_some_iff] at e
        obtain ⟨rest, e1, e2⟩ := e
        subst e2
        split at hp
        · rcases List.mem_cons.1 hp with rfl | hp
          · exact inter_diff _ _
          · exact ih _ _ e1 p hp
        · exact ih _ _ e1 p hp
      · cases e

theorem tdMinCut_singles {T T' : PT C D} (h : Singles T) (e : tdMinCut E T = some T') : Singles T' := by
  rw [tdMinCut] at e
  split at e
  · refine tdGen_singles ?_ _ _ h e
    intro S l hl p hp
    rw [agatPartition] at hl
    split at hl
    · exact agatLoop_disj _ _ _ _ _ hl p hp
    · cases hl
  · cases e; exact h

/-! ### The adjacency matrix -/

/-- A join between two different sources. -/
def Binary (G : Graph) : Prop := ∀ J ∈ G.joins, ∃ i j, J.sources = [i, j]

theorem adjacency_some {G : Graph} (hb : Binary G) : ∃ M, adjacency G = some M := by
  rw [adjacency]
  have : ∀ (js : List Join) (M : AdjMat), (∀ J ∈ js, ∃ i j, J.sources = [i, j]) → ∃ M', js.foldlM (fun M J => match J.sources with
    | [i, j] => some ((M.setAt i j true).setAt j i true)
    | _ => none) M = some M' := by
    intro js
    induction js with
    | nil => intro M _; exact ⟨M, rfl⟩
    | cons J js ih =>
      intro M h
      obtain ⟨i, j, e⟩ := h J (by simp)
      rw [List.foldlM_cons, e]
      exact ih _ (fun K hK => h K (by simp [hK]))
  exact this _ _ hb

theorem adjacency_edges {G : Graph} (h64 : ∀ J ∈ G.joins, ∀ i ∈ J.sources, i < 64) {M : AdjMat} (e : adjacency G = some M) :
    Binary G ∧ ∀ a b, M.Adj a b ↔ ∃ J ∈ G.joins, J.sources = [a, b] ∨ J.sources = [b, a] := by
  rw [adjacency] at e
  have : ∀ (js : List Join) (M0 M : AdjMat), (∀ J ∈ js, ∀ i ∈ J.sources, i < 64) → js.foldlM (fun M J => match J.sources with
    | [i, j] => some ((M.setAt i j true).setAt j i true)
    | _ => none) M0 = some M →
      (∀ J ∈ js, ∃ i j, J.sources = [i, j]) ∧ ∀ a b, M.Edge a b ↔ M0.Edge a b ∨ ∃ J ∈ js, J.sources = [a, b] ∨ J.sources = [b, a] := by
    intro js
    induction js with
    | nil => intro M0 M _ e; simp only [List.foldlM_nil] at e; cases e; simp
    | cons J js ih =>
      intro M0 M h e
      rw [List.foldlM_cons] at e
      obtain ⟨c, s⟩ := J
      match s, h ⟨c, s⟩ (by simp), e with
      | [i, j], h1, e =>
        obtain ⟨a1, a2⟩ := ih _ M (fun K hK => h K (by simp [hK])) e
        refine ⟨fun K hK => ?_, fun a b => ?_⟩
        · rcases List.mem_cons.1 hK with rfl | hK
          · exact ⟨i, j, rfl⟩
          · exact a1 K hK
        · rw [a2, edge_setAt _ _ _ (h1 i (by simp)), edge_setAt _ _ _ (h1 j (by simp))]
          simp only [List.mem_cons, exists_eq_or_imp, List.cons.injEq, and_true]
          by_cases c1 : a = j ∧ b = i
          · simp [c1]
          · rw [if_neg c1]
            by_cases c2 : a = i ∧ b = j
            · simp [c2]
            · rw [if_neg c2]
              have h3 : ¬ ((i = a ∧ j = b) ∨ (i = b ∧ j = a)) := by omega
              exact or_congr_right (iff_of_eq (by rw [eq_false h3, false_or]))
      | [], _, e => cases e
      | [_], _, e => cases e
      | _ :: _ :: _ :: _, _, e => cases e
  obtain ⟨h1, h2⟩ := this G.joins _ M h64 e
  refine ⟨h1, fun a b => ?_⟩
  rw [adj_eq, h2]
  have : ¬ (mk0 G.names.length).Edge a b := by
    unfold Edge mk0; simp [Mem]
  simp [this]

theorem adjacency_symm {G : Graph} (h64 : ∀ J ∈ G.joins, ∀ i ∈ J.sources, i < 64) {M : AdjMat} (e : adjacency G = some M) : M.Symmetric := by
  intro a b h
  rw [(adjacency_edges h64 e).2] at h ⊢
  obtain ⟨J, hJ, h⟩ := h
  exact ⟨J, hJ, h.symm⟩

end Mutable.QG
