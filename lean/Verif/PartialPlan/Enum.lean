import Verif.PartialPlan.Spec
import Mathlib.Data.List.Perm.Basic
import Mathlib.Data.List.Count
import Mathlib.Tactic.Common
/-
The loops compute a recursion over forests.
-/
namespace Mutable.PartialPlan

/-- The plan as a tree. -/
inductive Tree where
  | leaf (s : Nat)
  | node (s : Nat) (l r : Tree)

def Tree.root : Tree → Nat
  | .leaf s => s
  | .node s _ _ => s

/-- The roots of all subtrees. -/
def Tree.subs : Tree → List Nat
  | .leaf s => [s]
  | .node s l r => s :: (l.subs ++ r.subs)

def Tree.size : Tree → Nat
  | .leaf _ => 1
  | .node _ l r => l.size + r.size + 1

/-- The tree is the one in the plan table, and its joins are joins of disjoint sets. -/
def Tree.Rep (pt : PT) : Tree → Prop
  | .leaf s => isSingleton s = true
  | .node s l r => isSingleton s = false ∧ pt s = (l.root, r.root) ∧ l.Rep pt ∧ r.Rep pt ∧ l.root &&& r.root = 0 ∧ l.root ||| r.root = s

theorem HasPlan.tree {pt : PT} {s : Nat} (h : HasPlan pt s) : ∃ t : Tree, t.Rep pt ∧ t.root = s := by
  induction h with
  | relation s h => exact ⟨.leaf s, h, rfl⟩
  | join s h _ _ hd hu ih1 ih2 =>
    obtain ⟨l, hl, el⟩ := ih1
    obtain ⟨r, hr, er⟩ := ih2
    refine ⟨.node s l r, ⟨h, ?_, hl, hr, ?_, ?_⟩, rfl⟩
    · rw [el, er]
    · rw [el, er]; exact hd
    · rw [el, er]; exact hu

theorem Tree.root_mem (t : Tree) : t.root ∈ t.subs := by cases t <;> simp [Tree.root, Tree.subs]

theorem Tree.size_pos (t : Tree) : 0 < t.size := by cases t <;> simp [Tree.size]

theorem singleton_ne {s : Nat} (h : isSingleton s = true) : s ≠ 0 := by
  unfold isSingleton at h
  simp at h
  exact h.1

theorem Tree.Rep.sub_bits {pt : PT} : ∀ {t : Tree}, t.Rep pt → ∀ s ∈ t.subs, s ≠ 0 ∧ ∀ i, s.testBit i = true → t.root.testBit i = true
  | .leaf s, h, x, hx => by
    simp only [Tree.subs, List.mem_singleton] at hx
    subst hx
    exact ⟨singleton_ne h, fun i hi => hi⟩
  | .node s l r, h, x, hx => by
    obtain ⟨_, _, hl, hr, _, hu⟩ := h
    simp only [Tree.subs, List.mem_cons, List.mem_append] at hx
    simp only [Tree.root]
    rcases hx with rfl | hx | hx
    · refine ⟨?_, fun i hi => hi⟩
      have := (Tree.Rep.sub_bits hl l.root l.root_mem).1
      intro h0
      rw [h0] at hu
      have : l.root = 0 := (Nat.or_eq_zero_iff.mp hu).1
      contradiction
    · obtain ⟨h1, h2⟩ := Tree.Rep.sub_bits hl x hx
      exact ⟨h1, fun i hi => by rw [← hu, Nat.testBit_or, h2 i hi]; rfl⟩
    · obtain ⟨h1, h2⟩ := Tree.Rep.sub_bits hr x hx
      exact ⟨h1, fun i hi => by rw [← hu, Nat.testBit_or, h2 i hi, Bool.or_true]⟩

theorem exists_bit {s : Nat} (h : s ≠ 0) : ∃ i, s.testBit i = true := Nat.exists_testBit_of_ne_zero h

theorem Tree.Rep.sub_iff {pt : PT} {t : Tree} (h : t.Rep pt) (s : Nat) : SubPlan pt t.root s ↔ s ∈ t.subs := by
  constructor
  · have key : ∀ {t : Tree}, t.Rep pt → ∀ s ∈ t.subs, isSingleton s = false → (pt s).1 ∈ t.subs ∧ (pt s).2 ∈ t.subs := by
      intro t
      induction t with
      | leaf s =>
        intro h x hx hs
        simp only [Tree.subs, List.mem_singleton] at hx
        subst hx
        have h : isSingleton x = true := h
        rw [h] at hs; cases hs
      | node s l r ihl ihr =>
        intro h x hx hs
        obtain ⟨_, hp, hl, hr, _, _⟩ := h
        simp only [Tree.subs, List.mem_cons, List.mem_append] at hx ⊢
        rcases hx with rfl | hx | hx
        · rw [hp]; exact ⟨Or.inr (Or.inl l.root_mem), Or.inr (Or.inr r.root_mem)⟩
        · obtain ⟨h1, h2⟩ := ihl hl x hx hs
          exact ⟨Or.inr (Or.inl h1), Or.inr (Or.inl h2)⟩
        · obtain ⟨h1, h2⟩ := ihr hr x hx hs
          exact ⟨Or.inr (Or.inr h1), Or.inr (Or.inr h2)⟩
    intro hs
    induction hs with
    | root => exact t.root_mem
    | left s _ hs ih => exact (key h s ih hs).1
    | right s _ hs ih => exact (key h s ih hs).2
  · have key : ∀ {u : Tree}, u.Rep pt → SubPlan pt t.root u.root → ∀ s ∈ u.subs, SubPlan pt t.root s := by
      intro u
      induction u with
      | leaf s =>
        intro _ hs x hx
        simp only [Tree.subs, List.mem_singleton] at hx
        subst hx; exact hs
      | node s l r ihl ihr =>
        intro h hs x hx
        obtain ⟨hn, hp, hl, hr, _, _⟩ := h
        simp only [Tree.subs, List.mem_cons, List.mem_append] at hx
        have h1 := SubPlan.left s hs hn
        have h2 := SubPlan.right s hs hn
        rw [hp] at h1 h2
        rcases hx with rfl | hx | hx
        · exact hs
        · exact ihl hl h1 x hx
        · exact ihr hr h2 x hx
    exact key h SubPlan.root s

/-- The number of trees and their sizes. -/
def weight (ts : List Tree) : Nat := (ts.map Tree.size).sum

/-- The complete partial plans of a forest, in the order of their enumeration; the head is the last one taken. -/
def cuts : List Tree → List (List Nat)
  | [] => [[]]
  | .leaf s :: ts => (cuts ts).map (· ++ [s])
  | .node s l r :: ts => (cuts ts).map (· ++ [s]) ++ cuts (r :: l :: ts)
termination_by ts => weight ts
decreasing_by
  all_goals simp only [weight, List.map_cons, List.sum_cons, Tree.size]
  all_goals omega

/-- The loops started with some candidates call the callback for the complete partial plans of the candidates, and then unwind with the
same candidates. -/
theorem run_outer {pt : PT} : ∀ (ts : List Tree), (∀ t ∈ ts, t.Rep pt) → ∀ (ps : List Nat) (ds : List Bool), ∃ k, ∀ f,
    run pt (k + f) .outer ⟨ps, ts.map Tree.root, ds⟩ =
      (run pt f .unwind ⟨ps, ts.map Tree.root, ds⟩).map ((cuts ts).map (fun q => (q ++ ps).reverse) ++ ·)
  | [], _, ps, ds => ⟨1, fun f => by
      rw [Nat.add_comm]
      rw [run]
      simp only [List.map_nil]
      have : cuts [] = [[]] := by rw [cuts]
      rw [this]
      rfl⟩
  | .leaf s :: ts, h, ps, ds => by
    obtain ⟨k, hk⟩ := run_outer ts (fun t ht => h t (by simp [ht])) (s :: ps) (true :: ds)
    have hs : isSingleton s = true := h (.leaf s) (by simp)
    refine ⟨1 + k + 1, fun f => ?_⟩
    rw [show 1 + k + 1 + f = (k + (f + 1)) + 1 by omega, run]
    simp only [List.map_cons, Tree.root]
    rw [hk (f + 1), run]
    simp only [hs, if_true]
    have : cuts (.leaf s :: ts) = (cuts ts).map (· ++ [s]) := by rw [cuts]
    rw [this, List.map_map]
    congr 2
    funext x
    simp
  | .node s l r :: ts, h, ps, ds => by
    obtain ⟨hn, hp, hl, hr, _, hu⟩ := h (.node s l r) (by simp)
    obtain ⟨k, hk⟩ := run_outer ts (fun t ht => h t (by simp [ht])) (s :: ps) (true :: ds)
    obtain ⟨k', hk'⟩ := run_outer (r :: l :: ts) (fun t ht => by
      rcases List.mem_cons.mp ht with rfl | ht
      · exact hr
      · rcases List.mem_cons.mp ht with rfl | ht
        · exact hl
        · exact h t (by simp [ht])) ps (false :: ds)
    refine ⟨k + k' + 3, fun f => ?_⟩
    rw [show k + k' + 3 + f = (k + ((k' + (f + 1)) + 1)) + 1 by omega, run]
    simp only [List.map_cons, Tree.root]
    rw [hk, run]
    simp only [hn, hp, Bool.false_eq_true, if_false]
    have e := hk' (f + 1)
    simp only [List.map_cons] at e
    rw [e, run]
    simp only [hu]
    have : cuts (.node s l r :: ts) = (cuts ts).map (· ++ [s]) ++ cuts (r :: l :: ts) := by rw [cuts]
    rw [this, List.map_append, List.map_map, Option.map_map]
    congr 1
    funext x
    simp [Function.comp_def]
termination_by ts => weight ts
decreasing_by
  all_goals simp only [weight, List.map_cons, List.sum_cons, Tree.size]
  all_goals omega

/-! ### Completeness and uniqueness for forests -/

/-- The roots of the forest have no relation in common. -/
def Disjoint : List Tree → Prop
  | [] => True
  | t :: ts => (∀ u ∈ ts, t.root &&& u.root = 0) ∧ Disjoint ts

/-- A relation occurs in the forest. -/
def Covers (ts : List Tree) (i : Nat) : Prop := ∃ t ∈ ts, t.root.testBit i = true

/-- A complete partial plan of a forest. -/
def CompleteF (ts : List Tree) (p : List Nat) : Prop :=
  (∀ s ∈ p, ∃ t ∈ ts, s ∈ t.subs) ∧ ∀ i, Covers ts i → p.countP (fun s => s.testBit i) = 1

theorem disj_bit {a b i : Nat} (h : a &&& b = 0) (ha : a.testBit i = true) : b.testBit i = false := by
  have := Nat.testBit_and a b i
  rw [h, ha] at this
  simpa using this.symm

theorem disj_comm {a b : Nat} (h : a &&& b = 0) : b &&& a = 0 := by rw [Nat.and_comm]; exact h

theorem disjoint_children {pt : PT} {s : Nat} {l r : Tree} {ts : List Tree} (h : (Tree.node s l r).Rep pt) (hd : Disjoint (.node s l r :: ts)) :
    Disjoint (r :: l :: ts) := by
  obtain ⟨_, _, _, _, h0, hu⟩ := h
  obtain ⟨h1, h2⟩ := hd
  have sub : ∀ u ∈ ts, l.root &&& u.root = 0 ∧ r.root &&& u.root = 0 := by
    intro u hu'
    have := h1 u hu'
    simp only [Tree.root] at this
    rw [← hu, Nat.and_or_distrib_right] at this
    exact Nat.or_eq_zero_iff.mp this
  refine ⟨fun u hu' => ?_, fun u hu' => (sub u hu').1, h2⟩
  rcases List.mem_cons.mp hu' with rfl | hu'
  · exact disj_comm h0
  · exact (sub u hu').2

/-- No subtree of another tree is the root, or meets it. -/
theorem sub_not_meet {pt : PT} {t : Tree} {ts : List Tree} (hts : ∀ u ∈ ts, u.Rep pt) (hd : Disjoint (t :: ts)) {s : Nat}
    (hs : ∃ u ∈ ts, s ∈ u.subs) {i : Nat} (hi : t.root.testBit i = true) : s.testBit i = false := by
  obtain ⟨u, hu, hs⟩ := hs
  cases h : s.testBit i with
  | false => rfl
  | true =>
    have := ((hts u hu).sub_bits s hs).2 i h
    rw [disj_bit (hd.1 u hu) hi] at this
    cases this

theorem cuts_sound {pt : PT} : ∀ (ts : List Tree), (∀ t ∈ ts, t.Rep pt) → Disjoint ts → ∀ q ∈ cuts ts, CompleteF ts q
  | [], _, _, q, hq => by
    rw [cuts, List.mem_singleton] at hq
    subst hq
    exact ⟨by simp, fun i ⟨t, ht, _⟩ => by simp at ht⟩
  | t :: ts, hR, hd, q, hq => by
    have hts : ∀ u ∈ ts, u.Rep pt := fun u hu => hR u (by simp [hu])
    -- taking the root
    have taken : ∀ q' ∈ cuts ts, CompleteF (t :: ts) (q' ++ [t.root]) := by
      intro q' hq'
      obtain ⟨c1, c2⟩ := cuts_sound ts hts hd.2 q' hq'
      refine ⟨fun s hs => ?_, fun i hi => ?_⟩
      · rcases List.mem_append.mp hs with hs | hs
        · obtain ⟨u, hu, h⟩ := c1 s hs
          exact ⟨u, by simp [hu], h⟩
        · simp only [List.mem_singleton] at hs
          exact ⟨t, by simp, by rw [hs]; exact t.root_mem⟩
      · rw [List.countP_append]
        by_cases ht : t.root.testBit i = true
        · have h0 : q'.countP (fun s => s.testBit i) = 0 := by
            rw [List.countP_eq_zero]
            intro s hs
            rw [sub_not_meet hts hd (c1 s hs) ht]
            simp
          rw [h0]
          simp [ht]
        · have hc : Covers ts i := by
            obtain ⟨u, hu, h⟩ := hi
            rcases List.mem_cons.mp hu with rfl | hu
            · exact absurd h ht
            · exact ⟨u, hu, h⟩
          rw [c2 i hc]
          simp [ht]
    cases t with
    | leaf s =>
      rw [cuts] at hq
      obtain ⟨q', hq', rfl⟩ := List.mem_map.mp hq
      exact taken q' hq'
    | node s l r =>
      rw [cuts] at hq
      rcases List.mem_append.mp hq with hq | hq
      · obtain ⟨q', hq', rfl⟩ := List.mem_map.mp hq
        exact taken q' hq'
      · have hrep := hR (.node s l r) (by simp)
        obtain ⟨_, _, hl, hr, _, hu⟩ := id hrep
        obtain ⟨c1, c2⟩ := cuts_sound (r :: l :: ts) (fun t ht => by
          rcases List.mem_cons.mp ht with rfl | ht
          · exact hr
          · rcases List.mem_cons.mp ht with rfl | ht
            · exact hl
            · exact hts t ht) (disjoint_children hrep hd) q hq
        refine ⟨fun x hx => ?_, fun i hi => c2 i ?_⟩
        · obtain ⟨u, hu', hx⟩ := c1 x hx
          rcases List.mem_cons.mp hu' with rfl | hu'
          · exact ⟨.node s l u, by simp, by simp [Tree.subs, hx]⟩
          · rcases List.mem_cons.mp hu' with rfl | hu'
            · exact ⟨.node s u r, by simp, by simp [Tree.subs, hx]⟩
            · exact ⟨u, by simp [hu'], hx⟩
        · obtain ⟨u, hu', h⟩ := hi
          rcases List.mem_cons.mp hu' with rfl | hu'
          · simp only [Tree.root] at h
            rw [← hu, Nat.testBit_or, Bool.or_eq_true] at h
            rcases h with h | h
            · exact ⟨l, by simp, h⟩
            · exact ⟨r, by simp, h⟩
          · exact ⟨u, by simp [hu'], h⟩
termination_by ts => weight ts
decreasing_by
  all_goals simp only [weight, List.map_cons, List.sum_cons]
  all_goals first
    | (have := t.size_pos; omega)
    | (simp only [Tree.size]; omega)
    | (subst_vars; simp only [Tree.size]; omega)

theorem countP_two {α : Type} {p : α → Bool} {l : List α} {a b : α} (ha : a ∈ l) (hb : b ∈ l) (hab : a ≠ b) (pa : p a = true) (pb : p b = true) :
    2 ≤ l.countP p := by
  induction l with
  | nil => simp at ha
  | cons x xs ih =>
    rw [List.countP_cons]
    rcases List.mem_cons.mp ha with rfl | ha'
    · rcases List.mem_cons.mp hb with rfl | hb'
      · exact absurd rfl hab
      · have : 0 < xs.countP p := List.countP_pos_iff.mpr ⟨b, hb', pb⟩
        simp only [pa, if_true]; omega
    · rcases List.mem_cons.mp hb with rfl | hb'
      · have : 0 < xs.countP p := List.countP_pos_iff.mpr ⟨a, ha', pa⟩
        simp only [pb, if_true]; omega
      · have := ih ha' hb'
        omega

/-- Each complete partial plan is enumerated exactly once. -/
theorem cuts_unique {pt : PT} : ∀ (ts : List Tree), (∀ t ∈ ts, t.Rep pt) → Disjoint ts → ∀ p, CompleteF ts p →
    (cuts ts).countP (fun q => decide (q.Perm p)) = 1
  | [], _, _, p, hp => by
    have : p = [] := by
      cases p with
      | nil => rfl
      | cons x xs => obtain ⟨t, ht, _⟩ := hp.1 x (by simp); simp at ht
    subst this
    rw [cuts]
    simp
  | t :: ts, hR, hd, p, hp => by
    have hts : ∀ u ∈ ts, u.Rep pt := fun u hu => hR u (by simp [hu])
    have hRt := hR t (by simp)
    have hbits := hRt.sub_bits
    obtain ⟨i0, hi0⟩ := exists_bit (hbits t.root t.root_mem).1
    have hperm : ∀ q : List Nat, (q ++ [t.root]).Perm p ↔ t.root ∈ p ∧ q.Perm (p.erase t.root) := by
      intro q
      constructor
      · intro h
        have hm : t.root ∈ p := h.mem_iff.mp (by simp)
        refine ⟨hm, ?_⟩
        have h2 := (List.perm_append_singleton t.root q).symm.trans h
        have := h2.erase t.root
        rwa [List.erase_cons_head] at this
      · rintro ⟨hm, h⟩
        exact (List.perm_append_singleton t.root q).trans ((h.cons t.root).trans (List.perm_cons_erase hm).symm)
    -- plans with the root
    have withRoot : t.root ∈ p → ((cuts ts).map (· ++ [t.root])).countP (fun q => decide (q.Perm p)) = 1 := by
      intro hm
      rw [List.countP_map]
      have e : ((fun q : List Nat => decide (q.Perm p)) ∘ (· ++ [t.root])) = fun q => decide (q.Perm (p.erase t.root)) := by
        funext q
        simp only [Function.comp_apply]
        exact decide_eq_decide.mpr ⟨fun h => ((hperm q).mp h).2, fun h => (hperm q).mpr ⟨hm, h⟩⟩
      rw [e]
      have hone : ∀ i, t.root.testBit i = true → (p.erase t.root).countP (fun s => s.testBit i) = 0 := by
        intro i hi
        have h1 := hp.2 i ⟨t, by simp, hi⟩
        rw [(List.perm_cons_erase hm).countP_eq, List.countP_cons] at h1
        simp only [hi, if_true] at h1
        omega
      refine cuts_unique ts hts hd.2 _ ⟨fun s hs => ?_, fun i hi => ?_⟩
      · obtain ⟨u, hu, hsu⟩ := hp.1 s (List.mem_of_mem_erase hs)
        rcases List.mem_cons.mp hu with rfl | hu
        · obtain ⟨hne, hsub⟩ := hbits s hsu
          obtain ⟨i, hi⟩ := exists_bit hne
          have := List.countP_eq_zero.mp (hone i (hsub i hi)) s hs
          exact absurd hi this
        · exact ⟨u, hu, hsu⟩
      · obtain ⟨u, hu, h⟩ := hi
        have h1 := hp.2 i ⟨u, by simp [hu], h⟩
        rw [(List.perm_cons_erase hm).countP_eq, List.countP_cons] at h1
        have ht : t.root.testBit i = false := by
          cases h' : t.root.testBit i with
          | false => rfl
          | true => have := disj_bit (hd.1 u hu) h'; rw [h] at this; cases this
        simpa [ht] using h1
    have withoutRoot : t.root ∉ p → ((cuts ts).map (· ++ [t.root])).countP (fun q => decide (q.Perm p)) = 0 := by
      intro hm
      rw [List.countP_eq_zero]
      intro q hq
      obtain ⟨q', _, rfl⟩ := List.mem_map.mp hq
      simp only [decide_eq_true_eq]
      exact fun h => hm ((hperm q').mp h).1
    cases t with
    | leaf s =>
      rw [cuts]
      refine withRoot ?_
      -- the relation must be covered by itself
      have h1 := hp.2 i0 ⟨.leaf s, by simp, hi0⟩
      have : 0 < p.countP (fun s => s.testBit i0) := by omega
      obtain ⟨x, hx, hxi⟩ := List.countP_pos_iff.mp this
      obtain ⟨u, hu, hxu⟩ := hp.1 x hx
      rcases List.mem_cons.mp hu with rfl | hu
      · simp only [Tree.subs, List.mem_singleton] at hxu
        subst hxu; exact hx
      · have := sub_not_meet hts hd ⟨u, hu, hxu⟩ hi0
        rw [hxi] at this; cases this
    | node s l r =>
      obtain ⟨_, _, hl, hr, h0, hu0⟩ := id hRt
      have hR' : ∀ t ∈ r :: l :: ts, t.Rep pt := fun t ht => by
        rcases List.mem_cons.mp ht with rfl | ht
        · exact hr
        · rcases List.mem_cons.mp ht with rfl | ht
          · exact hl
          · exact hts t ht
      have hd' := disjoint_children hRt hd
      rw [cuts, List.countP_append]
      by_cases hm : s ∈ p
      · have := withRoot hm
        simp only [Tree.root] at this
        rw [this]
        have h0' : (cuts (r :: l :: ts)).countP (fun q => decide (q.Perm p)) = 0 := by
          rw [List.countP_eq_zero]
          intro q hq
          simp only [decide_eq_true_eq]
          intro hqp
          have hsq : s ∈ q := hqp.mem_iff.mpr hm
          obtain ⟨u, hu, hsu⟩ := (cuts_sound _ hR' hd' q hq).1 s hsq
          obtain ⟨il, hil⟩ := exists_bit (hl.sub_bits l.root l.root_mem).1
          obtain ⟨ir, hir⟩ := exists_bit (hr.sub_bits r.root r.root_mem).1
          have sl : s.testBit il = true := by rw [← hu0, Nat.testBit_or, hil]; rfl
          have sr : s.testBit ir = true := by rw [← hu0, Nat.testBit_or, hir, Bool.or_true]
          rcases List.mem_cons.mp hu with rfl | hu
          · have := (hr.sub_bits s hsu).2 il sl
            rw [disj_bit h0 hil] at this; cases this
          · rcases List.mem_cons.mp hu with rfl | hu
            · have := (hl.sub_bits s hsu).2 ir sr
              rw [disj_bit (disj_comm h0) hir] at this; cases this
            · have := sub_not_meet hts hd ⟨u, hu, hsu⟩ (i := il) sl
              rw [sl] at this; cases this
        rw [h0']
      · have := withoutRoot hm
        simp only [Tree.root] at this
        rw [this, Nat.zero_add]
        refine cuts_unique (r :: l :: ts) hR' hd' p ⟨fun x hx => ?_, fun i hi => hp.2 i ?_⟩
        · obtain ⟨u, hu, hxu⟩ := hp.1 x hx
          rcases List.mem_cons.mp hu with rfl | hu
          · simp only [Tree.subs, List.mem_cons, List.mem_append] at hxu
            rcases hxu with rfl | hxu | hxu
            · exact absurd hx hm
            · exact ⟨l, by simp, hxu⟩
            · exact ⟨r, by simp, hxu⟩
          · exact ⟨u, by simp [hu], hxu⟩
        · obtain ⟨u, hu, h⟩ := hi
          rcases List.mem_cons.mp hu with rfl | hu
          · exact ⟨.node s l u, by simp, by simp only [Tree.root]; rw [← hu0, Nat.testBit_or, h, Bool.or_true]⟩
          · rcases List.mem_cons.mp hu with rfl | hu
            · exact ⟨.node s u r, by simp, by simp only [Tree.root]; rw [← hu0, Nat.testBit_or, h]; rfl⟩
            · exact ⟨u, by simp [hu], h⟩
termination_by ts => weight ts
decreasing_by
  all_goals simp only [weight, List.map_cons, List.sum_cons]
  all_goals first
    | (have := t.size_pos; omega)
    | (simp only [Tree.size]; omega)
    | (subst_vars; simp only [Tree.size]; omega)

end Mutable.PartialPlan
