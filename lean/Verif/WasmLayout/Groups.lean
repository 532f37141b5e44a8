import Verif.WasmLayout.Bits
import Mathlib.Data.List.Perm.Basic
import Mathlib.Data.List.Nodup
/-
The groups that `for_sibling_leaves` delivers describe the same addresses as the data layout.
-/
namespace Mutable.WLayout

/-- Addresses of the leaves of a group for tuple `t`. -/
def Group.addrs (g : Group) (base t : Nat) : List (Nat × Nat) :=
  g.leaves.map (fun f => (f.idx, base + g.ioff + pos g.levels f.stride t + f.off))

theorem callLeaves_addrs (lvs : List Leaf) (ls : List Level) (io base t : Nat) :
    (callLeaves lvs ls io).flatMap (fun g => g.addrs base t) = (Group.mk lvs ls io).addrs base t := by
  unfold callLeaves
  cases lvs with
  | nil => rfl
  | cons a as => simp

theorem calls_perm (k : Kids) : ∀ (ls : List Level) (io base t : Nat),
    ((k.calls ls io).flatMap (fun g => g.addrs base t) ++ (Group.mk k.leaves ls io).addrs base t).Perm
      (k.addrs (base + io + lvAddr ls t) (lvIter ls t)) := by
  induction k with
  | nil => intro ls io base t; simp [Kids.calls, Kids.leaves, Kids.addrs, Group.addrs]
  | leaf i o s rest ih =>
    intro ls io base t
    have := ih ls io base t
    simp only [Kids.calls, Kids.leaves, Kids.addrs, Group.addrs, List.map_cons] at this ⊢
    refine List.perm_middle.trans ?_
    have e : base + io + pos ls s t + o = base + io + lvAddr ls t + o + lvIter ls t * s := by unfold pos; omega
    rw [e]
    exact List.Perm.cons _ this
  | inode n o s kids rest ihk ihr =>
    intro ls io base t
    have hk := ihk (ls ++ [⟨s, n⟩]) (io + o) base t
    have hr := ihr ls io base t
    simp only [Kids.calls, Kids.leaves, Kids.addrs, List.flatMap_append, callLeaves_addrs, List.append_assoc]
    rw [← List.append_assoc]
    refine List.Perm.append ?_ ?_
    · rw [lvAddr_snoc, lvIter_snoc] at hk
      have e : base + (io + o) + (lvAddr ls t + lvIter ls t / n * s) = base + io + lvAddr ls t + o + lvIter ls t / n * s := by omega
      simp only at hk
      rw [e] at hk
      exact hk
    · exact hr

/-- The addresses of all groups are those of the layout. -/
theorem groups_perm (k : Kids) (base t : Nat) : (k.groups.flatMap (fun g => g.addrs base t)).Perm (k.addrs base t) := by
  have := calls_perm k [] 0 base t
  unfold Kids.groups
  rw [List.flatMap_append, callLeaves_addrs]
  simpa [lvAddr, lvIter] using this

/-- What is known of a group of a well-formed layout. -/
structure Group.OK (sch : List Attr) (g : Group) : Prop where
  strides : ∀ l ∈ g.levels, l.stride % 8 = 0
  chain : RChain 1 g.levels.reverse
  ioff : g.ioff % 8 = 0
  align : ∀ f ∈ g.leaves, f.idx < sch.length → sch[f.idx]?.map (·.ty) ≠ some .bool → f.stride % 8 = 0 ∧ f.off % 8 = 0

theorem lastLevel_snoc (ls : List Level) (l : Level) : lastLevel (ls ++ [l]) = l := by
  unfold lastLevel; rw [List.getLastD_concat]

theorem leaves_wf {sch : List Attr} {k : Kids} : ∀ {num : Nat}, k.WF sch num → ∀ f ∈ k.leaves,
    (f.idx < sch.length → sch[f.idx]?.map (·.ty) ≠ some .bool → f.stride % 8 = 0 ∧ f.off % 8 = 0) := by
  induction k with
  | nil => intro num _ f hf; simp [Kids.leaves] at hf
  | leaf i o s rest ih =>
    intro num h f hf
    simp only [Kids.leaves, List.mem_cons] at hf
    rcases hf with rfl | hf
    · exact h.1
    · exact ih h.2 f hf
  | inode n o s kids rest _ ihr => intro num h f hf; exact ihr h.2.2 f hf

theorem calls_ok {sch : List Attr} (k : Kids) : ∀ (ls : List Level) (io num : Nat), k.WF sch num →
    (∀ l ∈ ls, l.stride % 8 = 0) → RChain 1 ls.reverse → io % 8 = 0 →
    (ls ≠ [] → (lastLevel ls).num = num) → (ls = [] → num = 0) → ∀ g ∈ k.calls ls io, g.OK sch ∧ g.levels ≠ [] := by
  induction k with
  | nil => intro ls io num _ _ _ _ _ _ g hg; simp [Kids.calls] at hg
  | leaf i o s rest ih =>
    intro ls io num h h1 h2 h3 h4 h5 g hg
    exact ih ls io num h.2 h1 h2 h3 h4 h5 g hg
  | inode n o s kids rest ihk ihr =>
    intro ls io num h h1 h2 h3 h4 h5 g hg
    have s1 : ∀ l ∈ ls ++ [(⟨s, n⟩ : Level)], l.stride % 8 = 0 := by
      intro l hl
      rcases List.mem_append.mp hl with hl | hl
      · exact h1 l hl
      · simp only [List.mem_singleton] at hl; subst hl; exact h.1.2.2.2
    have s2 : RChain 1 (ls ++ [(⟨s, n⟩ : Level)]).reverse := by
      rw [List.reverse_append]
      refine ⟨h.1.1, one_dvd _, ?_⟩
      show RChain n ls.reverse
      rcases List.eq_nil_or_concat ls with rfl | ⟨as, a, e⟩
      · trivial
      · rw [List.concat_eq_append] at e
        subst e
        rw [List.reverse_append] at h2 ⊢
        have hn := h4 (by simp)
        rw [lastLevel_snoc] at hn
        exact ⟨h2.1, Nat.dvd_of_mod_eq_zero (hn ▸ h.1.2.1), h2.2.2⟩
    have s3 : (io + o) % 8 = 0 := by have := h.1.2.2.1; omega
    simp only [Kids.calls, List.mem_append] at hg
    rcases hg with (hg | hg) | hg
    · exact ihk _ _ n h.2.1 s1 s2 s3 (fun _ => by rw [lastLevel_snoc]) (fun e => by simp at e) g hg
    · unfold callLeaves at hg
      split at hg
      · simp at hg
      · simp only [List.mem_singleton] at hg
        subst hg
        exact ⟨⟨s1, s2, s3, fun f hf => leaves_wf h.2.1 f hf⟩, by simp⟩
    · exact ihr ls io num h.2.2 h1 h2 h3 h4 h5 g hg

theorem groups_ok {sch : List Attr} {k : Kids} (h : k.WF sch 0) (hr : k.noRootLeaf) :
    ∀ g ∈ k.groups, g.OK sch ∧ g.levels ≠ [] := by
  intro g hg
  unfold Kids.groups at hg
  rw [hr] at hg
  simp only [callLeaves, List.isEmpty_nil, if_true, List.append_nil] at hg
  exact calls_ok k [] 0 0 h (by simp) trivial rfl (fun e => absurd rfl e) (fun _ => rfl) g hg

/-! ### Looking up addresses -/

theorem lookup_of_mem {l : List (Nat × Nat)} (hn : (l.map Prod.fst).Nodup) {i a : Nat} (h : (i, a) ∈ l) : l.lookup i = some a := by
  induction l with
  | nil => simp at h
  | cons x xs ih =>
    obtain ⟨j, b⟩ := x
    simp only [List.map_cons, List.nodup_cons] at hn
    simp only [List.mem_cons, Prod.mk.injEq] at h
    rcases h with ⟨rfl, rfl⟩ | h
    · simp [List.lookup]
    · have : i ≠ j := fun e => hn.1 (e ▸ List.mem_map.mpr ⟨_, h, rfl⟩)
      have hb : (i == j) = false := by simpa using this
      simp only [List.lookup, hb]
      exact ih hn.2 h

theorem mem_of_lookup {l : List (Nat × Nat)} {i a : Nat} (h : l.lookup i = some a) : (i, a) ∈ l := by
  induction l with
  | nil => simp at h
  | cons x xs ih =>
    obtain ⟨j, b⟩ := x
    simp only [List.lookup] at h
    split at h
    · rename_i e
      simp only [beq_iff_eq] at e
      simp only [Option.some.injEq] at h
      subst e; subst h; simp
    · exact List.mem_cons_of_mem _ (ih h)

theorem addrs_fst (k : Kids) : ∀ (b t b' t' : Nat), (k.addrs b t).map Prod.fst = (k.addrs b' t').map Prod.fst := by
  induction k with
  | nil => intros; rfl
  | leaf i o s rest ih => intro b t b' t'; simp only [Kids.addrs, List.map_cons]; rw [ih b t b' t']
  | inode n o s kids rest ihk ihr =>
    intro b t b' t'
    simp only [Kids.addrs, List.map_append]
    rw [ihr b t b' t', ihk _ _ (b' + o + t' / n * s) (t' % n)]

/-- The address of a leaf of a group is the address of its attribute. -/
theorem lookup_leaf {k : Kids} (ho : k.Once) {g : Group} (hg : g ∈ k.groups) {f : Leaf} (hf : f ∈ g.leaves) (base t : Nat) :
    (k.addrs base t).lookup f.idx = some (base + g.ioff + pos g.levels f.stride t + f.off) := by
  apply lookup_of_mem
  · rw [addrs_fst k base t 0 0]; exact ho
  · apply (groups_perm k base t).mem_iff.mp
    exact List.mem_flatMap.mpr ⟨g, hg, List.mem_map.mpr ⟨f, hf, rfl⟩⟩

theorem lookup_some {k : Kids} {base t i a : Nat} (h : (k.addrs base t).lookup i = some a) :
    ∃ g ∈ k.groups, ∃ f ∈ g.leaves, f.idx = i := by
  have := (groups_perm k base t).mem_iff.mpr (mem_of_lookup h)
  obtain ⟨g, hg, hm⟩ := List.mem_flatMap.mp this
  obtain ⟨f, hf, e⟩ := List.mem_map.mp hm
  exact ⟨g, hg, f, hf, (Prod.mk.inj e).1⟩

/-- Leaves of a group have different indices. -/
theorem leaf_unique {k : Kids} (ho : k.Once) {g : Group} (hg : g ∈ k.groups) {f f' : Leaf} (hf : f ∈ g.leaves) (hf' : f' ∈ g.leaves)
    (e : f.idx = f'.idx) : f = f' := by
  have hn : ((k.groups.flatMap (fun g => g.addrs 0 0)).map Prod.fst).Nodup := ((groups_perm k 0 0).map Prod.fst).nodup_iff.mpr ho
  have h1 : ((g.addrs 0 0).map Prod.fst).Nodup := by
    obtain ⟨a, b, e⟩ := List.append_of_mem hg
    rw [e] at hn
    simp only [List.flatMap_append, List.flatMap_cons, List.map_append] at hn
    exact (List.nodup_append.mp (List.nodup_append.mp hn).2.1).1
  have h2 : (g.leaves.map (·.idx)).Nodup := by
    simpa [Group.addrs, List.map_map, Function.comp_def] using h1
  exact List.inj_on_of_nodup_map h2 hf hf' e

end Mutable.WLayout
