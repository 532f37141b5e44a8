import Verif.Common
import Verif.Graph.Reach
/-! Correctness of the connected-subgraph enumeration. -/
namespace Mutable
open SB
namespace AdjMat
variable (M : AdjMat) (super : SB)

/-- The set `N` of a queue entry. -/
def csgN (p : SB × SB) : SB := diff (M.neighbors p.1 &&& super) p.2

theorem mem_csgN (p : SB × SB) (i : Nat) : Mem (M.csgN super p) i ↔
    (¬ Mem p.1 i ∧ ∃ x, Mem p.1 x ∧ M.Edge x i) ∧ Mem super i ∧ ¬ Mem p.2 i := by
  rw [csgN, mem_diff, mem_and, mem_neighbors]; tauto

theorem csgChildren_eq (p : SB × SB) :
    M.csgChildren super p = (subsets (M.csgN super p)).map fun n => (p.1 ||| n, p.2 ||| M.csgN super p) := rfl

/-- Depth-first version of the enumeration. -/
def csgRec : Nat → SB × SB → List SB
  | 0, p => [p.1]
  | k+1, p => p.1 :: (M.csgChildren super p).flatMap (csgRec k)

def csgE (p : SB × SB) : List SB := M.csgRec super 64 p

theorem csg_child_measure {p q : SB × SB} (hq : q ∈ M.csgChildren super p) :
    size (diff super q.1) < size (diff super p.1) := by
  rw [csgChildren_eq, List.mem_map] at hq
  obtain ⟨n, hn, rfl⟩ := hq
  rw [mem_subsets] at hn
  obtain ⟨i, hi⟩ := (ne_zero_iff n).1 hn.2
  have hiN := (mem_csgN M super p i).1 (hn.1 i hi)
  apply size_lt_of_ssub
  · intro j hj
    rw [mem_diff, mem_or] at hj
    rw [mem_diff]; tauto
  · intro hc
    have : Mem (diff super p.1) i := (mem_diff _ _ _).2 ⟨hiN.2.1, hiN.1.1⟩
    rw [← hc, mem_diff, mem_or] at this
    exact this.2 (Or.inr hi)

theorem csgRec_stable (k : Nat) (p : SB × SB) (h : size (diff super p.1) ≤ k) :
    M.csgRec super k p = M.csgRec super (k+1) p := by
  induction k generalizing p with
  | zero =>
    have hch : M.csgChildren super p = [] := by
      by_contra hc
      obtain ⟨q, hq⟩ := List.exists_mem_of_ne_nil _ hc
      have := csg_child_measure M super hq
      omega
    simp [csgRec, hch]
  | succ k ih =>
    rw [csgRec, csgRec]
    congr 1
    apply List.flatMap_congr
    intro q hq
    have := csg_child_measure M super hq
    exact ih q (by omega)

theorem csgE_unfold (p : SB × SB) : M.csgE super p = p.1 :: (M.csgChildren super p).flatMap (M.csgE super) := by
  have h : M.csgE super p = M.csgRec super 65 p := csgRec_stable M super 64 p (size_le _)
  rw [h, csgRec]
  rfl

/-- Specification of the sets enumerated from a queue entry `(S, X)`. -/
def Ext (S X T : SB) : Prop :=
  Sub S T ∧ Sub T super ∧ (∀ i, Mem T i → ¬ Mem S i → ¬ Mem X i) ∧
  ∀ j, Mem T j → ∃ s, Mem S s ∧ Relation.ReflTransGen (M.EdgeIn T) s j

theorem ext_child {S X n T : SB} (hn : n ∈ subsets (M.csgN super (S, X)))
    (h : M.Ext super (S ||| n) (X ||| M.csgN super (S, X)) T) : M.Ext super S X T := by
  obtain ⟨h1, h2, h3, h4⟩ := h
  rw [mem_subsets] at hn
  refine ⟨fun i hi => h1 i (by simp [hi]), h2, ?_, ?_⟩
  · intro i hi hS hX
    by_cases hin : Mem n i
    · exact ((mem_csgN M super (S,X) i).1 (hn.1 i hin)).2.2 hX
    · exact h3 i hi (by simp [hS, hin]) (by simp [hX])
  · intro j hj
    obtain ⟨s, hs, hp⟩ := h4 j hj
    rcases (mem_or _ _ _).1 hs with hs | hs
    · exact ⟨s, hs, hp⟩
    · obtain ⟨⟨_, x, hx, he⟩, _⟩ := (mem_csgN M super (S,X) s).1 (hn.1 s hs)
      exact ⟨x, hx, .head ⟨he, h1 x (by simp only [mem_or]; exact Or.inl hx), h1 s (by simp [hs])⟩ hp⟩

theorem ext_inv {S X T : SB} (h : M.Ext super S X T) (hne : T ≠ S) :
    let N := M.csgN super (S, X)
    (T &&& N) ∈ subsets N ∧ M.Ext super (S ||| (T &&& N)) (X ||| N) T := by
  intro N
  obtain ⟨h1, h2, h3, h4⟩ := h
  have hj : ∃ j, Mem T j ∧ ¬ Mem S j := by
    by_contra hc
    push Not at hc
    exact hne (sub_antisymm hc h1)
  obtain ⟨j, hj, hjS⟩ := hj
  obtain ⟨s, hs, hp⟩ := h4 j hj
  obtain ⟨x, y, _, hxy, hx, hy⟩ := exists_cross (Mem S) hp hs hjS
  have hyN : Mem N y := (mem_csgN M super (S,X) y).2
    ⟨⟨hy, x, hx, hxy.1⟩, h2 y hxy.2.2, h3 y hxy.2.2 hy⟩
  refine ⟨?_, ?_, h2, ?_, ?_⟩
  · rw [mem_subsets]
    refine ⟨fun i hi => ((mem_and _ _ _).1 hi).2, ?_⟩
    rw [ne_zero_iff]
    exact ⟨y, (mem_and _ _ _).2 ⟨hxy.2.2, hyN⟩⟩
  · intro i hi
    rcases (mem_or _ _ _).1 hi with h | h
    · exact h1 i h
    · exact ((mem_and _ _ _).1 h).1
  · intro i hi hn hX
    rw [mem_or, mem_and] at hn
    push Not at hn
    rcases (mem_or _ _ _).1 hX with h | h
    · exact h3 i hi hn.1 h
    · exact hn.2 hi h
  · intro j hj
    obtain ⟨s, hs, hp⟩ := h4 j hj
    exact ⟨s, by simp [hs], hp⟩

theorem ext_inter {S X n T : SB} (hn : n ∈ subsets (M.csgN super (S, X)))
    (h : M.Ext super (S ||| n) (X ||| M.csgN super (S, X)) T) : T &&& M.csgN super (S, X) = n := by
  obtain ⟨h1, h2, h3, h4⟩ := h
  rw [mem_subsets] at hn
  apply SB.ext; intro i
  rw [mem_and]
  constructor
  · rintro ⟨hT, hN⟩
    by_contra hc
    have hS := ((mem_csgN M super (S,X) i).1 hN).1.1
    exact h3 i hT (by simp only [mem_or]; tauto) (by simp only [mem_or]; exact Or.inr hN)
  · intro hi
    exact ⟨h1 i (by simp [hi]), hn.1 i hi⟩

theorem csgRec_spec (k : Nat) (p : SB × SB) (hp : Sub p.1 super) (hk : size (diff super p.1) ≤ k) :
    (∀ T, T ∈ M.csgRec super k p ↔ M.Ext super p.1 p.2 T) ∧ (M.csgRec super k p).Nodup := by
  induction k generalizing p with
  | zero =>
    have h0 : diff super p.1 = 0#64 := (size_eq_zero_iff _).1 (by omega)
    refine ⟨fun T => ?_, by simp [csgRec]⟩
    simp only [csgRec, List.mem_singleton]
    constructor
    · rintro rfl
      exact ⟨Sub.refl _, hp, fun i hi hn => absurd hi hn, fun j hj => ⟨j, hj, .refl⟩⟩
    · rintro ⟨h1, h2, _, _⟩
      apply sub_antisymm _ h1
      intro i hi
      by_contra hc
      have : Mem (diff super p.1) i := (mem_diff _ _ _).2 ⟨h2 i hi, hc⟩
      rw [h0] at this
      exact not_mem_zero i this
  | succ k ih =>
    have ihq : ∀ n ∈ subsets (M.csgN super p),
        (∀ T, T ∈ M.csgRec super k (p.1 ||| n, p.2 ||| M.csgN super p) ↔
          M.Ext super (p.1 ||| n) (p.2 ||| M.csgN super p) T) ∧
        (M.csgRec super k (p.1 ||| n, p.2 ||| M.csgN super p)).Nodup := by
      intro n hn
      have hq : (p.1 ||| n, p.2 ||| M.csgN super p) ∈ M.csgChildren super p := by
        rw [csgChildren_eq]; exact List.mem_map_of_mem (f := fun n => (p.1 ||| n, p.2 ||| M.csgN super p)) hn
      have hm := csg_child_measure M super hq
      refine ih (p.1 ||| n, p.2 ||| M.csgN super p) ?_ (by omega)
      intro i hi
      rcases (mem_or _ _ _).1 hi with h | h
      · exact hp i h
      · exact ((mem_csgN M super p i).1 (((mem_subsets _ _).1 hn).1 i h)).2.1
    refine ⟨fun T => ?_, ?_⟩
    · rw [csgRec, List.mem_cons, csgChildren_eq, List.flatMap_map, List.mem_flatMap]
      constructor
      · rintro (rfl | ⟨n, hn, hT⟩)
        · exact ⟨Sub.refl _, hp, fun i hi hn => absurd hi hn, fun j hj => ⟨j, hj, .refl⟩⟩
        · exact ext_child M super hn (((ihq n hn).1 T).1 hT)
      · intro h
        by_cases hne : T = p.1
        · exact Or.inl hne
        · right
          obtain ⟨h1, h2⟩ := ext_inv M super h hne
          exact ⟨_, h1, ((ihq _ h1).1 T).2 h2⟩
    · rw [csgRec, List.nodup_cons, csgChildren_eq, List.flatMap_map]
      constructor
      · rw [List.mem_flatMap]
        rintro ⟨n, hn, hT⟩
        have h := (((ihq n hn).1 p.1).1 hT).1
        rw [mem_subsets] at hn
        obtain ⟨i, hi⟩ := (ne_zero_iff n).1 hn.2
        have := ((mem_csgN M super p i).1 (hn.1 i hi)).1.1
        exact this (h i (by simp [hi]))
      · rw [List.nodup_flatMap]
        refine ⟨fun n hn => (ihq n hn).2, ?_⟩
        apply (subsets_sorted (M.csgN super p)).imp_of_mem
        intro n n' hn hn' hlt T hT hT'
        have e1 := ext_inter M super hn (((ihq n hn).1 T).1 hT)
        have e2 := ext_inter M super hn' (((ihq n' hn').1 T).1 hT')
        have : n = n' := e1.symm.trans e2
        subst this
        rw [BitVec.lt_def] at hlt; omega

theorem csgE_spec (p : SB × SB) (hp : Sub p.1 super) :
    (∀ T, T ∈ M.csgE super p ↔ M.Ext super p.1 p.2 T) ∧ (M.csgE super p).Nodup :=
  csgRec_spec M super 64 p hp (size_le _)

theorem csgLoop_perm (fuel : Nat) (Q : List (SB × SB)) (h : (Q.flatMap (M.csgE super)).length ≤ fuel) :
    (M.csgLoop super fuel Q).Perm (Q.flatMap (M.csgE super)) := by
  induction fuel generalizing Q with
  | zero =>
    have : Q.flatMap (M.csgE super) = [] := List.length_eq_zero_iff.1 (by omega)
    rw [this, csgLoop]
  | succ f ih =>
    cases Q with
    | nil => simp [csgLoop]
    | cons p Q =>
      rw [List.flatMap_cons, csgE_unfold] at h ⊢
      rw [csgLoop, List.cons_append]
      apply List.Perm.cons
      have hperm : ((Q ++ M.csgChildren super p).flatMap (M.csgE super)).Perm
          ((M.csgChildren super p).flatMap (M.csgE super) ++ Q.flatMap (M.csgE super)) := by
        rw [List.flatMap_append]; exact List.perm_append_comm
      refine (ih _ ?_).trans hperm
      rw [hperm.length_eq]
      simp only [List.cons_append, List.length_cons] at h
      omega

theorem csgLoop_mono (f g : Nat) (Q : List (SB × SB)) (hf : (Q.flatMap (M.csgE super)).length ≤ f)
    (hg : (Q.flatMap (M.csgE super)).length ≤ g) : M.csgLoop super f Q = M.csgLoop super g Q := by
  induction f generalizing g Q with
  | zero =>
    have hQ : Q = [] := by
      cases Q with
      | nil => rfl
      | cons p Q => rw [List.flatMap_cons, csgE_unfold] at hf; simp at hf
    subst hQ
    cases g <;> simp [csgLoop]
  | succ f ih =>
    cases Q with
    | nil => cases g <;> simp [csgLoop]
    | cons p Q =>
      rw [List.flatMap_cons, csgE_unfold] at hf hg
      simp only [List.cons_append, List.length_cons, List.length_append] at hf hg
      cases g with
      | zero => omega
      | succ g =>
        rw [csgLoop, csgLoop]
        congr 1
        apply ih <;> · rw [List.flatMap_append, List.length_append]; omega

theorem csgE_length (p : SB × SB) (hp : Sub p.1 super) : (M.csgE super p).length ≤ super.toNat + 1 := by
  obtain ⟨h1, h2⟩ := csgE_spec M super p hp
  have hnd : ((M.csgE super p).map BitVec.toNat).Nodup :=
    h2.map (fun a b h => BitVec.eq_of_toNat_eq h)
  have hsub : ∀ k ∈ (M.csgE super p).map BitVec.toNat, k ∈ List.range (super.toNat + 1) := by
    intro k hk
    obtain ⟨T, hT, rfl⟩ := List.mem_map.1 hk
    have := le_of_sub ((h1 T).1 hT).2.1
    rw [BitVec.le_def] at this
    rw [List.mem_range]; omega
  have := (hnd.subperm hsub).length_le
  simpa using this

/-- one start vertex -/
theorem csgStart_spec (i : Nat) (hi : Mem super i) (X : SB) :
    let l := M.csgLoop super (super.toNat + 1) [(singleton i, X)]
    (∀ T, T ∈ l ↔ Mem T i ∧ Sub T super ∧ (∀ j, Mem T j → j ≠ i → ¬ Mem X j) ∧
      ∀ j, Mem T j → Relation.ReflTransGen (M.EdgeIn T) i j) ∧ l.Nodup := by
  intro l
  have hs : Sub (singleton i) super := by
    intro j hj; rw [mem_singleton] at hj; rwa [hj.2]
  obtain ⟨h1, h2⟩ := csgE_spec M super (singleton i, X) hs
  have hperm : l.Perm (M.csgE super (singleton i, X)) := by
    have := csgLoop_perm M super (super.toNat + 1) [(singleton i, X)]
      (by simpa using csgE_length M super (singleton i, X) hs)
    simpa using this
  have hi64 := mem_lt hi
  refine ⟨fun T => ?_, hperm.nodup_iff.2 h2⟩
  rw [hperm.mem_iff, h1]
  constructor
  · rintro ⟨h3, h4, h5, h6⟩
    refine ⟨h3 i (by simp [hi64]), h4, ?_, ?_⟩
    · intro j hj hne
      exact h5 j hj (by simp only [mem_singleton]; tauto)
    · intro j hj
      obtain ⟨s, hs, hp⟩ := h6 j hj
      rw [mem_singleton] at hs
      rwa [hs.2] at hp
  · rintro ⟨h3, h4, h5, h6⟩
    refine ⟨?_, h4, ?_, ?_⟩
    · intro j hj; rw [mem_singleton] at hj; rwa [hj.2]
    · intro j hj hne
      rw [mem_singleton] at hne
      exact h5 j hj (fun hc => hne ⟨mem_lt hj, hc⟩)
    · intro j hj
      exact ⟨i, by simp [hi64], h6 j hj⟩

theorem mem_iterate (S : SB) (it : Nat × SB) : it ∈ iterate S ↔ Mem S it.1 ∧ it.2 = singleton it.1 := by
  obtain ⟨h1, h2, h3⟩ := iterLoop_spec 64 S (size_le S)
  constructor
  · intro h
    exact ⟨(h3 it.1).1 (List.mem_map_of_mem h), h1 it h⟩
  · rintro ⟨h4, h5⟩
    obtain ⟨p, hp, hp1⟩ := List.mem_map.1 ((h3 it.1).2 h4)
    have := h1 p hp
    have : p = it := Prod.ext hp1 (by rw [this, h5, hp1])
    rwa [← this]

theorem mem_larger (source : SB) (i j : Nat) (hi : i < 64) :
    Mem (source &&& ~~~ maskToLo (singleton i)) j ↔ Mem source j ∧ i < j := by
  rw [mem_and, mem_not, mem_maskToLo (isLeast_singleton hi)]
  constructor
  · rintro ⟨h1, _, h2⟩; exact ⟨h1, by omega⟩
  · rintro ⟨h1, h2⟩; exact ⟨h1, mem_lt h1, by omega⟩

theorem csgs_spec (hM : M.Symm) (source : SB) :
    (∀ T, T ∈ M.csgs super source ↔ Sub T super ∧ M.ConnSet T ∧ ∃ i, Mem T i ∧ Mem source i) ∧
    (M.csgs super source).Nodup := by
  have hst : ∀ it ∈ iterate (source &&& super), 
      (∀ T, T ∈ M.csgLoop super (super.toNat + 1) [(it.2, (source &&& super) &&& ~~~ maskToLo it.2)] ↔
        Mem T it.1 ∧ Sub T super ∧ (∀ j, Mem T j → Mem source j → j ≤ it.1) ∧
        ∀ j, Mem T j → Relation.ReflTransGen (M.EdgeIn T) it.1 j) ∧
      (M.csgLoop super (super.toNat + 1) [(it.2, (source &&& super) &&& ~~~ maskToLo it.2)]).Nodup := by
    intro it hit
    obtain ⟨h1, h2⟩ := (mem_iterate _ it).1 hit
    rw [mem_and] at h1
    rw [h2]
    obtain ⟨h3, h4⟩ := csgStart_spec M super it.1 h1.2 ((source &&& super) &&& ~~~ maskToLo (singleton it.1))
    refine ⟨fun T => ?_, h4⟩
    rw [h3]
    simp only [mem_larger _ _ _ (mem_lt h1.2), mem_and]
    constructor
    · rintro ⟨h5, h6, h7, h8⟩
      refine ⟨h5, h6, ?_, h8⟩
      intro j hj hs
      by_contra hc
      exact h7 j hj (by omega) ⟨⟨hs, h6 j hj⟩, by omega⟩
    · rintro ⟨h5, h6, h7, h8⟩
      refine ⟨h5, h6, ?_, h8⟩
      rintro j hj _ ⟨⟨hs, _⟩, hlt⟩
      have := h7 j hj hs
      omega
  constructor
  · intro T
    rw [csgs, List.mem_flatMap]
    constructor
    · rintro ⟨it, hit, hT⟩
      obtain ⟨h1, h2, h3, h4⟩ := ((hst it hit).1 T).1 hT
      have := ((mem_iterate _ it).1 hit).1
      rw [mem_and] at this
      exact ⟨h2, connSet_of_root hM it.1 h4, it.1, h1, this.1⟩
    · rintro ⟨h1, h2, i, hi, hs⟩
      have hne : T &&& source ≠ 0#64 := by
        rw [ne_zero_iff]; exact ⟨i, by simp [hi, hs]⟩
      obtain ⟨z, hz⟩ := exists_greatest hne
      have hzm := (mem_and _ _ _).1 hz.1
      have hit : (z, singleton z) ∈ iterate (source &&& super) := by
        rw [mem_iterate]
        exact ⟨(mem_and _ _ _).2 ⟨hzm.2, h1 z hzm.1⟩, rfl⟩
      refine ⟨(z, singleton z), hit, ?_⟩
      exact ((hst _ hit).1 T).2 ⟨hzm.1, h1, fun j hj hs => hz.2 j ((mem_and _ _ _).2 ⟨hj, hs⟩),
        fun j hj => h2 z j hzm.1 hj⟩
  · rw [csgs, List.nodup_flatMap]
    refine ⟨fun it hit => (hst it hit).2, ?_⟩
    have hsorted : (iterate (source &&& super)).Pairwise (fun a b => a.1 < b.1) :=
      List.pairwise_map.1 (iterLoop_spec 64 (source &&& super) (size_le _)).2.1
    apply hsorted.imp_of_mem
    intro a b ha hb hlt T hTa hTb
    have h1 := ((hst a ha).1 T).1 hTa
    have h2 := ((hst b hb).1 T).1 hTb
    have hbs := ((mem_iterate _ b).1 hb).1
    rw [mem_and] at hbs
    have := h1.2.2.1 b.1 h2.1 hbs.1
    omega

/-- specification of one oriented csg-cmp pair -/
theorem csgPairs_spec (hM : M.Symm) :
    (∀ A B, (A, B) ∈ M.csgPairs super ↔
      Sub A super ∧ Sub B super ∧ M.ConnSet A ∧ M.ConnSet B ∧ (∀ i, ¬ (Mem A i ∧ Mem B i)) ∧
      (∃ x y, Mem A x ∧ Mem B y ∧ M.Edge x y) ∧ ∃ a, Mem A a ∧ ∀ b, Mem B b → b < a) ∧
    (M.csgPairs super).Nodup := by
  have hA := csgs_spec M super hM super
  have hB : ∀ first, first ∈ M.csgs super super → ∀ B,
      (B ∈ M.csgs (diff super first &&& maskToLo (hi first)) (M.neighbors first &&& super) ↔
        Sub B super ∧ M.ConnSet B ∧ (∀ i, ¬ (Mem first i ∧ Mem B i)) ∧ 
        (∃ x y, Mem first x ∧ Mem B y ∧ M.Edge x y) ∧ ∃ a, Mem first a ∧ ∀ b, Mem B b → b < a) := by
    intro first hf B
    obtain ⟨_, _, i, hi, _⟩ := (hA.1 first).1 hf
    obtain ⟨z, hz⟩ := exists_greatest ((ne_zero_iff first).2 ⟨i, hi⟩)
    have hhi : IsLeast (SB.hi first) z :=
      ⟨(mem_hi hz z).2 rfl, fun j hj => by have := (mem_hi hz j).1 hj; omega⟩
    rw [(csgs_spec M _ hM _).1]
    simp only [mem_and, mem_neighbors]
    constructor
    · rintro ⟨h1, h2, y, hy, ⟨hy1, x, hx, he⟩, hy2⟩
      refine ⟨?_, h2, ?_, ⟨x, y, hx, hy, he⟩, z, hz.1, ?_⟩
      · intro j hj
        have := h1 j hj
        rw [mem_and, mem_diff] at this
        exact this.1.1
      · rintro j ⟨hj1, hj2⟩
        have := h1 j hj2
        rw [mem_and, mem_diff] at this
        exact this.1.2 hj1
      · intro j hj
        have := h1 j hj
        rw [mem_and, mem_diff, mem_maskToLo hhi] at this
        rcases Nat.eq_or_lt_of_le this.2 with rfl | h
        · exact absurd hz.1 this.1.2
        · exact h
    · rintro ⟨h1, h2, h3, ⟨x, y, hx, hy, he⟩, a, ha, h4⟩
      refine ⟨?_, h2, y, hy, ⟨fun hc => h3 y ⟨hc, hy⟩, x, hx, he⟩, h1 y hy⟩
      intro j hj
      rw [mem_and, mem_diff, mem_maskToLo hhi]
      have := h4 j hj
      have := hz.2 a ha
      exact ⟨⟨h1 j hj, fun hc => h3 j ⟨hc, hj⟩⟩, by omega⟩
  constructor
  · intro A B
    rw [csgPairs, List.mem_flatMap]
    constructor
    · rintro ⟨first, hf, hm⟩
      obtain ⟨second, hs, heq⟩ := List.mem_map.1 hm
      obtain ⟨rfl, rfl⟩ := Prod.mk.inj heq
      obtain ⟨h1, h2, _⟩ := (hA.1 first).1 hf
      obtain ⟨h3, h4, h5, h6, h7⟩ := (hB first hf second).1 hs
      exact ⟨h1, h3, h2, h4, h5, h6, h7⟩
    · rintro ⟨h1, h2, h3, h4, h5, h6, h7⟩
      obtain ⟨a, ha, _⟩ := id h7
      have hf : A ∈ M.csgs super super := (hA.1 A).2 ⟨h1, h3, a, ha, h1 a ha⟩
      exact ⟨A, hf, List.mem_map.2 ⟨B, (hB A hf B).2 ⟨h2, h4, h5, h6, h7⟩, rfl⟩⟩
  · rw [csgPairs, List.nodup_flatMap]
    constructor
    · intro first hf
      exact (csgs_spec M _ hM _).2.map (fun a b h => (Prod.mk.inj h).2)
    · apply hA.2.imp
      intro a b hab p hp hp'
      obtain ⟨_, _, e1⟩ := List.mem_map.1 hp
      obtain ⟨_, _, e2⟩ := List.mem_map.1 hp'
      apply hab
      rw [← e1] at e2
      exact (Prod.mk.inj e2).1.symm

end AdjMat
end Mutable
