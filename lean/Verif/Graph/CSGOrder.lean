import Verif.Graph.CSG
import Verif.Graph.Tree
/-! Order in which `for_each_CSG_undirected` calls back: predecessors come first; on distance-hereditary graphs all subsets do. -/
namespace Mutable
open SB
namespace AdjMat
variable (M : AdjMat) (super : SB)

/-! ### every callback extends an earlier one by one vertex -/

/-- Each element is the start vertex or extends an earlier element by one vertex other than the start vertex. -/
def PredOK (i : Nat) (l : List SB) : Prop :=
  ∀ l1 F l2, l = l1 ++ F :: l2 → F = singleton i ∨ ∃ y, Mem F y ∧ y ≠ i ∧ diff F (singleton y) ∈ l1

theorem PredOK.prefix {i : Nat} {l m : List SB} (h : PredOK i (l ++ m)) : PredOK i l := by
  intro l1 F l2 he
  exact h l1 F (l2 ++ m) (by rw [he]; simp)

theorem PredOK.append {i : Nat} {l m : List SB} (h : PredOK i l)
    (hm : ∀ m1 F m2, m = m1 ++ F :: m2 → F = singleton i ∨ ∃ y, Mem F y ∧ y ≠ i ∧ diff F (singleton y) ∈ l ++ m1) :
    PredOK i (l ++ m) := by
  intro l1 F l2 he
  rcases List.append_eq_append_iff.1 he with ⟨a, h1, h2⟩ | ⟨a, h1, h2⟩
  · -- l1 = l ++ a, m = a ++ F :: l2
    rcases hm a F l2 h2 with h | h
    · exact Or.inl h
    · rw [h1]; exact Or.inr h
  · cases a with
    | nil =>
      simp only [List.append_nil] at h1
      rcases hm [] F l2 (by simpa using h2.symm) with h | h
      · exact Or.inl h
      · rw [h1] at h; simpa using Or.inr (by simpa using h)
    | cons x a =>
      simp only [List.cons_append, List.cons.injEq] at h2
      obtain ⟨rfl, h2⟩ := h2
      exact h l1 F a h1

theorem csgChildren_pred {i : Nat} {p : SB × SB} (hi : Mem p.1 i) {l : List SB} (hp : p.1 ∈ l) (m1 : List SB) (F : SB) (m2 : List SB)
    (he : (M.csgChildren super p).map Prod.fst = m1 ++ F :: m2) :
    F = singleton i ∨ ∃ y, Mem F y ∧ y ≠ i ∧ diff F (singleton y) ∈ l ++ m1 := by
  right
  rw [csgChildren_eq, List.map_map] at he
  obtain ⟨s1, s2, hs, h1, h2⟩ := List.map_eq_append_iff.1 he
  obtain ⟨n, s3, rfl, h3, h4⟩ := List.map_eq_cons_iff.1 h2
  simp only [Function.comp] at h3 h1
  have hn : n ∈ subsets (M.csgN super p) := by rw [hs]; simp
  rw [mem_subsets] at hn
  obtain ⟨y, hy⟩ := (ne_zero_iff n).1 hn.2
  have hyN := (mem_csgN M super p y).1 (hn.1 y hy)
  have hdisj : ∀ j, Mem p.1 j → j ≠ y := by rintro j hj rfl; exact hyN.1.1 hj
  have hF : diff F (singleton y) = p.1 ||| diff n (singleton y) := by
    apply SB.ext; intro j
    rw [← h3]
    simp only [mem_diff, mem_or, mem_singleton]
    constructor
    · rintro ⟨h | h, h'⟩
      · exact Or.inl h
      · exact Or.inr ⟨h, h'⟩
    · rintro (h | h)
      · exact ⟨Or.inl h, fun hc => hdisj j h hc.2⟩
      · exact ⟨Or.inr h.1, h.2⟩
  refine ⟨y, by rw [← h3]; simp [hy], fun h => hdisj i hi h.symm, ?_⟩
  rw [hF, List.mem_append]
  by_cases h0 : diff n (singleton y) = 0#64
  · left
    have : p.1 ||| diff n (singleton y) = p.1 := by
      apply SB.ext; intro j; rw [h0, mem_or]; simp [not_mem_zero]
    rw [this]; exact hp
  · right
    have hsub : Sub (diff n (singleton y)) n := fun j hj => ((mem_diff _ _ _).1 hj).1
    have hmem : diff n (singleton y) ∈ subsets (M.csgN super p) := by
      rw [mem_subsets]; exact ⟨fun j hj => hn.1 j (hsub j hj), h0⟩
    have hne : diff n (singleton y) ≠ n := by
      intro h
      have : Mem (diff n (singleton y)) y := by rw [h]; exact hy
      rw [mem_diff, mem_singleton] at this
      exact this.2 ⟨mem_lt hy, rfl⟩
    have hlt := lt_of_ssub hsub hne
    have hsort := subsets_sorted (M.csgN super p)
    rw [hs] at hmem hsort
    rw [List.pairwise_append, List.pairwise_cons] at hsort
    rw [← h1, List.mem_map]
    rcases List.mem_append.1 hmem with h | h
    · exact ⟨_, h, rfl⟩
    · rcases List.mem_cons.1 h with h | h
      · exact absurd h hne
      · have := hsort.2.1.1 _ h
        rw [BitVec.lt_def] at this hlt
        omega

theorem csgLoop_predOK {i : Nat} (fuel : Nat) (Q : List (SB × SB)) (out : List SB) (hQ : ∀ q ∈ Q, Mem q.1 i)
    (h : PredOK i (out ++ Q.map Prod.fst)) : PredOK i (out ++ M.csgLoop super fuel Q) := by
  induction fuel generalizing Q out with
  | zero => rw [csgLoop, List.append_nil]; exact h.prefix
  | succ f ih =>
    cases Q with
    | nil => rw [csgLoop]; simpa using h
    | cons p Q =>
      rw [csgLoop]
      have hp := hQ p (by simp)
      have := ih (Q ++ M.csgChildren super p) (out ++ [p.1]) (by
        intro q hq
        rcases List.mem_append.1 hq with hq | hq
        · exact hQ q (by simp [hq])
        · rw [csgChildren_eq, List.mem_map] at hq
          obtain ⟨n, _, rfl⟩ := hq
          simp [hp]) (by
        rw [List.map_append, ← List.append_assoc]
        refine PredOK.append (by simpa using h) ?_
        intro m1 F m2 he
        exact csgChildren_pred M super hp (by simp) m1 F m2 he)
      simpa using this

/-! ### groups by greatest vertex -/

/-- one group of callbacks -/
def csgGroup (i : Nat) : List SB :=
  M.csgLoop super (super.toNat + 1) [(singleton i, (super &&& super) &&& ~~~ maskToLo (singleton i))]

theorem and_self' (S : SB) : S &&& S = S := by apply SB.ext; intro i; simp

theorem csgs_groups : M.csgs super super = ((iterate super).map Prod.fst).flatMap (M.csgGroup super) := by
  rw [csgs, List.flatMap_map]
  simp only [and_self']
  have h := (iterLoop_spec 64 super (size_le super)).1
  apply List.flatMap_congr
  intro it hit
  rw [csgGroup, h it hit, and_self']

theorem groups_sorted : ((iterate super).map Prod.fst).Pairwise (· < ·) := (iterLoop_spec 64 super (size_le super)).2.1
theorem mem_groups (i : Nat) : i ∈ (iterate super).map Prod.fst ↔ Mem super i := (iterLoop_spec 64 super (size_le super)).2.2 i

theorem mem_csgGroup {i : Nat} (hi : Mem super i) (T : SB) : T ∈ M.csgGroup super i ↔
    SB.IsGreatest T i ∧ Sub T super ∧ ∀ j, Mem T j → Relation.ReflTransGen (M.EdgeIn T) i j := by
  rw [csgGroup, (csgStart_spec M super i hi _).1]
  simp only [mem_larger _ _ _ (mem_lt hi), mem_and]
  constructor
  · rintro ⟨h1, h2, h3, h4⟩
    refine ⟨⟨h1, fun j hj => ?_⟩, h2, h4⟩
    by_contra hc
    exact h3 j hj (by omega) ⟨⟨h2 j hj, h2 j hj⟩, by omega⟩
  · rintro ⟨h1, h2, h4⟩
    refine ⟨h1.1, h2, ?_, h4⟩
    rintro j hj hne ⟨_, hlt⟩
    have := h1.2 j hj
    omega

theorem csgGroup_predOK {i : Nat} (hi : Mem super i) : PredOK i (M.csgGroup super i) := by
  have := csgLoop_predOK M super (i := i) (super.toNat + 1)
    [(singleton i, (super &&& super) &&& ~~~ maskToLo (singleton i))] [] (by simp [mem_lt hi]) (by
      intro l1 F l2 he
      left
      cases l1 with
      | nil => simp at he; exact he.1.symm
      | cons a l1 => simp at he)
  simpa [csgGroup] using this

theorem flatMap_split {α β} {f : α → List β} {l : List α} {l1 l2 : List β} {x : β} (h : l.flatMap f = l1 ++ x :: l2) :
    ∃ k1 a k2 m1 m2, l = k1 ++ a :: k2 ∧ f a = m1 ++ x :: m2 ∧ l1 = k1.flatMap f ++ m1 := by
  induction l generalizing l1 with
  | nil => simp at h
  | cons a l ih =>
    rw [List.flatMap_cons] at h
    rcases List.append_eq_append_iff.1 h with ⟨b, h1, h2⟩ | ⟨b, h1, h2⟩
    · obtain ⟨k1, a', k2, m1, m2, e1, e2, e3⟩ := ih h2
      exact ⟨a :: k1, a', k2, m1, m2, by rw [e1]; rfl, e2, by rw [h1, e3]; simp⟩
    · cases b with
      | nil =>
        simp only [List.append_nil] at h1
        obtain ⟨k1, a', k2, m1, m2, e1, e2, e3⟩ := ih (l1 := []) (by simpa using h2.symm)
        refine ⟨a :: k1, a', k2, m1, m2, by rw [e1]; rfl, e2, ?_⟩
        rw [List.flatMap_cons, List.append_assoc, ← e3, h1]; simp
      | cons y b =>
        simp only [List.cons_append, List.cons.injEq] at h2
        obtain ⟨rfl, h2⟩ := h2
        exact ⟨[], a, l, l1, b, rfl, h1, by simp⟩

/-- Position of a callback: its group, and what precedes it. -/
theorem csgs_split {l1 l2 : List SB} {F : SB} (h : M.csgs super super = l1 ++ F :: l2) :
    ∃ i m1 m2, Mem super i ∧ M.csgGroup super i = m1 ++ F :: m2 ∧ (∀ T ∈ m1, T ∈ l1) ∧
      ∀ j, Mem super j → j < i → ∀ T ∈ M.csgGroup super j, T ∈ l1 := by
  rw [csgs_groups] at h
  obtain ⟨k1, i, k2, m1, m2, e1, e2, e3⟩ := flatMap_split h
  have hi : Mem super i := (mem_groups super i).1 (by rw [e1]; simp)
  refine ⟨i, m1, m2, hi, e2, ?_, ?_⟩
  · intro T hT; rw [e3]; exact List.mem_append_right _ hT
  · intro j hj hlt T hT
    rw [e3]
    apply List.mem_append_left
    rw [List.mem_flatMap]
    refine ⟨j, ?_, hT⟩
    have hjm := (mem_groups super j).2 hj
    have hs := groups_sorted super
    rw [e1] at hjm hs
    rw [List.pairwise_append, List.pairwise_cons] at hs
    rcases List.mem_append.1 hjm with h | h
    · exact h
    · rcases List.mem_cons.1 h with h | h
      · omega
      · have := hs.2.1.1 j h; omega

theorem csgs_pred {l1 l2 : List SB} {F : SB} (h : M.csgs super super = l1 ++ F :: l2) :
    ∃ i, SB.IsGreatest F i ∧ (F = singleton i ∨ ∃ y, Mem F y ∧ y < i ∧ diff F (singleton y) ∈ l1) := by
  obtain ⟨i, m1, m2, hi, h1, h2, _⟩ := csgs_split M super h
  have hg : F ∈ M.csgGroup super i := by rw [h1]; simp
  rw [mem_csgGroup M super hi] at hg
  refine ⟨i, hg.1, ?_⟩
  rcases csgGroup_predOK M super hi m1 F m2 h1 with h | ⟨y, a, b, c⟩
  · exact Or.inl h
  · have := hg.1.2 y a
    exact Or.inr ⟨y, a, by omega, h2 _ c⟩

theorem csgs_smaller_max (hM : M.Symm) {l1 l2 : List SB} {F : SB} (h : M.csgs super super = l1 ++ F :: l2) {S : SB} {i j : Nat}
    (hS : M.ConnSet S) (hsub : Sub S super) (hj : SB.IsGreatest S j) (hF : SB.IsGreatest F i) (hlt : j < i) : S ∈ l1 := by
  obtain ⟨i', m1, m2, hi, h1, h2, h3⟩ := csgs_split M super h
  have hg : F ∈ M.csgGroup super i' := by rw [h1]; simp
  rw [mem_csgGroup M super hi] at hg
  have : i' = i := by
    have a := hg.1.2 i hF.1; have b := hF.2 i' hg.1.1; omega
  subst this
  exact h3 j (hsub j hj.1) hlt S ((mem_csgGroup M super (hsub j hj.1) S).2 ⟨hj, hsub, fun k hk => hS j k hj.1 hk⟩)

/-! ### layers -/

/-- The vertices of `T` at distance at most `k` from `i` inside `T`. -/
def ball (i : Nat) (T : SB) : Nat → SB
  | 0 => singleton i
  | k+1 => ball i T k ||| (M.neighbors (ball i T k) &&& T)

theorem ball_mono {i : Nat} {T : SB} {j k : Nat} (h : j ≤ k) : Sub (M.ball i T j) (M.ball i T k) := by
  induction h with
  | refl => exact Sub.refl _
  | step _ ih => exact ih.trans (fun x hx => by rw [ball]; simp [hx])

theorem ball_sub {i : Nat} {T : SB} (hi : Mem T i) (k : Nat) : Sub (M.ball i T k) T := by
  induction k with
  | zero => intro x hx; rw [ball, mem_singleton] at hx; rw [hx.2]; exact hi
  | succ k ih =>
    intro x hx
    rw [ball, mem_or, mem_and] at hx
    rcases hx with h | h
    · exact ih x h
    · exact h.2

theorem ball_reach {i : Nat} {T : SB} (hi : Mem T i) (k : Nat) :
    ∀ x, Mem (M.ball i T k) x → Relation.ReflTransGen (M.EdgeIn T) i x := by
  induction k with
  | zero => intro x hx; rw [ball, mem_singleton] at hx; rw [hx.2]
  | succ k ih =>
    intro x hx
    rw [ball, mem_or, mem_and, mem_neighbors] at hx
    rcases hx with h | ⟨⟨_, y, hy, he⟩, hT⟩
    · exact ih x h
    · exact (ih y hy).tail ⟨he, ball_sub M hi k y hy, hT⟩

/-- The breadth-first layers. -/
def csgLayer (i : Nat) (X : SB) : Nat → List (SB × SB)
  | 0 => [(singleton i, X)]
  | k+1 => (csgLayer i X k).flatMap (M.csgChildren super)

/-- What a queue entry in layer `k` looks like. -/
structure LayerOK (i k : Nat) (p : SB × SB) : Prop where
  root : Mem p.1 i
  sub : Sub p.1 super
  full : M.ball i p.1 k = p.1
  strict : ∀ j, j < k → M.ball i p.1 j ≠ p.1
  seen : ∀ j, j < k → ∀ v, Mem super v → ¬ Mem p.1 v → (∃ x, Mem (M.ball i p.1 j) x ∧ M.Edge x v) → Mem p.2 v

theorem ball_child {i k : Nat} {p q : SB × SB} (hp : M.LayerOK super i k p) (hq : q ∈ M.csgChildren super p) :
    (∀ j, j ≤ k → M.ball i q.1 j = M.ball i p.1 j) ∧ M.ball i q.1 (k+1) = q.1 := by
  rw [csgChildren_eq, List.mem_map] at hq
  obtain ⟨n, hn, rfl⟩ := hq
  rw [mem_subsets] at hn
  have hN := fun v hv => (mem_csgN M super p v).1 (hn.1 v hv)
  have h1 : ∀ j, j ≤ k → M.ball i (p.1 ||| n) j = M.ball i p.1 j := by
    intro j
    induction j with
    | zero => intro _; rfl
    | succ j ih =>
      intro hj
      rw [ball, ball, ih (by omega)]
      apply SB.ext; intro v
      simp only [mem_or, mem_and]
      constructor
      · rintro (h | ⟨h1, h2 | h2⟩)
        · exact Or.inl h
        · exact Or.inr ⟨h1, h2⟩
        · exfalso
          rw [mem_neighbors] at h1
          obtain ⟨a, b, c⟩ := hN v h2
          exact c (hp.seen j (by omega) v b a.1 h1.2)
      · rintro (h | ⟨h1, h2⟩)
        · exact Or.inl h
        · exact Or.inr ⟨h1, Or.inl h2⟩
  refine ⟨h1, ?_⟩
  simp only
  rw [ball, h1 k le_rfl, hp.full]
  apply SB.ext; intro v
  simp only [mem_or, mem_and, mem_neighbors]
  constructor
  · rintro (h | ⟨_, h⟩)
    · exact Or.inl h
    · exact h
  · rintro (h | h)
    · exact Or.inl h
    · exact Or.inr ⟨(hN v h).1, Or.inr h⟩

theorem csgLayer_ok {i : Nat} (hi : Mem super i) (X : SB) (k : Nat) :
    ∀ p ∈ M.csgLayer super i X k, M.LayerOK super i k p := by
  induction k with
  | zero =>
    intro p hp
    rw [csgLayer, List.mem_singleton] at hp
    subst hp
    exact ⟨by simp [mem_lt hi], fun j hj => by rw [mem_singleton] at hj; rw [hj.2]; exact hi, rfl, fun j hj => by omega,
      fun j hj => by omega⟩
  | succ k ih =>
    intro q hq
    rw [csgLayer, List.mem_flatMap] at hq
    obtain ⟨p, hp, hq⟩ := hq
    have hP := ih p hp
    obtain ⟨b1, b2⟩ := ball_child M super hP hq
    rw [csgChildren_eq, List.mem_map] at hq
    obtain ⟨n, hn, rfl⟩ := hq
    rw [mem_subsets] at hn
    have hN := fun v hv => (mem_csgN M super p v).1 (hn.1 v hv)
    obtain ⟨w, hw⟩ := (ne_zero_iff n).1 hn.2
    refine ⟨by simp [hP.root], ?_, b2, ?_, ?_⟩
    · intro v hv
      simp only [mem_or] at hv
      rcases hv with h | h
      · exact hP.sub v h
      · exact (hN v h).2.1
    · intro j hj h
      rw [b1 j (by omega)] at h
      have : Mem (M.ball i p.1 j) w := by rw [h]; simp [hw]
      exact (hN w hw).1.1 (ball_sub M hP.root j w this)
    · rintro j hj v hv hnv ⟨x, hx, he⟩
      simp only at hx hnv ⊢
      rw [b1 j (by omega)] at hx
      rw [mem_or] at hnv ⊢
      by_cases hX : Mem p.2 v
      · exact Or.inl hX
      · right
        rw [mem_csgN]
        exact ⟨⟨fun h => hnv (Or.inl h), x, ball_sub M hP.root j x hx, he⟩, hv, hX⟩

/-- Distances from `i` do not change between connected subsets of `super`. -/
def BallHered (i : Nat) : Prop :=
  ∀ A S : SB, M.ConnSet A → M.ConnSet S → Sub A S → Sub S super → Mem A i → ∀ k x, Mem A x → Mem (M.ball i S k) x → Mem (M.ball i A k) x

theorem LayerOK.conn {M : AdjMat} {super : SB} (hM : M.Symm) {i k : Nat} {p : SB × SB} (h : M.LayerOK super i k p) : M.ConnSet p.1 :=
  connSet_of_root hM i (fun j hj => ball_reach M h.root k j (by rw [h.full]; exact hj))

theorem csgLayer_pairwise (hM : M.Symm) {i : Nat} (hi : Mem super i) (hH : M.BallHered super i) (X : SB) (k : Nat) :
    (M.csgLayer super i X k).Pairwise (fun p q => ¬ Sub q.1 p.1) := by
  induction k with
  | zero => rw [csgLayer]; exact List.pairwise_singleton _ _
  | succ k ih =>
    rw [csgLayer, List.pairwise_flatMap]
    constructor
    · intro p hp
      have hP := csgLayer_ok M super hi X k p hp
      rw [csgChildren_eq, List.pairwise_map]
      refine (subsets_sorted (M.csgN super p)).imp_of_mem ?_
      intro a b ha hb hlt hsub
      rw [mem_subsets] at ha hb
      have : Sub b a := by
        intro v hv
        have := hsub v (by simp [hv])
        simp only [mem_or] at this
        rcases this with h | h
        · exact absurd h ((mem_csgN M super p v).1 (hb.1 v hv)).1.1
        · exact h
      have := le_of_sub this
      rw [BitVec.lt_def] at hlt; rw [BitVec.le_def] at this; omega
    · refine ih.imp_of_mem ?_
      intro p' q' hp' hq' hn p hp q hq hsub
      apply hn
      have hP' := csgLayer_ok M super hi X k p' hp'
      have hQ' := csgLayer_ok M super hi X k q' hq'
      have hP := csgLayer_ok M super hi X (k+1) p (by rw [csgLayer, List.mem_flatMap]; exact ⟨p', hp', hp⟩)
      have hQ := csgLayer_ok M super hi X (k+1) q (by rw [csgLayer, List.mem_flatMap]; exact ⟨q', hq', hq⟩)
      have bp := (ball_child M super hP' hp).1 k le_rfl
      have bq := (ball_child M super hQ' hq).1 k le_rfl
      rw [hP'.full] at bp
      rw [hQ'.full] at bq
      -- the ball of `q` is contained in the ball of `p`
      have hmono : ∀ j, Sub (M.ball i q.1 j) (M.ball i p.1 j) := by
        intro j
        induction j with
        | zero => exact Sub.refl _
        | succ j ihj =>
          intro v hv
          rw [ball, mem_or, mem_and, mem_neighbors] at hv
          rw [ball, mem_or, mem_and, mem_neighbors]
          by_cases hb : Mem (M.ball i p.1 j) v
          · exact Or.inl hb
          · rcases hv with h | ⟨⟨_, y, hy, he⟩, h⟩
            · exact Or.inl (ihj v h)
            · exact Or.inr ⟨⟨hb, y, ihj y hy, he⟩, hsub v h⟩
      intro v hv
      have := hmono k v (by rw [bq]; exact hv)
      rwa [bp] at this

theorem csgLoop_layer (f : Nat) (Q1 Q2 : List (SB × SB)) :
    M.csgLoop super (f + Q1.length) (Q1 ++ Q2) = Q1.map Prod.fst ++ M.csgLoop super f (Q2 ++ Q1.flatMap (M.csgChildren super)) := by
  induction Q1 generalizing Q2 with
  | nil => simp
  | cons p Q1 ih =>
    rw [List.length_cons, ← Nat.add_assoc, List.cons_append, csgLoop, List.append_assoc, ih, List.flatMap_cons]
    simp

theorem csgLoop_prefix (f : Nat) (Q1 Q2 : List (SB × SB)) (h : f ≤ Q1.length) :
    M.csgLoop super f (Q1 ++ Q2) = (Q1.map Prod.fst).take f := by
  induction Q1 generalizing f Q2 with
  | nil => simp at h; subst h; simp [csgLoop]
  | cons p Q1 ih =>
    cases f with
    | zero => simp [csgLoop]
    | succ f =>
      rw [List.cons_append, csgLoop, List.append_assoc, ih f _ (by simpa using h)]
      simp

theorem csgLoop_subset_first (hM : M.Symm) {i : Nat} (hi : Mem super i) (hH : M.BallHered super i) (X : SB) :
    ∀ (f k : Nat), (∀ T ∈ M.csgLoop super f (M.csgLayer super i X k), ∃ j, k ≤ j ∧ ∃ p ∈ M.csgLayer super i X j, p.1 = T) ∧
      (M.csgLoop super f (M.csgLayer super i X k)).Pairwise (fun a b => ¬ Sub b a) := by
  intro f
  induction f using Nat.strong_induction_on with
  | _ f ih =>
    intro k
    have hmap : ((M.csgLayer super i X k).map Prod.fst).Pairwise (fun a b => ¬ Sub b a) := by
      rw [List.pairwise_map]; exact csgLayer_pairwise M super hM hi hH X k
    by_cases hf : f ≤ (M.csgLayer super i X k).length
    · have := csgLoop_prefix M super f (M.csgLayer super i X k) [] hf
      rw [List.append_nil] at this
      rw [this]
      constructor
      · intro T hT
        obtain ⟨p, hp, rfl⟩ := List.mem_map.1 (List.mem_of_mem_take hT)
        exact ⟨k, le_rfl, p, hp, rfl⟩
      · exact hmap.sublist (List.take_sublist _ _)
    · have hstep := csgLoop_layer M super (f - (M.csgLayer super i X k).length) (M.csgLayer super i X k) []
      rw [Nat.sub_add_cancel (by omega), List.append_nil, List.nil_append] at hstep
      rw [hstep]
      by_cases h0 : (M.csgLayer super i X k) = []
      · rw [h0]
        simp [csgLoop]
        cases f <;> simp [csgLoop]
      · have hpos : 0 < (M.csgLayer super i X k).length := List.length_pos_iff.2 h0
        obtain ⟨g1, g2⟩ := ih (f - (M.csgLayer super i X k).length) (by omega) (k+1)
        rw [csgLayer] at g1 g2
        constructor
        · intro T hT
          rcases List.mem_append.1 hT with hT | hT
          · obtain ⟨p, hp, rfl⟩ := List.mem_map.1 hT
            exact ⟨k, le_rfl, p, hp, rfl⟩
          · obtain ⟨j, hj, p, hp, rfl⟩ := g1 T hT
            exact ⟨j, by omega, p, hp, rfl⟩
        · rw [List.pairwise_append]
          refine ⟨hmap, g2, ?_⟩
          intro a ha b hb hsub
          obtain ⟨p, hp, rfl⟩ := List.mem_map.1 ha
          obtain ⟨j, hj, q, hq, rfl⟩ := g1 b hb
          have hP := csgLayer_ok M super hi X k p hp
          have hQ := csgLayer_ok M super hi X j q hq
          apply hQ.strict k (by omega)
          apply SB.ext; intro v
          constructor
          · exact ball_sub M hQ.root k v
          · intro hv
            refine hH q.1 p.1 (hQ.conn hM) (hP.conn hM) hsub hP.sub hQ.root k v hv ?_
            rw [hP.full]; exact hsub v hv

/-- On such graphs every connected set is called back after all its connected subsets. -/
theorem csgs_subset_first (hM : M.Symm) (hH : ∀ i, Mem super i → M.BallHered super i) :
    (M.csgs super super).Pairwise (fun a b => ¬ Sub b a) := by
  rw [csgs_groups, List.pairwise_flatMap]
  constructor
  · intro i hi
    rw [mem_groups] at hi
    have := (csgLoop_subset_first M super hM hi (hH i hi) ((super &&& super) &&& ~~~ maskToLo (singleton i))
      (super.toNat + 1) 0).2
    rwa [csgLayer] at this
  · refine (groups_sorted super).imp_of_mem ?_
    intro i j hi hj hlt A hA B hB hsub
    rw [mem_groups] at hi hj
    rw [mem_csgGroup M super hi] at hA
    rw [mem_csgGroup M super hj] at hB
    have := hA.1.2 j (hsub j hB.1.1)
    omega

end AdjMat
end Mutable
