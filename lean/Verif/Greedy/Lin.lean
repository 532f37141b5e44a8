import Verif.Greedy.GOO
import Verif.Greedy.Span
/-! The linearization of IK/KBZ. -/
namespace Mutable
open SB
namespace PE
variable {C D : Type} [LinearOrder C] {E : Env C D} {est : SB → D} {base : Nat → C} {W : Type} {X : LinEnv C D W}

/-- The joins along a linearization. -/
def chain : SB → List Nat → List (SB × SB)
  | _, [] => []
  | S, x :: xs => (S, SB.singleton x) :: chain (S ||| SB.singleton x) xs

/-- The relations of a linearization. -/
def joinAll : SB → List Nat → SB
  | S, [] => S
  | S, x :: xs => joinAll (S ||| SB.singleton x) xs

/-- The rank of `y` as a child of `p`. -/
def rankF (est : SB → D) (X : LinEnv C D W) (p y : Nat) : W :=
  X.rank (est (SB.singleton p)) (est (SB.singleton y)) (est (SB.singleton p ||| SB.singleton y))

/-- The properties of the spanning tree. -/
structure TreeOK (M : AdjMat) (n : Nat) (F : AdjMat) : Prop where
  symm : F.Symm
  sub : ∀ a b, F.Edge a b → M.Edge a b
  acyc : F.Acyclic
  lt : ∀ a b, F.Edge a b → a < n ∧ b < n

theorem members_nodup (S : SB) : (members S).Nodup := by
  have := (iterLoop_spec 64 S (size_le S)).2.1
  exact List.Pairwise.imp (fun h => Nat.ne_of_lt h) this

theorem single_disj {i j : Nat} (h : i ≠ j) : SB.singleton i &&& SB.singleton j = 0#64 := by
  rw [disj_iff]; intro k h1 h2; rw [mem_singleton] at h1 h2; omega

theorem pushRanked_spec (hE : Sane E est) (hn : E.n ≤ 64) {F : AdjMat} (hF : TreeOK E.M E.n F) (parent : Nat) {T0 : PT C D}
    (hok : ∀ S d, (T0 S).model = some d → d = est S) (hmod : ∀ i, i < E.n → (T0 (SB.singleton i)).model = some (est (SB.singleton i)))
    (N : List Nat) (hN : ∀ y ∈ N, F.Edge parent y ∧ y ≠ parent) : ∀ (T : PT C D) (Q : List (Nat × W)), Filled est T0 T →
    ∃ T', pushRanked E X F parent N (T, Q) = some (T', Q ++ N.map fun y => (y, rankF est X parent y)) ∧ Filled est T0 T' := by
  induction N with
  | nil => intro T Q h; exact ⟨T, by simp [pushRanked], h⟩
  | cons y N ih =>
    intro T Q h
    obtain ⟨he, hy⟩ := hN y (by simp)
    obtain ⟨l1, l2⟩ := hF.lt _ _ he
    have hd := single_disj (Ne.symm hy)
    have mp := h.model (hmod parent l1)
    have my := h.model (hmod y l2)
    obtain ⟨T1, e1, e2, e3, e4⟩ := ensureModel_spec hE hd (h.ok hok) mp my
    have hF1 : Filled est T T1 := ⟨e3, e4⟩
    obtain ⟨T2, r1, r2⟩ := ih (fun z hz => hN z (by simp [hz])) T1 (Q ++ [(y, rankF est X parent y)]) (h.trans hF1)
    refine ⟨T2, ?_, r2⟩
    have c1 : F.isConnected2 (SB.singleton parent) (SB.singleton y) = true := by
      rw [AdjMat.isConnected2_iff]
      exact ⟨y, parent, (mem_singleton _ _).2 ⟨by omega, rfl⟩, (mem_singleton _ _).2 ⟨by omega, rfl⟩, hF.symm _ _ he⟩
    have c2 : get (F.neighbors (SB.singleton parent)) y = true := by
      rw [get_iff, AdjMat.mem_neighbors]
      refine ⟨fun hc => hy ((mem_singleton _ _).1 hc).2, parent, (mem_singleton _ _).2 ⟨by omega, rfl⟩, he⟩
    rw [pushRanked, List.foldlM_cons]
    simp only [c1, c2, e1, hF1.model mp, hF1.model my, e2, Bool.not_true, Bool.or_self, Bool.false_eq_true, if_false]
    rw [pushRanked] at r1
    simpa [rankF] using r1

/-- The priority queue holds exactly the neighbors of the joined relations, with their ranks. -/
structure QInv (F : AdjMat) (rank : Nat → Nat → W) (S : SB) (Q : List (Nat × W)) : Prop where
  nodup : (Q.map Prod.fst).Nodup
  sound : ∀ e ∈ Q, ¬ Mem S e.1 ∧ ∃ p, Mem S p ∧ F.Edge p e.1 ∧ e.2 = rank p e.1
  complete : ∀ p y, Mem S p → ¬ Mem S y → F.Edge p y → (y, rank p y) ∈ Q
  conn : F.ConnSet S

/-- In a forest a vertex outside a connected set has at most one neighbor in it. -/
theorem one_neighbor {F : AdjMat} (hs : F.Symm) (ha : F.Acyclic) {S : SB} (hc : F.ConnSet S) {a b y : Nat} (h1 : Mem S a) (h2 : Mem S b)
    (hy : ¬ Mem S y) (e1 : F.Edge a y) (e2 : F.Edge b y) : a = b := by
  by_contra hne
  refine ha a y e1 ?_
  have hp : Relation.ReflTransGen (F.EdgeMinus a y) a b := by
    refine rtg_mono ?_ (hc a b h1 h2)
    rintro u v ⟨h3, h4, h5⟩
    exact ⟨h3, fun hh => hy (hh.2 ▸ h5), fun hh => hy (hh.1 ▸ h4)⟩
  refine hp.tail ⟨e2, fun hh => hne hh.1.symm, fun hh => hy (hh.1 ▸ h2)⟩

theorem QInv.init {F : AdjMat} {n : Nat} (hn : n ≤ 64) {rank : Nat → Nat → W} {r : Nat} (hr : r < n) :
    QInv F rank (SB.singleton r) ((members (F.neighbors (SB.singleton r))).map fun y => (y, rank r y)) := by
  refine ⟨?_, ?_, ?_, AdjMat.connSet_singleton F r⟩
  · rw [List.map_map]; simpa [Function.comp_def] using members_nodup (F.neighbors (SB.singleton r))
  · intro e he
    obtain ⟨y, hy, rfl⟩ := List.mem_map.1 he
    rw [AdjMat.mem_members, AdjMat.mem_neighbors] at hy
    obtain ⟨h1, p, h2, h3⟩ := hy
    rw [((mem_singleton _ _).1 h2).2] at h3
    exact ⟨h1, r, (mem_singleton _ _).2 ⟨by omega, rfl⟩, h3, rfl⟩
  · intro p y h1 h2 h3
    rw [((mem_singleton _ _).1 h1).2] at h3 ⊢
    refine List.mem_map.2 ⟨y, ?_, rfl⟩
    rw [AdjMat.mem_members, AdjMat.mem_neighbors]
    exact ⟨h2, r, (mem_singleton _ _).2 ⟨by omega, rfl⟩, h3⟩

theorem QInv.step {F : AdjMat} {n : Nat} {M : AdjMat} (hF : TreeOK M n F) (hn : n ≤ 64) {rank : Nat → Nat → W} {S : SB} {Q : List (Nat × W)}
    (h : QInv F rank S Q) {k : Nat} (hk : k < Q.length) :
    QInv F rank (S ||| SB.singleton Q[k].1) (Q.eraseIdx k ++
      (members (diff (F.neighbors (SB.singleton Q[k].1)) (S ||| SB.singleton Q[k].1))).map fun y => (y, rank Q[k].1 y)) := by
  have hperm := List.getElem_cons_eraseIdx_perm hk
  have hin : Q[k] ∈ Q := List.getElem_mem hk
  obtain ⟨s1, p, s2, s3, s4⟩ := h.sound _ hin
  have hnd : ((Q[k] :: Q.eraseIdx k).map Prod.fst).Nodup := (hperm.map Prod.fst).nodup_iff.2 h.nodup
  generalize Q[k] = e at *
  obtain ⟨id, w⟩ := e
  simp only [List.map_cons, List.nodup_cons] at hnd
  simp only at s1 s3 ⊢
  have hid : id < 64 := by have := hF.lt _ _ s3; omega
  have mid : Mem (SB.singleton id) id := (mem_singleton _ _).2 ⟨hid, rfl⟩
  have hconn : F.ConnSet (S ||| SB.singleton id) := h.conn.union hF.symm (AdjMat.connSet_singleton F id) s2 mid s3
  have memS' : ∀ i, Mem (S ||| SB.singleton id) i ↔ Mem S i ∨ i = id := by
    intro i; rw [mem_or, mem_singleton]
    constructor
    · rintro (h | h)
      · exact Or.inl h
      · exact Or.inr h.2
    · rintro (h | h)
      · exact Or.inl h
      · exact Or.inr ⟨by omega, h⟩
  have memN : ∀ y, y ∈ members (diff (F.neighbors (SB.singleton id)) (S ||| SB.singleton id)) ↔ F.Edge id y ∧ ¬ Mem (S ||| SB.singleton id) y := by
    intro y
    rw [AdjMat.mem_members, mem_diff, AdjMat.mem_neighbors]
    constructor
    · rintro ⟨⟨_, q, h2, h3⟩, h4⟩
      rw [((mem_singleton _ _).1 h2).2] at h3
      exact ⟨h3, h4⟩
    · rintro ⟨h3, h4⟩
      exact ⟨⟨fun hc => h4 (by rw [mem_or]; exact Or.inr hc), id, mid, h3⟩, h4⟩
  have old : ∀ e, e ∈ Q.eraseIdx k → e ∈ Q := fun e he => hperm.mem_iff.1 (by simp [he])
  refine ⟨?_, ?_, ?_, hconn⟩
  · rw [List.map_append, List.map_map, List.nodup_append]
    refine ⟨hnd.2, by simpa [Function.comp_def] using members_nodup _, ?_⟩
    intro a ha b hb
    simp only [List.mem_map, Function.comp_def] at ha hb
    obtain ⟨e, he, rfl⟩ := ha
    obtain ⟨y, hy, rfl⟩ := hb
    rintro hab
    rw [memN] at hy
    obtain ⟨t1, q, t2, t3, _⟩ := h.sound e (old e he)
    rw [hab] at t3
    have := one_neighbor hF.symm hF.acyc hconn ((memS' q).2 (Or.inl t2)) ((memS' id).2 (Or.inr rfl)) hy.2 t3 hy.1
    exact s1 (this ▸ t2)
  · intro e he
    rcases List.mem_append.1 he with he | he
    · obtain ⟨t1, q, t2, t3, t4⟩ := h.sound e (old e he)
      refine ⟨fun hc => ?_, q, (memS' q).2 (Or.inl t2), t3, t4⟩
      rcases (memS' _).1 hc with hc | hc
      · exact t1 hc
      · exact hnd.1 (List.mem_map.2 ⟨e, he, hc⟩)
    · obtain ⟨y, hy, rfl⟩ := List.mem_map.1 he
      rw [memN] at hy
      exact ⟨hy.2, id, (memS' _).2 (Or.inr rfl), hy.1, rfl⟩
  · intro q y h1 h2 h3
    rcases (memS' q).1 h1 with hq | rfl
    · have hy : ¬ Mem S y := fun hc => h2 ((memS' _).2 (Or.inl hc))
      have := hperm.mem_iff.2 (h.complete q y hq hy h3)
      rcases List.mem_cons.1 this with hc | hc
      · rw [Prod.mk.injEq] at hc
        exact absurd ((memS' y).2 (Or.inr hc.1)) h2
      · exact List.mem_append_left _ hc
    · exact List.mem_append_right _ (List.mem_map.2 ⟨y, (memN y).2 ⟨h3, h2⟩, rfl⟩)

/-- `pickR` yields positions, and the element there is not worse than any other. -/
def PickR (better : W → W → Prop) (pickR : List (Nat × W) → Nat) : Prop :=
  ∀ Q : List (Nat × W), Q ≠ [] → ∃ h : pickR Q < Q.length, ∀ q ∈ Q, better (Q[pickR Q]).2 q.2

theorem linLoop_spec (hE : Sane E est) (hn : E.n ≤ 64) {F : AdjMat} (hF : TreeOK E.M E.n F) {better : W → W → Prop}
    (hp : PickR better X.pickR) (fuel : Nat) : ∀ (Q : List (Nat × W)) (S : SB) (lin : List Nat) (T : PT C D) (done : List (SB × SB)),
    QInv F (rankF est X) S Q → S ≠ 0#64 → Sub S (all E.n) → RunInv E est base (Adjacent E.M) done T → Avail done S →
    (∀ q ∈ done, Sub (q.1 ||| q.2) S) → E.n ≤ fuel + size S →
    ∃ T' ys, linLoop E X F fuel Q S lin T = some (T', joinAll S ys, lin ++ ys) ∧
      RunInv E est base (Adjacent E.M) (done ++ chain S ys) T' ∧ RankLin F better (rankF est X) S ys ∧
      (T' (joinAll S ys)).cost = linCost E est base (T S).cost S ys := by
  have base_case : ∀ (S : SB) (lin : List Nat) (T : PT C D) (done : List (SB × SB)) (fuel : Nat), QInv F (rankF est X) S [] →
      RunInv E est base (Adjacent E.M) done T →
      ∃ T' ys, linLoop E X F fuel [] S lin T = some (T', joinAll S ys, lin ++ ys) ∧
      RunInv E est base (Adjacent E.M) (done ++ chain S ys) T' ∧ RankLin F better (rankF est X) S ys ∧
      (T' (joinAll S ys)).cost = linCost E est base (T S).cost S ys := by
    intro S lin T done fuel hQ hR
    refine ⟨T, [], ?_, by simpa [chain] using hR, .done fun p y h1 h2 => ?_, rfl⟩
    · unfold linLoop; simp [joinAll]
    · by_contra hc
      rw [AdjMat.adj_eq] at h2
      exact absurd (hQ.complete p y h1 hc h2) (by simp)
  induction fuel with
  | zero =>
    intro Q S lin T done hQ hS hsub hR hav hle hf
    cases Q with
    | nil => exact base_case S lin T done 0 hQ hR
    | cons e Q =>
      exfalso
      obtain ⟨h1, p, h2, h3, _⟩ := hQ.sound e (by simp)
      have hlt := (hF.lt _ _ h3).2
      have hall : S = all E.n := by
        by_contra hc
        have := size_lt_of_ssub hsub hc
        rw [size_all hn] at this; omega
      exact h1 (by rw [hall, mem_all hn]; exact hlt)
  | succ fuel ih =>
    intro Q S lin T done hQ hS hsub hR hav hle hf
    by_cases hQe : Q = []
    · subst hQe; exact base_case S lin T done (fuel + 1) hQ hR
    · obtain ⟨hk, hbest⟩ := hp Q hQe
      have hin : Q[X.pickR Q] ∈ Q := List.getElem_mem hk
      obtain ⟨s1, p, s2, s3, s4⟩ := hQ.sound _ hin
      have hstep := hQ.step hF hn hk
      have hget : Q[X.pickR Q]? = some Q[X.pickR Q] := List.getElem?_eq_getElem hk
      generalize hQk : Q[X.pickR Q] = e at *
      obtain ⟨id, w⟩ := e
      simp only at s1 s3 s4 hbest hstep
      have hidn := (hF.lt _ _ s3).2
      have mid : Mem (SB.singleton id) id := (mem_singleton _ _).2 ⟨by omega, rfl⟩
      have hd : S &&& SB.singleton id = 0#64 := by
        rw [disj_iff]; intro i hi hc; rw [((mem_singleton _ _).1 hc).2] at hi; exact s1 hi
      have hR0 : SB.singleton id ≠ 0#64 := (ne_zero_iff _).2 ⟨id, mid⟩
      have hsub1 : Sub (SB.singleton id) (all E.n) := fun i hi => by rw [((mem_singleton _ _).1 hi).2, mem_all hn]; exact hidn
      have hadj : Adjacent E.M S (SB.singleton id) := ⟨p, id, s2, mid, hF.sub _ _ s3⟩
      have hbef : ∀ q ∈ done, Before q (S, SB.singleton id) := by
        intro q hq
        have := hle q hq
        constructor
        · intro hc; simp only at hc
          exact s1 (this id (sub_left _ _ id (hc ▸ sub_right _ _ id mid)))
        · intro hc; simp only at hc
          exact s1 (this id (sub_right _ _ id (hc ▸ sub_right _ _ id mid)))
      have hno : hasPlan T (S ||| SB.singleton id) = false := by
        by_contra hc
        obtain ⟨q, q1, q2⟩ := hR.only _ (size_union_ne_one hd hS hR0) (by simpa using hc)
        exact s1 (hle q q1 id (q2 ▸ sub_right _ _ id mid))
      obtain ⟨T1, u1, u2, u3, u4⟩ := hR.step hE hn (A := S) (B := SB.singleton id) ⟨hS, hR0, hd, hsub, hsub1, hadj⟩ hbef hav
        (Or.inl (size_singleton (by omega)))
      have memN : ∀ y ∈ members (diff (F.neighbors (SB.singleton id)) (S ||| SB.singleton id)), F.Edge id y ∧ y ≠ id := by
        intro y hy
        rw [AdjMat.mem_members, mem_diff, AdjMat.mem_neighbors] at hy
        obtain ⟨⟨a, q, b, c⟩, d⟩ := hy
        rw [((mem_singleton _ _).1 b).2] at c
        exact ⟨c, fun hc => d (by rw [hc]; exact sub_right _ _ id mid)⟩
      obtain ⟨T2, v1, v2⟩ := pushRanked_spec (X := X) hE hn hF id u2.dp.models.ok (fun i hi => u2.dp.models.some _
        (fun j hj => by rw [((mem_singleton _ _).1 hj).2, mem_all hn]; exact hi) (u2.avail (Or.inl (size_singleton (by omega)))))
        _ memN T1 (Q.eraseIdx (X.pickR Q)) (Filled.refl T1)
      have hu2 := u2.models v2.same v2.mod
      obtain ⟨T3, ys, r1, r2, r3, r4⟩ := ih _ (S ||| SB.singleton id) (lin ++ [id]) T2 (done ++ [(S, SB.singleton id)]) hstep
        (by obtain ⟨i, hi⟩ := (ne_zero_iff _).1 hS; exact (ne_zero_iff _).2 ⟨i, sub_left _ _ i hi⟩)
        (sub_all_union hsub hsub1) hu2 (Or.inr ⟨(S, SB.singleton id), by simp, rfl⟩)
        (by
          intro q hq
          rcases List.mem_append.1 hq with hq | hq
          · exact fun i hi => sub_left _ _ i (hle q hq i hi)
          · rw [List.mem_singleton] at hq; subst hq; exact fun i hi => hi)
        (by rw [HS.size_union_disj hd, size_singleton (by omega)]; omega)
      refine ⟨T3, id :: ys, ?_, ?_, ?_, ?_⟩
      · rw [linLoop]
        have he : isEmpty (S &&& SB.singleton id) = true := by rw [hd]; rfl
        have hc2 : F.isConnected2 S (SB.singleton id) = true := by
          rw [AdjMat.isConnected2_iff]; exact ⟨id, p, mid, s2, hF.symm _ _ s3⟩
        simp only [List.isEmpty_iff, hQe, hget, he, hc2, u1, v1, Bool.not_true, Bool.false_eq_true, if_false, r1, joinAll]
        simp
      · simpa [chain] using r2
      · refine .step s2 s1 (by rw [AdjMat.adj_eq]; exact s3) (fun p' y a b c => ?_) r3
        rw [AdjMat.adj_eq] at c
        have := hbest _ (hQ.complete p' y a b c)
        rw [s4] at this
        exact this
      · rw [joinAll, r4, linCost, (v2.same _).2.2, u4 hno, hR.dp.base id hidn]

end PE
end Mutable
