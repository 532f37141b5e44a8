import Verif.Greedy.Run
import Verif.Greedy.Spec
import Verif.HSearch.TopDown
/-! Greedy operator ordering. -/
namespace Mutable
open SB
namespace PE

theorem mem_idxPairs (len i j : Nat) : (i, j) ∈ idxPairs len ↔ i < j ∧ j < len := by
  simp only [idxPairs, List.mem_flatMap, List.mem_map, List.mem_range, List.mem_range'_1, Prod.mk.injEq]
  constructor
  · rintro ⟨a, h1, b, h2, rfl, rfl⟩; omega
  · intro h; exact ⟨i, by omega, j, by omega, rfl, rfl⟩

/-- The two merged nodes are replaced by their merge. -/
theorem gooMerge_perm {l : List Node} {i j : Nat} (hij : i < j) (hj : j < l.length) {a b : Node} (ha : l[i]? = some a) (hb : l[j]? = some b) :
    ∃ rest, l.Perm (a :: b :: rest) ∧ (gooMerge l i j a b).Perm (a.merge b :: rest) := by
  have hne : l ≠ [] := by intro h; subst h; simp at hj
  obtain ⟨init, z, rfl⟩ : ∃ init z, l = init ++ [z] := ⟨l.dropLast, l.getLast hne, (List.dropLast_append_getLast hne).symm⟩
  have hi : i < init.length := by simp at hj; omega
  have ha' : init[i] = a := by
    rw [List.getElem?_append_left hi, List.getElem?_eq_getElem hi] at ha; exact Option.some.inj ha
  have hz : (init ++ [z]).getLastD a = z := by simp [List.getLastD_concat]
  have hset : (init ++ [z]).set i (a.merge b) = init.set i (a.merge b) ++ [z] := List.set_append_left _ _ hi
  have hia := List.getElem_cons_eraseIdx_perm hi
  rw [ha'] at hia
  rw [gooMerge, hz, hset]
  by_cases hjl : j = init.length
  · subst hjl
    have hbz : b = z := by simpa using hb.symm
    subst hbz
    refine ⟨init.eraseIdx i, ?_, ?_⟩
    · refine (List.perm_append_comm.trans ?_ : (init ++ [b]).Perm _)
      exact (hia.symm.cons b).trans (List.Perm.swap _ _ _)
    · rw [List.set_append_right _ _ (by simp)]
      simp only [List.length_set, Nat.sub_self, List.set_cons_zero, List.dropLast_concat]
      exact List.set_perm_cons_eraseIdx hi _
  · have hj' : j < init.length := by simp at hj; omega
    have hb' : init[j] = b := by
      rw [List.getElem?_append_left hj', List.getElem?_eq_getElem hj'] at hb; exact Option.some.inj hb
    have hjb := List.getElem_cons_eraseIdx_perm hj'
    rw [hb'] at hjb
    have hi2 : i < (init.eraseIdx j).length := by rw [List.length_eraseIdx_of_lt hj']; omega
    have hia2 := List.getElem_cons_eraseIdx_perm hi2
    rw [List.getElem_eraseIdx_of_lt _ hij, ha'] at hia2
    refine ⟨z :: (init.eraseIdx j).eraseIdx i, ?_, ?_⟩
    · refine (List.perm_append_comm.trans ?_ : (init ++ [z]).Perm _)
      refine (hjb.symm.cons z).trans ?_
      refine ((hia2.symm.cons b).cons z).trans ?_
      -- z b a r ~ a b z r
      refine (List.Perm.swap _ _ _).trans ?_
      refine ((List.Perm.swap _ _ _).cons b).trans ?_
      exact List.Perm.swap _ _ _
    · rw [List.set_append_left _ _ (by simpa using hj'), List.dropLast_concat]
      refine (List.set_perm_cons_eraseIdx (by simpa using hj') _).trans ?_
      rw [List.eraseIdx_set_gt hij]
      exact ((List.set_perm_cons_eraseIdx hi2 _).cons z).trans (List.Perm.swap _ _ _)

variable {C D : Type} [LinearOrder C] {E : Env C D} {est : SB → D} {base : Nat → C} {K : Type} [LinearOrder K] {card : D → K}

/-- The node array represents a partition of the relations. -/
structure NodesInv (M : AdjMat) (n : Nat) (nodes : List Node) : Prop where
  ne : ∀ a ∈ nodes, a.sub ≠ 0#64
  dis : nodes.Pairwise (fun a b => a.sub &&& b.sub = 0#64)
  cover : ∀ i, i < n ↔ ∃ a ∈ nodes, Mem a.sub i
  nbr : ∀ a ∈ nodes, a.nbr = M.neighbors a.sub

theorem NodesInv.perm {M : AdjMat} {n : Nat} {l l' : List Node} (h : NodesInv M n l) (hp : l.Perm l') : NodesInv M n l' := by
  refine ⟨fun a ha => h.ne a (hp.mem_iff.2 ha), ?_, fun i => ?_, fun a ha => h.nbr a (hp.mem_iff.2 ha)⟩
  · exact (hp.pairwise_iff (fun {a b} h => HS.disj_comm h)).1 h.dis
  · rw [h.cover]; exact ⟨fun ⟨a, b, c⟩ => ⟨a, hp.mem_iff.1 b, c⟩, fun ⟨a, b, c⟩ => ⟨a, hp.mem_iff.2 b, c⟩⟩

theorem neighbors_or (M : AdjMat) (A B : SB) : M.neighbors (A ||| B) = diff (M.neighbors A ||| M.neighbors B) (A ||| B) := by
  apply SB.ext; intro i
  simp only [AdjMat.mem_neighbors, mem_diff, mem_or]
  constructor
  · rintro ⟨h1, x, h2 | h2, h3⟩
    · exact ⟨Or.inl ⟨fun h => h1 (Or.inl h), x, h2, h3⟩, h1⟩
    · exact ⟨Or.inr ⟨fun h => h1 (Or.inr h), x, h2, h3⟩, h1⟩
  · rintro ⟨⟨_, x, h2, h3⟩ | ⟨_, x, h2, h3⟩, h1⟩
    · exact ⟨h1, x, Or.inl h2, h3⟩
    · exact ⟨h1, x, Or.inr h2, h3⟩

theorem NodesInv.merge {M : AdjMat} {n : Nat} {a b : Node} {rest : List Node} (h : NodesInv M n (a :: b :: rest)) :
    NodesInv M n (a.merge b :: rest) := by
  have hd := h.dis
  rw [List.pairwise_cons, List.pairwise_cons] at hd
  obtain ⟨d1, d2, d3⟩ := hd
  refine ⟨fun x hx => ?_, ?_, fun i => ?_, fun x hx => ?_⟩
  · rcases List.mem_cons.1 hx with rfl | hx
    · obtain ⟨i, hi⟩ := (ne_zero_iff _).1 (h.ne a (by simp))
      exact (ne_zero_iff _).2 ⟨i, sub_left _ _ i hi⟩
    · exact h.ne x (by simp [hx])
  · rw [List.pairwise_cons]
    exact ⟨fun x hx => HS.disj_union (d1 x (by simp [hx])) (d2 x hx), d3⟩
  · rw [h.cover]
    constructor
    · rintro ⟨x, hx, hi⟩
      rcases List.mem_cons.1 hx with rfl | hx
      · exact ⟨x.merge b, by simp, sub_left _ _ i hi⟩
      · rcases List.mem_cons.1 hx with rfl | hx
        · exact ⟨a.merge x, by simp, sub_right _ _ i hi⟩
        · exact ⟨x, by simp [hx], hi⟩
    · rintro ⟨x, hx, hi⟩
      rcases List.mem_cons.1 hx with rfl | hx
      · rcases (mem_or _ _ _).1 hi with hi | hi
        · exact ⟨a, by simp, hi⟩
        · exact ⟨b, by simp, hi⟩
      · exact ⟨x, by simp [hx], hi⟩
  · rcases List.mem_cons.1 hx with rfl | hx
    · simp only [Node.merge]
      rw [neighbors_or, h.nbr a (by simp), h.nbr b (by simp)]
    · exact h.nbr x (by simp [hx])

theorem canMerge_spec {M : AdjMat} (hM : M.Symm) {a b : Node} (hd : a.sub &&& b.sub = 0#64) (ha : a.nbr = M.neighbors a.sub)
    (hb : b.nbr = M.neighbors b.sub) : ∃ v, a.canMerge b = some v ∧ (v = true ↔ Adjacent M a.sub b.sub) := by
  have h1 := HS.neighbors_adj (M := M) hd
  have h2 := HS.neighbors_adj (M := M) (HS.disj_comm hd)
  rw [Node.canMerge, ha, hb, and_comm' a.sub, and_comm' b.sub]
  by_cases hadj : Adjacent M a.sub b.sub
  · rw [h1.2 hadj, h2.2 (adjacent_symm' hM _ _ hadj)]
    exact ⟨true, rfl, by simp [hadj]⟩
  · have e1 : isEmpty (M.neighbors a.sub &&& b.sub) = true := by
      by_contra hc; exact hadj (h1.1 (by simpa using hc))
    have e2 : isEmpty (M.neighbors b.sub &&& a.sub) = true := by
      by_contra hc; exact hadj (adjacent_symm' hM _ _ (h2.1 (by simpa using hc)))
    rw [e1, e2]
    exact ⟨false, rfl, by simp [hadj]⟩

/-- Two tables that differ only in models filled in. -/
structure Filled (est : SB → D) (T T' : PT C D) : Prop where
  same : ∀ S, (T' S).left = (T S).left ∧ (T' S).right = (T S).right ∧ (T' S).cost = (T S).cost
  mod : ∀ S, (T' S).model = (T S).model ∨ (T' S).model = some (est S)

omit [LinearOrder C] in
theorem Filled.refl (T : PT C D) : Filled est T T := ⟨fun _ => ⟨rfl, rfl, rfl⟩, fun _ => Or.inl rfl⟩

omit [LinearOrder C] in
theorem Filled.trans {T T' T'' : PT C D} (h : Filled est T T') (h' : Filled est T' T'') : Filled est T T'' := by
  refine ⟨fun S => ⟨(h'.same S).1.trans (h.same S).1, (h'.same S).2.1.trans (h.same S).2.1, (h'.same S).2.2.trans (h.same S).2.2⟩, fun S => ?_⟩
  rcases h'.mod S with h1 | h1
  · rw [h1]; exact h.mod S
  · exact Or.inr h1

omit [LinearOrder C] in
theorem Filled.model {T T' : PT C D} (h : Filled est T T') {S : SB} (hS : (T S).model = some (est S)) : (T' S).model = some (est S) := by
  rcases h.mod S with h1 | h1
  · rw [h1, hS]
  · exact h1

omit [LinearOrder C] in
theorem Filled.ok {T T' : PT C D} (h : Filled est T T') (hS : ∀ S d, (T S).model = some d → d = est S) :
    ∀ S d, (T' S).model = some d → d = est S := by
  intro S d hd
  rcases h.mod S with h1 | h1
  · exact hS S d (by rw [← h1]; exact hd)
  · rw [h1] at hd; exact (Option.some.inj hd).symm

/-- positions of two adjacent nodes, with the size of their join -/
def CandAt (M : AdjMat) (nodes : List Node) (p : Nat × Nat) (a b : Node) : Prop :=
  nodes[p.1]? = some a ∧ nodes[p.2]? = some b ∧ Adjacent M a.sub b.sub

/-- The running minimum after the pairs `vis`. -/
def BestOK (M : AdjMat) (est : SB → D) (card : D → K) (nodes : List Node) (vis : List (Nat × Nat)) : Option (K × Nat × Nat) → Prop
  | none => ∀ p ∈ vis, ∀ a b, ¬ CandAt M nodes p a b
  | some best => (∃ a b, best.2 ∈ vis ∧ CandAt M nodes best.2 a b ∧ best.1 = card (est (a.sub ||| b.sub))) ∧
      ∀ p ∈ vis, ∀ a b, CandAt M nodes p a b → best.1 ≤ card (est (a.sub ||| b.sub))

theorem gooVisit_spec (hE : Sane E est) (hM : E.M.Symm) {n : Nat} {nodes : List Node} (hN : NodesInv E.M n nodes)
    {T0 T : PT C D} (hok : ∀ S d, (T0 S).model = some d → d = est S) (hmod : ∀ a ∈ nodes, (T0 a.sub).model = some (est a.sub))
    (hF : Filled est T0 T) {vis : List (Nat × Nat)} {best : Option (K × Nat × Nat)}
    (hb : BestOK E.M est card nodes vis best) {p : Nat × Nat} (hp : p ∈ idxPairs nodes.length) :
    ∃ T' best', gooVisit E card nodes (T, best) p = some (T', best') ∧ Filled est T0 T' ∧
      BestOK E.M est card nodes (vis ++ [p]) best' := by
  obtain ⟨i, j⟩ := p
  rw [mem_idxPairs] at hp
  have hi : i < nodes.length := by omega
  have ha : nodes[i]? = some nodes[i] := List.getElem?_eq_getElem hi
  have hbb : nodes[j]? = some nodes[j] := List.getElem?_eq_getElem hp.2
  have hd : nodes[i].sub &&& nodes[j].sub = 0#64 := List.pairwise_iff_getElem.1 hN.dis i j hi hp.2 hp.1
  have ma : nodes[i] ∈ nodes := List.getElem_mem hi
  have mb : nodes[j] ∈ nodes := List.getElem_mem hp.2
  obtain ⟨v, hv, hadj⟩ := canMerge_spec hM hd (hN.nbr _ ma) (hN.nbr _ mb)
  have huniq : ∀ a b, CandAt E.M nodes (i, j) a b → a = nodes[i] ∧ b = nodes[j] := by
    rintro a b ⟨h1, h2, _⟩
    simp only at h1 h2
    rw [ha] at h1; rw [hbb] at h2
    exact ⟨(Option.some.inj h1).symm, (Option.some.inj h2).symm⟩
  generalize hA : nodes[i] = A at *
  generalize hB : nodes[j] = B at *
  unfold gooVisit
  simp only [ha, hbb, hv]
  cases v with
  | false =>
    refine ⟨T, best, rfl, hF, ?_⟩
    have hno : ∀ a b, ¬ CandAt E.M nodes (i, j) a b := by
      intro a b h
      obtain ⟨rfl, rfl⟩ := huniq a b h
      exact absurd (hadj.2 h.2.2) (by simp)
    cases best with
    | none =>
      intro p hp' a b
      rcases List.mem_append.1 hp' with h | h
      · exact hb p h a b
      · rw [List.mem_singleton] at h; subst h; exact hno a b
    | some best =>
      obtain ⟨⟨a, b, h1, h2⟩, h3⟩ := hb
      refine ⟨⟨a, b, by simp [h1], h2⟩, fun p hp' x y hc => ?_⟩
      rcases List.mem_append.1 hp' with h | h
      · exact h3 p h x y hc
      · rw [List.mem_singleton] at h; subst h; exact absurd hc (hno x y)
  | true =>
    have hAd := hadj.1 rfl
    have hc2 : E.M.isConnected2 A.sub B.sub = true := by
      rw [AdjMat.isConnected2_iff]
      obtain ⟨x, y, h1, h2, h3⟩ := hAd
      exact ⟨y, x, h2, h1, hM _ _ h3⟩
    obtain ⟨T', e1, e2, e3, e4⟩ := ensureModel_spec hE hd (hF.ok hok) (hF.model (hmod _ ma)) (hF.model (hmod _ mb))
    have he : isEmpty (A.sub &&& B.sub) = true := by rw [hd]; rfl
    simp only [he, hc2, e1, e2, Bool.not_true, Bool.false_eq_true, if_false]
    have hF' : Filled est T0 T' := hF.trans ⟨e3, e4⟩
    have hcand : CandAt E.M nodes (i, j) A B := ⟨ha, hbb, hAd⟩
    have hmem : (i, j) ∈ vis ++ [(i, j)] := by simp
    cases best with
    | none =>
      refine ⟨T', _, rfl, hF', ⟨A, B, hmem, hcand, rfl⟩, fun p hp' x y hc => ?_⟩
      rcases List.mem_append.1 hp' with h | h
      · exact absurd hc (hb p h x y)
      · rw [List.mem_singleton] at h; subst h
        obtain ⟨rfl, rfl⟩ := huniq x y hc
        exact le_rfl
    | some best =>
      obtain ⟨⟨a, b, h1, h2⟩, h3⟩ := hb
      simp only
      split
      · rename_i hlt
        refine ⟨T', _, rfl, hF', ⟨A, B, hmem, hcand, rfl⟩, fun p hp' x y hc => ?_⟩
        rcases List.mem_append.1 hp' with h | h
        · exact hlt.le.trans (h3 p h x y hc)
        · rw [List.mem_singleton] at h; subst h
          obtain ⟨rfl, rfl⟩ := huniq x y hc
          exact le_rfl
      · rename_i hlt
        refine ⟨T', _, rfl, hF', ⟨a, b, by simp [h1], h2⟩, fun p hp' x y hc => ?_⟩
        rcases List.mem_append.1 hp' with h | h
        · exact h3 p h x y hc
        · rw [List.mem_singleton] at h; subst h
          obtain ⟨rfl, rfl⟩ := huniq x y hc
          exact not_lt.1 hlt

theorem gooScan_spec (hE : Sane E est) (hM : E.M.Symm) {n : Nat} {nodes : List Node} (hN : NodesInv E.M n nodes)
    {T0 : PT C D} (hok : ∀ S d, (T0 S).model = some d → d = est S) (hmod : ∀ a ∈ nodes, (T0 a.sub).model = some (est a.sub))
    (l : List (Nat × Nat)) : ∀ (T : PT C D) (vis : List (Nat × Nat)) (best : Option (K × Nat × Nat)),
    Filled est T0 T → BestOK E.M est card nodes vis best → (∀ p ∈ l, p ∈ idxPairs nodes.length) →
    ∃ T' best', l.foldlM (gooVisit E card nodes) (T, best) = some (T', best') ∧ Filled est T0 T' ∧
      BestOK E.M est card nodes (vis ++ l) best' := by
  induction l with
  | nil => intro T vis best hF hb _; exact ⟨T, best, rfl, hF, by simpa using hb⟩
  | cons p l ih =>
    intro T vis best hF hb hl
    obtain ⟨T1, b1, h1, h2, h3⟩ := gooVisit_spec hE hM hN hok hmod hF hb (hl p (by simp))
    obtain ⟨T2, b2, h4, h5, h6⟩ := ih T1 _ b1 h2 h3 (fun q hq => hl q (by simp [hq]))
    refine ⟨T2, b2, ?_, h5, by simpa using h6⟩
    rw [List.foldlM_cons, h1]
    exact h4

/-- There is an adjacent pair. -/
theorem NodesInv.progress {M : AdjMat} {n : Nat} (hn : n ≤ 64) (hc : M.ConnSet (all n)) {nodes : List Node}
    (h : NodesInv M n nodes) (h2 : 2 ≤ nodes.length) : ∃ p ∈ idxPairs nodes.length, ∃ a b, CandAt M nodes p a b := by
  have ha : nodes[0] ∈ nodes := List.getElem_mem (by omega)
  have hb : nodes[1] ∈ nodes := List.getElem_mem (by omega)
  have hd := List.pairwise_iff_getElem.1 h.dis
  generalize hA : nodes[0] = A at *
  obtain ⟨j, hj⟩ := (ne_zero_iff _).1 (h.ne _ hb)
  have hall : A.sub ||| diff (all n) A.sub = all n := by
    apply SB.ext; intro i; rw [mem_or, mem_diff]
    constructor
    · rintro (hi | hi)
      · exact (mem_all hn i).2 ((h.cover i).2 ⟨A, ha, hi⟩)
      · exact hi.1
    · intro hi; by_cases hc : Mem A.sub i
      · exact Or.inl hc
      · exact Or.inr ⟨hi, hc⟩
  have hadj : Adjacent M A.sub (diff (all n) A.sub) := by
    refine adjacent_of_parts (by rw [hall]; exact hc) (h.ne _ ha) ((ne_zero_iff _).2 ⟨j, ?_⟩) ?_
    · rw [mem_diff]
      refine ⟨(mem_all hn j).2 ((h.cover j).2 ⟨_, hb, hj⟩), fun hm => ?_⟩
      have := hd 0 1 (by omega) (by omega) (by omega)
      rw [hA] at this
      exact HS.disj_mem this hm hj
    · rw [disj_iff]; intro i hi hc; exact ((mem_diff _ _ _).1 hc).2 hi
  obtain ⟨x, y, h3, h4, h5⟩ := hadj
  rw [mem_diff] at h4
  obtain ⟨B, hB, hy⟩ := (h.cover y).1 ((mem_all hn y).1 h4.1)
  obtain ⟨k, hk, rfl⟩ := List.getElem_of_mem hB
  have hk0 : k ≠ 0 := by rintro rfl; rw [hA] at hy; exact h4.2 hy
  exact ⟨(0, k), (mem_idxPairs _ _ _).2 ⟨by omega, hk⟩, A, nodes[k], by
    rw [← hA]; exact List.getElem?_eq_getElem (by omega), List.getElem?_eq_getElem hk, x, y, h3, hy, h5⟩

theorem NodesInv.eq_of {M : AdjMat} {n : Nat} {nodes : List Node} (h : NodesInv M n nodes) {a b : Node} (ha : a ∈ nodes) (hb : b ∈ nodes)
    {i : Nat} (hi : Mem a.sub i) (hi' : Mem b.sub i) : a = b := by
  by_contra hc
  haveI : Std.Symm (fun a b : Node => a.sub &&& b.sub = 0#64) := ⟨fun _ _ h => HS.disj_comm h⟩
  exact HS.disj_mem (h.dis.forall ha hb hc) hi hi'

theorem gooLoop_spec (hE : Sane E est) (hM : E.M.Symm) (hn : E.n ≤ 64) (hc : E.M.ConnSet (all E.n)) (fuel : Nat) :
    ∀ (nodes : List Node) (done : List (SB × SB)) (T : PT C D), NodesInv E.M E.n nodes →
    RunInv E est base (Adjacent E.M) done T → (∀ a ∈ nodes, Avail done a.sub) → (∀ q ∈ done, ∃ a ∈ nodes, Sub (q.1 ||| q.2) a.sub) →
    1 ≤ nodes.length → nodes.length ≤ fuel + 1 →
    ∃ js T', gooLoop E card fuel nodes T = some (js, T') ∧ RunInv E est base (Adjacent E.M) (done ++ js) T' ∧
      GreedyRun E.M (fun S => card (est S)) {S | ∃ a ∈ nodes, a.sub = S} js ∧ Avail (done ++ js) (all E.n) := by
  induction fuel with
  | zero =>
    intro nodes done T hN hR hav hsub h1 h2
    obtain ⟨a, rfl⟩ := List.length_eq_one_iff.1 (show nodes.length = 1 by omega)
    have hall : a.sub = all E.n := by
      apply SB.ext; intro i; rw [mem_all hn, hN.cover]; simp
    refine ⟨[], T, by rw [gooLoop]; simp, by simpa using hR, ?_, by rw [← hall]; simpa using hav a (by simp)⟩
    have : {S | ∃ b ∈ [a], b.sub = S} = {a.sub} := by ext S; simp [eq_comm]
    rw [this]; exact .done _
  | succ fuel ih =>
    intro nodes done T hN hR hav hsub h1 h2
    by_cases hl : nodes.length = 1
    · obtain ⟨a, rfl⟩ := List.length_eq_one_iff.1 hl
      have hall : a.sub = all E.n := by
        apply SB.ext; intro i; rw [mem_all hn, hN.cover]; simp
      refine ⟨[], T, by rw [gooLoop]; simp, by simpa using hR, ?_, by rw [← hall]; simpa using hav a (by simp)⟩
      have : {S | ∃ b ∈ [a], b.sub = S} = {a.sub} := by ext S; simp [eq_comm]
      rw [this]; exact .done _
    · have hsuball : ∀ a ∈ nodes, Sub a.sub (all E.n) := fun a ha i hi => (mem_all hn i).2 ((hN.cover i).2 ⟨a, ha, hi⟩)
      have hmod : ∀ a ∈ nodes, (T a.sub).model = some (est a.sub) := fun a ha =>
        hR.dp.models.some _ (hsuball a ha) (hR.avail (hav a ha))
      obtain ⟨T1, best, e1, e2, e3⟩ := gooScan_spec (card := card) hE hM hN hR.dp.models.ok hmod (idxPairs nodes.length) T [] none
        (Filled.refl T) (by simp [BestOK]) (fun p hp => hp)
      rw [List.nil_append] at e3
      cases best with
      | none =>
        obtain ⟨p, hp, a, b, hcand⟩ := hN.progress hn hc (by omega)
        exact absurd hcand (e3 p hp a b)
      | some best =>
        obtain ⟨c, i, j⟩ := best
        obtain ⟨⟨a, b, m1, ⟨g1, g2, hadj⟩, hcard⟩, hmin⟩ := e3
        simp only at m1 g1 g2 hcard hmin
        rw [mem_idxPairs] at m1
        obtain ⟨rest, p1, p2⟩ := gooMerge_perm m1.1 m1.2 g1 g2
        have ha : a ∈ nodes := List.mem_of_getElem? g1
        have hb : b ∈ nodes := List.mem_of_getElem? g2
        have hd : a.sub &&& b.sub = 0#64 := by
          have := (hN.perm p1).dis
          rw [List.pairwise_cons] at this
          exact this.1 b (by simp)
        have hab : a ≠ b := by
          rintro rfl
          obtain ⟨x, hx⟩ := (ne_zero_iff _).1 (hN.ne a ha)
          exact HS.disj_mem hd hx hx
        have hR1 := hR.models e2.same e2.mod
        have hbefore : ∀ q ∈ done, Before q (a.sub, b.sub) := by
          intro q hq
          obtain ⟨N, hN1, hN2⟩ := hsub q hq
          have key : ¬ Sub (a.sub ||| b.sub) N.sub := by
            intro hs
            obtain ⟨x, hx⟩ := (ne_zero_iff _).1 (hN.ne a ha)
            obtain ⟨y, hy⟩ := (ne_zero_iff _).1 (hN.ne b hb)
            have q1 := hN.eq_of ha hN1 hx (hs x (sub_left _ _ x hx))
            have q2 := hN.eq_of hb hN1 hy (hs y (sub_right _ _ y hy))
            exact hab (q1.trans q2.symm)
          constructor
          · intro hcc; simp only at hcc
            exact key (fun x hx => hN2 x (sub_left _ _ x (hcc ▸ hx)))
          · intro hcc; simp only at hcc
            exact key (fun x hx => hN2 x (sub_right _ _ x (hcc ▸ hx)))
        obtain ⟨T2, u1, u2, _⟩ := hR1.step hE hn (A := a.sub) (B := b.sub)
          ⟨hN.ne a ha, hN.ne b hb, hd, hsuball a ha, hsuball b hb, hadj⟩ hbefore (hav a ha) (hav b hb)
        have hmem' : ∀ x, x ∈ gooMerge nodes i j a b ↔ x = a.merge b ∨ x ∈ rest := fun x => by rw [p2.mem_iff]; simp
        have hmem : ∀ x, x ∈ nodes ↔ x = a ∨ x = b ∨ x ∈ rest := fun x => by rw [p1.mem_iff]; simp
        have hlen : (gooMerge nodes i j a b).length + 1 = nodes.length := by rw [p2.length_eq, p1.length_eq]; simp
        obtain ⟨js, T3, r1, r2, r3, r4⟩ := ih (gooMerge nodes i j a b) (done ++ [(a.sub, b.sub)]) T2
          ((hN.perm p1).merge.perm p2.symm) u2 (by
            intro x hx
            rcases (hmem' x).1 hx with rfl | hx
            · exact Or.inr ⟨(a.sub, b.sub), by simp, rfl⟩
            · rcases hav x ((hmem x).2 (Or.inr (Or.inr hx))) with h | ⟨q, h, h'⟩
              · exact Or.inl h
              · exact Or.inr ⟨q, by simp [h], h'⟩) (by
            intro q hq
            rcases List.mem_append.1 hq with hq | hq
            · obtain ⟨N, hN1, hN2⟩ := hsub q hq
              rcases (hmem N).1 hN1 with rfl | rfl | hN1
              · exact ⟨_, (hmem' _).2 (Or.inl rfl), fun x hx => sub_left _ _ x (hN2 x hx)⟩
              · exact ⟨_, (hmem' _).2 (Or.inl rfl), fun x hx => sub_right _ _ x (hN2 x hx)⟩
              · exact ⟨N, (hmem' _).2 (Or.inr hN1), hN2⟩
            · rw [List.mem_singleton] at hq; subst hq
              exact ⟨_, (hmem' _).2 (Or.inl rfl), fun x hx => hx⟩) (by omega) (by omega)
        refine ⟨(a.sub, b.sub) :: js, T3, ?_, by simpa using r2, ?_, by simpa using r4⟩
        · rw [gooLoop, if_neg hl]
          have he : isEmpty (a.sub &&& b.sub) = true := by rw [hd]; rfl
          have hcc : E.M.isConnected (a.sub &&& b.sub) = true := by
            rw [hd, AdjMat.isConnected_iff hM]
            intro x y hx; exact absurd hx (not_mem_zero x)
          simp only [e1, g1, g2, he, hcc, u1, r1, Bool.not_true, Bool.false_eq_true, if_false, Option.map_some]
        · refine .step ⟨a, ha, rfl⟩ ⟨b, hb, rfl⟩ ?_ hadj ?_ ?_
          · intro hcc
            obtain ⟨x, hx⟩ := (ne_zero_iff _).1 (hN.ne a ha)
            exact HS.disj_mem hd hx (hcc ▸ hx)
          · rintro _ ⟨a', ha', rfl⟩ _ ⟨b', hb', rfl⟩ hne hadj'
            rw [← hcard]
            obtain ⟨x, hx, rfl⟩ := List.getElem_of_mem ha'
            obtain ⟨y, hy, rfl⟩ := List.getElem_of_mem hb'
            have hxy : x ≠ y := by rintro rfl; exact hne rfl
            rcases Nat.lt_or_gt_of_ne hxy with hlt | hlt
            · exact hmin (x, y) ((mem_idxPairs _ _ _).2 ⟨hlt, hy⟩) _ _
                ⟨List.getElem?_eq_getElem hx, List.getElem?_eq_getElem hy, hadj'⟩
            · rw [or_comm']
              exact hmin (y, x) ((mem_idxPairs _ _ _).2 ⟨hlt, hx⟩) _ _
                ⟨List.getElem?_eq_getElem hy, List.getElem?_eq_getElem hx, adjacent_symm' hM _ _ hadj'⟩
          · convert r3 using 1
            ext S
            simp only [Set.mem_union, Set.mem_sdiff, Set.mem_insert_iff, Set.mem_singleton_iff, Set.mem_ofPred_eq, not_or]
            constructor
            · rintro (⟨⟨x, hx, rfl⟩, n1, n2⟩ | rfl)
              · rcases (hmem x).1 hx with rfl | rfl | hx
                · exact absurd rfl n1
                · exact absurd rfl n2
                · exact ⟨x, (hmem' x).2 (Or.inr hx), rfl⟩
              · exact ⟨_, (hmem' _).2 (Or.inl rfl), rfl⟩
            · rintro ⟨x, hx, rfl⟩
              rcases (hmem' x).1 hx with rfl | hx
              · exact Or.inr rfl
              · left
                have hpd := (hN.perm p1).dis
                rw [List.pairwise_cons, List.pairwise_cons] at hpd
                have hx' := (hmem x).2 (Or.inr (Or.inr hx))
                obtain ⟨z, hz⟩ := (ne_zero_iff _).1 (hN.ne x hx')
                refine ⟨⟨x, hx', rfl⟩, fun hcc => ?_, fun hcc => ?_⟩
                · exact HS.disj_mem (hpd.1 x (by simp [hx])) (hcc ▸ hz) hz
                · exact HS.disj_mem (hpd.2.1 x hx) (hcc ▸ hz) hz

omit [LinearOrder C] in
theorem gooNodes_inv (E : Env C D) (hn : E.n ≤ 64) : NodesInv E.M E.n (gooNodes E) := by
  refine ⟨?_, ?_, ?_, ?_⟩
  · intro a ha
    obtain ⟨i, hi, rfl⟩ := List.mem_map.1 ha
    rw [List.mem_range] at hi
    exact (ne_zero_iff _).2 ⟨i, (mem_singleton _ _).2 ⟨by omega, rfl⟩⟩
  · rw [gooNodes, List.pairwise_map]
    refine List.Pairwise.imp_of_mem ?_ (List.nodup_range (n := E.n))
    intro i j hi hj hij
    rw [disj_iff]
    intro k h1 h2
    simp only at h1 h2
    rw [mem_singleton] at h1 h2
    exact hij (h1.2.symm.trans h2.2)
  · intro i
    constructor
    · intro hi
      exact ⟨⟨SB.singleton i, E.M.neighbors (SB.singleton i)⟩, List.mem_map.2 ⟨i, List.mem_range.2 hi, rfl⟩, (mem_singleton _ _).2 ⟨by omega, rfl⟩⟩
    · rintro ⟨a, ha, hi⟩
      obtain ⟨k, hk, rfl⟩ := List.mem_map.1 ha
      rw [List.mem_range] at hk
      simp only at hi
      rw [mem_singleton] at hi
      omega
  · intro a ha
    obtain ⟨i, hi, rfl⟩ := List.mem_map.1 ha
    rfl

theorem goo_spec (hE : Sane E est) (hM : E.M.Symm) (hn : E.n ≤ 64) (h1 : 1 ≤ E.n) (hc : E.M.ConnSet (all E.n)) {T : PT C D}
    (hT : Init est base E.n T) :
    ∃ js T', goo E card T = some (js, T') ∧ RunInv E est base (Adjacent E.M) js T' ∧
      GreedyRun E.M (fun S => card (est S)) {S | ∃ i, i < E.n ∧ S = SB.singleton i} js ∧ Avail js (all E.n) := by
  have hlen : (gooNodes E).length = E.n := by simp [gooNodes]
  obtain ⟨js, T', r1, r2, r3, r4⟩ := gooLoop_spec (card := card) hE hM hn hc E.n (gooNodes E) [] T (gooNodes_inv E hn) (RunInv.init hn hT) (by
    intro a ha
    obtain ⟨i, hi, rfl⟩ := List.mem_map.1 ha
    rw [List.mem_range] at hi
    exact Or.inl (size_singleton (by omega))) (by simp) (by omega) (by omega)
  refine ⟨js, T', r1, by simpa using r2, ?_, by simpa using r4⟩
  convert r3 using 1
  ext S
  simp only [Set.mem_ofPred_eq, gooNodes, List.mem_map, List.mem_range]
  constructor
  · rintro ⟨i, hi, rfl⟩; exact ⟨_, ⟨i, hi, rfl⟩, rfl⟩
  · rintro ⟨_, ⟨i, hi, rfl⟩, rfl⟩; exact ⟨i, hi, rfl⟩

end PE
end Mutable
