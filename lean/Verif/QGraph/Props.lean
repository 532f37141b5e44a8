import Verif.QGraph.EnumGreedy
import Verif.QGraph.Joins

/-!
# Property C51: FROM and WHERE of a SELECT statement

Specification (`Verif.QGraph.Spec`): `fromWhere` is the bag of all combinations of one row of each data source for which the
WHERE condition is TRUE in three-valued logic; `Checked` is what semantic analysis guarantees.

Statements are about the whole chain: conversion of WHERE to CNF, the query graph, the adjacency matrix, the plan
enumerator, filters on the sources, the join tree.
-/
namespace Mutable.QG
open SQL CNF SB PE AdjMat

variable {Row V C D K W : Type} [LinearOrder C] [LinearOrder K] {L : Nat → Leaf Row V} {I : Ops V}

/-- With the join orders in `T`, the optimizer constructs a plan that uses every join condition, and this plan computes
FROM and WHERE whatever the data sources contain. -/
def Computes (L : Nat → Leaf Row V) (I : Ops V) (Γ : Nat → Ty) (srt : CNF → CNF) (names : List Nat) (wher : Option Expr) (G : Graph)
    (T : PT C D) : Prop :=
  ∃ P, plan L srt G T = some (P, []) ∧ ∀ rows : Nat → List Row,
    ((P.eval L I names rows).map (rowsOf names)).Perm (fromWhere L I Γ names rows wher)

/-- C51: whatever join order was recorded.  `ord` is the iteration order of the hash map of clauses, `sh` says which clauses
have equal hash values, `srt` is the order of clauses after sorting by weight.
Missing for the full property: statements without data sources (`C51_where_without_from_ignored`), clauses over more than
two data sources and queries whose sources are not connected by join conditions (`C51_unconnected_fails`), correlated
nested queries. -/
theorem C51_from_where_partial {Γ : Nat → Ty} {sh : Clause → Clause → Bool} {ord : List Clause → List Clause} {srt : CNF → CNF}
    (ho : ∀ l, (ord l).Perm l) (hs : ∀ f, (srt f).Perm f) {names : List Nat} {wher : Option Expr} (hc : Checked L Γ names wher)
    (h0 : names ≠ []) (hn : names.length ≤ 64) :
    ∃ G, buildGraph L Γ sh ord names wher = some G ∧ ∀ (T : PT C D) (may : SB → SB → Prop) (t : Tree), Singles T →
      Recorded T (all names.length) t → IsPlan names.length may t (all names.length) → Computes L I Γ srt names wher G T := by
  obtain ⟨G, cs, e, hR, hcs⟩ := buildGraph_spec (I := I) (sh := sh) ho hc
  exact ⟨G, e, fun T may t hS hr hp => plan_spec hs hc.nodup hR hcs h0 hn hS hr hp⟩

/-- The plan enumerators that use the join conditions, except the greedy ones. -/
def enumerators (E : Env C D) : List (PT C D → Option (PT C D)) :=
  [dpCcp E, dpSize E, dpSizeOpt E, dpSizeSub E, dpSub E, dpSubOpt E, tdBasic E, tdMinCut E]

theorem elems_all {n : Nat} (hn : n ≤ 64) : elems (all n) = {i | i < n} := by ext i; rw [mem_elems, mem_all hn]; rfl

theorem graph_ids {Γ : Nat → Ty} {sh : Clause → Clause → Bool} {ord : List Clause → List Clause}
    (ho : ∀ l, (ord l).Perm l) {names : List Nat} {wher : Option Expr} (hc : Checked L Γ names wher) {G : Graph}
    (e : buildGraph L Γ sh ord names wher = some G) : G.names = names ∧ ∀ J ∈ G.joins, ∀ i ∈ J.sources, i < names.length := by
  obtain ⟨G', cs, e', hR, -⟩ := buildGraph_spec (I := ⟨fun _ v => v, fun _ v _ => v, fun _ => .T⟩) (sh := sh) ho hc
  rw [e] at e'
  cases e'
  exact ⟨hR.nms, fun J hJ i hi => hR.nms ▸ hR.loc.ids J hJ i hi⟩

/-- C51 with the plan enumerators based on dynamic programming, for connected query graphs. -/
theorem C51_enumerators_partial {Γ : Nat → Ty} {sh : Clause → Clause → Bool} {ord : List Clause → List Clause} {srt : CNF → CNF}
    (ho : ∀ l, (ord l).Perm l) (hs : ∀ f, (srt f).Perm f) {names : List Nat} {wher : Option Expr} (hc : Checked L Γ names wher)
    (h0 : names ≠ []) (hn : names.length < 64)
    {E : Env C D} {est : SB → D} {base : Nat → C} (hE : Sane E est) (hEn : E.n = names.length) {T₀ : PT C D} (hT : Init est base E.n T₀)
    (hS : Singles T₀) :
    ∃ G, buildGraph L Γ sh ord names wher = some G ∧ (adjacency G = some E.M → E.M.Connected {i | i < names.length} →
      ∀ f ∈ enumerators E, ∃ T, f T₀ = some T ∧ Computes L I Γ srt names wher G T) := by
  obtain ⟨G, e, H⟩ := C51_from_where_partial (L := L) (I := I) (C := C) (D := D) (sh := sh) ho hs hc h0 (by omega)
  refine ⟨G, e, fun hA hcon f hf => ?_⟩
  have h1 : 1 ≤ E.n := by rw [hEn]; exact List.length_pos_of_ne_nil h0
  have hids := (graph_ids ho hc e).2
  have hM : E.M.Symmetric := adjacency_symm (fun J hJ i hi => by have := hids J hJ i hi; omega) hA
  have hM' := (symmetric_iff _).1 hM
  rw [← hEn] at hcon
  have hne : (elems (all E.n)).Nonempty := by rw [elems_all (by omega)]; exact ⟨0, h1⟩
  have hsub : elems (all E.n) ⊆ {i | i < E.n} := by rw [elems_all (by omega)]
  have hcon' : E.M.Connected (elems (all E.n)) := by rwa [elems_all (by omega)]
  rw [← hEn] at H
  have opt : ∀ {r : Option (PT C D)}, AllOptimal E est base r → (∀ T, r = some T → Singles T) → ∃ T, r = some T ∧ Computes L I Γ srt names wher G T := by
    rintro r ⟨T, h2, h3⟩ h4
    obtain ⟨-, t, h5, h6, -⟩ := (h3 (all E.n) hne hsub).1 hcon'
    exact ⟨T, h2, H T _ t (h4 T h2) h5 h6⟩
  have whole : ∀ {r : Option (PT C D)}, WholeOptimal E est base r → (∀ T, r = some T → Singles T) → ∃ T, r = some T ∧ Computes L I Γ srt names wher G T := by
    rintro r ⟨T, h2, -, t, h5, h6, -⟩ h4
    exact ⟨T, h2, H T _ t (h4 T h2) h5 h6⟩
  simp only [enumerators, List.mem_cons, List.not_mem_nil, or_false] at hf
  rcases hf with rfl | rfl | rfl | rfl | rfl | rfl | rfl | rfl
  · obtain ⟨T, h2, h3⟩ := C14_valid_partial E est base hE hM (by omega) T₀ hT
    obtain ⟨-, t, h5, h6, -⟩ := (h3 (all E.n) hne hsub).1 hcon'
    exact ⟨T, h2, H T _ t (dpCcp_singles hM' hS h2) h5 h6⟩
  · exact opt (C13_DPsize E est base hE hM (by omega) T₀ hT) fun _ => dpSize_singles hS
  · exact opt (C13_DPsizeOpt E est base hE hM (by omega) T₀ hT) fun _ => dpSizeOpt_singles hS
  · exact opt (C13_DPsizeSub E est base hE hM (by omega) T₀ hT) fun _ => dpSizeSub_singles hS
  · exact opt (C13_DPsub E est base hE hM (by omega) T₀ hT) fun _ => dpSub_singles hS
  · exact opt (C13_DPsubOpt E est base hE hM (by omega) T₀ hT) fun _ => dpSubOpt_singles hS
  · exact whole (C13_TDbasic E est base hE hM (by omega) h1 hcon T₀ hT) fun _ => tdBasic_singles hS
  · exact whole (C13_TDMinCutAGaT E est base hE hM (by omega) h1 hcon T₀ hT) fun _ => tdMinCut_singles hS

/-- C51 with the greedy plan enumerators (assumptions on cost and cardinality estimation as in C16). -/
theorem C51_greedy_partial {Γ : Nat → Ty} {sh : Clause → Clause → Bool} {ord : List Clause → List Clause} {srt : CNF → CNF}
    (ho : ∀ l, (ord l).Perm l) (hs : ∀ f, (srt f).Perm f) {names : List Nat} {wher : Option Expr} (hc : Checked L Γ names wher)
    (h0 : names ≠ []) (hn : names.length ≤ 64)
    {E : Env C D} {est : SB → D} {base : Nat → C} (hE : Sane E est) (hEn : E.n = names.length) {T₀ : PT C D} (hT : Init est base E.n T₀)
    (hS : Singles T₀) :
    ∃ G, buildGraph L Γ sh ord names wher = some G ∧ (adjacency G = some E.M → E.M.Connected {i | i < names.length} →
      (∀ card : D → K, ∃ js T, goo E card T₀ = some (js, T) ∧ Computes L I Γ srt names wher G T) ∧
      (∀ [AddCommMonoid K] (card : D → K) (estAll : SB → D), (∀ S, estAll S = est S) →
        ∃ js T, tdgoo E card estAll T₀ = some (js, T) ∧ Computes L I Γ srt names wher G T) ∧
      ∀ (X : LinEnv C D W) (dflt : D) (better : W → W → Prop), PickR better X.pickR → PickAny X.pick → E.M.Valid → E.M.n = E.n →
        Finite E est base X.inf →
        (∃ T, ikkbz E X dflt T₀ = some T ∧ Computes L I Γ srt names wher G T) ∧
        ∃ T, linDP E X dflt T₀ = some T ∧ Computes L I Γ srt names wher G T) := by
  obtain ⟨G, e, H⟩ := C51_from_where_partial (L := L) (I := I) (C := C) (D := D) (sh := sh) ho hs hc h0 (by omega)
  refine ⟨G, e, fun hA hcon => ?_⟩
  have h1 : 1 ≤ E.n := by rw [hEn]; exact List.length_pos_of_ne_nil h0
  have hids := (graph_ids ho hc e).2
  have hM : E.M.Symmetric := adjacency_symm (fun J hJ i hi => by have := hids J hJ i hi; omega) hA
  rw [← hEn] at hcon H
  refine ⟨fun card => ?_, fun card estAll hEA => ?_, fun X dflt better hp hpk hV hMn hfin => ⟨?_, ?_⟩⟩
  · obtain ⟨js, T, t, h2, h3, -⟩ := C16_GOO E est base card hE hM (by omega) h1 hcon T₀ hT
    exact ⟨js, T, h2, H T _ t (goo_singles hS h2) h3.1 h3.2.1⟩
  · obtain ⟨js, T, t, h2, h3, -⟩ := C16_TDGOO E est base card estAll hEA hE hM (by omega) h1 hcon T₀ hT
    exact ⟨js, T, h2, H T _ t (tdgoo_singles hS h2) h3.1 h3.2.1⟩
  · obtain ⟨T, t, _, _, _, h2, h3, -⟩ := C16_IKKBZ E est base X dflt better hp hpk hE hV hM hMn h1 hcon hfin T₀ hT
    exact ⟨T, h2, H T _ t (ikkbz_singles (by omega) hS h2) h3.1 h3.2.1⟩
  · obtain ⟨T, t, _, _, _, h2, h3, -⟩ := C16_LinearizedDP E est base X dflt better hp hpk hE hV hM hMn h1 hcon hfin T₀ hT
    exact ⟨T, h2, H T _ t (linDP_singles (by omega) hS h2) h3.1 h3.2.1⟩

/-- C51 with `PEall`: neither connectedness nor binary clauses are needed. -/
theorem C51_PEall {Γ : Nat → Ty} {sh : Clause → Clause → Bool} {ord : List Clause → List Clause} {srt : CNF → CNF}
    (ho : ∀ l, (ord l).Perm l) (hs : ∀ f, (srt f).Perm f) {names : List Nat} {wher : Option Expr} (hc : Checked L Γ names wher)
    (h0 : names ≠ []) (hn : names.length < 64)
    {E : Env C D} {est : SB → D} {base : Nat → C} (hE : Sane E est) (hEn : E.n = names.length) {T₀ : PT C D} (hT : Init est base E.n T₀)
    (hS : Singles T₀) :
    ∃ G T, buildGraph L Γ sh ord names wher = some G ∧ peAll E T₀ = some T ∧ Computes L I Γ srt names wher G T := by
  obtain ⟨G, e, H⟩ := C51_from_where_partial (L := L) (I := I) (C := C) (D := D) (sh := sh) ho hs hc h0 (by omega)
  have h1 : 1 ≤ E.n := by rw [hEn]; exact List.length_pos_of_ne_nil h0
  obtain ⟨T, h2, h3⟩ := C15_PEall E est base hE (by omega) T₀ hT
  obtain ⟨-, t, h5, h6, -⟩ := h3 (all E.n) (by rw [elems_all (by omega)]; exact ⟨0, h1⟩) (by rw [elems_all (by omega)])
  rw [← hEn] at H
  exact ⟨G, T, e, h2, H T _ t (peAll_singles hS h2) h5 h6⟩

/-! ### The adjacency matrix -/

/-- Two sources are adjacent iff some clause of WHERE mentions these two sources and no others; the matrix can be computed iff
no clause mentions more than two sources. -/
theorem C51_adjacency {Γ : Nat → Ty} {sh : Clause → Clause → Bool} {ord : List Clause → List Clause} (ho : ∀ l, (ord l).Perm l)
    {names : List Nat} {e : Expr} (hc : Checked L Γ names (some e)) (hn : names.length ≤ 64) {cnf : CNF} (hcnf : toCNF Γ e = some cnf)
    {G : Graph} (hG : buildGraph L Γ sh ord names (some e) = some G) :
    ((∃ M, adjacency G = some M) ↔ ∀ c ∈ cnf, (dataSources L c).length ≤ 2) ∧
    ∀ M, adjacency G = some M → ∀ a b, M.Adj a b ↔ a < names.length ∧ b < names.length ∧ a ≠ b ∧
      ∃ c ∈ cnf, ∀ x, x ∈ dataSources L c ↔ x = names.getD a 0 ∨ x = names.getD b 0 := by
  obtain ⟨hnm, h1, h2⟩ := buildGraph_joins (L := L) ho hcnf hG
  have hids := (graph_ids ho hc hG).2
  have h64 : ∀ J ∈ G.joins, ∀ i ∈ J.sources, i < 64 := fun J hJ i hi => by have := hids J hJ i hi; omega
  have hbin : (∃ M, adjacency G = some M) ↔ Binary G := ⟨fun ⟨M, h⟩ => (adjacency_edges h64 h).1, adjacency_some⟩
  refine ⟨hbin.trans ⟨fun hb c hcm => ?_, fun hb J hJ => ?_⟩, fun M hM a b => ?_⟩
  · by_contra hlt
    obtain ⟨J, hJ, d, h3, h4⟩ := h2 c hcm (by omega)
    obtain ⟨i, j, e⟩ := hb J hJ
    have := h4.length_eq
    rw [e, sources_length h3] at this
    simp at this
    omega
  · obtain ⟨c, hcm, h3, h4⟩ := h1 J hJ
    have h5 := hb c hcm
    have := h4.length_eq
    obtain ⟨_, s⟩ := J
    match s, this with
    | [i, j], _ => exact ⟨i, j, rfl⟩
    | [], h => rw [List.length_nil] at h; omega
    | [_], h => rw [List.length_singleton] at h; omega
    | _ :: _ :: _ :: _, h => rw [List.length_cons, List.length_cons, List.length_cons] at h; omega
  · rw [(adjacency_edges h64 hM).2]
    have hpair : ∀ {ds : List Nat} {i j : Nat}, List.Forall₂ (fun s i => i < names.length ∧ names.getD i 0 = s) ds [i, j] →
        i < names.length ∧ j < names.length ∧ ds = [names.getD i 0, names.getD j 0] := by
      intro ds i j h
      cases h with
      | cons x y => cases y with
        | cons z w => cases w; exact ⟨x.1, z.1, by rw [x.2, z.2]⟩
    constructor
    · rintro ⟨J, hJ, hs⟩
      obtain ⟨c, hcm, h3, h4⟩ := h1 J hJ
      have hnd : (dataSources L c).Nodup := List.nodup_dedup _
      rcases hs with hs | hs <;> rw [hs] at h4 <;> obtain ⟨p1, p2, p3⟩ := hpair h4 <;> rw [p3] at hnd
      · exact ⟨p1, p2, by rintro rfl; simp at hnd, c, hcm, fun x => by rw [p3]; simp⟩
      · exact ⟨p2, p1, by rintro rfl; simp at hnd, c, hcm, fun x => by rw [p3]; simp [or_comm]⟩
    · rintro ⟨ha, hb, hab, c, hcm, hx⟩
      have hne : names.getD a 0 ≠ names.getD b 0 := fun h => hab (names_inj hc.nodup ha hb h)
      have hlen : (dataSources L c).length = 2 := by
        have : (dataSources L c).Perm [names.getD a 0, names.getD b 0] :=
          (List.perm_ext_iff_of_nodup (List.nodup_dedup _) (List.nodup_cons.2 ⟨fun h => hne (List.mem_singleton.1 h), List.nodup_singleton _⟩)).2 fun x => by
            have h := hx x
            rw [dataSources] at h
            rw [h]; simp
        simpa using this.length_eq
      obtain ⟨J, hJ, d, h3, h4⟩ := h2 c hcm (by omega)
      obtain ⟨i, j, e⟩ := (adjacency_edges h64 hM).1 J hJ
      rw [e] at h4
      obtain ⟨p1, p2, p3⟩ := hpair h4
      have hmem : ∀ x, (x = names.getD i 0 ∨ x = names.getD j 0) ↔ x = names.getD a 0 ∨ x = names.getD b 0 := by
        intro x
        rw [← hx, ← h3, p3]; simp
      refine ⟨J, hJ, ?_⟩
      rw [e]
      have inj := fun {x y} (hx : x < names.length) (hy : y < names.length) => names_inj hc.nodup hx hy
      have hij : i ≠ j := by
        have : (dataSources L d).Nodup := List.nodup_dedup _
        rw [p3] at this
        rintro rfl
        simp at this
      rcases (hmem (names.getD i 0)).1 (.inl rfl) with h | h
      · have hia := inj p1 ha h
        rcases (hmem (names.getD j 0)).1 (.inr rfl) with h' | h'
        · exact absurd (hia.trans (inj p2 ha h').symm) hij
        · rw [hia, inj p2 hb h']; exact .inl rfl
      · have hib := inj p1 hb h
        rcases (hmem (names.getD j 0)).1 (.inr rfl) with h' | h'
        · rw [hib, inj p2 ha h']; exact .inr rfl
        · exact absurd (hib.trans (inj p2 hb h').symm) hij

/-! ### What goes wrong -/

theorem construct_none {T : PT C D} {src : Nat → LPlan} {fuel : Nat} {S : SB} {js : List Join} (h2 : 2 ≤ size S) (h : hasPlan T S = false) :
    construct T src fuel S js = none := by
  cases fuel with
  | zero => rfl
  | succ fuel =>
    rw [hasPlan, Bool.or_eq_false_iff] at h
    have hl : SB.isEmpty (T S).left = true := by simpa using h.2
    rw [construct, hl]
    cases SB.isEmpty (T S).right
    · simp
    · simp only [Bool.and_self, if_true]
      match hm : members S with
      | [] => rfl
      | [a] =>
        have ha : Mem S a := (AdjMat.mem_members S a).1 (by simp [hm])
        have : S = SB.singleton a := by
          apply SB.ext
          intro i
          rw [mem_singleton, ← AdjMat.mem_members S i, hm, List.mem_singleton]
          exact ⟨fun h => ⟨h ▸ mem_lt ha, h⟩, fun h => h.2⟩
        rw [this, size_singleton (mem_lt ha)] at h2
        omega
      | _ :: _ :: _ => rfl

/-- If the data sources are not connected by clauses over two sources - a Cartesian product - then `DPccp` (the default) and the other
enumerators that work bottom-up record no plan for the whole query, and the construction of the plan fails. -/
theorem C51_unconnected_fails {Γ : Nat → Ty} {sh : Clause → Clause → Bool} {ord : List Clause → List Clause} {srt : CNF → CNF}
    (ho : ∀ l, (ord l).Perm l) {names : List Nat} {wher : Option Expr} (hc : Checked L Γ names wher)
    (hn : names.length < 64)
    {E : Env C D} {est : SB → D} {base : Nat → C} (hE : Sane E est) (hEn : E.n = names.length) {T₀ : PT C D} (hT : Init est base E.n T₀)
    {G : Graph} (hG : buildGraph L Γ sh ord names wher = some G) (hA : adjacency G = some E.M) (hcon : ¬ E.M.Connected {i | i < names.length}) :
    ∀ f ∈ [dpCcp E, dpSize E, dpSizeOpt E, dpSizeSub E, dpSub E, dpSubOpt E], ∃ T, f T₀ = some T ∧ plan L srt G T = none := by
  obtain ⟨hnm, hids⟩ := graph_ids ho hc hG
  have hM : E.M.Symmetric := adjacency_symm (fun J hJ i hi => by have := hids J hJ i hi; omega) hA
  have h2 : 2 ≤ names.length := by
    by_contra hlt
    apply hcon
    intro i hi j hj
    have h1 : i < names.length := hi
    have h2 : j < names.length := hj
    have : i = j := by omega
    subst this; exact .refl
  rw [← hEn] at hcon
  have hne : (elems (all E.n)).Nonempty := by rw [elems_all (by omega)]; exact ⟨0, by show 0 < E.n; omega⟩
  have hsub : elems (all E.n) ⊆ {i | i < E.n} := by rw [elems_all (by omega)]
  have hcon' : ¬ E.M.Connected (elems (all E.n)) := by rwa [elems_all (by omega)]
  have fin : ∀ T : PT C D, hasPlan T (all E.n) = false → plan L srt G T = none := by
    intro T hT
    rw [plan]
    split
    · rename_i h; rw [hnm] at h; omega
    · split
      · rfl
      · apply construct_none
        · rw [hnm, size_all (by omega)]; exact h2
        · rw [hnm, ← hEn]; exact hT
  have opt : ∀ {r : Option (PT C D)}, AllOptimal E est base r → ∃ T, r = some T ∧ plan L srt G T = none := by
    rintro r ⟨T, h2, h3⟩
    exact ⟨T, h2, fin T ((h3 (all E.n) hne hsub).2 hcon')⟩
  intro f hf
  simp only [List.mem_cons, List.not_mem_nil, or_false] at hf
  rcases hf with rfl | rfl | rfl | rfl | rfl | rfl
  · obtain ⟨T, h2, h3⟩ := C14_valid_partial E est base hE hM (by omega) T₀ hT
    exact ⟨T, h2, fin T ((h3 (all E.n) hne hsub).2 hcon')⟩
  · exact opt (C13_DPsize E est base hE hM (by omega) T₀ hT)
  · exact opt (C13_DPsizeOpt E est base hE hM (by omega) T₀ hT)
  · exact opt (C13_DPsizeSub E est base hE hM (by omega) T₀ hT)
  · exact opt (C13_DPsub E est base hE hM (by omega) T₀ hT)
  · exact opt (C13_DPsubOpt E est base hE hM (by omega) T₀ hT)

/-- Without FROM, the WHERE condition has no effect: there is no source to attach it to, and the plan is a projection without
input, which yields one tuple - `SELECT 1 WHERE FALSE` yields a row. -/
theorem C51_where_without_from_ignored {Γ : Nat → Ty} {sh : Clause → Clause → Bool} {ord : List Clause → List Clause} {srt : CNF → CNF}
    (ho : ∀ l, (ord l).Perm l) {e : Expr} (hc : Checked L Γ [] (some e)) (T : PT C D) (rows : Nat → List Row) :
    ∃ G P, buildGraph L Γ sh ord [] (some e) = some G ∧ plan L srt G T = some (P, []) ∧ P.eval L I [] rows = [[]] := by
  obtain ⟨G, cs, e1, hR, -⟩ := buildGraph_spec (I := I) (sh := sh) ho hc
  refine ⟨G, .unit, e1, ?_, rfl⟩
  rw [plan, hR.nms]
  have : G.joins = [] := by
    cases hj : G.joins with
    | nil => rfl
    | cons J js =>
      obtain ⟨i, hi, -⟩ := hR.loc.two J (by simp [hj])
      have := hR.loc.ids J (by simp [hj]) i hi
      rw [hR.nms] at this
      simp at this
  rw [this]; rfl

/-! ### Filters and HAVING -/

/-- The filter of a source is split into conjunctions which together are the filter; each is non-empty, and heavier than the
limit only if it is a single clause. -/
theorem C51_optimize_filter {srt : CNF → CNF} (hs : ∀ f, (srt f).Perm f) {f : CNF} (h0 : f ≠ []) (h1 : ∀ c ∈ f, c ≠ []) :
    ∃ fs, optimizeFilter L srt f = some fs ∧ fs.flatten.Perm f ∧
      ∀ g ∈ fs, g ≠ [] ∧ ((g.map (weigh L)).sum ≤ 12 ∨ g.length = 1) := optimizeFilter_spec hs h0 h1

/-- HAVING keeps exactly the groups for which the condition is TRUE, in their order. -/
theorem C51_having {Γ : Nat → Ty} {srt : CNF → CNF} (hs : ∀ f, (srt f).Perm f) {name : Nat} {e : Expr} (hc : Checked L Γ [name] (some e))
    {T : PT C D} (hS : Singles T) :
    ∃ G P, buildHaving Γ name e = some G ∧ plan L srt G T = some (P, []) ∧ ∀ rows : Nat → List Row,
      P.eval L I [name] rows = ((rows 0).map fun r => [(name, r)]).filter fun t => sqlVal Γ (atom L I t) e = .T := by
  obtain ⟨cnf, h1, -, h2, h3⟩ := C17_to_CNF_preserves_meaning Γ e (hc.bool e rfl)
  have hf : ((Graph.ofFrom [name]).updateFilter 0 cnf).filter 0 = cnf := by simp [Graph.ofFrom, Graph.updateFilter, CNF.and]
  obtain ⟨p, e1, -⟩ := sourcePlan_spec (L := L) (I := I) (G := (Graph.ofFrom [name]).updateFilter 0 cnf) (i := 0) hs
    (by rw [hf]; exact h2) [name] (fun _ => [])
  refine ⟨(Graph.ofFrom [name]).updateFilter 0 cnf, p, by rw [buildHaving]; simp only [h1], ?_, fun rows => ?_⟩
  · have hr : (List.range ([name] : List Nat).length).mapM (sourcePlan L srt ((Graph.ofFrom [name]).updateFilter 0 cnf)) = some [p] := by
      simp [e1]
    rw [plan]
    have hnn : ((Graph.ofFrom [name]).updateFilter 0 cnf).names = [name] := rfl
    rw [hnn, hr]
    have ha : all ([name] : List Nat).length = SB.singleton 0 := by rw [List.length_singleton]; decide
    rw [ha]
    simp only [List.length_singleton, Nat.one_ne_zero, if_false]
    rw [construct, (hS 0 (by omega)).1, (hS 0 (by omega)).2, members_singleton (by omega)]
    rfl
  · obtain ⟨p', e2, h4⟩ := sourcePlan_spec (L := L) (I := I) (G := (Graph.ofFrom [name]).updateFilter 0 cnf) (i := 0) hs
      (by rw [hf]; exact h2) [name] rows
    rw [e1] at e2
    cases e2
    rw [h4, hf]
    rw [LPlan.eval]
    apply List.filter_congr
    intro t _
    rw [decide_eq_decide, cnfVal_eq]
    rw [h3]

/-! ### The hypotheses are met -/

/-- Leaves 0, 1, 2: the attribute of the data source 10, 20, 30; leaf 3: the constant 5. -/
def exL (i : Nat) : Leaf Int (Option Int) :=
  if i < 3 then ⟨[10 * (i + 1)], 1, fun l => (l.head?.join)⟩ else ⟨[], 0, fun _ => some 5⟩

/-- Integers; comparisons yield 0, 1 or NULL. -/
def exI : Ops (Option Int) where
  un := fun _ v => v
  bin := fun op a b => match op, a, b with
    | .equal, some x, some y => some (if x = y then 1 else 0)
    | .less, some x, some y => some (if x < y then 1 else 0)
    | _, _, _ => none
  truth := fun v => match v with
    | some 0 => .F
    | some _ => .T
    | none => .N

/-- `A.x = B.x AND (B.x = C.x OR C.x < B.x) AND A.x < 5` -/
def exWhere : Expr := .binary .and (.binary .and (.binary .equal (.leaf 0) (.leaf 1))
  (.binary .or (.binary .equal (.leaf 1) (.leaf 2)) (.binary .less (.leaf 2) (.leaf 1)))) (.binary .less (.leaf 0) (.leaf 3))

def exGraph : Option Graph := buildGraph exL (fun _ => .num) (fun _ _ => true) id [10, 20, 30] (some exWhere)

def exAdj : AdjMat := (exGraph.bind adjacency).getD (mk0 0)

theorem exChecked : Checked exL (fun _ => .num) [10, 20, 30] (some exWhere) := by
  refine ⟨by decide, ?_, ?_⟩
  · intro e he; cases he; decide
  · intro e he; cases he; decide

theorem exConnected : exAdj.Connected {i | i < 3} := by
  have hM : exAdj.Symm := by
    obtain ⟨G, cs, e, hR, -⟩ := buildGraph_spec (I := exI) (sh := fun _ _ => true) (ord := id) (fun _ => .refl _) exChecked
    have hs : (exGraph.bind adjacency).isSome = true := by decide +kernel
    rw [Option.isSome_iff_exists] at hs
    obtain ⟨M, hM⟩ := hs
    have : exAdj = M := by rw [exAdj, hM]; rfl
    rw [this, ← symmetric_iff]
    have hg : exGraph = some G := e
    rw [hg, Option.bind_some] at hM
    exact adjacency_symm (fun J hJ i hi => by have := hR.loc.ids J hJ i hi; rw [hR.nms] at this; simp at this; omega) hM
  have h := (isConnected_iff hM (all 3)).1 (by decide +kernel)
  rwa [← connected_iff, elems_all (by omega)] at h

theorem exSingles : Singles (initPT exCard) := fun _ _ => ⟨rfl, rfl⟩

/-- `C51_enumerators_partial` applies: the default enumerator finds a plan that computes the query. -/
example : ∃ G T, exGraph = some G ∧ dpCcp (coutEnv 3 exAdj exCard) (initPT exCard) = some T ∧
    Computes exL exI (fun _ => .num) id [10, 20, 30] (some exWhere) G T := by
  obtain ⟨G, e, H⟩ := C51_enumerators_partial (L := exL) (I := exI) (sh := fun _ _ => true) (ord := id) (srt := id) (fun _ => .refl _) (fun _ => .refl _)
    exChecked (by simp) (by simp) (cout_sane 3 exAdj exCard) rfl (cout_init exCard 3 (by omega)) exSingles
  have hs : (exGraph.bind adjacency).isSome = true := by decide +kernel
  rw [Option.isSome_iff_exists] at hs
  obtain ⟨M, hM⟩ := hs
  have hA : exAdj = M := by rw [exAdj, hM]; rfl
  have hg : exGraph = some G := e
  rw [hg, Option.bind_some] at hM
  obtain ⟨T, h1, h2⟩ := H (by rw [hM]; show some M = some exAdj; rw [hA]) exConnected (dpCcp (coutEnv 3 exAdj exCard)) (by unfold enumerators; exact List.mem_cons_self)
  exact ⟨G, T, hg, h1, h2⟩

/-- The result is neither empty nor everything. -/
example : fromWhere exL exI (fun _ => .num) [10, 20, 30] (fun i => if i = 0 then [1, 2, 7] else if i = 1 then [2, 2, 7] else [1, 2, 3]) (some exWhere) =
    [[some 2, some 2, some 1], [some 2, some 2, some 2], [some 2, some 2, some 1], [some 2, some 2, some 2]] := by decide +kernel

/-- `A.x = B.x OR B.x = C.x`: a clause over three data sources is rejected with every enumerator that needs the adjacency matrix. -/
theorem C51_ternary_clause_fails : ∃ G, buildGraph exL (fun _ => .num) (fun _ _ => true) id [10, 20, 30]
    (some (.binary .or (.binary .equal (.leaf 0) (.leaf 1)) (.binary .equal (.leaf 1) (.leaf 2)))) = some G ∧ (adjacency G).isNone = true := by
  have h : ((buildGraph exL (fun _ => .num) (fun _ _ => true) id [10, 20, 30]
    (some (.binary .or (.binary .equal (.leaf 0) (.leaf 1)) (.binary .equal (.leaf 1) (.leaf 2))))).map fun G => (adjacency G).isNone) = some true := by
    decide +kernel
  rw [Option.map_eq_some_iff] at h
  exact h

/-- `C51_unconnected_fails` applies to `FROM A, B, C` without WHERE. -/
example : ∃ T, dpCcp (coutEnv 3 (mk0 3) exCard) (initPT exCard) = some T ∧ (plan exL id (Graph.ofFrom [10, 20, 30]) T).isNone = true := by
  obtain ⟨T, h1, h2⟩ := C51_unconnected_fails (L := exL) (Γ := fun _ => .num) (sh := fun _ _ => true) (ord := id) (srt := id) (wher := none) (names := [10, 20, 30])
    (fun _ => .refl _) ⟨by decide, by simp, by simp⟩ (by simp) (cout_sane 3 (mk0 3) exCard) rfl (cout_init exCard 3 (by omega)) (G := Graph.ofFrom [10, 20, 30]) rfl rfl
    (by
      intro h
      have h := h 0 (by simp) 1 (by simp)
      rcases Relation.ReflTransGen.cases_head h with h | ⟨c, h, -⟩
      · exact absurd h (by decide)
      · have : (mk0 3).Edge 0 c := (adj_eq _ ▸ h.1)
        unfold Edge mk0 at this; simp [Mem] at this) (dpCcp (coutEnv 3 (mk0 3) exCard)) List.mem_cons_self
  exact ⟨T, h1, by rw [h2]; rfl⟩

/-- `C51_where_without_from_ignored` applies to `WHERE 5 < 5`. -/
example : Checked exL (fun _ => .num) [] (some (.binary .less (.leaf 3) (.leaf 3))) ∧
    ¬ whereHolds exL exI (fun _ => .num) (some (.binary .less (.leaf 3) (.leaf 3))) [] := by
  refine ⟨⟨by decide, ?_, ?_⟩, by decide +kernel⟩
  · intro e he; cases he; decide
  · intro e he; cases he; decide

/-- `C51_having` applies to `HAVING x < 5 OR x = 7`-like conditions. -/
example : Checked exL (fun _ => .num) [10] (some (.binary .or (.binary .less (.leaf 0) (.leaf 3)) (.binary .equal (.leaf 0) (.leaf 3)))) := by
  refine ⟨by decide, ?_, ?_⟩
  · intro e he; cases he; decide
  · intro e he; cases he; decide

/-- `C51_adjacency` applies, and there is an edge. -/
example : exAdj.at' 0 1 = true ∧ exAdj.at' 0 2 = false := by decide +kernel

end Mutable.QG
