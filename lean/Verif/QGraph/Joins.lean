import Verif.QGraph.Enum

/-! The joins of the query graph are the clauses over at least two data sources. -/
namespace Mutable.QG
open SQL CNF SB PE AdjMat

variable {Row V : Type} {L : Nat → Leaf Row V}

/-- The joins of `G` stem from the clauses `cs`. -/
structure JoinsOf (L : Nat → Leaf Row V) (names : List Nat) (G : Graph) (cs : List Clause) : Prop where
  nms : G.names = names
  from_ : ∀ J ∈ G.joins, ∃ c ∈ cs, 2 ≤ (dataSources L c).length ∧
    List.Forall₂ (fun s i => i < names.length ∧ names.getD i 0 = s) (dataSources L c) J.sources
  all : ∀ c ∈ cs, 2 ≤ (dataSources L c).length → ∃ J ∈ G.joins,
    List.Forall₂ (fun s i => i < names.length ∧ names.getD i 0 = s) (dataSources L c) J.sources

theorem addClause_joins {names : List Nat} {G G' : Graph} {cs : List Clause} (h : JoinsOf L names G cs) {c : Clause}
    (e : addClause L G c = some G') : JoinsOf L names G' (cs ++ [c]) := by
  have keep : (dataSources L c).length < 2 → G'.names = G.names → G'.joins = G.joins → JoinsOf L names G' (cs ++ [c]) := by
    intro hc hn hj
    refine ⟨hn.trans h.nms, fun J hJ => ?_, fun d hd h2 => ?_⟩
    · obtain ⟨d, hd, h2⟩ := h.from_ J (hj ▸ hJ)
      exact ⟨d, by simp [hd], h2⟩
    · rcases List.mem_append.1 hd with hd | hd
      · obtain ⟨J, hJ, h3⟩ := h.all d hd h2
        exact ⟨J, hj ▸ hJ, h3⟩
      · rw [List.mem_singleton] at hd; subst hd; omega
  rw [addClause] at e
  split at e
  · rename_i hds
    cases e
    have : ∀ (l : List Nat) (G : Graph), (l.foldl (fun G i => G.updateFilter i [c]) G).names = G.names ∧
        (l.foldl (fun G i => G.updateFilter i [c]) G).joins = G.joins := by
      intro l
      induction l with
      | nil => intro G; exact ⟨rfl, rfl⟩
      | cons i l ih => intro G; rw [List.foldl_cons]; exact ih _
    exact keep (by simp [hds]) (this _ _).1 (this _ _).2
  · rename_i hds
    split at e
    · cases e; exact keep (by simp [hds]) rfl rfl
    · cases e
  · rename_i ss hne1 hne2
    split at e
    · rename_i ids hids
      cases e
      have h2 : 2 ≤ (dataSources L c).length := by
        generalize dataSources L c = ds at *
        match ds with
        | [] => exact absurd rfl hne1
        | [s] => exact absurd rfl (hne2 s)
        | _ :: _ :: _ => simp
      rw [h.nms] at hids
      have hf := mapM_idOf hids
      refine ⟨h.nms, fun J hJ => ?_, fun d hd h3 => ?_⟩
      · rcases List.mem_append.1 hJ with hJ | hJ
        · obtain ⟨d, hd, h3⟩ := h.from_ J hJ
          exact ⟨d, by simp [hd], h3⟩
        · rw [List.mem_singleton] at hJ; subst hJ
          exact ⟨c, by simp, h2, hf⟩
      · rcases List.mem_append.1 hd with hd | hd
        · obtain ⟨J, hJ, h4⟩ := h.all d hd h3
          exact ⟨J, by simp [hJ], h4⟩
        · rw [List.mem_singleton] at hd; subst hd
          exact ⟨⟨[d], ids⟩, List.mem_append_right _ (by simp), hf⟩
    · cases e

theorem addClauses_joins {names : List Nat} (ds : List Clause) : ∀ {G G' : Graph} {cs : List Clause}, JoinsOf L names G cs →
    ds.foldlM (addClause L) G = some G' → JoinsOf L names G' (cs ++ ds) := by
  induction ds with
  | nil => intro G G' cs h e; simp only [List.foldlM_nil] at e; cases e; simpa using h
  | cons c ds ih =>
    intro G G' cs h e
    rw [List.foldlM_cons] at e
    cases hx : addClause L G c with
    | none => rw [hx] at e; cases e
    | some G1 =>
      rw [hx] at e
      have := ih (addClause_joins h hx) e
      simpa using this

theorem beq_sources {a b : Clause} (h : Clause.beq a b = true) : ∀ n, n ∈ dataSources L a ↔ n ∈ dataSources L b := by
  rw [Clause.beq, Bool.and_eq_true] at h
  have key : ∀ {a b : Clause}, Clause.leb a b = true → ∀ n, n ∈ dataSources L a → n ∈ dataSources L b := by
    intro a b h n hn
    rw [dataSources, List.mem_dedup, List.mem_flatMap] at hn ⊢
    obtain ⟨p, hp, hn⟩ := hn
    exact ⟨p, by simpa using List.all_eq_true.1 h p hp, hn⟩
  exact fun n => ⟨key h.2 n, key h.1 n⟩

theorem boundClauses_cover (sh : Clause → Clause → Bool) (cnf : List Clause) : ∀ m : List Clause,
    (∀ d ∈ cnf.foldl (tryEmplace sh) m, d ∈ m ∨ d ∈ cnf) ∧
    ∀ c, c ∈ m ∨ c ∈ cnf → ∃ d ∈ cnf.foldl (tryEmplace sh) m, ∀ n, n ∈ dataSources L d ↔ n ∈ dataSources L c := by
  induction cnf with
  | nil => intro m; exact ⟨fun d hd => .inl hd, fun c hc => ⟨c, by simpa using hc, fun _ => Iff.rfl⟩⟩
  | cons c cnf ih =>
    intro m
    rw [List.foldl_cons]
    obtain ⟨a1, a2⟩ := ih (tryEmplace sh m c)
    have hsub : ∀ d ∈ tryEmplace sh m c, d ∈ m ∨ d = c := by
      intro d hd
      rw [tryEmplace] at hd
      split at hd
      · exact .inl hd
      · simpa using hd
    have hm : ∀ d ∈ m, d ∈ tryEmplace sh m c := by
      intro d hd
      rw [tryEmplace]; split
      · exact hd
      · simp [hd]
    have hcov : ∃ d ∈ tryEmplace sh m c, ∀ n, n ∈ dataSources L d ↔ n ∈ dataSources L c := by
      rw [tryEmplace]
      split
      · rename_i h
        obtain ⟨d, hd, he⟩ := List.any_eq_true.1 h
        rw [Bool.and_eq_true] at he
        exact ⟨d, hd, beq_sources he.2⟩
      · exact ⟨c, by simp, fun _ => Iff.rfl⟩
    refine ⟨fun d hd => ?_, fun x hx => ?_⟩
    · rcases a1 d hd with h | h
      · rcases hsub d h with h | h
        · exact .inl h
        · exact .inr (by simp [h])
      · exact .inr (by simp [h])
    · rcases hx with hx | hx
      · exact a2 x (.inl (hm x hx))
      · rcases List.mem_cons.1 hx with rfl | hx
        · obtain ⟨d, hd, h1⟩ := hcov
          obtain ⟨d', hd', h2⟩ := a2 d (.inl hd)
          exact ⟨d', hd', fun n => (h2 n).trans (h1 n)⟩
        · exact a2 x (.inr hx)

theorem sources_length {c d : Clause} (h : ∀ n, n ∈ dataSources L c ↔ n ∈ dataSources L d) : (dataSources L c).length = (dataSources L d).length :=
  ((List.perm_ext_iff_of_nodup (List.nodup_dedup _) (List.nodup_dedup _)).2 h).length_eq

theorem buildGraph_joins {Γ : Nat → Ty} {sh : Clause → Clause → Bool} {ord : List Clause → List Clause} (ho : ∀ l, (ord l).Perm l)
    {names : List Nat} {e : Expr} {cnf : CNF} (hc : toCNF Γ e = some cnf) {G : Graph} (hG : buildGraph L Γ sh ord names (some e) = some G) :
    G.names = names ∧
    (∀ J ∈ G.joins, ∃ c ∈ cnf, 2 ≤ (dataSources L c).length ∧
      List.Forall₂ (fun s i => i < names.length ∧ names.getD i 0 = s) (dataSources L c) J.sources) ∧
    ∀ c ∈ cnf, 2 ≤ (dataSources L c).length → ∃ J ∈ G.joins, ∃ d : Clause, (∀ n, n ∈ dataSources L d ↔ n ∈ dataSources L c) ∧
      List.Forall₂ (fun s i => i < names.length ∧ names.getD i 0 = s) (dataSources L d) J.sources := by
  rw [buildGraph] at hG
  simp only [hc] at hG
  have h := addClauses_joins (L := L) (names := names) (cs := []) (ord (boundClauses sh cnf)) ⟨rfl, by simp [Graph.ofFrom], by simp⟩ hG
  rw [List.nil_append] at h
  obtain ⟨a1, a2⟩ := boundClauses_cover (L := L) sh cnf []
  refine ⟨h.nms, fun J hJ => ?_, fun c hcm h2 => ?_⟩
  · obtain ⟨c, h1, h2⟩ := h.from_ J hJ
    refine ⟨c, ?_, h2⟩
    rcases a1 c ((ho _).mem_iff.1 h1) with h | h
    · simp at h
    · exact h
  · obtain ⟨d, hd, h3⟩ := a2 c (.inr hcm)
    obtain ⟨J, hJ, h4⟩ := h.all d ((ho _).mem_iff.2 hd) (by rw [sources_length h3]; exact h2)
    exact ⟨J, hJ, d, h3, h4⟩

end Mutable.QG
