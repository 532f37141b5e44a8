import Verif.QGraph.Model
import Verif.CNF.Props
import Verif.PlanEnum.Props

/-! Lemmas about the query graph and the construction of the join order. -/
namespace Mutable.QG
open SQL CNF SB PE

variable {Row V : Type} {L : Nat → Leaf Row V} {I : Ops V}

/-! ### Truth of conditions -/

theorem predVal_eq (t : Tup Row) (p : Pred) : predVal L I t p = Pred.val (atom L I t) p := rfl
theorem clauseVal_eq (t : Tup Row) (c : Clause) : clauseVal L I t c = Clause.val (atom L I t) c := rfl
theorem cnfVal_eq (t : Tup Row) (f : CNF) : cnfVal L I t f = CNF.val (atom L I t) f := rfl

theorem k3_or_T (a b : K3) : K3.or a b = .T ↔ a = .T ∨ b = .T := by cases a <;> cases b <;> simp [K3.or]
theorem k3_and_T (a b : K3) : K3.and a b = .T ↔ a = .T ∧ b = .T := by cases a <;> cases b <;> simp [K3.and]

theorem clauseVal_T (t : Tup Row) (c : Clause) : clauseVal L I t c = .T ↔ ∃ p ∈ c, predVal L I t p = .T := by
  induction c with
  | nil => simp [clauseVal]
  | cons p c ih =>
    have : clauseVal L I t (p :: c) = K3.or (predVal L I t p) (clauseVal L I t c) := rfl
    rw [this, k3_or_T, ih]; simp

theorem cnfVal_T (t : Tup Row) (f : CNF) : cnfVal L I t f = .T ↔ ∀ c ∈ f, clauseVal L I t c = .T := by
  induction f with
  | nil => simp [cnfVal]
  | cons c f ih =>
    have : cnfVal L I t (c :: f) = K3.and (clauseVal L I t c) (cnfVal L I t f) := rfl
    rw [this, k3_and_T, ih]; simp

/-- Tuples that agree on the data sources of a set. -/
def Agree (S : List Nat) (t t' : Tup Row) : Prop := ∀ n ∈ S, look t n = look t' n

theorem evalExpr_agree {t t' : Tup Row} : ∀ e : Expr, Agree (exprSources L e) t t' → evalExpr L I t e = evalExpr L I t' e
  | .leaf i, h => by
    have e : (L i).deps.map (look t) = (L i).deps.map (look t') := List.map_congr_left (fun n hn => h n hn)
    rw [evalExpr, evalExpr, e]
  | .unary op e, h => by rw [evalExpr, evalExpr, evalExpr_agree e h]
  | .binary op l r, h => by
    rw [evalExpr, evalExpr, evalExpr_agree l (fun n hn => h n (by simp [exprSources, hn])),
      evalExpr_agree r (fun n hn => h n (by simp [exprSources, hn]))]

theorem clauseVal_agree {t t' : Tup Row} {c : Clause} (h : Agree (dataSources L c) t t') :
    clauseVal L I t c = clauseVal L I t' c := by
  have : ∀ d : Clause, (∀ p ∈ d, p ∈ c) → clauseVal L I t d = clauseVal L I t' d := by
    intro d
    induction d with
    | nil => intro _; rfl
    | cons p d ih =>
      intro hd
      have hp : predVal L I t p = predVal L I t' p := by
        have : evalExpr L I t p.expr = evalExpr L I t' p.expr := evalExpr_agree _ fun n hn => h n (by
          rw [dataSources, List.mem_dedup, List.mem_flatMap]; exact ⟨p, hd p (by simp), hn⟩)
        rw [predVal, predVal, atom, atom, this]
      have e1 : clauseVal L I t (p :: d) = K3.or (predVal L I t p) (clauseVal L I t d) := rfl
      have e2 : clauseVal L I t' (p :: d) = K3.or (predVal L I t' p) (clauseVal L I t' d) := rfl
      rw [e1, e2, hp, ih fun q hq => hd q (by simp [hq])]
  exact this c fun _ h => h

/-! ### The filter of a source -/

theorem chunk_fold (cs : List Clause) : ∀ s : Chunks,
    (cs.foldl (chunkStep L) s).done.flatten ++ (cs.foldl (chunkStep L) s).cur = s.done.flatten ++ s.cur ++ cs := by
  induction cs with
  | nil => intro s; simp
  | cons c cs ih =>
    intro s
    rw [List.foldl_cons, ih]
    rw [chunkStep]
    split <;> simp

/-- Every filter is non-empty, and heavier than the limit only if it is a single clause. -/
def ChunkOK (L : Nat → Leaf Row V) (f : CNF) : Prop := f ≠ [] ∧ ((f.map (weigh L)).sum ≤ 12 ∨ f.length = 1)

theorem chunk_ok (cs : List Clause) : ∀ s : Chunks, (∀ f ∈ s.done, ChunkOK L f) → s.weight = (s.cur.map (weigh L)).sum →
    (s.cur ≠ [] → ChunkOK L s.cur) →
    (∀ f ∈ (cs.foldl (chunkStep L) s).done, ChunkOK L f) ∧
    ((cs.foldl (chunkStep L) s).cur ≠ [] → ChunkOK L (cs.foldl (chunkStep L) s).cur) := by
  induction cs with
  | nil => intro s h1 _ h3; exact ⟨h1, h3⟩
  | cons c cs ih =>
    intro s h1 h2 h3
    rw [List.foldl_cons]
    apply ih
    · rw [chunkStep]
      split
      · rename_i h
        intro f hf
        simp only [List.mem_append, List.mem_singleton] at hf
        rcases hf with hf | rfl
        · exact h1 f hf
        · exact h3 h.1
      · exact h1
    · rw [chunkStep]; split <;> simp [h2]
    · rw [chunkStep]
      split
      · intro _; exact ⟨by simp, .inr (by simp)⟩
      · rename_i h
        intro _
        refine ⟨by simp, ?_⟩
        by_cases hc : s.cur = []
        · right; simp [hc]
        · left
          have : ¬ s.weight + weigh L c > 12 := fun hh => h ⟨hc, hh⟩
          simp; omega

theorem optimizeFilter_spec {srt : CNF → CNF} (hs : ∀ f, (srt f).Perm f) {f : CNF} (h0 : f ≠ []) (h1 : ∀ c ∈ f, c ≠ []) :
    ∃ fs, optimizeFilter L srt f = some fs ∧ fs.flatten.Perm f ∧ ∀ g ∈ fs, ChunkOK L g := by
  rw [optimizeFilter, if_neg h0, if_neg (by
    rw [List.any_eq_true]; rintro ⟨c, hc, he⟩; exact h1 c hc (by simpa using he))]
  have e := chunk_fold (L := L) (srt f) (Chunks.mk [] 0 [])
  have ok := chunk_ok (L := L) (srt f) (Chunks.mk [] 0 []) (by simp) (by simp) (by simp)
  generalize (srt f).foldl (chunkStep L) (Chunks.mk [] 0 []) = s at e ok
  simp only [List.flatten_nil, List.append_nil, List.nil_append] at e
  have hne : srt f ≠ [] := fun h => h0 (by
    have := (hs f).length_eq; rw [h] at this; exact List.eq_nil_of_length_eq_zero this.symm)
  have hp : (if s.cur ≠ [] then s.done ++ [s.cur] else s.done).flatten.Perm f := by
    split
    · rw [List.flatten_append]; simp only [List.flatten_cons, List.flatten_nil, List.append_nil]; rw [e]; exact hs f
    · rename_i h; simp only [ne_eq, not_not] at h; rw [h, List.append_nil] at e; rw [e]; exact hs f
  refine ⟨if s.cur ≠ [] then s.done ++ [s.cur] else s.done, ?_, hp, ?_⟩
  · simp only
    rw [if_neg]
    intro h; rw [h] at hp; exact h0 (by simpa using hp.symm)
  · intro g hg
    split at hg
    · rename_i h
      simp only [List.mem_append, List.mem_singleton] at hg
      rcases hg with hg | rfl
      · exact ok.1 g hg
      · exact ok.2 h
    · exact ok.1 g hg

theorem addFilter_eval {names : List Nat} {rows : Nat → List Row} (p : LPlan) (f : CNF) :
    (addFilter p f).eval L I names rows = (p.eval L I names rows).filter fun t => cnfVal L I t f = .T := by
  rw [addFilter.eq_def]
  split
  · rename_i c
    split
    · rw [LPlan.eval]
      apply List.filter_congr
      intro t _
      rw [Bool.eq_iff_iff]
      simp only [List.any_eq_true, decide_eq_true_eq, cnfVal_T, List.mem_singleton, forall_eq, clauseVal_T]
    · rw [LPlan.eval]
  · rw [LPlan.eval]

theorem addFilters_eval {names : List Nat} {rows : Nat → List Row} (fs : List CNF) : ∀ p : LPlan,
    (fs.foldl addFilter p).eval L I names rows =
      (p.eval L I names rows).filter fun t => cnfVal L I t fs.flatten = .T := by
  induction fs with
  | nil => intro p; simp [cnfVal]
  | cons f fs ih =>
    intro p
    rw [List.foldl_cons, ih, addFilter_eval, List.filter_filter]
    apply List.filter_congr
    intro t _
    rw [Bool.eq_iff_iff]
    simp only [Bool.and_eq_true, decide_eq_true_eq, cnfVal_T, List.flatten_cons, List.mem_append]
    constructor
    · rintro ⟨a, b⟩ c (h | h)
      exacts [b c h, a c h]
    · intro h; exact ⟨fun c hc => h c (.inr hc), fun c hc => h c (.inl hc)⟩

theorem sourcePlan_spec {srt : CNF → CNF} (hs : ∀ f, (srt f).Perm f) {G : Graph} {i : Nat} (h1 : ∀ c ∈ G.filter i, c ≠ [])
    (names : List Nat) (rows : Nat → List Row) :
    ∃ p, sourcePlan L srt G i = some p ∧
      p.eval L I names rows = ((LPlan.scan i).eval L I names rows).filter fun t => cnfVal L I t (G.filter i) = .T := by
  rw [sourcePlan]
  by_cases h0 : G.filter i = []
  · refine ⟨.scan i, by simp [h0], ?_⟩
    simp [h0, cnfVal]
  · obtain ⟨fs, e, hp, _⟩ := optimizeFilter_spec (L := L) hs h0 h1
    refine ⟨fs.foldl addFilter (.scan i), ?_, ?_⟩
    · rw [if_neg (by simpa using h0), e]
    · rw [addFilters_eval]
      apply List.filter_congr
      intro t _
      rw [Bool.eq_iff_iff]
      simp only [decide_eq_true_eq, cnfVal_T]
      exact ⟨fun h c hc => h c (hp.mem_iff.2 hc), fun h c hc => h c (hp.mem_iff.1 hc)⟩

/-! ### Joins -/

theorem joinSources_mem (l : List Nat) : ∀ S : SB, (∀ i ∈ l, i < 64) → ∀ j,
    Mem (l.foldl (fun S i => set S i true) S) j ↔ Mem S j ∨ j ∈ l := by
  induction l with
  | nil => intro S _ j; simp
  | cons i l ih =>
    intro S h j
    rw [List.foldl_cons, ih _ (fun k hk => h k (by simp [hk])), mem_setOp _ _ (h i (by simp))]
    by_cases e : j = i
    · subst e; simp
    · simp [e]

theorem joinFits_iff {s : SB} {J : Join} (h : ∀ i ∈ J.sources, i < 64) : joinFits s J = true ↔ ∀ i ∈ J.sources, Mem s i := by
  rw [joinFits, isSubset_iff]
  constructor
  · intro hs i hi; exact hs i ((joinSources_mem _ _ h i).2 (.inr hi))
  · intro hs i hi
    rcases (joinSources_mem _ _ h i).1 hi with h0 | h0
    · exact absurd h0 (not_mem_zero i)
    · exact hs i h0

theorem takeJoins_snd (s : SB) (js : List Join) : (takeJoins s js).2 = js.filter fun J => !joinFits s J := by
  induction js with
  | nil => rfl
  | cons J js ih => rw [takeJoins]; by_cases h : joinFits s J = true <;> simp [h, ih]

theorem takeJoins_fst (t : Tup Row) (s : SB) (js : List Join) :
    cnfVal L I t (takeJoins s js).1 = .T ↔ ∀ J ∈ js, joinFits s J = true → cnfVal L I t J.cond = .T := by
  induction js with
  | nil => simp [takeJoins, cnfVal]
  | cons J js ih =>
    rw [takeJoins]
    by_cases h : joinFits s J = true
    · simp only [h, if_true]
      have : cnfVal L I t (CNF.and J.cond (takeJoins s js).1) = .T ↔ cnfVal L I t J.cond = .T ∧ cnfVal L I t (takeJoins s js).1 = .T := by
        simp only [cnfVal_T, CNF.and, List.mem_append]
        exact ⟨fun h => ⟨fun c hc => h c (.inl hc), fun c hc => h c (.inr hc)⟩, fun h c hc => hc.elim (h.1 c) (h.2 c)⟩
      rw [this, ih]; simp [h]
    · simp [h, ih]

/-- The plan of a join tree. -/
def treePlan (src : Nat → LPlan) : Tree → List Join → LPlan × List Join
  | .leaf i, js => (src i, js)
  | .node l r, js =>
    let a := treePlan src l js
    let b := treePlan src r a.2
    let c := takeJoins (l.rels ||| r.rels) b.2
    (.join c.1 a.1 b.1, c.2)

variable {C D : Type}

/-- The entries of single relations have no split. -/
def Singles (T : PT C D) : Prop := ∀ i, i < 64 → (T (SB.singleton i)).left = 0#64 ∧ (T (SB.singleton i)).right = 0#64

theorem members_singleton {i : Nat} (h : i < 64) : members (SB.singleton i) = [i] := by
  have hm : ∀ j, j ∈ members (SB.singleton i) ↔ j = i := by
    intro j; rw [AdjMat.mem_members, mem_singleton]; omega
  have hs := AdjMat.members_sorted (SB.singleton i)
  generalize members (SB.singleton i) = l at hm hs
  match l with
  | [] => exact absurd ((hm i).2 rfl) (by simp)
  | [a] => rw [(hm a).1 (by simp)]
  | a :: b :: l =>
    have ha := (hm a).1 (by simp)
    have hb := (hm b).1 (by simp)
    rw [List.pairwise_cons] at hs
    have := hs.1 b (by simp)
    omega

theorem isEmpty_iff' (S : SB) : SB.isEmpty S = true ↔ S = 0#64 := by rw [SB.isEmpty]; simp

theorem recorded_ne {T : PT C D} {S : SB} {t : Tree} (h : Recorded T S t) : S ≠ 0#64 := by
  induction h with
  | leaf i h => exact (ne_zero_iff _).2 ⟨i, by rw [mem_singleton]; omega⟩
  | node hs hl hr hu ihl ihr =>
    obtain ⟨i, hi⟩ := (ne_zero_iff _).1 ihl
    rw [← hu]; exact (ne_zero_iff _).2 ⟨i, by simp [hi]⟩

theorem recorded_rels {T : PT C D} {S : SB} {t : Tree} (h : Recorded T S t) : t.rels = S := by
  induction h with
  | leaf => rfl
  | node hs hl hr hu a b => rw [Tree.rels, a, b, hu]

theorem construct_spec {T : PT C D} (hS : Singles T) (src : Nat → LPlan) {n : Nat} (hn : n ≤ 64) {may : SB → SB → Prop} {S : SB} {t : Tree}
    (hr : Recorded T S t) : IsPlan n may t S → ∀ fuel, size S ≤ fuel → ∀ js, construct T src (fuel + 1) S js = some (treePlan src t js) := by
  induction hr with
  | leaf i h =>
    intro _ fuel _ js
    rw [construct, (hS i h).1, (hS i h).2, members_singleton h]
    rfl
  | @node S l r hs hl hr hu ihl ihr =>
    intro hp fuel hf js
    have hrels := isPlan_rels hp
    cases hp with
    | @node _ _ A B hA hB hd hm =>
      have hA' : (T (A ||| B)).left = A := by rw [← recorded_rels hl, isPlan_rels hA]
      have hB' : (T (A ||| B)).right = B := by rw [← recorded_rels hr, isPlan_rels hB]
      have nA := recorded_ne hl
      have nB := recorded_ne hr
      rw [hA'] at nA hl ihl
      rw [hB'] at nB hr ihr
      have s1 := size_union_left hd nB
      have s2 := size_union_right hd nA
      rw [construct, hA', hB']
      have eA : SB.isEmpty A = false := by rw [← Bool.not_eq_true, isEmpty_iff']; exact nA
      have eB : SB.isEmpty B = false := by rw [← Bool.not_eq_true, isEmpty_iff']; exact nB
      simp only [eA, eB, Bool.false_and, Bool.or_self, Bool.false_eq_true, if_false]
      match fuel, hf with
      | 0, hf => omega
      | fuel + 1, hf =>
        rw [ihl hA fuel (by omega)]
        simp only
        rw [ihr hB fuel (by omega)]
        simp only [treePlan]
        rw [isPlan_rels hA, isPlan_rels hB]

end Mutable.QG
