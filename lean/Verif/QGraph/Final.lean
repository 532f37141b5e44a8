import Verif.QGraph.Build

/-! The plan of a statement computes FROM and WHERE. -/
namespace Mutable.QG
open SQL CNF SB PE

variable {Row V : Type} {L : Nat → Leaf Row V} {I : Ops V} {C D : Type}

theorem prodList_eq (names : List Nat) (rows : Nat → List Row) (l : List Nat) :
    prodList names rows l = (fromRows (l.map rows)).map fun c => (l.map fun i => names.getD i 0).zip c := by
  induction l with
  | nil => rfl
  | cons i l ih =>
    rw [prodList, ih, List.map_cons, List.map_cons, fromRows, List.map_flatMap]
    congr 1; funext r
    rw [List.map_map, List.map_map]; rfl

theorem range_names (names : List Nat) : (List.range names.length).map (fun i => names.getD i 0) = names := by
  apply List.ext_getElem
  · simp
  · intro i h1 h2
    simp only [List.getElem_map, List.getElem_range]
    rw [List.getD_eq_getElem _ _ h2]

theorem fromRows_length (Bs : List (List Row)) : ∀ c ∈ fromRows Bs, c.length = Bs.length := by
  induction Bs with
  | nil => intro c h; simp [fromRows] at h; simp [h]
  | cons B Bs ih =>
    intro c h
    simp only [fromRows, List.mem_flatMap, List.mem_map] at h
    obtain ⟨r, _, c', hc', rfl⟩ := h
    simp [ih c' hc']

theorem rowsOf_zip : ∀ {names : List Nat} {c : List Row}, names.Nodup → c.length = names.length →
    rowsOf names (names.zip c) = c.map some := by
  intro names
  induction names with
  | nil => intro c _ h; simp at h; subst h; rfl
  | cons n names ih =>
    intro c hn h
    match c, h with
    | r :: c, h =>
      simp only [List.length_cons, Nat.add_right_cancel_iff] at h
      rw [List.nodup_cons] at hn
      rw [List.zip_cons_cons, rowsOf, List.map_cons, List.map_cons]
      congr 1
      · rw [look, List.lookup_cons]; simp
      · rw [← ih hn.2 h, rowsOf]
        apply List.map_congr_left
        intro m hm
        rw [look, List.lookup_cons]
        have : (m == n) = false := by
          have : m ≠ n := fun e => hn.1 (e ▸ hm)
          simpa using this
        rw [this]; rfl

theorem filter_map_eq {α β : Type} (l : List α) (p : α → Prop) [DecidablePred p] (f : α → β) :
    (l.filter fun a => p a).map f = (l.map fun a => if p a then some (f a) else none).filterMap id := by
  induction l with
  | nil => rfl
  | cons a l ih =>
    rw [List.filter_cons]
    by_cases h : p a <;> simp [h, ih]

theorem whereHolds_agree {Γ : Nat → Ty} {wher : Option Expr} {t t' : Tup Row} (h : ∀ n, look t n = look t' n) :
    whereHolds L I Γ wher t ↔ whereHolds L I Γ wher t' := by
  cases wher with
  | none => rfl
  | some e =>
    rw [whereHolds, whereHolds]
    have : atom L I t = atom L I t' := by
      funext a; rw [atom, atom, evalExpr_agree a fun n _ => h n]
    rw [this]

theorem size_all {n : Nat} (hn : n ≤ 64) : size (all n) = n := by
  have key : ∀ m, (List.range m).countP (fun i => (all n).getLsbD i) = min m n := by
    intro m
    induction m with
    | zero => simp
    | succ m ih =>
      rw [List.range_succ, List.countP_append, ih]
      have := mem_all hn m
      rw [Mem] at this
      by_cases h : m < n
      · rw [List.countP_cons, this.2 h]; simp; omega
      · have : (all n).getLsbD m = false := by rw [← Bool.not_eq_true]; exact fun hh => h (this.1 hh)
        rw [List.countP_cons, this]; simp; omega
  rw [size, key]; omega

theorem plan_spec {srt : CNF → CNF} (hs : ∀ f, (srt f).Perm f) {Γ : Nat → Ty} {names : List Nat} {wher : Option Expr}
    (hN : names.Nodup) {G : Graph} {cs : List Clause} (hR : Rep L I names G cs)
    (hcs : ∀ t : Tup Row, (∀ c ∈ cs, clauseVal L I t c = .T) ↔ whereHolds L I Γ wher t)
    (h0 : names ≠ []) (hn : names.length ≤ 64) {T : PT C D} (hS : Singles T) {may : SB → SB → Prop} {t : Tree}
    (hr : Recorded T (all names.length) t) (hp : IsPlan names.length may t (all names.length)) :
    ∃ P, plan L srt G T = some (P, []) ∧ ∀ rows : Nat → List Row,
      ((P.eval L I names rows).map (rowsOf names)).Perm (fromWhere L I Γ names rows wher) := by
  classical
  have hnm := hR.nms
  have hex : ∀ i, ∃ p, sourcePlan L srt G i = some p := by
    intro i
    obtain ⟨p, e, _⟩ := sourcePlan_spec (L := L) (I := I) hs (hR.ne i) names (fun _ => [])
    exact ⟨p, e⟩
  choose src hsrc using hex
  have hmap : (List.range G.names.length).mapM (sourcePlan L srt G) = some ((List.range G.names.length).map src) := by
    have : ∀ l : List Nat, l.mapM (sourcePlan L srt G) = some (l.map src) := by
      intro l
      induction l with
      | nil => rfl
      | cons i l ih => rw [List.mapM_cons, hsrc i, ih]; rfl
    exact this _
  have hget : ∀ i, i < G.names.length → ((List.range G.names.length).map src).getD i .unit = src i := by
    intro i hi
    rw [List.getD_eq_getElem _ _ (by simpa using hi)]; simp
  set src' : Nat → LPlan := fun i => ((List.range G.names.length).map src).getD i .unit with hsrc'
  have hfuel : size (all names.length) ≤ names.length := by
    rw [size_all hn]
  have hplan : plan L srt G T = some (treePlan src' t G.joins) := by
    rw [plan]
    rw [if_neg (by rw [hnm]; simpa using h0), hmap]
    have := construct_spec hS src' hn hr hp _ hfuel G.joins
    rw [← hnm] at this
    exact this
  have hev : ∀ rows : Nat → List Row, _ := fun rows => treePlan_eval (I := I) (G := G) (src := src') (hnm ▸ hN) hR.loc (by rw [hnm]; exact hn) rows
    (by
      intro i hi
      rw [hsrc']
      simp only
      rw [hget i hi]
      obtain ⟨p, e, h⟩ := sourcePlan_spec (L := L) (I := I) hs (hR.ne i) G.names rows
      rw [hsrc i] at e
      cases e
      exact h) (hnm ▸ hp) G.joins (fun _ h => h)
  have hall : ∀ J ∈ G.joins, joinFits t.rels J = true := by
    intro J hJ
    have hid := hR.loc.ids J hJ
    rw [hnm] at hid
    rw [joinFits_iff fun i hi => by have := hid i hi; omega, isPlan_rels hp]
    intro i hi
    exact (mem_all hn i).2 (hid i hi)
  refine ⟨(treePlan src' t G.joins).1, ?_, ?_⟩
  · rw [hplan]
    have : (treePlan src' t G.joins).2 = [] := by
      rw [(hev fun _ => []).2, List.filter_eq_nil_iff]
      intro J hJ; rw [hall J hJ]; simp
    rw [← this]
  · intro rows
    have h1 := (hev rows).1
    rw [hnm] at h1
    have hsem : ∀ tup : Tup Row, treeOK L I G G.joins t tup ↔ whereHolds L I Γ wher tup := by
      intro tup
      rw [← hcs, ← hR.sem h0 tup, treeOK]
      have hleaf : ∀ i, i ∈ Tree.leaves t ↔ i < names.length := by
        intro i; rw [leaves_mem hn hp, mem_all hn]
      constructor
      · rintro ⟨a, b⟩
        exact ⟨fun i hi => a i ((hleaf i).2 hi), fun J hJ => b J hJ (hall J hJ)⟩
      · rintro ⟨a, b⟩
        exact ⟨fun i hi => a i ((hleaf i).1 hi), fun J hJ _ => b J hJ⟩
    rw [h1]
    have h2 : (prodList names rows (Tree.leaves t)).filter (fun tup => decide (treeOK L I G G.joins t tup)) =
        (prodList names rows (Tree.leaves t)).filter (fun tup => decide (whereHolds L I Γ wher tup)) := by
      apply List.filter_congr
      intro tup _
      rw [decide_eq_decide]; exact hsem tup
    rw [h2, filter_map_eq]
    have hperm := prodList_perm names rows (leaves_all hn hp)
      (fun tup => if whereHolds L I Γ wher tup then some (rowsOf names tup) else none) (by
        intro a b hab hk
        have hnd : (a.map Prod.fst).Nodup := by
          refine (hk.nodup_iff).2 ?_
          have := (leaves_all hn hp).map fun i => names.getD i 0
          rw [range_names] at this
          exact this.nodup_iff.2 hN
        have hl : ∀ n, look a n = look b n := look_perm hab hnd
        have : rowsOf names a = rowsOf names b := by rw [rowsOf, rowsOf]; exact List.map_congr_left fun n _ => hl n
        rw [this]
        by_cases h : whereHolds L I Γ wher a
        · rw [if_pos h, if_pos ((whereHolds_agree hl).1 h)]
        · rw [if_neg h, if_neg fun h' => h ((whereHolds_agree hl).2 h')])
    refine (hperm.filterMap id).trans ?_
    rw [← filter_map_eq, prodList_eq, range_names, fromWhere, List.filter_map, List.map_map]
    have e : ∀ c ∈ fromRows ((List.range names.length).map rows), c.length = names.length := by
      intro c hc; rw [fromRows_length _ c hc]; simp
    apply List.Perm.of_eq
    apply List.map_congr_left
    intro c hc
    exact rowsOf_zip hN (e c (List.mem_filter.1 hc).1)

end Mutable.QG
