import Verif.NestedQ.Select
/-
C67: nested queries in SELECT, WHERE and HAVING.
-/
namespace Mutable.NestedQ
variable {V : Type}

/-- WHERE and HAVING contain no nested queries, every name is a column; SELECT items are either free of nested queries, or nested queries
without free variables that are an aggregate over FROM, or a constant; a statement without FROM has no WHERE. -/
structure Simple (S : Stmt V) : Prop where
  wher : ∀ c ∈ S.wher, ∀ p ∈ c, plain p.2 = true ∧ found S.cols0 [] p.2 = true
  having : ∀ c ∈ S.having, ∀ p ∈ c, plain p.2 = true ∧ found S.cols1 [] p.2 = true
  items : ∀ e ∈ S.items, (∃ q, e = .query q ∧ (S.nested q).Ok) ∨ plain e = true ∧ found S.cols1 [] e = true
  nofrom : S.from_ = none → S.wher = []

variable [DecidableEq V]

/-- **C67, partial.**  A statement whose nested queries are whole SELECT items without free variables delivers the rows that SQL prescribes, except
that the values of nested queries come after those of all other items.  Missing: nested queries in WHERE, in HAVING, inside expressions, with
free variables, and the order of columns: see the theorems below. -/
theorem C67_select_partial (I : Ops V) (dflt : Row V) (uname : Nat → Nat) (S : Stmt V) (h : Simple S) :
    ∃ rows, sql I dflt S = some rows ∧ run I dflt uname S = some (rows.map (reorder S.items)) := by
  obtain ⟨hw, hh, hi, hn⟩ := h
  have hwp : ∀ c ∈ S.wher, ∀ p ∈ c, plain p.2 = true := fun c hc p hp => (hw c hc p hp).1
  have hhp : ∀ c ∈ S.having, ∀ p ∈ c, plain p.2 = true := fun c hc p hp => (hh c hc p hp).1
  let vq : Nat → V := fun q => theValue I dflt (S.nested q)
  let rows0 : List (Row V) := S.rows0 dflt
  let rows1 := rows0.filter fun r => holds I r r (fun _ => I.null) S.wher
  let rows2 : List (Row V) := S.grouped rows1
  let rows3 := rows2.filter fun r => holds I r r (fun _ => I.null) S.having
  refine ⟨rows3.map fun r => S.items.map (eval I r r vq), ?_, ?_⟩
  · unfold sql
    rw [sqlFilter_plain hwp (fun _ => I.null)]
    simp only
    rw [sqlFilter_plain hhp (fun _ => I.null)]
    simp only
    refine mapM_some _ (fun r _ => mapM_some _ (fun e he => ?_))
    rcases hi e he with ⟨q, rfl, hq⟩ | ⟨hp, _⟩
    · simp only [sqlEval, nestedValue, simple_rows hq.1 hq.2]
      rfl
    · exact sqlEval_plain vq hp
  · unfold run
    rw [plain_cnf hwp]
    have hs0 : addSources I dflt (fun q => .text (uname q)) S [] = some [] := rfl
    simp only [hs0, List.map_nil, List.flatMap_nil, List.append_nil, combos]
    have hwe : S.conditions [] = S.wher := by
      unfold Stmt.conditions
      split
      · rename_i hf
        simp only [List.isEmpty_nil, Bool.and_true, Option.isNone_iff_eq_none] at hf
        exact (hn hf).symm
      · simp
    simp only [hwe]
    have c0 : (S.wher.all fun c => c.all fun p => found S.cols0 [] p.2) = true := by
      simp only [List.all_eq_true]
      exact fun c hc p hp => (hw c hc p hp).2
    simp only [c0, Bool.true_eq_false, if_false]
    have e1 : (rows0.flatMap fun r => (([[]] : List (List (NSrc V × List V))).filter fun c => holds I r r (resOf I.null c) S.wher).map fun _ => r) = rows1 := by
      have hr : ∀ r, holds I r r (resOf I.null ([] : List (NSrc V × List V))) S.wher = holds I r r (fun _ => I.null) S.wher := by
        intro r
        rfl
      simp only [rows1, List.filter_cons, List.filter_nil, hr]
      induction rows0 with
      | nil => rfl
      | cons r rs ih =>
        simp only [List.flatMap_cons, List.filter_cons, ih]
        split <;> simp
    rw [e1]
    have c1 : (S.having.all fun c => c.all fun p => found S.cols1 [] p.2) = true := by
      simp only [List.all_eq_true]
      exact fun c hc p hp => (hh c hc p hp).2
    simp only [c1, Bool.true_eq_false, if_false]
    have hqs : ∀ q ∈ (S.items.filter isQuery).flatMap queries, (S.nested q).Ok ∧ .query q ∈ S.items := by
      intro q hq
      obtain ⟨e, he, hqe⟩ := List.mem_flatMap.mp hq
      obtain ⟨he1, he2⟩ := List.mem_filter.mp he
      rcases hi e he1 with ⟨q', rfl, hok⟩ | ⟨hp, _⟩
      · simp only [queries, List.mem_singleton] at hqe
        subst hqe
        exact ⟨hok, he1⟩
      · cases e <;> simp [isQuery] at he2
        simp [plain, queries] at hp
    rw [addSources_simple _ (fun q hq => (hqs q hq).1)]
    simp only [List.map_map]
    have em : ((fun x : NSrc V × List (Clause V) => x.1) ∘ fun q => (simpleSrc I dflt S q, ([] : List (Clause V)))) = simpleSrc I dflt S := rfl
    rw [em, combos_simple]
    have hmem : ∀ q, .query q ∈ S.items → q ∈ (S.items.filter isQuery).flatMap queries := by
      intro q hq
      exact List.mem_flatMap.mpr ⟨.query q, List.mem_filter.mpr ⟨hq, rfl⟩, by simp [queries]⟩
    have c2 : ((S.items.filter (fun e => !isQuery e) ++ S.items.filter isQuery).all fun e =>
        found S.cols1 (((S.items.filter isQuery).flatMap queries).map (simpleSrc I dflt S)) e) = true := by
      rw [List.all_eq_true]
      intro e he
      have he' : e ∈ S.items := by
        rcases List.mem_append.mp he with he | he <;> exact (List.mem_filter.mp he).1
      rcases hi e he' with ⟨q, rfl, _⟩ | ⟨hp, hf⟩
      · simp only [found, List.any_eq_true]
        refine ⟨simpleSrc I dflt S q, List.mem_map_of_mem (hmem q he'), ?_⟩
        simp [simpleSrc]
      · rw [found_plain _ hp]; exact hf
    simp only [c2, Bool.true_eq_false, if_false]
    congr 1
    have e3 : ∀ r : Row V, ([((S.items.filter isQuery).flatMap queries).map fun q => (simpleSrc I dflt S q, [theValue I dflt (S.nested q)])].map fun c =>
        (S.items.filter (fun e => !isQuery e) ++ S.items.filter isQuery).map fun e => eval I r r (resOf I.null c) e)
        = [reorder S.items (S.items.map (eval I r r vq))] := by
      intro r
      rw [reorder_map]
      simp only [List.map_cons, List.map_nil, List.cons.injEq, and_true]
      refine List.map_congr_left (fun e he => ?_)
      have he' : e ∈ S.items := by
        rcases List.mem_append.mp he with he | he <;> exact (List.mem_filter.mp he).1
      rcases hi e he' with ⟨q, rfl, _⟩ | ⟨hp, _⟩
      · exact resOf_simple _ q (hmem q he')
      · have a := sqlEval_plain (I := I) (dflt := dflt) (S := S) (r := r) vq hp
        rw [sqlEval_plain (resOf I.null _) hp] at a
        exact Option.some.inj a
    simp only [e3]
    change rows3.flatMap (fun r => [reorder S.items (S.items.map (eval I r r vq))]) = _
    induction rows3 with
    | nil => rfl
    | cons r rs ih => simp only [List.flatMap_cons, List.map_cons, ih]; rfl

omit [DecidableEq V] in
/-- **C67.**  If no nested query precedes another item in SELECT, the order of columns is that of SELECT. -/
theorem C67_column_order_partial (plainItems nestedItems : List (Expr V)) (hp : ∀ e ∈ plainItems, isQuery e = false)
    (hq : ∀ e ∈ nestedItems, isQuery e = true) (row : List V) (hl : row.length = (plainItems ++ nestedItems).length) :
    reorder (plainItems ++ nestedItems) row = row := by
  have key : ∀ (l : List (Expr V × V)) (p : Expr V → Bool), (∀ x ∈ l, p x.1 = true) → l.filter (fun x => p x.1) = l :=
    fun l p h => List.filter_eq_self.mpr (fun x hx => h x hx)
  have key' : ∀ (l : List (Expr V × V)) (p : Expr V → Bool), (∀ x ∈ l, p x.1 = false) → l.filter (fun x => p x.1) = [] :=
    fun l p h => List.filter_eq_nil_iff.mpr (fun x hx => by rw [h x hx]; simp)
  obtain ⟨a, b, rfl, ha⟩ : ∃ a b, row = a ++ b ∧ a.length = plainItems.length :=
    ⟨row.take plainItems.length, row.drop plainItems.length, (List.take_append_drop _ _).symm, by
      rw [List.length_take, hl, List.length_append]; omega⟩
  have hb : b.length = nestedItems.length := by
    simp only [List.length_append] at hl; omega
  unfold reorder
  rw [List.zip_append ha.symm]
  simp only [List.filter_append]
  have z1 : ∀ x ∈ plainItems.zip a, isQuery x.1 = false := fun x hx => hp _ (List.of_mem_zip hx).1
  have z2 : ∀ x ∈ nestedItems.zip b, isQuery x.1 = true := fun x hx => hq _ (List.of_mem_zip hx).1
  rw [key (plainItems.zip a) (fun e => !isQuery e) (fun x hx => by rw [z1 x hx]; rfl),
    key' (nestedItems.zip b) (fun e => !isQuery e) (fun x hx => by rw [z2 x hx]; rfl),
    key' (plainItems.zip a) isQuery z1, key (nestedItems.zip b) isQuery z2]
  simp only [List.append_nil, List.nil_append, List.map_append]
  rw [List.map_snd_zip (by omega), List.map_snd_zip (by omega)]

/-! ### Which clauses a nested query keeps -/

theorem available_composable (keys : List (Expr V)) : ∀ {e : Expr V}, composable e = true → available keys e = true
  | .col _ _ _, h => by simp only [composable] at h; simp [available, h]
  | .const _, _ => rfl
  | .un _ e, h => by simp [available, available_composable keys (e := e) h]
  | .bin _ x y, h => by
    simp only [composable, Bool.and_eq_true] at h
    simp [available, available_composable keys (e := x) h.1, available_composable keys (e := y) h.2]
  | .call _ e, h => by simp [available, available_composable keys (e := e) h]
  | .query _, _ => rfl

omit [DecidableEq V] in
theorem composable_unbound : ∀ {e : Expr V}, hasBound e = false → composable e = true
  | .col _ _ _, h => by simp only [hasBound] at h; simp only [composable, bne, h]; rfl
  | .const _, _ => rfl
  | .un _ e, h => composable_unbound (e := e) h
  | .bin _ x y, h => by
    simp only [hasBound, Bool.or_eq_false_iff] at h
    simp [composable, composable_unbound (e := x) h.1, composable_unbound (e := y) h.2]
  | .call _ _, h => by simp [hasBound] at h
  | .query _, _ => rfl

theorem available_key {keys : List (Expr V)} : ∀ {e : Expr V}, e ∈ keys → available keys e = true
  | .col _ _ _, h => by simp [available, h]
  | .const _, _ => rfl
  | .un _ _, h => by simp [available, h]
  | .bin _ _ _, h => by simp [available, h]
  | .call _ _, h => by simp [available, h]
  | .query _, _ => rfl

theorem available_mono {keys keys' : List (Expr V)} (hk : ∀ k ∈ keys, k ∈ keys') : ∀ {e : Expr V}, available keys e = true → available keys' e = true
  | .col d t a, h => by
    simp only [available, Bool.or_eq_true, List.contains_iff_mem] at h ⊢
    exact h.imp (hk _) id
  | .const _, _ => rfl
  | .un op e, h => by
    simp only [available, Bool.or_eq_true, List.contains_iff_mem] at h ⊢
    exact h.imp (hk _) (available_mono hk)
  | .bin op x y, h => by
    simp only [available, Bool.or_eq_true, List.contains_iff_mem, Bool.and_eq_true] at h ⊢
    exact h.imp (hk _) fun h => ⟨available_mono hk h.1, available_mono hk h.2⟩
  | .call f e, h => by
    simp only [available, Bool.or_eq_true, List.contains_iff_mem] at h ⊢
    exact h.imp (hk _) (available_mono hk)
  | .query _, _ => rfl

/-- What holds of a builder after some clauses. -/
structure Kept (grouping : Bool) (cs : List (Clause V)) (b : Builder V) : Prop where
  bound : b.bound = cs.filter fun c => !correlated c
  deferred : b.deferred = cs.filter correlated
  covered : grouping = true → ∀ c ∈ b.deferred, ∀ p ∈ c, available b.keys p.2 = true
  nokeys : grouping = false → b.keys = []

theorem kept_bound {grouping : Bool} {cs : List (Clause V)} {b : Builder V} (h : Kept grouping cs b) {c : Clause V} (hc : correlated c = false) :
    Kept grouping (cs ++ [c]) { b with bound := b.bound ++ [c] } :=
  ⟨by simp [h.bound, hc], by simp [h.deferred, hc], h.covered, h.nokeys⟩

theorem kept_deferred {grouping : Bool} {cs : List (Clause V)} {b : Builder V} (h : Kept grouping cs b) {c : Clause V} (hc : correlated c = true)
    (keys : List (Expr V)) (hk : ∀ k ∈ b.keys, k ∈ keys) (ha : grouping = true → ∀ p ∈ c, available keys p.2 = true)
    (hn : grouping = false → keys = []) : Kept grouping (cs ++ [c]) { b with deferred := b.deferred ++ [c], keys := keys } := by
  refine ⟨by simp [h.bound, hc], by simp [h.deferred, hc], fun hg d hd p hp => ?_, hn⟩
  rcases List.mem_append.mp hd with hd | hd
  · exact available_mono hk (h.covered hg d hd p hp)
  · rw [List.mem_singleton] at hd
    subst hd
    exact ha hg p hp

theorem kept_process {grouping : Bool} {cs : List (Clause V)} {b b' : Builder V} (h : Kept grouping cs b) {c : Clause V}
    (hp : process grouping b c = some b') : Kept grouping (cs ++ [c]) b' := by
  unfold process at hp
  split at hp
  · rename_i hg
    obtain rfl := Option.some.inj hp
    cases hc : correlated c with
    | false => simpa using kept_bound h hc
    | true => simpa using kept_deferred h hc b.keys (fun _ hk => hk) (fun hg' => by rw [hg] at hg'; cases hg') h.nokeys
  · rename_i hg
    have hg : grouping = true := by simpa using hg
    have fall : ∀ {x : Builder V}, (if correlated c = false then some { b with bound := b.bound ++ [c] }
        else if c.all (fun p => composable p.2) then some { b with deferred := b.deferred ++ [c] } else none) = some x → Kept grouping (cs ++ [c]) x := by
      intro x hx
      split at hx
      · rename_i hc
        obtain rfl := Option.some.inj hx
        exact kept_bound h hc
      · rename_i hc
        split at hx
        · rename_i hcomp
          obtain rfl := Option.some.inj hx
          refine kept_deferred h (by simpa using hc) b.keys (fun _ hk => hk) (fun _ p hp => ?_) h.nokeys
          exact available_composable _ (List.all_eq_true.mp hcomp p hp)
        · cases hx
    simp only at hp
    split at hp
    · rename_i neg l r
      split at hp
      · rename_i hcor
        exact fall (by rw [if_pos hcor]; exact hp)
      · rename_i hcor
        have hcor : correlated [(neg, Expr.bin 0 l r)] = true := by simpa using hcor
        split at hp
        · exact fall (by rw [if_neg (by rw [hcor]; simp)]; exact hp)
        · rename_i hl
          split at hp
          · exact fall (by rw [if_neg (by rw [hcor]; simp)]; exact hp)
          · rename_i hr
            split at hp
            · cases hp
            · rename_i hne
              obtain rfl := Option.some.inj hp
              have hav : ∀ keys : List (Expr V), available keys (if hasFree l then r else l) = true →
                  ∀ p ∈ ([(neg, Expr.bin 0 l r)] : Clause V), available keys p.2 = true := by
                intro keys hk p hp
                rw [List.mem_singleton] at hp
                subst hp
                cases hfl : hasFree l with
                | true =>
                  simp only [hfl, if_true] at hk
                  have hb : hasBound l = false := by simpa [hfl] using hl
                  simp [available, hk, available_composable keys (composable_unbound hb)]
                | false =>
                  have hfr : hasFree r = true := by rw [hfl] at hne; simpa using hne
                  simp only [hfl, Bool.false_eq_true, if_false] at hk
                  have hb : hasBound r = false := by simpa [hfr] using hr
                  simp [available, hk, available_composable keys (composable_unbound hb)]
              generalize (if hasFree l then r else l) = e at hav ⊢
              split
              · rename_i hce
                refine kept_deferred h hcor b.keys (fun _ hk => hk) (fun _ => hav _ ?_) h.nokeys
                rcases Bool.or_eq_true_iff.mp hce with hce | hce
                · exact available_composable _ hce
                · exact available_key (List.contains_iff_mem.mp hce)
              · exact kept_deferred h hcor (b.keys ++ [e]) (fun _ hk => List.mem_append_left _ hk) (fun _ => hav _ (available_key (by simp)))
                  (fun hf => by rw [hg] at hf; cases hf)
    · exact fall hp

/-- **C67.**  A nested query applies exactly the clauses of its WHERE without variables of enclosing queries, each once and in order; all others
are moved to the enclosing query, and with an aggregate all that they mention is available there: grouping keys and columns of enclosing
queries. -/
theorem C67_clauses (grouping : Bool) (wher : List (Clause V)) (b : Builder V) (h : wher.foldlM (process grouping) ⟨[], [], []⟩ = some b) :
    b.bound = wher.filter (fun c => !correlated c) ∧ b.deferred = wher.filter correlated ∧
    (grouping = true → ∀ c ∈ b.deferred, ∀ p ∈ c, available b.keys p.2 = true) := by
  have key : ∀ (l cs : List (Clause V)) (x : Builder V), Kept grouping cs x → l.foldlM (process grouping) x = some b → Kept grouping (cs ++ l) b := by
    intro l
    induction l with
    | nil =>
      intro cs x hx h
      obtain rfl := Option.some.inj h
      simpa using hx
    | cons c l ih =>
      intro cs x hx h
      rw [List.foldlM_cons] at h
      cases hc : process grouping x c with
      | none => rw [hc] at h; cases h
      | some y =>
        rw [hc] at h
        simpa using ih _ _ (kept_process hx hc) h
  have := key wher [] _ ⟨rfl, rfl, by simp, fun _ => rfl⟩ h
  exact ⟨this.bound, this.deferred, this.covered⟩

omit [DecidableEq V] in
theorem const_eval (I : Ops V) {r r' o o' : Row V} {res res' : Nat → V} :
    ∀ {e : Expr V}, isConst e = true → eval I r o res e = eval I r' o' res' e
  | .col _ _ _, h => by simp [isConst] at h
  | .const _, _ => rfl
  | .un _ e, h => by simp only [eval, const_eval I (r := r) (r' := r') (o := o) (o' := o') (res := res) (res' := res') (e := e) h]
  | .bin _ x y, h => by
    simp only [isConst, Bool.and_eq_true] at h
    simp only [eval, const_eval I (r := r) (r' := r') (o := o) (o' := o') (res := res) (res' := res') (e := x) h.1, const_eval I (r := r) (r' := r') (o := o) (o' := o') (res := res) (res' := res') (e := y) h.2]
  | .call _ e, h => by simp only [eval, const_eval I (r := r) (r' := r') (o := o) (o' := o') (res := res) (res' := res') (e := e) h]
  | .query _, h => by simp [isConst] at h

omit [DecidableEq V] in
theorem nofree_eval (I : Ops V) {r o o' : Row V} {res : Nat → V} : ∀ {e : Expr V}, hasFree e = false → eval I r o res e = eval I r o' res e
  | .col d _ _, h => by
    have hd : d = 0 := by simpa [hasFree] using h
    simp only [eval, hd, if_true]
  | .const _, _ => rfl
  | .un _ e, h => by simp only [eval, nofree_eval I (r := r) (o := o) (o' := o') (res := res) (e := e) h]
  | .bin _ x y, h => by
    simp only [hasFree, Bool.or_eq_false_iff] at h
    simp only [eval, nofree_eval I (r := r) (o := o) (o' := o') (res := res) (e := x) h.1, nofree_eval I (r := r) (o := o) (o' := o') (res := res) (e := y) h.2]
  | .call _ e, h => by simp only [eval, nofree_eval I (r := r) (o := o) (o' := o') (res := res) (e := e) h]
  | .query _, _ => rfl

omit [DecidableEq V] in
/-- **C67.**  What an admitted nested query selects depends on the row of the enclosing query at most through its WHERE, and the value of a scalar
does not depend on any row. -/
theorem C67_accepted_select (I : Ops V) (dflt o o' : Row V) (Q : Nested V) (h : Q.accepted = true)
    (hw : ∀ c ∈ Q.wher, correlated c = false) :
    nestedRows I dflt o Q = nestedRows I dflt o' Q ∧ ∀ e, Q.sel = .scalar e → ∀ v ∈ nestedRows I dflt o Q, v = eval I dflt dflt (fun _ => I.null) e := by
  have hh : ∀ r, holds I r o (fun _ => I.null) Q.wher = holds I r o' (fun _ => I.null) Q.wher := by
    intro r
    unfold holds
    rw [Bool.eq_iff_iff]
    simp only [List.all_eq_true, List.any_eq_true]
    have hp : ∀ c ∈ Q.wher, ∀ p ∈ c, eval I r o (fun _ => I.null) p.2 = eval I r o' (fun _ => I.null) p.2 := by
      intro c hc p hp
      have := hw c hc
      simp only [correlated, List.any_eq_false] at this
      exact nofree_eval I (by simpa using this p hp)
    constructor
    · intro hx c hc
      obtain ⟨p, hm, e⟩ := hx c hc
      exact ⟨p, hm, by rw [← hp c hc p hm]; exact e⟩
    · intro hx c hc
      obtain ⟨p, hm, e⟩ := hx c hc
      exact ⟨p, hm, by rw [hp c hc p hm]; exact e⟩
  unfold Nested.accepted at h
  unfold nestedRows
  simp only [hh]
  cases hs : Q.sel with
  | agg f arg =>
    simp only [hs, Bool.not_eq_true'] at h
    refine ⟨?_, fun e he => by cases he⟩
    simp only [nofree_eval I (o := o) (o' := o') h]
  | scalar e =>
    simp only [hs, Bool.and_eq_true] at h
    refine ⟨List.map_congr_left fun r _ => const_eval I h.1, fun e' he v hv => ?_⟩
    obtain rfl := Sel.scalar.inj he
    obtain ⟨r, _, rfl⟩ := List.mem_map.mp hv
    exact const_eval I h.1

/-! ### Violations -/

omit [DecidableEq V] in
theorem not_found {cols : List (Nat × Nat)} {srcs : List (NSrc V)} (hs : ∀ s ∈ srcs, ColName.res ∉ s.names) :
    ∀ {e : Expr V}, found cols srcs e = true → queries e = []
  | .col _ _ _, _ => rfl
  | .const _, _ => rfl
  | .un _ e, h => not_found hs (e := e) h
  | .bin _ x y, h => by
    simp only [found, Bool.and_eq_true] at h
    simp only [queries, not_found hs (e := x) h.1, not_found hs (e := y) h.2, List.append_nil]
  | .call _ e, h => not_found hs (e := e) h
  | .query q, h => by
    simp only [found, List.any_eq_true, Bool.and_eq_true, List.contains_iff_mem] at h
    obtain ⟨s, hm, _, hr⟩ := h
    exact absurd hr (hs s hm)

theorem build_names {I : Ops V} {dflt : Row V} {name : ColName} {a : Nat} {Q : Nested V} {r : NSrc V × List (Clause V)}
    (h : buildNested I dflt name a Q = some r) (hn : name ≠ .res) : ColName.res ∉ r.1.names := by
  have hm : ∀ n : Nat, ColName.res ∉ name :: (List.range n).map .text := by
    intro n hm
    rcases List.mem_cons.mp hm with hm | hm
    · exact hn hm.symm
    · simp at hm
  unfold buildNested at h
  simp only at h
  split at h
  · cases h
  · split at h
    · obtain rfl := Option.some.inj h
      exact hm _
    · split at h
      · obtain rfl := Option.some.inj h
        exact hm _
      · obtain rfl := Option.some.inj h
        exact hm _

omit [DecidableEq V] in
theorem mapM_mem {α β : Type} {f : α → Option β} : ∀ {l : List α} {out : List β}, l.mapM f = some out → ∀ y ∈ out, ∃ x ∈ l, f x = some y
  | [], out, h, y, hy => by
    simp only [List.mapM_nil] at h
    obtain rfl := Option.some.inj h
    simp at hy
  | x :: xs, out, h, y, hy => by
    rw [List.mapM_cons] at h
    cases hx : f x with
    | none => rw [hx] at h; cases h
    | some b =>
      cases hxs : xs.mapM f with
      | none => rw [hx, hxs] at h; cases h
      | some bs =>
        rw [hx, hxs] at h
        obtain rfl := Option.some.inj h
        rcases List.mem_cons.mp hy with rfl | hy
        · exact ⟨x, by simp, hx⟩
        · obtain ⟨z, hz, e⟩ := mapM_mem hxs y hy
          exact ⟨z, by simp [hz], e⟩

/-- **C67, violated.**  No statement with a nested query in WHERE can be executed: its condition refers to a column `$res`, but only nested queries in
SELECT and HAVING get this name. -/
theorem C67_bug_where_never_works (I : Ops V) (dflt : Row V) (uname : Nat → Nat) (S : Stmt V) (h : cnfQueries S.wher ≠ []) :
    run I dflt uname S = none := by
  unfold run
  split
  · rfl
  · rename_i wsrcs hws
    have hne : wsrcs ≠ [] := by
      rintro rfl
      obtain ⟨q, qs, e⟩ := List.exists_cons_of_ne_nil h
      rw [e] at hws
      unfold addSources at hws
      rw [List.mapM_cons] at hws
      cases hb : buildNested I dflt (.text (uname q)) q (S.nested q) with
      | none => rw [hb] at hws; cases hws
      | some b =>
        cases hm : qs.mapM fun q => buildNested I dflt (.text (uname q)) q (S.nested q) with
        | none => rw [hb, hm] at hws; cases hws
        | some bs => rw [hb, hm] at hws; cases hws
    have hnames : ∀ s ∈ wsrcs.map (·.1), ColName.res ∉ s.names := by
      intro s hs
      obtain ⟨r, hr, rfl⟩ := List.mem_map.mp hs
      obtain ⟨q, _, hq⟩ := mapM_mem hws r hr
      exact build_names hq (by simp)
    simp only
    have hcond : S.conditions wsrcs = S.wher ++ wsrcs.flatMap (·.2) := by
      obtain ⟨x, xs, rfl⟩ := List.exists_cons_of_ne_nil hne
      simp [Stmt.conditions]
    simp only [hcond]
    split
    · rfl
    · rename_i hall
      exfalso
      apply h
      have hall := eq_true_of_ne_false hall
      simp only [List.all_append, Bool.and_eq_true, List.all_eq_true] at hall
      unfold cnfQueries
      rw [List.flatMap_eq_nil_iff]
      intro c hc
      rw [List.flatMap_eq_nil_iff]
      intro p hp
      exact not_found hnames (hall.1 c hc p hp)

/-- **C67, violated.**  No statement with a nested query in HAVING can be executed: the whole condition becomes a filter below the join with
the nested query. -/
theorem C67_bug_having_never_works (I : Ops V) (dflt : Row V) (uname : Nat → Nat) (S : Stmt V) (h : cnfQueries S.having ≠ []) :
    run I dflt uname S = none := by
  unfold run
  split
  · rfl
  · simp only
    split
    · rfl
    · split
      · rfl
      · rename_i hall
        exfalso
        apply h
        have hall := eq_true_of_ne_false hall
        simp only [List.all_eq_true] at hall
        unfold cnfQueries
        rw [List.flatMap_eq_nil_iff]
        intro c hc
        rw [List.flatMap_eq_nil_iff]
        intro p hp
        exact not_found (srcs := []) (by simp) (hall c hc p hp)

/-- **C67, violated.**  No statement with a nested query inside a SELECT item, other than the item itself, can be executed, unless the same nested query
is an item as well. -/
theorem C67_bug_inside_expression_never_works (I : Ops V) (dflt : Row V) (uname : Nat → Nat) (S : Stmt V) (e : Expr V) (he : e ∈ S.items)
    (hq : isQuery e = false) (q : Nat) (hqe : q ∈ queries e) (hnot : Expr.query q ∉ S.items) : run I dflt uname S = none := by
  unfold run
  split
  · rfl
  · simp only
    split
    · rfl
    · split
      · rfl
      · split
        · rfl
        · rename_i ssrcs hss
          split
          · rfl
          · rename_i hall
            exfalso
            have hall := eq_true_of_ne_false hall
            simp only [List.all_append, Bool.and_eq_true, List.all_eq_true] at hall
            have hf := hall.1 e (List.mem_filter.mpr ⟨he, by simp [hq]⟩)
            have key : ∀ {cols : List (Nat × Nat)} {srcs : List (NSrc V)}, (∀ s ∈ srcs, s.alias ≠ q) → ∀ {e : Expr V}, found cols srcs e = true →
                q ∉ queries e := by
              intro cols srcs hs e
              induction e with
              | col _ _ _ => intro _; simp [queries]
              | const _ => intro _; simp [queries]
              | un _ e ih => exact ih
              | call _ e ih => exact ih
              | bin _ x y i1 i2 =>
                intro h
                simp only [found, Bool.and_eq_true] at h
                simp only [queries, List.mem_append, not_or]
                exact ⟨i1 h.1, i2 h.2⟩
              | query q' =>
                intro h
                simp only [found, List.any_eq_true, Bool.and_eq_true, decide_eq_true_eq] at h
                obtain ⟨s, hm, ha, _⟩ := h
                simp only [queries, List.mem_singleton]
                intro hq'
                exact hs s hm (ha.trans hq'.symm)
            refine key (fun s hs => ?_) hf hqe
            obtain ⟨r, hr, rfl⟩ := List.mem_map.mp hs
            obtain ⟨q', hq', hb⟩ := mapM_mem hss r hr
            have ha : r.1.alias = q' := by
              unfold buildNested at hb
              simp only at hb
              split at hb
              · cases hb
              · split at hb
                · obtain rfl := Option.some.inj hb; rfl
                · split at hb
                  · obtain rfl := Option.some.inj hb; rfl
                  · obtain rfl := Option.some.inj hb; rfl
            rw [ha]
            rintro rfl
            obtain ⟨e', he', hqe'⟩ := List.mem_flatMap.mp hq'
            obtain ⟨h1, h2⟩ := List.mem_filter.mp he'
            cases e' <;> simp [isQuery] at h2
            simp only [queries, List.mem_singleton] at hqe'
            subst hqe'
            exact hnot h1

/-- **C67, violated.**  A nested query in SELECT yields the same rows for every row of the enclosing query: conditions with free variables are
forgotten, and an equality with a free variable makes it yield one row per value of its other side. -/
theorem C67_bug_correlation_forgotten (I : Ops V) (dflt : Row V) (name : ColName) (a : Nat) (tables : List Nat) (rows : List (Row V)) (f : Nat) (arg : Expr V)
    (neg : Bool) (t x t' x' : Nat) :
    buildNested I dflt name a ⟨some (tables, rows), [[(neg, .bin 0 (.col 0 t x) (.col 1 t' x'))]], .agg f arg⟩ =
      some (⟨a, [name, .text 0], (rows.map fun r => [r t x]).eraseDups.map fun k =>
          I.agg f ((rows.filter fun r => decide ([r t x] = k)).map fun r => eval I r r (fun _ => I.null) arg) :: k⟩,
        [[(neg, .bin 0 (.col 0 t x) (.col 1 t' x'))]]) := by
  unfold buildNested
  simp only [List.foldlM_cons, List.foldlM_nil]
  have hp : process (V := V) true ⟨[], [], []⟩ [(neg, .bin 0 (.col 0 t x) (.col 1 t' x'))]
      = some ⟨[], [[(neg, .bin 0 (.col 0 t x) (.col 1 t' x'))]], [.col 0 t x]⟩ := by
    simp [process, correlated, hasFree, hasBound, composable]
  simp only [hp, Option.bind_eq_bind, Option.bind_some, pure]
  have hr : rows.filter (fun r => holds I r r (fun _ => I.null) []) = rows := by simp [holds]
  simp only [hr]
  simp [groups, eval]

/-- **C67, violated.**  An equality whose sides both refer to the enclosing query only, in a nested query with an aggregate, fails an assertion. -/
theorem C67_bug_both_sides_free (I : Ops V) (dflt : Row V) (name : ColName) (a : Nat) (from_ : Option (List Nat × List (Row V))) (f : Nat) (arg : Expr V)
    (neg : Bool) (t x t' x' : Nat) (rest : List (Clause V)) :
    buildNested I dflt name a ⟨from_, [(neg, .bin 0 (.col 1 t x) (.col 1 t' x'))] :: rest, .agg f arg⟩ = none := by
  unfold buildNested
  simp only [List.foldlM_cons]
  have hp : process (V := V) true ⟨[], [], []⟩ [(neg, .bin 0 (.col 1 t x) (.col 1 t' x'))] = none := by
    simp [process, correlated, hasFree, hasBound]
  simp only [hp]
  rfl

/-! ### Examples -/

/-- Values: NULL and numbers; function 0 of aggregates is COUNT, function 1 is SUM; operator 0 is `=`; function 0 is ISNULL. -/
def exI : Ops (Option Int) where
  un := fun _ v => v.map (- ·)
  bin := fun op a b => match a, b with
    | some x, some y => some (if op = 0 then (if x = y then 1 else 0) else x + y)
    | _, _ => none
  call := fun _ v => some (if v.isNone then 1 else 0)
  agg := fun f vs => if f = 0 then some vs.length else some ((vs.map (·.getD 0)).sum)
  truth := fun v => v.map (· != 0)
  null := none

/-- Rows of table `t` with one attribute 0. -/
def exRows (t : Nat) (vs : List Int) : List (Row (Option Int)) := vs.map fun v => fun t' _ => if t' = t then some v else none

def exD : Row (Option Int) := fun _ _ => none

/-- `SELECT A.id, (SELECT COUNT(*) FROM B WHERE …), -A.id FROM A WHERE A.id = 2` or without WHERE. -/
def exStmt (as bs : List Int) (wher inner : List (Clause (Option Int))) (items : List (Expr (Option Int))) : Stmt (Option Int) where
  from_ := some ([(1, 0)], exRows 1 as)
  wher := wher
  group := none
  having := []
  items := items
  nested := fun _ => ⟨some ([2], exRows 2 bs), inner, .agg 0 (.const (some 1))⟩

/-- The hypotheses of `C67_select_partial` hold for
`SELECT A.id, (SELECT COUNT(*) FROM B WHERE B.id = 7), -A.id FROM A WHERE A.id = 5`. -/
example : Simple (exStmt [5, 6] [7, 8, 7] [[(false, .bin 0 (.col 0 1 0) (.const (some 5)))]] [[(false, .bin 0 (.col 0 2 0) (.const (some 7)))]]
    [.col 0 1 0, .query 9, .un 0 (.col 0 1 0)]) where
  wher := by decide
  having := by intro c hc; simp [exStmt] at hc
  items := by
    intro e he
    simp only [exStmt, List.mem_cons, List.not_mem_nil, or_false] at he
    rcases he with rfl | rfl | rfl
    · right; decide
    · left; exact ⟨9, rfl, ⟨by decide, by decide, rfl, rfl⟩, rfl⟩
    · right; decide
  nofrom := by intro h; simp [exStmt] at h

/-- Its result, and what SQL prescribes: the columns are in a different order. -/
theorem C67_bug_column_order :
    sql exI exD (exStmt [5, 6] [7, 8, 7] [[(false, .bin 0 (.col 0 1 0) (.const (some 5)))]] [[(false, .bin 0 (.col 0 2 0) (.const (some 7)))]]
      [.col 0 1 0, .query 9, .un 0 (.col 0 1 0)]) = some [[some 5, some 2, some (-5)]] ∧
    run exI exD id (exStmt [5, 6] [7, 8, 7] [[(false, .bin 0 (.col 0 1 0) (.const (some 5)))]] [[(false, .bin 0 (.col 0 2 0) (.const (some 7)))]]
      [.col 0 1 0, .query 9, .un 0 (.col 0 1 0)]) = some [[some 5, some (-5), some 2]] := by
  decide +kernel

/-- **C67, violated.**  `SELECT A.id, (SELECT COUNT(*) FROM B WHERE B.id = A.id) FROM A` for A = 1, 2 and B = 1, 1, 3: SQL prescribes
(1, 2), (2, 0). -/
theorem C67_bug_correlated_select :
    sql exI exD (exStmt [1, 2] [1, 1, 3] [] [[(false, .bin 0 (.col 0 2 0) (.col 1 1 0))]] [.col 0 1 0, .query 9]) =
      some [[some 1, some 2], [some 2, some 0]] ∧
    run exI exD id (exStmt [1, 2] [1, 1, 3] [] [[(false, .bin 0 (.col 0 2 0) (.col 1 1 0))]] [.col 0 1 0, .query 9]) =
      some [[some 1, some 2], [some 1, some 1], [some 2, some 2], [some 2, some 1]] := by
  decide +kernel

/-- `SELECT A.id, (SELECT ISNULL(1) FROM B) FROM A`. -/
def exSeveral (bs : List Int) : Stmt (Option Int) :=
  { exStmt [1] [] [] [] [.col 0 1 0, .query 9] with nested := fun _ => ⟨some ([2], exRows 2 bs), [], .scalar (.call 0 (.const (some 1)))⟩ }

/-- **C67, violated.**  The semantic analysis admits a nested query with a constant function application and FROM; with two rows in B the row of A
is delivered twice (SQL: an error), with none not at all (SQL: once, with NULL). -/
theorem C67_bug_several_rows :
    (∀ bs, ((exSeveral bs).nested 9).accepted = true) ∧
    sql exI exD (exSeveral [7, 8]) = none ∧ run exI exD id (exSeveral [7, 8]) = some [[some 1, some 0], [some 1, some 0]] ∧
    sql exI exD (exSeveral []) = some [[some 1, none]] ∧ run exI exD id (exSeveral []) = some [] := by
  refine ⟨fun _ => rfl, ?_, ?_, ?_, ?_⟩ <;> decide +kernel

/-- `WHERE B.id = A.id AND B.id > 3` with an aggregate: the hypothesis of `C67_clauses`. -/
example : ([[(false, .bin 0 (.col 0 2 0) (.col 1 1 0))], [(false, .bin 1 (.col 0 2 0) (.const (some 3)))]] : List (Clause (Option Int))).foldlM
    (process true) ⟨[], [], []⟩ = some ⟨[[(false, .bin 1 (.col 0 2 0) (.const (some 3)))]], [[(false, .bin 0 (.col 0 2 0) (.col 1 1 0))]], [.col 0 2 0]⟩ :=
  rfl

/-- `(SELECT COUNT(1) FROM B WHERE B.id > 3)`: the hypotheses of `C67_accepted_select`. -/
example : let Q : Nested (Option Int) := ⟨some ([2], exRows 2 [7, 8]), [[(false, .bin 1 (.col 0 2 0) (.const (some 3)))]], .agg 0 (.const (some 1))⟩
    Q.accepted = true ∧ ∀ c ∈ Q.wher, correlated c = false := by decide

/-- `SELECT A.id FROM A WHERE A.id = (SELECT COUNT(*) FROM B)` and what SQL prescribes. -/
example : sql exI exD (exStmt [1, 2] [7, 8] [[(false, .bin 0 (.col 0 1 0) (.query 9))]] [] [.col 0 1 0]) = some [[some 2]] ∧
    cnfQueries (exStmt [1, 2] [7, 8] [[(false, .bin 0 (.col 0 1 0) (.query 9))]] [] [.col 0 1 0]).wher ≠ [] := by decide +kernel

/-- `SELECT 1 + (SELECT COUNT(*) FROM B) FROM A`. -/
example : sql exI exD (exStmt [1, 2] [7, 8] [] [] [.bin 1 (.const (some 1)) (.query 9)]) = some [[some 3], [some 3]] := by decide +kernel

end Mutable.NestedQ
