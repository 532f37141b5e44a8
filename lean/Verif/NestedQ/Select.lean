import Verif.NestedQ.Spec
import Mathlib.Tactic.Common
/-
Statements with nested queries without free variables in SELECT.
-/
namespace Mutable.NestedQ
variable {V : Type}

theorem eval_bound {I : Ops V} {r : Row V} : ∀ {e : Expr V}, hasFree e = false → plain e = true → ∀ o o' res res',
    eval I r o res e = eval I r o' res' e
  | .col 0 _ _, _, _, _, _, _, _ => rfl
  | .col (_ + 1) _ _, h, _, _, _, _, _ => by simp [hasFree] at h
  | .const _, _, _, _, _, _, _ => rfl
  | .un _ e, h, hp, o, o', res, res' => by
    simp only [eval]
    rw [eval_bound (e := e) h hp o o' res res']
  | .bin _ x y, h, hp, o, o', res, res' => by
    simp only [hasFree, Bool.or_eq_false_iff] at h
    simp only [plain, queries, List.isEmpty_iff, List.append_eq_nil_iff] at hp
    simp only [eval]
    rw [eval_bound (e := x) h.1 (by simp [plain, hp.1]) o o' res res', eval_bound (e := y) h.2 (by simp [plain, hp.2]) o o' res res']
  | .call _ e, h, hp, o, o', res, res' => by
    simp only [eval]
    rw [eval_bound (e := e) h hp o o' res res']
  | .query _, _, hp, _, _, _, _ => by simp [plain, queries] at hp

theorem eval_const {I : Ops V} : ∀ {e : Expr V}, isConst e = true → ∀ r r' o o' res res', eval I r o res e = eval I r' o' res' e
  | .const _, _, _, _, _, _, _, _ => rfl
  | .un _ e, h, r, r', o, o', res, res' => by
    simp only [eval]
    rw [eval_const (e := e) h r r' o o' res res']
  | .bin _ x y, h, r, r', o, o', res, res' => by
    simp only [isConst, Bool.and_eq_true] at h
    simp only [eval]
    rw [eval_const (e := x) h.1 r r' o o' res res', eval_const (e := y) h.2 r r' o o' res res']
  | .call _ e, h, r, r', o, o', res, res' => by
    simp only [eval]
    rw [eval_const (e := e) h r r' o o' res res']

theorem holds_bound {I : Ops V} {r : Row V} {cnf : List (Clause V)} (h : ∀ c ∈ cnf, correlated c = false) (hp : ∀ c ∈ cnf, ∀ p ∈ c, plain p.2 = true)
    (o o' : Row V) (res res' : Nat → V) : holds I r o res cnf = holds I r o' res' cnf := by
  rw [Bool.eq_iff_iff]
  simp only [holds, List.all_eq_true, List.any_eq_true]
  have key : ∀ c ∈ cnf, ∀ p ∈ c, eval I r o res p.2 = eval I r o' res' p.2 := by
    intro c hc p hpc
    have := h c hc
    simp only [correlated, List.any_eq_false, Bool.not_eq_true] at this
    exact eval_bound (this p hpc) (hp c hc p hpc) _ _ _ _
  constructor
  · intro H c hc
    obtain ⟨p, hp, he⟩ := H c hc
    exact ⟨p, hp, by rw [← key c hc p hp]; exact he⟩
  · intro H c hc
    obtain ⟨p, hp, he⟩ := H c hc
    exact ⟨p, hp, by rw [key c hc p hp]; exact he⟩

variable [DecidableEq V]

theorem process_uncorrelated {g : Bool} {b : Builder V} {c : Clause V} (h : correlated c = false) :
    process g b c = some { b with bound := b.bound ++ [c] } := by
  unfold process
  simp only [h]
  split
  · simp
  · split
    · simp
    · simp

theorem fold_uncorrelated {g : Bool} : ∀ (cs : List (Clause V)) (b : Builder V), (∀ c ∈ cs, correlated c = false) →
    cs.foldlM (process g) b = some { b with bound := b.bound ++ cs }
  | [], b, _ => by simp
  | c :: cs, b, h => by
    rw [List.foldlM_cons, process_uncorrelated (h c (by simp))]
    simp only [Option.bind_eq_bind, Option.bind_some]
    rw [fold_uncorrelated cs _ (fun c hc => h c (by simp [hc]))]
    simp

/-- The single value of a simple nested query. -/
def theValue (I : Ops V) (dflt : Row V) (Q : Nested V) : V := (nestedRows I dflt dflt Q).headD I.null

theorem simple_rows {I : Ops V} {dflt : Row V} {Q : Nested V} (h : Q.simple) (hp : match Q.sel with | .agg _ arg => plain arg = true | .scalar _ => True)
    (o : Row V) : nestedRows I dflt o Q = [theValue I dflt Q] := by
  obtain ⟨h1, h2, h3⟩ := h
  unfold theValue nestedRows
  have hf : ∀ rs : List (Row V), (rs.filter fun r => holds I r o (fun _ => I.null) Q.wher) = rs.filter fun r => holds I r dflt (fun _ => I.null) Q.wher :=
    fun rs => List.filter_congr (fun r _ => holds_bound h1 h2 _ _ _ _)
  rw [hf]
  cases hs : Q.sel with
  | agg f arg =>
    rw [hs] at h3 hp
    simp only [List.headD_cons, List.cons.injEq, and_true]
    congr 1
    exact List.map_congr_left (fun r _ => eval_bound h3.2 hp _ _ _ _)
  | scalar e =>
    rw [hs] at h3
    simp only [h3.1, h3.2.1, holds, List.all_nil, List.filter_cons, if_true, List.filter_nil, List.map_cons, List.map_nil, List.headD_cons,
      List.cons.injEq, and_true]
    exact eval_const h3.2.2 _ _ _ _ _ _

theorem build_simple {I : Ops V} {dflt : Row V} {Q : Nested V} (h : Q.simple) (hp : match Q.sel with | .agg _ arg => plain arg = true | .scalar _ => True)
    (name : ColName) (a : Nat) : buildNested I dflt name a Q = some (⟨a, [name], [[theValue I dflt Q]]⟩, []) := by
  obtain ⟨h1, h2, h3⟩ := h
  unfold buildNested
  simp only [fold_uncorrelated _ _ h1, List.nil_append]
  unfold theValue nestedRows
  cases hs : Q.sel with
  | agg f arg =>
    rw [hs] at h3 hp
    simp only [List.length_nil, List.range_zero, List.map_nil, if_true]
    obtain ⟨h4, h5⟩ := h3
    cases hfr : Q.from_ with
    | none => rw [hfr] at h4; cases h4
    | some fr =>
      have hf : (fr.2.filter fun r => holds I r r (fun _ => I.null) Q.wher) = fr.2.filter fun r => holds I r dflt (fun _ => I.null) Q.wher :=
        List.filter_congr (fun r _ => holds_bound h1 h2 _ _ _ _)
      have he : ∀ rs : List (Row V), rs.map (fun r => eval I r r (fun _ => I.null) arg) = rs.map (fun r => eval I r dflt (fun _ => I.null) arg) :=
        fun rs => List.map_congr_left (fun r _ => eval_bound h5 hp _ _ _ _)
      simp only [hf, he]
      rfl
  | scalar e =>
    rw [hs] at h3
    simp only [h3.1, h3.2.1, List.map_nil, List.length_nil, List.range_zero, List.map_cons, holds, List.all_nil, List.filter_cons, if_true, List.filter_nil,
      List.headD_cons]

/-- A nested query as the theorem admits it. -/
def Nested.Ok (Q : Nested V) : Prop := Q.simple ∧ match Q.sel with | .agg _ arg => plain arg = true | .scalar _ => True

/-- The data source for a simple nested query. -/
def simpleSrc (I : Ops V) (dflt : Row V) (S : Stmt V) (q : Nat) : NSrc V := ⟨q, [.res], [[theValue I dflt (S.nested q)]]⟩

theorem addSources_simple {I : Ops V} {dflt : Row V} {S : Stmt V} : ∀ (qs : List Nat), (∀ q ∈ qs, (S.nested q).Ok) →
    addSources I dflt (fun _ => .res) S qs = some (qs.map fun q => (simpleSrc I dflt S q, []))
  | [], _ => rfl
  | q :: qs, h => by
    have ih := addSources_simple (I := I) (dflt := dflt) qs (fun q hq => h q (by simp [hq]))
    unfold addSources at ih ⊢
    rw [List.mapM_cons, build_simple (h q (by simp)).1 (h q (by simp)).2, ih]
    rfl

theorem combos_simple {I : Ops V} {dflt : Row V} {S : Stmt V} : ∀ (qs : List Nat),
    combos (qs.map (simpleSrc I dflt S)) = [qs.map fun q => (simpleSrc I dflt S q, [theValue I dflt (S.nested q)])]
  | [] => rfl
  | q :: qs => by
    rw [List.map_cons, combos, combos_simple qs]
    simp [simpleSrc]

theorem resOf_simple {I : Ops V} {dflt : Row V} {S : Stmt V} : ∀ (qs : List Nat) (q : Nat), q ∈ qs →
    resOf I.null (qs.map fun q => (simpleSrc I dflt S q, [theValue I dflt (S.nested q)])) q = theValue I dflt (S.nested q)
  | [], q, h => by simp at h
  | x :: qs, q, h => by
    by_cases hx : x = q
    · subst hx
      simp [resOf, simpleSrc]
    · have hq : q ∈ qs := by
        rcases List.mem_cons.mp h with h | h
        · exact absurd h.symm hx
        · exact h
      have ih := resOf_simple (I := I) (dflt := dflt) (S := S) qs q hq
      unfold resOf at ih ⊢
      rw [List.map_cons, List.find?_cons]
      have : decide ((simpleSrc I dflt S x).alias = q) = false := by simp [simpleSrc, hx]
      simp only [this]
      exact ih

/-! ### SQL side -/

omit [DecidableEq V] in
theorem sqlEval_plain {I : Ops V} {dflt : Row V} {S : Stmt V} {r : Row V} (res : Nat → V) : ∀ {e : Expr V}, plain e = true →
    sqlEval I dflt S r e = some (eval I r r res e)
  | .col 0 _ _, _ => rfl
  | .col (_ + 1) _ _, _ => rfl
  | .const _, _ => rfl
  | .un _ e, h => by
    have ih := sqlEval_plain (dflt := dflt) (S := S) (r := r) (I := I) res (e := e) h
    simp only [sqlEval, ih, eval, Option.map_some]
  | .bin _ x y, h => by
    simp only [plain, queries, List.isEmpty_iff, List.append_eq_nil_iff] at h
    have i1 := sqlEval_plain (dflt := dflt) (S := S) (r := r) (I := I) res (e := x) (by simp [plain, h.1])
    have i2 := sqlEval_plain (dflt := dflt) (S := S) (r := r) (I := I) res (e := y) (by simp [plain, h.2])
    simp only [sqlEval, i1, i2, eval]
  | .call _ e, h => by
    have ih := sqlEval_plain (dflt := dflt) (S := S) (r := r) (I := I) res (e := e) h
    simp only [sqlEval, ih, eval, Option.map_some]
  | .query _, h => by simp [plain, queries] at h

omit [DecidableEq V] in
theorem mapM_some {α β : Type} {f : α → Option β} {g : α → β} : ∀ (l : List α), (∀ x ∈ l, f x = some (g x)) → l.mapM f = some (l.map g)
  | [], _ => rfl
  | x :: xs, h => by
    rw [List.mapM_cons, h x (by simp), mapM_some xs (fun y hy => h y (by simp [hy]))]
    rfl

omit [DecidableEq V] in
theorem sqlHolds_plain {I : Ops V} {dflt : Row V} {S : Stmt V} {r : Row V} (res : Nat → V) {cnf : List (Clause V)}
    (h : ∀ c ∈ cnf, ∀ p ∈ c, plain p.2 = true) : sqlHolds I dflt S r cnf = some (holds I r r res cnf) := by
  unfold sqlHolds
  rw [mapM_some (g := fun c => c.any fun p => decide (I.truth (eval I r r res p.2) = some (!p.1))) cnf]
  · simp [holds, List.all_map, Function.comp_def]
  · intro c hc
    rw [mapM_some (g := fun p => decide (I.truth (eval I r r res p.2) = some (!p.1))) c]
    · simp [List.any_map, Function.comp_def]
    · intro p hp
      unfold sqlPred
      rw [sqlEval_plain res (h c hc p hp)]
      rfl

omit [DecidableEq V] in
theorem sqlFilter_plain {I : Ops V} {dflt : Row V} {S : Stmt V} {cnf : List (Clause V)} (h : ∀ c ∈ cnf, ∀ p ∈ c, plain p.2 = true) (res : Nat → V) :
    ∀ (rows : List (Row V)), sqlFilter I dflt S cnf rows = some (rows.filter fun r => holds I r r res cnf)
  | [] => rfl
  | r :: rs => by
    rw [sqlFilter, sqlHolds_plain res h, sqlFilter_plain h res rs]
    simp only [List.filter_cons]

omit [DecidableEq V] in
theorem found_plain {cols : List (Nat × Nat)} (srcs : List (NSrc V)) : ∀ {e : Expr V}, plain e = true → found cols srcs e = found cols [] e
  | .col _ _ _, _ => rfl
  | .const _, _ => rfl
  | .un _ e, h => found_plain srcs (e := e) h
  | .bin _ x y, h => by
    simp only [plain, queries, List.isEmpty_iff, List.append_eq_nil_iff] at h
    simp only [found]
    rw [found_plain srcs (e := x) (by simp [plain, h.1]), found_plain srcs (e := y) (by simp [plain, h.2])]
  | .call _ e, h => found_plain srcs (e := e) h
  | .query _, h => by simp [plain, queries] at h

omit [DecidableEq V] in
theorem reorder_map {f : Expr V → V} (items : List (Expr V)) :
    reorder items (items.map f) = (items.filter (fun e => !isQuery e) ++ items.filter isQuery).map f := by
  have key : ∀ (p : Expr V → Bool) (l : List (Expr V)), ((l.zip (l.map f)).filter fun x => p x.1).map (·.2) = (l.filter p).map f := by
    intro p l
    induction l with
    | nil => rfl
    | cons x xs ih =>
      simp only [List.map_cons, List.zip_cons_cons, List.filter_cons]
      split
      · simp only [List.map_cons, ih]
      · exact ih
  unfold reorder
  rw [List.map_append, List.map_append, key (fun e => !isQuery e), key isQuery]

omit [DecidableEq V] in
theorem plain_cnf {cnf : List (Clause V)} (h : ∀ c ∈ cnf, ∀ p ∈ c, plain p.2 = true) : cnfQueries cnf = [] := by
  unfold cnfQueries
  rw [List.flatMap_eq_nil_iff]
  intro c hc
  rw [List.flatMap_eq_nil_iff]
  intro p hp
  have := h c hc p hp
  simpa [plain] using this

end Mutable.NestedQ
