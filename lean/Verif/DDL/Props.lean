import Verif.DDL.Hist
/-
C68: data definition statements do to databases, tables, constraints and indexes what they say.
-/
namespace Mutable.DDL

/-- The specification determines effect and reply. -/
theorem spec_functional {s s1 s2 : SCat} {st : Stmt} {b1 b2 : Bool} (h1 : Spec s st s1 b1) (h2 : Spec s st s2 b2) : s1 = s2 ∧ b1 = b2 := by
  cases h1 <;> cases h2 <;> simp_all
  all_goals grind

theorem specs_functional {s : SCat} {sts : List Stmt} : ∀ {s1 s2 b1 b2}, Specs s sts s1 b1 → Specs s sts s2 b2 → s1 = s2 ∧ b1 = b2 := by
  induction sts generalizing s with
  | nil => intro s1 s2 b1 b2 h1 h2; cases h1; cases h2; exact ⟨rfl, rfl⟩
  | cons st sts ih =>
    intro s1 s2 b1 b2 h1 h2
    cases h1 with
    | cons p q => cases h2 with
      | cons p' q' =>
        obtain ⟨rfl, rfl⟩ := spec_functional p p'
        obtain ⟨rfl, rfl⟩ := ih q q'
        exact ⟨rfl, rfl⟩

/-- Every history of statements that the code can cope with, from the empty catalogue: it does not crash; databases, tables and indexes are the finite
maps that the statements declare; a statement is rejected exactly if the specification says so; and the schema of every table of the database in use
has exactly the declared attributes and constraints. -/
theorem C68_history_partial (rmi : Nat → Bool) (sts : List Stmt) (hf : FineRun rmi SCat.init sts) :
    ∃ c es s, run rmi Cat.init sts = some (c, es) ∧ Specs SCat.init sts s (es.map fun e => decide (e = 0)) ∧
      (s.inUse = none → ∀ n, c.schema n = none) ∧
      ∀ d D, s.inUse = some d → s.dbs d = some D → ∀ n, c.schema n = (D.tables n).map D.entries := by
  obtain ⟨c, es, h1, h2, h3, h4⟩ := good_run (rmi := rmi) sts Cat.init init_ok (by intro D hD; simp [Cat.init] at hD) hf
  refine ⟨c, es, absCat c, h1, h4, ?_, fun d D hd hD n => cat_schema h2 h3 hd hD n⟩
  intro hn n
  cases hc : c.inUse with
  | none => simp [Cat.schema, hc]
  | some a =>
    obtain ⟨E, _, _, h5, _⟩ := inUse_some h2 hc
    rw [h5] at hn
    cases hn

/-- A rejected statement has no effect: later statements get the same replies as if it had not been given, and all tables have the same schemas. -/
theorem C68_rejected_partial (rmi : Nat → Bool) (pre : List Stmt) (st : Stmt) (post : List Stmt) (hf : FineRun rmi SCat.init (pre ++ st :: post))
    (hf' : FineRun rmi SCat.init (pre ++ post)) :
    ∃ c es c1 e1 c2 e2 c3 e3, run rmi Cat.init pre = some (c, es) ∧ step rmi c st = some (c1, e1) ∧
      run rmi c1 post = some (c2, e2) ∧ run rmi c post = some (c3, e3) ∧
      (e1 ≠ 0 → (∀ n, c2.schema n = c3.schema n) ∧ e2.map (fun e => decide (e = 0)) = e3.map (fun e => decide (e = 0))) := by
  have hpre : FineRun rmi SCat.init pre := by
    intro p x q s' bs hx hs
    exact hf p x (q ++ st :: post) s' bs (by rw [hx]; simp) hs
  obtain ⟨c, es, h1, h2, h3, h4⟩ := good_run (rmi := rmi) pre Cat.init init_ok (by intro D hD; simp [Cat.init] at hD) hpre
  have hfst : Fine rmi (absCat c) st := hf pre st post _ _ rfl h4
  obtain ⟨c1, e1, k1, k2, k3⟩ := good_step h2 h3 hfst
  have hn1 := step_nodangle h2 h3 hfst k1
  have hcat : ∀ {s ss s' bs s'' bs'}, Specs s ss s' bs → ∀ {ts}, Specs s' ts s'' bs' → Specs s (ss ++ ts) s'' (bs ++ bs') := by
    intro s ss s' bs s'' bs' h
    induction h with
    | nil => intro ts h; exact h
    | cons p _ ih => intro ts h; exact .cons p (ih h)
  have hf1 : FineRun rmi (absCat c1) post := by
    intro p x q s' bs hx hs
    refine hf (pre ++ st :: p) x q s' _ (by rw [hx]; simp) (hcat h4 (.cons k3 hs))
  have hf3 : FineRun rmi (absCat c) post := by
    intro p x q s' bs hx hs
    refine hf' (pre ++ p) x q s' _ (by rw [hx]; simp) (hcat h4 hs)
  obtain ⟨c2, e2, a1, a2, a3, a4⟩ := good_run post c1 k2 hn1 hf1
  obtain ⟨c3, e3, b1, b2, b3, b4⟩ := good_run post c h2 h3 hf3
  refine ⟨c, es, c1, e1, c2, e2, c3, e3, h1, k1, a1, b1, ?_⟩
  intro he
  have hfalse : decide (e1 = 0) = false := by simpa using he
  rw [hfalse] at k3
  rw [spec_reject k3] at a4
  obtain ⟨g1, g2⟩ := specs_functional a4 b4
  refine ⟨fun n => ?_, g2⟩
  cases hc : c2.inUse with
  | none =>
    have : (absCat c2).inUse = none := by simp [absCat, hc]
    rw [g1] at this
    have h3n : c3.inUse = none := by
      cases hc3 : c3.inUse with
      | none => rfl
      | some a =>
        obtain ⟨E, _, _, h5, _⟩ := inUse_some b2 hc3
        rw [h5] at this
        cases this
    simp [Cat.schema, hc, h3n]
  | some a =>
    obtain ⟨E, _, _, h5, h6, _⟩ := inUse_some a2 hc
    rw [cat_schema a2 a3 h5 h6, cat_schema b2 b3 (by rw [← g1]; exact h5) (by rw [← g1]; exact h6)]

/-! ### Instances -/

/-- A history with constraints, references, indexes, rejections and drops. -/
def demo : List Stmt :=
  [.createTable 1 [], .createDatabase 7, .createDatabase 7, .useDatabase 7, .dropDatabase 7 true,
   .createTable 1 [⟨10, 0, [.primaryKey]⟩, ⟨11, 1, [.unique, .notNull, .check 0]⟩],
   .createTable 2 [⟨20, 0, [.references 1 10]⟩, ⟨21, 1, []⟩],
   .createTable 3 [⟨30, 1, [.references 1 10]⟩],
   .createIndex false (some 5) false 1 .rmi [.attr 10], .createIndex false (some 5) true 1 .array [.attr 11],
   .dropIndex [5] false, .dropTable [2, 1] false, .dropTable [9] true]

example : (run (fun _ => true) Cat.init demo).map (·.2) = some [1, 0, 1, 0, 1, 0, 0, 1, 0, 0, 0, 0, 0] := by decide +kernel

/-- `FineRun` is decided along the run of the specification: here for a short history. -/
example : FineRun (fun _ => true) SCat.init [.createDatabase 7, .useDatabase 7, .createTable 1 [⟨10, 0, [.unique]⟩], .dropTable [1] false] := by
  intro pre st post s' bs h hs
  match pre, h with
  | [], h => cases h; trivial
  | [_], h => cases h; trivial
  | [_, _], h => cases h; trivial
  | [_, _, _], h =>
    cases h
    refine ⟨by simp, ?_⟩
    cases hs with | cons p1 hs => cases hs with | cons p2 hs => cases hs with | cons p3 hs =>
    cases hs
    obtain ⟨rfl, -⟩ := spec_functional p1 (.createDatabase rfl)
    obtain ⟨rfl, -⟩ := spec_functional p2 (.useDatabase (by simp [upd, SCat.init]))
    obtain ⟨rfl, -⟩ := spec_functional p3 (.createTable (d := 7) (D := ⟨fun _ => none, fun _ => none⟩) rfl (by simp [upd]) (by
      refine ⟨rfl, by simp, by decide, ?_⟩
      intro d hd
      obtain rfl := List.mem_singleton.mp hd
      simp [refsOf]))
    intro d D hd hD n T hT hn x hx r hr
    simp only [Option.some.injEq] at hd
    subst hd
    simp only [upd, if_true, Option.some.injEq] at hD
    subst hD
    simp only [upd] at hT
    simp only [List.mem_singleton] at hn
    rw [if_neg hn] at hT
    cases hT
  | _ :: _ :: _ :: _ :: _ :: _, h => simp at h
  | [_, _, _, _], h => simp at h

/-- Histories that neither drop tables or indexes nor create indexes are fine. -/
theorem fine_simple {rmi : Nat → Bool} {s : SCat} {sts : List Stmt}
    (h : ∀ st ∈ sts, match st with | .dropTable _ _ | .dropIndex _ _ | .createIndex _ _ _ _ _ _ => False | _ => True) : FineRun rmi s sts := by
  intro pre st post s' bs hx _
  have := h st (by rw [hx]; simp)
  cases st <;> first | trivial | exact absurd this id

example : FineRun (fun _ => true) SCat.init ([.createDatabase 7] ++ .createDatabase 7 :: [.useDatabase 7, .createTable 1 [⟨10, 0, [.unique]⟩]]) ∧
    FineRun (fun _ => true) SCat.init ([.createDatabase 7] ++ [.useDatabase 7, .createTable 1 [⟨10, 0, [.unique]⟩]]) :=
  ⟨fine_simple (by intro st hst; simp at hst; rcases hst with rfl | rfl | rfl | rfl <;> trivial),
   fine_simple (by intro st hst; simp at hst; rcases hst with rfl | rfl | rfl <;> trivial)⟩

/-- Constraints are shown in the schema. -/
example : ((run (fun _ => true) Cat.init (demo.take 7)).bind fun r => r.1.schema 2) =
    some [⟨20, 0, false, false, true⟩, ⟨21, 1, false, false, false⟩] := by decide +kernel

/-! ### What goes wrong -/

/-- `CREATE TABLE a(id UNIQUE); CREATE TABLE b(x REFERENCES a(id)); DROP TABLE a`: all accepted, and any use of `b` then follows a dangling pointer. -/
theorem C68_bug_drop_referenced : ∃ c, run (fun _ => true) Cat.init [.createDatabase 7, .useDatabase 7, .createTable 1 [⟨10, 0, [.unique]⟩],
      .createTable 2 [⟨20, 0, [.references 1 10]⟩], .dropTable [1] false] = some (c, [0, 0, 0, 0, 0]) ∧
    c.schema 2 = none ∧ step (fun _ => true) c (.createIndex false (some 5) false 2 .array [.attr 20]) = none := by
  refine ⟨_, rfl, ?_, ?_⟩ <;> decide +kernel

/-- A statement that drops a table or an index twice reports an error, and has an effect. -/
theorem C68_bug_drop_twice : ∃ c c' c'', run (fun _ => true) Cat.init [.createDatabase 7, .useDatabase 7, .createTable 1 [⟨10, 0, []⟩],
      .createIndex false (some 5) false 1 .array [.attr 10]] = some (c, [0, 0, 0, 0]) ∧
    step (fun _ => true) c (.dropIndex [5, 5] false) = some (c', 1) ∧ c' ≠ c ∧
    step (fun _ => true) c (.dropTable [1, 1] true) = some (c'', 1) ∧ c''.schema 1 = none ∧ c.schema 1 ≠ none := by
  refine ⟨_, _, _, rfl, rfl, ?_, rfl, ?_, ?_⟩ <;> decide +kernel

/-- An index by method `rmi` on an attribute whose type has none: there is neither a command nor an error. -/
theorem C68_bug_rmi (rmi : Nat → Bool) (ty : Nat) (h : rmi ty = false) :
    run rmi Cat.init [.createDatabase 7, .useDatabase 7, .createTable 1 [⟨10, ty, []⟩], .createIndex false (some 5) false 1 .rmi [.attr 10]] = none := by
  have : run rmi Cat.init [.createDatabase 7, .useDatabase 7, .createTable 1 [⟨10, ty, []⟩]] =
      some (⟨2, [⟨0, 7, [⟨1, 1, [⟨10, ty, false, false, none⟩], []⟩], []⟩], some 0⟩, [0, 0, 0]) := rfl
  have hs : step rmi ⟨2, [⟨0, 7, [⟨1, 1, [⟨10, ty, false, false, none⟩], []⟩], []⟩], some 0⟩ (.createIndex false (some 5) false 1 .rmi [.attr 10]) =
      none := by
    have : step rmi ⟨2, [⟨0, 7, [⟨1, 1, [⟨10, ty, false, false, none⟩], []⟩], []⟩], some 0⟩ (.createIndex false (some 5) false 1 .rmi [.attr 10]) =
      (if Method.rmi = Method.rmi ∧ rmi ty = false then none else
        some ((⟨2, [⟨0, 7, [⟨1, 1, [⟨10, ty, false, false, none⟩], []⟩], []⟩], some 0⟩ : Cat).set 0
          ⟨0, 7, [⟨1, 1, [⟨10, ty, false, false, none⟩], []⟩], [⟨5, 1, 0, .rmi⟩]⟩, 0)) := rfl
    rw [this, if_pos ⟨rfl, h⟩]
  have happ : ∀ (a b : List Stmt) (c c' : Cat) (es : List Nat), run rmi c a = some (c', es) → run rmi c (a ++ b) = (run rmi c' b).map fun r => (r.1, es ++ r.2) := by
    intro a b
    induction a with
    | nil =>
      intro c c' es hr
      simp only [run, Option.some.injEq, Prod.mk.injEq] at hr
      obtain ⟨rfl, rfl⟩ := hr
      simp
    | cons x a ih =>
      intro c c' es hr
      simp only [run, List.cons_append] at hr ⊢
      cases hx : step rmi c x with
      | none => simp [hx] at hr
      | some q =>
        rw [hx] at hr
        simp only at hr ⊢
        obtain ⟨r, h1, h2⟩ := Option.map_eq_some_iff.mp hr
        simp only [Prod.mk.injEq] at h2
        obtain ⟨rfl, rfl⟩ := h2
        rw [ih q.1 r.1 r.2 h1, Option.map_map]
        rfl
  have := happ _ [.createIndex false (some 5) false 1 .rmi [.attr 10]] _ _ _ this
  simp only [List.cons_append, List.nil_append] at this
  rw [this]
  simp only [run, hs]
  rfl

/-- CHECK constraints are forgotten: the catalogue is as if they had not been written. -/
theorem C68_bug_check (rmi : Nat → Bool) (c : Cat) (n : Nat) (attrs : List AttrDef)
    (h : ∀ d ∈ attrs, ∀ e, .check e ∈ d.cons → e = 0) :
    step rmi c (.createTable n attrs) =
      step rmi c (.createTable n (attrs.map fun d => { d with cons := d.cons.filter fun k => !decide (k = .check 0) })) := by
  have hcon : ∀ (D : Db) (name ty : Nat) (cons : List Con) (s : Build × Bool), (∀ e, .check e ∈ cons → e = 0) →
      cons.foldl (addCon D name ty) s = (cons.filter fun k => !decide (k = .check 0)).foldl (addCon D name ty) s := by
    intro D name ty cons
    induction cons with
    | nil => intro s _; rfl
    | cons k cons ih =>
      intro s hk
      rw [List.filter_cons, List.foldl_cons]
      have ih' := fun s => ih s (fun e he => hk e (by simp [he]))
      by_cases hc : k = .check 0
      · subst hc
        have : addCon D name ty s (.check 0) = s := rfl
        rw [this]
        simpa using ih' s
      · simp only [hc, decide_false, Bool.not_false, if_true, List.foldl_cons]
        exact ih' _
  have hattr : ∀ (D : Db) (attrs : List AttrDef) (b : Build), (∀ d ∈ attrs, ∀ e, .check e ∈ d.cons → e = 0) →
      attrs.foldl (addAttr D) b = (attrs.map fun d => { d with cons := d.cons.filter fun k => !decide (k = .check 0) }).foldl (addAttr D) b := by
    intro D attrs
    induction attrs with
    | nil => intro b _; rfl
    | cons d attrs ih =>
      intro b hk
      rw [List.map_cons, List.foldl_cons, List.foldl_cons]
      have : addAttr D b d = addAttr D b { d with cons := d.cons.filter fun k => !decide (k = .check 0) } := by
        unfold addAttr
        simp only
        rw [hcon D d.name d.ty d.cons _ (hk d (by simp))]
      rw [← this]
      exact ih _ (fun d hd => hk d (by simp [hd]))
  have e : ∀ D, analyzeTable D c.next n attrs =
      analyzeTable D c.next n (attrs.map fun d => { d with cons := d.cons.filter fun k => !decide (k = .check 0) }) :=
    fun D => hattr D attrs _ h
  simp only [step, e]

/-- PRIMARY KEY does not make an attribute NOT NULL. -/
theorem C68_bug_primary_key : ((run (fun _ => true) Cat.init [.createDatabase 7, .useDatabase 7, .createTable 1 [⟨10, 0, [.primaryKey]⟩]]).bind
    fun r => r.1.schema 1) = some [⟨10, 0, false, true, false⟩] := by decide +kernel

/-- A table cannot refer to itself. -/
theorem C68_bug_self_reference (rmi : Nat → Bool) (c : Cat) (n a b ty : Nat) :
    ∀ c' e, step rmi c (.createTable n [⟨a, ty, [.primaryKey]⟩, ⟨b, ty, [.references n a]⟩]) = some (c', e) → e ≠ 0 := by
  intro c' e h
  cases hi : c.inUse with
  | none => simp only [step, withDb, hi, Option.some.injEq, Prod.mk.injEq] at h; omega
  | some x =>
    simp only [step, withDb, hi] at h
    cases hd : c.deref x with
    | none => simp [hd] at h
    | some D =>
      rw [hd] at h
      simp only at h
      split at h
      · simp only [Option.some.injEq, Prod.mk.injEq] at h; omega
      · rename_i he
        simp only [ne_eq, Decidable.not_not] at he
        exfalso
        obtain ⟨f1, _⟩ := attr_fold D [⟨a, ty, [.primaryKey]⟩, ⟨b, ty, [.references n a]⟩] ⟨⟨c.next, n, [], []⟩, false, if (D.table n).isSome then 1 else 0⟩ (by simp)
        have hle := fold_le D [⟨a, ty, [.primaryKey]⟩, ⟨b, ty, [.references n a]⟩] ⟨⟨c.next, n, [], []⟩, false, if (D.table n).isSome then 1 else 0⟩
        unfold analyzeTable at he
        simp only at f1 hle
        rw [he] at f1 hle
        have hz : 0 = if (D.table n).isSome = true then 1 else 0 := by omega
        obtain ⟨_, _, _, fc⟩ := f1.mp hz
        obtain ⟨R, hR, _⟩ := (fc ⟨b, ty, [.references n a]⟩ (by simp)).2.2 (n, a) (by simp [refsOf])
        simp only at hR
        simp [hR] at hz

end Mutable.DDL
