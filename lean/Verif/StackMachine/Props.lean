import Verif.StackMachine.Correct

/-!
C34: evaluating compiled expressions.  See `Spec.lean` for the SQL meaning `sem` of expressions, and for what it means
that a machine slot `Holds` a SQL value.
-/
namespace Mutable.SM

/-- The program and the context compiled from an expression. -/
def prog (e : E) : CS := compile e ⟨[], []⟩

/-- The machine's context is the one built by the compiler, and its indices fit into the operand of `Ld_Ctx`. -/
def CtxOK (M : Mach) (c : CS) : Prop := M.ctx = c.ctx ∧ c.ctx.length ≤ 256

/-! ### C34: correctness of compiled expressions -/

/-- **C34** (without floating-point numbers).  For every expression accepted by the semantic analysis and every tuple,
running the compiled program either pushes exactly one slot that holds the SQL value of the expression (in
particular, its NULL bit tells whether that value is NULL), or stops at a 64-bit overflow or at a division whose divisor
is zero or NULL; no other failure (stack underflow, wrongly typed operand, context index out of bounds) is possible.
Restrictions: at most 256 constants, scaling factors below 10^19, `%` on integers only, operands of `..` not NULL.
The counterexamples below show that each restriction is needed. -/
theorem C34_expression_partial (M : Mach) (env : Nat → Nat → Option SVal) (e : E) (hwt : WT e)
    (hattr : ∀ x ∈ subs e, AttrOK M env x) (hscale : ∀ x ∈ subs e, ScaleOK x)
    (hcat : ∀ x ∈ subs e, CatOK M.like env x) (hre : M.re = M.like) (hctx : CtxOK M (prog e)) (S : List Slot) :
    match run M (prog e).ops S with
    | .ok st => ∃ x, st = x :: S ∧ Holds e.ty x (sem M.like env e)
    | .error err => err = .overflow ∨ (err = .divZero ∧ ∃ x ∈ subs e, DivBad M.like env x) := by
  obtain ⟨code, h1, h2, h3⟩ := compile_ext M e ⟨[], []⟩
  have hrun : run M (prog e).ops S = den M e S := by
    have : (prog e).ops = code := by simpa [prog] using h1
    rw [this]
    refine h3 ?_ ?_ S
    · rw [hctx.1]; exact List.prefix_rfl
    · rw [hctx.1]; exact hctx.2
  rw [hrun]
  have := den_post (B := ∃ x ∈ subs e, DivBad M.like env x) hre e hwt
    ⟨hattr, hscale, hcat, fun x hx h => ⟨x, hx, h⟩⟩ S
  unfold Post at this
  cases h : den M e S with
  | error err => rw [h] at this; exact this
  | ok st => rw [h] at this; exact this

/-- The operations that compute on integers. -/
def IsArith : E → Prop
  | .ar _ _ _ => True
  | .un .minus _ => True
  | .cmp _ l r => l.ty.scale ≠ r.ty.scale
  | _ => False

/-- Instructions that may trap. -/
def TrapOp : Op → Prop
  | .minusI | .addI | .subI | .mulI | .divI | .modI => True
  | _ => False

theorem step_no_trap {M : Mach} {o : Op} (h : ¬ TrapOp o) {S : List Slot} {e : Err} (he : step M o S = .error e) :
    e ≠ .overflow ∧ e ≠ .divZero := by
  have hI : ∀ {v : RVal} {e : Err}, asI v = .error e → e = .type := by
    intro v e h; cases v <;> simp [asI] at h <;> exact h.symm
  have hS : ∀ {v : RVal} {e : Err}, asS v = .error e → e = .type := by
    intro v e h; cases v <;> simp [asS] at h <;> exact h.symm
  have h1 : ∀ f : Int → Except Err Int, (∀ x, ∃ y, f x = .ok y) → ∀ S e, unI f S = .error e →
      e ≠ .overflow ∧ e ≠ .divZero := by
    intro f hf S e he
    match S with
    | [] => simp [unI] at he; subst he; simp
    | (v, n) :: S =>
      simp only [unI, bind, Except.bind] at he
      cases hv : asI v with
      | error e' => rw [hv] at he; simp at he; subst he; rw [hI hv]; simp
      | ok x =>
        rw [hv] at he
        obtain ⟨y, hy⟩ := hf x
        simp [hy, pure, Except.pure] at he
  have h2 : ∀ f : Int → Int → Except Err RVal, (∀ x z, ∃ y, f x z = .ok y) → ∀ S e, binI f S = .error e →
      e ≠ .overflow ∧ e ≠ .divZero := by
    intro f hf S e he
    match S with
    | [] => simp [binI] at he; subst he; simp
    | [_] => simp [binI] at he; subst he; simp
    | (r, rn) :: (l, ln) :: S =>
      simp only [binI, bind, Except.bind] at he
      cases hv : asI r with
      | error e' => rw [hv] at he; simp at he; subst he; rw [hI hv]; simp
      | ok x =>
        cases hv' : asI l with
        | error e' => rw [hv, hv'] at he; simp at he; subst he; rw [hI hv']; simp
        | ok z =>
          rw [hv, hv'] at he
          obtain ⟨y, hy⟩ := hf z x
          simp [hy, pure, Except.pure] at he
  cases o with
  | ldTup t i => simp [step] at he
  | ldCtx i =>
    simp only [step] at he
    split at he
    · cases he
    · cases he; simp
  | pushNull => simp [step] at he
  | minusI => exact absurd trivial h
  | addI => exact absurd trivial h
  | subI => exact absurd trivial h
  | mulI => exact absurd trivial h
  | divI => exact absurd trivial h
  | modI => exact absurd trivial h
  | negI => exact h1 _ (fun x => ⟨_, rfl⟩) S e he
  | cmpI c => exact h2 _ (fun x z => ⟨_, rfl⟩) S e he
  | notB => match S with
    | [] => simp [step] at he; subst he; simp
    | (v, n) :: S => simp [step, pure, Except.pure] at he
  | catS => match S with
    | [] => simp [step] at he; subst he; simp
    | [_] => simp [step] at he; subst he; simp
    | (r, rn) :: (l, ln) :: S =>
      simp only [step] at he
      split at he
      · cases he
      · split at he
        · cases he
        · simp only [bind, Except.bind] at he
          cases hv : asS l with
          | error e' => rw [hv] at he; simp at he; subst he; rw [hS hv]; simp
          | ok x =>
            cases hv' : asS r with
            | error e' => rw [hv, hv'] at he; simp at he; subst he; rw [hS hv']; simp
            | ok z => rw [hv, hv'] at he; simp [pure, Except.pure] at he
  | andB => match S with
    | [] => simp [step] at he; subst he; simp
    | [_] => simp [step] at he; subst he; simp
    | (r, rn) :: (l, ln) :: S => simp [step, pure, Except.pure] at he
  | orB => match S with
    | [] => simp [step] at he; subst he; simp
    | [_] => simp [step] at he; subst he; simp
    | (r, rn) :: (l, ln) :: S => simp [step, pure, Except.pure] at he
  | cmpS c => match S with
    | [] => simp [step, binS] at he; subst he; simp
    | [_] => simp [step, binS] at he; subst he; simp
    | (r, rn) :: (l, ln) :: S =>
      simp only [step, binS, bind, Except.bind] at he
      cases hv : asS r with
      | error e' => rw [hv] at he; simp at he; subst he; rw [hS hv]; simp
      | ok x =>
        cases hv' : asS l with
        | error e' => rw [hv, hv'] at he; simp at he; subst he; rw [hS hv']; simp
        | ok z => rw [hv, hv'] at he; simp [pure, Except.pure] at he
  | cmpB c => match S with
    | [] => simp [step, binB] at he; subst he; simp
    | [_] => simp [step, binB] at he; subst he; simp
    | (r, rn) :: (l, ln) :: S => simp [step, binB, pure, Except.pure] at he
  | likeConst => match S with
    | [] => simp [step] at he; subst he; simp
    | [_] => simp [step] at he; subst he; simp
    | (r, rn) :: (l, ln) :: S =>
      simp only [step] at he
      split at he
      · cases he
      · simp only [bind, Except.bind] at he
        cases hv : asS l with
        | error e' => rw [hv] at he; simp at he; subst he; rw [hS hv]; simp
        | ok x =>
          cases hv' : asS r with
          | error e' => rw [hv, hv'] at he; simp at he; subst he; rw [hS hv']; simp
          | ok z => rw [hv, hv'] at he; simp [pure, Except.pure] at he
  | likeExpr => match S with
    | [] => simp [step] at he; subst he; simp
    | [_] => simp [step] at he; subst he; simp
    | (r, rn) :: (l, ln) :: S =>
      simp only [step] at he
      split at he
      · cases he
      · split at he
        · cases he
        · simp only [bind, Except.bind] at he
          cases hv : asS r with
          | error e' => rw [hv] at he; simp at he; subst he; rw [hS hv]; simp
          | ok x =>
            cases hv' : asS l with
            | error e' => rw [hv, hv'] at he; simp at he; subst he; rw [hS hv']; simp
            | ok z => rw [hv, hv'] at he; simp [pure, Except.pure] at he
  | isNull => match S with
    | [] => simp [step] at he; subst he; simp
    | (v, n) :: S => simp [step] at he
  | castIB => match S with
    | [] => simp [step] at he; subst he; simp
    | (v, n) :: S => simp [step, pure, Except.pure] at he

theorem run_no_trap {M : Mach} {os : List Op} (h : ∀ o ∈ os, ¬ TrapOp o) {S : List Slot} {e : Err}
    (he : run M os S = .error e) : e ≠ .overflow ∧ e ≠ .divZero := by
  induction os generalizing S with
  | nil => cases he
  | cons o os ih =>
    simp only [run, bind, Except.bind] at he
    cases hs : step M o S with
    | error e' => rw [hs] at he; cases he; exact step_no_trap (h o (by simp)) hs
    | ok S' => rw [hs] at he; exact ih (fun o ho => h o (by simp [ho])) he

theorem emit_no_trap {c : CS} {o : Op} (hc : ∀ o ∈ c.ops, ¬ TrapOp o) (ho : ¬ TrapOp o) :
    ∀ o' ∈ (c.emit o).ops, ¬ TrapOp o' := by
  intro o' h
  simp only [CS.emit, List.mem_append, List.mem_singleton] at h
  rcases h with h | rfl
  · exact hc _ h
  · exact ho

theorem load_no_trap {c : CS} {v : RVal} (hc : ∀ o ∈ c.ops, ¬ TrapOp o) : ∀ o ∈ (c.load v).ops, ¬ TrapOp o := by
  intro o' h
  simp only [CS.load, List.mem_append, List.mem_singleton] at h
  rcases h with h | rfl
  · exact hc _ h
  · exact id

theorem compile_no_trap {e : E} (hwt : WT e) (h : ∀ x ∈ subs e, ¬ IsArith x) :
    ∀ c : CS, (∀ o ∈ c.ops, ¬ TrapOp o) → ∀ o ∈ (compile e c).ops, ¬ TrapOp o := by
  induction e with
  | attr t i ty => intro c hc; exact emit_no_trap hc (by simp [TrapOp])
  | const v ty => intro c hc; exact load_no_trap hc
  | null => intro c hc; exact emit_no_trap hc (by simp [TrapOp])
  | isNull e ih =>
    intro c hc
    exact emit_no_trap (ih hwt (fun x hx => h x (by simp [subs, hx])) c hc) (by simp [TrapOp])
  | castInt e ih =>
    intro c hc
    have := ih hwt.1 (fun x hx => h x (by simp [subs, hx])) c hc
    simp only [compile]
    split
    · exact emit_no_trap this (by simp [TrapOp])
    · exact this
  | un op e ih =>
    intro c hc
    have hi := ih hwt.1 (fun x hx => h x (by simp [subs, hx])) c hc
    cases op with
    | plus => exact hi
    | minus => exact absurd trivial (h (.un .minus e) (self_mem_subs _))
    | tilde =>
      simp only [compile]
      split
      · exact emit_no_trap hi (by simp [TrapOp])
      · exact emit_no_trap hi (by simp [TrapOp])
    | not => exact emit_no_trap hi (by simp [TrapOp])
  | ar op l r ihl ihr => exact absurd trivial (h (.ar op l r) (self_mem_subs _))
  | cat l r ihl ihr =>
    intro c hc
    have h1 := ihl hwt.1 (fun x hx => h x (by simp [subs, hx])) c hc
    exact emit_no_trap (ihr hwt.2.1 (fun x hx => h x (by simp [subs, hx])) _ h1) (by simp [TrapOp])
  | cmp op l r ihl ihr =>
    intro c hc
    have h1 := ihl hwt.1 (fun x hx => h x (by simp [subs, hx])) c hc
    have h2 := fun c hc => ihr hwt.2.1 (fun x hx => h x (by simp [subs, hx])) c hc
    have hs : l.ty.scale = r.ty.scale := Classical.not_not.1 (h (.cmp op l r) (self_mem_subs _))
    simp only [compile]
    rcases hwt.2.2 with ⟨⟨d, s, hl⟩, ⟨d', s', hr⟩⟩ | ⟨hl, hr, hc⟩ | ⟨hl, hr⟩ | ⟨hl, hr⟩
    · rw [hl, hr] at hs
      simp only [ETy.scale] at hs
      subst hs
      have e1 : ∀ c, CS.scale c l.ty (join l.ty r.ty) = c := by
        intro c; rw [hl, hr]; simp [CS.scale, join, ETy.scale]
      have e2 : ∀ c, CS.scale c r.ty (join l.ty r.ty) = c := by
        intro c; rw [hl, hr]; simp [CS.scale, join, ETy.scale]
      rw [e1, e2]
      cases l.ty <;> exact emit_no_trap (h2 _ h1) (by simp [TrapOp])
    · rw [hl]; exact emit_no_trap (h2 _ h1) (by simp [TrapOp])
    · rw [hl]; exact emit_no_trap (h2 _ h1) (by simp [TrapOp])
    · rw [hl]; exact emit_no_trap (h2 _ h1) (by simp [TrapOp])
  | likeC l p ih =>
    intro c hc
    have h1 := ih hwt.1 (fun x hx => h x (by simp [subs, hx])) c hc
    exact emit_no_trap (load_no_trap h1) (by simp [TrapOp])
  | like l r ihl ihr =>
    intro c hc
    have h1 := ihl hwt.1 (fun x hx => h x (by simp [subs, hx])) c hc
    exact emit_no_trap (ihr hwt.2.1 (fun x hx => h x (by simp [subs, hx])) _ h1) (by simp [TrapOp])
  | and l r ihl ihr =>
    intro c hc
    have h1 := ihl hwt.1 (fun x hx => h x (by simp [subs, hx])) c hc
    exact emit_no_trap (ihr hwt.2.1 (fun x hx => h x (by simp [subs, hx])) _ h1) (by simp [TrapOp])
  | or l r ihl ihr =>
    intro c hc
    have h1 := ihl hwt.1 (fun x hx => h x (by simp [subs, hx])) c hc
    exact emit_no_trap (ihr hwt.2.1 (fun x hx => h x (by simp [subs, hx])) _ h1) (by simp [TrapOp])

/-- Expressions without arithmetic (comparisons of equally scaled operands, LIKE, IS NULL, AND, OR, NOT, ...) are
always evaluated to their SQL value, for every tuple. -/
theorem C34_logic_total (M : Mach) (env : Nat → Nat → Option SVal) (e : E) (hwt : WT e)
    (hna : ∀ x ∈ subs e, ¬ IsArith x) (hattr : ∀ x ∈ subs e, AttrOK M env x)
    (hcat : ∀ x ∈ subs e, CatOK M.like env x) (hre : M.re = M.like) (hctx : CtxOK M (prog e)) (S : List Slot) :
    ∃ x, run M (prog e).ops S = .ok (x :: S) ∧ Holds e.ty x (sem M.like env e) := by
  have hscale : ∀ x ∈ subs e, ScaleOK x := by
    intro x hx
    have hx := hna x hx
    cases x with
    | ar op l r => exact absurd trivial hx
    | cmp op l r =>
      have hs : l.ty.scale = r.ty.scale := Classical.not_not.1 hx
      show _ ∧ _
      have : (join l.ty r.ty).scale = l.ty.scale := by
        cases hl : l.ty <;> cases hr : r.ty <;> simp_all [join, ETy.scale]
      omega
    | attr t i ty => exact trivial
    | const v ty => exact trivial
    | null => exact trivial
    | isNull e => exact trivial
    | castInt e => exact trivial
    | un op e => exact trivial
    | cat l r => exact trivial
    | likeC l p => exact trivial
    | like l r => exact trivial
    | and l r => exact trivial
    | or l r => exact trivial
  have main := C34_expression_partial M env e hwt hattr hscale hcat hre hctx S
  cases h : run M (prog e).ops S with
  | ok st =>
    rw [h] at main
    obtain ⟨x, rfl, hx⟩ := main
    exact ⟨x, rfl, hx⟩
  | error err =>
    rw [h] at main
    obtain ⟨n1, n2⟩ := run_no_trap (compile_no_trap hwt hna ⟨[], []⟩ (by simp)) h
    rcases main with h | ⟨h, _⟩
    · exact absurd h n1
    · exact absurd h n2

/-! ### C34: filter conditions -/

/-- SQL value of a predicate, a clause, a formula in conjunctive normal form. -/
noncomputable def semPred (like : Str → Str → Bool) (env : Nat → Nat → Option SVal) (p : E × Bool) : SQL.K3 :=
  if p.2 then (k3 (sem like env p.1)).not else k3 (sem like env p.1)
noncomputable def semClause (like : Str → Str → Bool) (env : Nat → Nat → Option SVal) : List (E × Bool) → SQL.K3
  | [] => .F
  | p :: ps => (semPred like env p).or (semClause like env ps)
noncomputable def semCNF (like : Str → Str → Bool) (env : Nat → Nat → Option SVal) : List (List (E × Bool)) → SQL.K3
  | [] => .T
  | C :: Cs => (semClause like env C).and (semCNF like env Cs)

/-- The conditions of `C34_expression_partial` on an expression, for a fixed machine. -/
structure Fine (M : Mach) (env : Nat → Nat → Option SVal) (e : E) : Prop where
  wt : WT e
  bool : e.ty = .bool
  attr : ∀ x ∈ subs e, AttrOK M env x
  scale : ∀ x ∈ subs e, ScaleOK x
  cat : ∀ x ∈ subs e, CatOK M.like env x

section CNF
variable {M : Mach} {env : Nat → Nat → Option SVal} {B : Prop}

/-- `f` pushes a slot holding a truth value. -/
def Pushes (M : Mach) (B : Prop) (f : Den) (t : SQL.K3) : Prop :=
  ∀ S, Post B (fun x => Holds .bool x (ofK3 t)) S (f S)

theorem holds_k3 {x : Slot} {o : Option SVal} (h : Holds .bool x o) : Holds .bool x (ofK3 (k3 o)) := by
  rcases h.bool_cases with ⟨rfl, v, rfl⟩ | ⟨b, rfl, rfl⟩
  · exact h
  · cases b <;> exact h

theorem k3_ofK3 (t : SQL.K3) : k3 (ofK3 t) = t := by cases t <;> rfl

def predD (M : Mach) (p : E × Bool) : Den := if p.2 then (den M p.1).seq (step M .notB) else den M p.1
def clauseD (M : Mach) : List (E × Bool) → Den → Den
  | [], f => f
  | p :: ps, f => clauseD M ps ((f.seq (predD M p)).seq (step M .orB))
def cnfD (M : Mach) : List (List (E × Bool)) → Den → Den
  | [], f => f
  | (p :: ps) :: Cs, f => cnfD M Cs ((f.seq (clauseD M ps (predD M p))).seq (step M .andB))
  | [] :: Cs, f => cnfD M Cs (f.seq (step M .andB))

theorem pred_ext (p : E × Bool) (c : CS) :
    Ext M c (if p.2 then (compile p.1 c).emit .notB else compile p.1 c) (predD M p) := by
  unfold predD
  split
  · exact (compile_ext M _ c).trans (Ext.emit M _ _)
  · exact compile_ext M _ c

theorem clause_ext (ps : List (E × Bool)) (c c' : CS) (f : Den) (h : Ext M c c' f) :
    Ext M c (emitClause ps false c') (clauseD M ps f) := by
  induction ps generalizing c' f with
  | nil => exact h
  | cons p ps ih =>
    obtain ⟨e, n⟩ := p
    exact ih _ _ ((h.trans (pred_ext (e, n) c')).trans (Ext.emit M _ _))

theorem clause_ext_first (p : E × Bool) (ps : List (E × Bool)) (c : CS) :
    Ext M c (emitClause (p :: ps) true c) (clauseD M ps (predD M p)) := by
  obtain ⟨e, n⟩ := p
  exact clause_ext ps c _ _ (pred_ext (e, n) c)

theorem cnf_ext (Cs : List (List (E × Bool))) (hne : ∀ C ∈ Cs, C ≠ []) (c c' : CS) (f : Den) (h : Ext M c c' f) :
    Ext M c (emitCNF Cs false c') (cnfD M Cs f) := by
  induction Cs generalizing c' f with
  | nil => exact h
  | cons C Cs ih =>
    cases C with
    | nil => exact absurd rfl (hne [] (by simp))
    | cons p ps =>
      exact ih (fun C hC => hne C (by simp [hC])) _ _ ((h.trans (clause_ext_first p ps c')).trans (Ext.emit M _ _))

theorem pred_pushes (hre : M.re = M.like) {p : E × Bool} (hf : Fine M env p.1)
    (hB : ∀ x ∈ subs p.1, DivBad M.like env x → B) : Pushes M B (predD M p) (semPred M.like env p) := by
  intro S
  have h := den_post hre p.1 hf.wt ⟨hf.attr, hf.scale, hf.cat, hB⟩
  unfold predD semPred
  split
  · refine Post.seq1 (h S) (fun x hx => ?_)
    rw [hf.bool] at hx
    rcases hx.bool_cases with ⟨ho, v, rfl⟩ | ⟨b, ho, rfl⟩
    · rw [ho]; exact ⟨_, rfl, rfl, by intro v hv; cases hv⟩
    · rw [ho]
      refine ⟨_, rfl, ?_⟩
      cases b
      · exact ⟨rfl, by rintro v ⟨⟩; exact ⟨_, rfl, rfl⟩⟩
      · exact ⟨rfl, by rintro v ⟨⟩; exact ⟨_, rfl, rfl⟩⟩
  · refine (h S).mono (fun x hx => ?_)
    rw [hf.bool] at hx
    exact holds_k3 hx

theorem clause_pushes (hre : M.re = M.like) (ps : List (E × Bool)) (hf : ∀ p ∈ ps, Fine M env p.1)
    (hB : ∀ p ∈ ps, ∀ x ∈ subs p.1, DivBad M.like env x → B) {f : Den} {t : SQL.K3} (h : Pushes M B f t) :
    Pushes M B (clauseD M ps f) (t.or (semClause M.like env ps)) := by
  induction ps generalizing f t with
  | nil =>
    have : t.or (semClause M.like env []) = t := by simp [semClause]
    rw [this]; exact h
  | cons p ps ih =>
    have : t.or (semClause M.like env (p :: ps)) = (t.or (semPred M.like env p)).or (semClause M.like env ps) := by
      rw [SQL.K3.or_assoc]; rfl
    rw [this]
    refine ih (fun q hq => hf q (by simp [hq])) (fun q hq => hB q (by simp [hq])) ?_
    intro S
    refine Post.seq2 (h S) (pred_pushes hre (hf p (by simp)) (hB p (by simp))) ?_
    intro x y hx hy
    have := orB_post (B := B) (M := M) S hx hy
    rwa [k3_ofK3, k3_ofK3] at this

theorem cnf_pushes (hre : M.re = M.like) (Cs : List (List (E × Bool))) (hne : ∀ C ∈ Cs, C ≠ [])
    (hf : ∀ C ∈ Cs, ∀ p ∈ C, Fine M env p.1) (hB : ∀ C ∈ Cs, ∀ p ∈ C, ∀ x ∈ subs p.1, DivBad M.like env x → B)
    {f : Den} {t : SQL.K3} (h : Pushes M B f t) : Pushes M B (cnfD M Cs f) (t.and (semCNF M.like env Cs)) := by
  induction Cs generalizing f t with
  | nil =>
    have : t.and (semCNF M.like env []) = t := by simp [semCNF]
    rw [this]; exact h
  | cons C Cs ih =>
    cases C with
    | nil => exact absurd rfl (hne [] (by simp))
    | cons p ps =>
      have : t.and (semCNF M.like env ((p :: ps) :: Cs)) =
          (t.and (semClause M.like env (p :: ps))).and (semCNF M.like env Cs) := by
        rw [SQL.K3.and_assoc]; rfl
      rw [this]
      refine ih (fun C hC => hne C (by simp [hC])) (fun C hC => hf C (by simp [hC])) (fun C hC => hB C (by simp [hC])) ?_
      intro S
      have hc := clause_pushes hre ps (fun q hq => hf (p :: ps) (by simp) q (by simp [hq]))
        (fun q hq => hB (p :: ps) (by simp) q (by simp [hq]))
        (pred_pushes hre (hf (p :: ps) (by simp) p (by simp)) (hB (p :: ps) (by simp) p (by simp)))
      refine Post.seq2 (h S) hc ?_
      intro x y hx hy
      have := andB_post (B := B) (M := M) S hx hy
      rwa [k3_ofK3, k3_ofK3] at this

end CNF

/-- Compiled filter and join conditions: for every non-empty formula with non-empty clauses, the program computes the
three-valued conjunction of the disjunctions of its (possibly negated) predicates.  Hence a filter that keeps the
tuples whose slot is not NULL and true keeps exactly the tuples for which the condition is TRUE. -/
theorem C34_cnf_partial (M : Mach) (env : Nat → Nat → Option SVal) (cnf : List (List (E × Bool))) (hne : cnf ≠ [])
    (hne' : ∀ C ∈ cnf, C ≠ []) (hf : ∀ C ∈ cnf, ∀ p ∈ C, Fine M env p.1) (hre : M.re = M.like)
    (hctx : CtxOK M (emitCNF cnf true ⟨[], []⟩)) (S : List Slot) :
    match run M (emitCNF cnf true ⟨[], []⟩).ops S with
    | .ok st => ∃ x, st = x :: S ∧ Holds .bool x (ofK3 (semCNF M.like env cnf))
    | .error err => err = .overflow ∨
        (err = .divZero ∧ ∃ C ∈ cnf, ∃ p ∈ C, ∃ x ∈ subs p.1, DivBad M.like env x) := by
  match cnf, hne with
  | (p :: ps) :: Cs, _ =>
    have hB : ∀ C ∈ (p :: ps) :: Cs, ∀ q ∈ C, ∀ x ∈ subs q.1, DivBad M.like env x →
        ∃ C ∈ (p :: ps) :: Cs, ∃ p ∈ C, ∃ x ∈ subs p.1, DivBad M.like env x :=
      fun C hC q hq x hx h => ⟨C, hC, q, hq, x, hx, h⟩
    obtain ⟨code, h1, h2, h3⟩ : Ext M ⟨[], []⟩ (emitCNF ((p :: ps) :: Cs) true ⟨[], []⟩)
        (cnfD M Cs (clauseD M ps (predD M p))) :=
      cnf_ext Cs (fun C hC => hne' C (by simp [hC])) _ _ _ (clause_ext_first p ps ⟨[], []⟩)
    have hrun : run M (emitCNF ((p :: ps) :: Cs) true ⟨[], []⟩).ops S = cnfD M Cs (clauseD M ps (predD M p)) S := by
      have : (emitCNF ((p :: ps) :: Cs) true ⟨[], []⟩).ops = code := by simpa using h1
      rw [this]
      refine h3 ?_ ?_ S
      · rw [hctx.1]
      · rw [hctx.1]; exact hctx.2
    rw [hrun]
    have hc := clause_pushes hre ps (fun q hq => hf (p :: ps) (by simp) q (by simp [hq]))
      (fun q hq => hB (p :: ps) (by simp) q (by simp [hq]))
      (pred_pushes hre (hf (p :: ps) (by simp) p (by simp)) (hB (p :: ps) (by simp) p (by simp)))
    have := cnf_pushes hre Cs (fun C hC => hne' C (by simp [hC])) (fun C hC => hf C (by simp [hC]))
      (fun C hC => hB C (by simp [hC])) hc S
    unfold Post at this
    generalize cnfD M Cs (clauseD M ps (predD M p)) S = r at this ⊢
    cases r with
    | error err => exact this
    | ok st => exact this
  | [] :: Cs, _ => exact absurd rfl (hne' [] (by simp))

/-! ### C34: stack size -/

/-- Stack effect of an instruction (tables/Opcodes.tbl: `M_OPCODE(CODE, DELTA, ...)`). -/
def delta : Op → Int
  | .ldTup _ _ | .ldCtx _ | .pushNull => 1
  | .minusI | .negI | .notB | .isNull | .castIB => 0
  | _ => -1

/-- `emit_X` adds the stack effect to the current size and maximises the required size (StackMachine.hpp:152-158), while
`emit(opcode)` and `ops.push_back` do not (:172); instructions that push are always emitted by `emit_X`. -/
structure SizeSt where
  cur : Int
  req : Int

def sizeStep (s : SizeSt) (p : Op × Bool) : SizeSt :=
  if p.2 then ⟨s.cur + delta p.1, max s.req (s.cur + delta p.1)⟩ else s

theorem step_delta {M : Mach} {o : Op} {S S' : List Slot} (h : step M o S = .ok S') :
    (S'.length : Int) = S.length + delta o := by
  have hu : ∀ f : Int → Except Err Int, ∀ S S', unI f S = .ok S' → (S'.length : Int) = S.length := by
    intro f S S' h
    match S with
    | [] => cases h
    | (v, n) :: S =>
      simp only [unI, bind, Except.bind] at h
      split at h
      · cases h
      · split at h
        · cases h
        · cases h; simp
  have hb : ∀ f : Int → Int → Except Err RVal, ∀ S S', binI f S = .ok S' → (S'.length : Int) = S.length + (-1) := by
    intro f S S' h
    match S with
    | [] => cases h
    | [_] => cases h
    | (r, rn) :: (l, ln) :: S =>
      simp only [binI, bind, Except.bind] at h
      split at h
      · cases h
      · split at h
        · cases h
        · split at h
          · cases h
          · cases h; simp
  cases o with
  | ldTup t i => cases h; simp [delta]
  | ldCtx i =>
    simp only [step] at h
    split at h
    · cases h; simp [delta]
    · cases h
  | pushNull => cases h; simp [delta]
  | minusI => simpa [delta] using hu _ S S' h
  | negI => simpa [delta] using hu _ S S' h
  | addI => exact hb _ S S' h
  | subI => exact hb _ S S' h
  | mulI => exact hb _ S S' h
  | divI => exact hb _ S S' h
  | modI => exact hb _ S S' h
  | cmpI c => exact hb _ S S' h
  | notB => match S with
    | [] => cases h
    | (v, n) :: S => cases h; simp [delta]
  | isNull => match S with
    | [] => cases h
    | (v, n) :: S => cases h; simp [delta]
  | castIB => match S with
    | [] => cases h
    | (v, n) :: S => cases h; simp [delta]
  | andB => match S with
    | [] => cases h
    | [_] => cases h
    | (r, rn) :: (l, ln) :: S => cases h; simp [delta]
  | orB => match S with
    | [] => cases h
    | [_] => cases h
    | (r, rn) :: (l, ln) :: S => cases h; simp [delta]
  | cmpB c => match S with
    | [] => cases h
    | [_] => cases h
    | (r, rn) :: (l, ln) :: S => cases h; simp [delta]
  | cmpS c => match S with
    | [] => cases h
    | [_] => cases h
    | (r, rn) :: (l, ln) :: S =>
      simp only [step, binS, bind, Except.bind] at h
      split at h
      · cases h
      · split at h
        · cases h
        · cases h; simp [delta]
  | catS => match S with
    | [] => cases h
    | [_] => cases h
    | (r, rn) :: (l, ln) :: S =>
      simp only [step, bind, Except.bind] at h
      split at h
      · cases h; simp [delta]
      · split at h
        · cases h; simp [delta]
        · split at h
          · cases h
          · split at h
            · cases h
            · cases h; simp [delta]
  | likeConst => match S with
    | [] => cases h
    | [_] => cases h
    | (r, rn) :: (l, ln) :: S =>
      simp only [step, bind, Except.bind] at h
      split at h
      · cases h; simp [delta]
      · split at h
        · cases h
        · split at h
          · cases h
          · cases h; simp [delta]
  | likeExpr => match S with
    | [] => cases h
    | [_] => cases h
    | (r, rn) :: (l, ln) :: S =>
      simp only [step, bind, Except.bind] at h
      split at h
      · cases h; simp [delta]
      · split at h
        · cases h; simp [delta]
        · split at h
          · cases h
          · split at h
            · cases h
            · cases h; simp [delta]

/-- The stack allocated by the machine (`required_stack_size()` slots) never overflows: after every prefix of the
program, the stack has at most that many elements -- whichever instructions were emitted by the counting `emit_X`
(flag true) and whichever by the non-counting `emit(opcode)`, as long as all pushes are counted. -/
theorem C34_stack_size (M : Mach) (os : List (Op × Bool)) (hp : ∀ p ∈ os, delta p.1 = 1 → p.2 = true)
    (pre : List (Op × Bool)) (hpre : pre <+: os) (S : List Slot) (h : run M (pre.map Prod.fst) [] = .ok S) :
    (S.length : Int) ≤ (os.foldl sizeStep ⟨0, 0⟩).req := by
  have hd : ∀ o, delta o = 1 ∨ delta o ≤ 0 := by intro o; cases o <;> simp [delta]
  have key : ∀ (pre : List (Op × Bool)) (s : SizeSt) (S0 S : List Slot), (∀ p ∈ pre, delta p.1 = 1 → p.2 = true) →
      (S0.length : Int) ≤ s.cur → (S0.length : Int) ≤ s.req → run M (pre.map Prod.fst) S0 = .ok S →
      (S.length : Int) ≤ (pre.foldl sizeStep s).cur ∧ (S.length : Int) ≤ (pre.foldl sizeStep s).req := by
    intro pre
    induction pre with
    | nil => intro s S0 S _ h1 h2 h; cases h; exact ⟨h1, h2⟩
    | cons p ps ih =>
      intro s S0 S hp h1 h2 h
      simp only [List.map_cons, run, bind, Except.bind] at h
      cases hs : step M p.1 S0 with
      | error e => rw [hs] at h; cases h
      | ok S1 =>
        rw [hs] at h
        have hl := step_delta hs
        refine ih (sizeStep s p) S1 S (fun q hq => hp q (by simp [hq])) ?_ ?_ h
        · unfold sizeStep
          split
          · simp only; omega
          · rename_i hn
            have := hd p.1
            have h0 : delta p.1 ≠ 1 := fun h => hn (hp p (by simp) h)
            omega
        · unfold sizeStep
          split
          · simp only; omega
          · rename_i hn
            have := hd p.1
            have h0 : delta p.1 ≠ 1 := fun h => hn (hp p (by simp) h)
            omega
  have mono : ∀ (os : List (Op × Bool)) (s : SizeSt), s.req ≤ (os.foldl sizeStep s).req := by
    intro os
    induction os with
    | nil => intro s; exact le_refl _
    | cons p ps ih =>
      intro s
      refine le_trans ?_ (ih (sizeStep s p))
      unfold sizeStep
      split
      · exact le_max_left _ _
      · exact le_refl _
  obtain ⟨post, rfl⟩ := hpre
  have := key pre ⟨0, 0⟩ [] S (fun p hp' => hp p (by simp [hp'])) (by simp) (by simp) h
  rw [List.foldl_append]
  exact le_trans this.2 (mono post _)

/-! ### Witness -/

/-- `a < 1.5 AND b IS NULL`, `a = 1` an integer attribute, `b` a NULL string. -/
def exE : E := .and (.cmp .lt (.attr 0 0 (.num false 0)) (.const (.i 15) (.num true 1))) (.isNull (.attr 0 1 .str))
def exM : Mach :=
  { junk := fun _ => true, ctx := (prog exE).ctx, tup := fun _ i => if i = 0 then (.i 1, false) else (.s [], true),
    re := fun _ _ => false, like := fun _ _ => false }
def exEnv : Nat → Nat → Option SVal := fun _ i => if i = 0 then some (.num 1) else none

example : WT exE ∧ (∀ x ∈ subs exE, AttrOK exM exEnv x) ∧ (∀ x ∈ subs exE, ScaleOK x) ∧
    (∀ x ∈ subs exE, CatOK exM.like exEnv x) ∧ exM.re = exM.like ∧ CtxOK exM (prog exE) := by
  refine ⟨?_, ?_, ?_, ?_, rfl, rfl, by decide⟩
  · simp [exE, WT, E.ty]
  · simp [exE, subs, AttrOK, Holds, exM, exEnv]
  · simp [exE, subs, ScaleOK, E.ty, join, ETy.scale]
  · simp [exE, subs, CatOK]
example : run exM (prog exE).ops [] = .ok [(.b true, false)] := by rfl

/-! ### Deviations of the code from SQL -/

/-- Concatenation with NULL does not yield NULL but the other operand (StackMachine.cpp:1268-1296). -/
theorem C34_concat_null_counterexample :
    ∃ (M : Mach) (env : Nat → Nat → Option SVal) (e : E), WT e ∧ (∀ x ∈ subs e, AttrOK M env x) ∧
      CtxOK M (prog e) ∧ sem M.like env e = none ∧ run M (prog e).ops [] = .ok [(.s [97], false)] := by
  refine ⟨⟨fun _ => true, [.s [97]], fun _ _ => (.s [], true), fun _ _ => false, fun _ _ => false⟩, fun _ _ => none,
    .cat (.attr 0 0 .str) (.const (.s [97]) .str), ?_, ?_, ⟨rfl, by decide⟩, ?_, rfl⟩
  · simp [WT, E.ty]
  · simp [subs, AttrOK, Holds]
  · simp [sem]

/-- Division by NULL executes the division on whatever the NULL slot contains: it may trap although the SQL value is
NULL. -/
theorem C34_null_divisor_counterexample :
    ∃ (M : Mach) (env : Nat → Nat → Option SVal) (e : E), WT e ∧ (∀ x ∈ subs e, AttrOK M env x) ∧
      CtxOK M (prog e) ∧ sem M.like env e = none ∧ run M (prog e).ops [] = .error .divZero := by
  refine ⟨⟨fun _ => true, [.i 7], fun _ _ => (.i 0, true), fun _ _ => false, fun _ _ => false⟩, fun _ _ => none,
    .ar .div (.const (.i 7) (.num false 0)) (.attr 0 0 (.num false 0)), ?_, ?_, ⟨rfl, by decide⟩, ?_, rfl⟩
  · simp [WT, E.ty]
  · simp [subs, AttrOK, Holds]
  · simp [sem, arithVal]

/-- `1.50 % 1` yields 0.00 instead of 0.50: the operands of `%` are not brought to a common scale
(StackMachine.cpp:437-441). -/
theorem C34_mod_decimal_counterexample :
    ∃ (M : Mach) (env : Nat → Nat → Option SVal) (e : E), WT e ∧ CtxOK M (prog e) ∧
      sem M.like env e = some (.num (1/2)) ∧ run M (prog e).ops [] = .ok [(.i 0, false)] ∧
      ¬ Holds e.ty (.i 0, false) (some (.num (1/2))) := by
  refine ⟨⟨fun _ => true, [.i 150, .i 1], fun _ _ => (.i 0, true), fun _ _ => false, fun _ _ => false⟩, fun _ _ => none,
    .ar .mod (.const (.i 150) (.num true 2)) (.const (.i 1) (.num false 0)), ?_, ⟨rfl, by decide⟩, ?_, rfl, ?_⟩
  · simp [WT, E.ty]
  · have h : tr (150 / 10 ^ 2) = 1 := by
      rw [show (150 / 10 ^ 2 : ℚ) = ((150 : ℤ) : ℚ) / ((100 : ℤ) : ℚ) by norm_num, tr_div]; decide
    simp only [sem, arithVal, arith]
    norm_num
    norm_num at h
    rw [h]; norm_num
  · rintro ⟨_, z, hz, h⟩
    injection hz with hz
    subst hz
    have := h _ rfl
    injection this with this
    norm_num at this

/-- `1 / 1.0000000000` (an integer divided by a decimal of scale 10) yields 0.0776627963: the scaling factor `10^20` is
computed in 64 bits (StackMachine.cpp:385-390). -/
theorem C34_factor_overflow_counterexample :
    ∃ (M : Mach) (env : Nat → Nat → Option SVal) (e : E), WT e ∧ CtxOK M (prog e) ∧
      e.ty = .num true 10 ∧ sem M.like env e = some (.num 1) ∧ run M (prog e).ops [] = .ok [(.i 776627963, false)] := by
  refine ⟨⟨fun _ => true, [.i 1, .i 7766279631452241920, .i 10000000000], fun _ _ => (.i 0, true), fun _ _ => false,
    fun _ _ => false⟩, fun _ _ => none,
    .ar .div (.const (.i 1) (.num false 0)) (.const (.i 10000000000) (.num true 10)), ?_, ⟨?_, by decide⟩, rfl, ?_, ?_⟩
  · simp [WT, E.ty]
  · decide +kernel
  · have h : tr (10000000000 : ℚ) = 10000000000 := by
      have := tr_div 10000000000 1
      simpa using this
    simp only [sem, arithVal, arith, truncTo, join, E.ty, ETy.scale]
    norm_num
    rw [h]; norm_num
  · have : ∀ M : Mach, M.ctx = [.i 1, .i 7766279631452241920, .i 10000000000] →
        run M [.ldCtx 0, .ldCtx 1, .mulI, .ldCtx 2, .divI] [] = .ok [(.i 776627963, false)] := by
      intro M h
      simp [run, step, h, binI, asI, chk, bind, Except.bind, pure, Except.pure]
    exact this _ rfl

/-- `TRUE AND TRUE AND ... AND TRUE AND FALSE` with 257 constants. -/
def chain : Nat → E
  | 0 => .const (.b true) .bool
  | n + 1 => .and (chain n) (.const (.b true) .bool)

/-- With more than 256 constants in one expression, the index of a constant no longer fits into the eight-bit operand of
`Ld_Ctx` (StackMachine.hpp:207-213): the 257th constant is read as the first one, and a conjunction ending in FALSE
yields TRUE. -/
theorem C34_context_index_counterexample :
    ∃ (M : Mach) (env : Nat → Nat → Option SVal) (e : E), WT e ∧ M.ctx = (prog e).ctx ∧
      sem M.like env e = some (.bool false) ∧ run M (prog e).ops [] = .ok [(.b true, false)] := by
  refine ⟨⟨fun _ => true, (prog (.and (chain 255) (.const (.b false) .bool))).ctx, fun _ _ => (.i 0, true),
    fun _ _ => false, fun _ _ => false⟩, fun _ _ => none, .and (chain 255) (.const (.b false) .bool), ?_, rfl, ?_, ?_⟩
  · have h : ∀ n, WT (chain n) ∧ (chain n).ty = .bool := by
      intro n
      induction n with
      | zero => simp [chain, WT, E.ty]
      | succ n ih => simp [chain, WT, E.ty, ih]
    simp [WT, h, E.ty]
  · have h : k3 (sem (fun _ _ => false) (fun _ _ => none) (.const (.b false) .bool)) = .F := rfl
    simp only [sem] at h ⊢
    rw [h]; simp [ofK3]
  · set_option maxRecDepth 100000 in decide +kernel

end Mutable.SM
