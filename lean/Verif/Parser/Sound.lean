import Verif.Parser.Complete
/-!
# The parser terminates, and what it accepts without an error message belongs to the (lax) grammar
-/
namespace Mutable.Parse
open Mutable.Lex (TT)

/-- There is no error token, and decimal numbers consist of digits. -/
def Clean (s : P) : Prop := ∀ t ∈ s.toks, t.type ≠ .error ∧ (t.type = .decInt → ∀ c ∈ t.text, '0' ≤ c ∧ c ≤ '9')

/-- `m`, started in `s`, terminates, drops a prefix of the tokens, and only adds errors.  If it adds no error, the tokens
it drops are `G`. -/
def Ok {α : Type} (G : α → List Tok → P → Prop) (m : Option (α × P)) (s : P) : Prop :=
  ∃ a s', m = some (a, s') ∧ s'.toks <:+ s.toks ∧ s.errs ≤ s'.errs ∧
    (Clean s → s'.errs = s.errs → ∃ ts, s.toks = ts ++ s'.toks ∧ G a ts s')

theorem Clean.suffix {s s' : P} (h : Clean s) (hs : s'.toks <:+ s.toks) : Clean s' := fun t ht => h t (hs.subset ht)

theorem Ok.ret {α : Type} {G : α → List Tok → P → Prop} {a : α} {s : P} (h : G a [] s) : Ok G (some (a, s)) s :=
  ⟨a, s, rfl, List.suffix_rfl, Nat.le_refl _, fun _ _ => ⟨[], rfl, h⟩⟩

theorem Ok.fail {α : Type} {G : α → List Tok → P → Prop} {a : α} {s s' : P} (hs : s'.toks <:+ s.toks) (h : s.errs < s'.errs) :
    Ok G (some (a, s')) s :=
  ⟨a, s', rfl, hs, Nat.le_of_lt h, fun _ he => by omega⟩

theorem Ok.weaken {α : Type} {G H : α → List Tok → P → Prop} {m : Option (α × P)} {s : P} (hm : Ok G m s)
    (h : ∀ a ts s', G a ts s' → H a ts s') : Ok H m s := by
  obtain ⟨a, s', h1, h2, h3, h4⟩ := hm
  exact ⟨a, s', h1, h2, h3, fun hc he => let ⟨ts, h5, h6⟩ := h4 hc he; ⟨ts, h5, h a ts s' h6⟩⟩

theorem Ok.bind {α β : Type} {G : α → List Tok → P → Prop} {H : α → β → List Tok → P → Prop} {R : β → List Tok → P → Prop}
    {m : Option (α × P)} {s : P} {k : α × P → Option (β × P)} (hm : Ok G m s)
    (hk : ∀ a s', s'.toks <:+ s.toks → s.errs ≤ s'.errs → Ok (fun b ts s'' => ∀ us, G a us s' → H a b (us ++ ts) s'') (k (a, s')) s')
    (hR : ∀ a b ts s', H a b ts s' → R b ts s') : Ok R (m.bind k) s := by
  obtain ⟨a, s', rfl, h2, h3, h4⟩ := hm
  obtain ⟨b, s'', h5, h6, h7, h8⟩ := hk a s' h2 h3
  refine ⟨b, s'', h5, h6.trans h2, Nat.le_trans h3 h7, fun hc he => ?_⟩
  obtain ⟨ts, h9, h10⟩ := h4 hc (by omega)
  obtain ⟨us, h11, h12⟩ := h8 (hc.suffix h2) (by omega)
  exact ⟨ts ++ us, by rw [h9, h11, List.append_assoc], hR _ _ _ _ (h12 ts h10)⟩

/-- As `Ok.bind`, with one relation. -/
theorem Ok.bind' {α β : Type} {G : α → List Tok → P → Prop} {R : β → List Tok → P → Prop}
    {m : Option (α × P)} {s : P} {k : α × P → Option (β × P)} (hm : Ok G m s)
    (hk : ∀ a s', s'.toks <:+ s.toks → s.errs ≤ s'.errs → Ok (fun b ts s'' => ∀ us, G a us s' → R b (us ++ ts) s'') (k (a, s')) s') :
    Ok R (m.bind k) s := Ok.bind (H := fun _ b ts s' => R b ts s') hm hk fun _ _ _ _ h => h

theorem Ok.cons {α : Type} {G H : α → List Tok → P → Prop} {m : Option (α × P)} {t : Tok} {r : List Tok} {n : Nat} (h : Ok G m ⟨r, n⟩)
    (hG : ∀ a ts s', t.type ≠ .error → G a ts s' → H a (t :: ts) s') : Ok H m ⟨t :: r, n⟩ := by
  obtain ⟨a, s', h1, h2, h3, h4⟩ := h
  refine ⟨a, s', h1, h2.trans (List.suffix_cons t r), h3, fun hc he => ?_⟩
  obtain ⟨ts, h5, h6⟩ := h4 (hc.suffix (List.suffix_cons t r)) he
  exact ⟨t :: ts, by rw [List.cons_append, ← h5], hG _ _ _ (hc t (by simp)).1 h6⟩

theorem Ok.err {α : Type} {G H : α → List Tok → P → Prop} {m : Option (α × P)} {s : P} (h : Ok G m s.err) : Ok H m s := by
  obtain ⟨a, s', h1, h2, h3, h4⟩ := h
  have h3 : s.errs + 1 ≤ s'.errs := h3
  exact ⟨a, s', h1, h2, by omega, fun hc he => by omega⟩

theorem suffix_consume (s : P) : s.consume.toks <:+ s.toks := List.tail_suffix _

theorem suffix_recover (s : P) (fs : List TT) : (s.recover fs).toks <:+ s.toks := List.dropWhile_suffix _

/-- A state whose first token has a type other than `TK_EOF`. -/
theorem exists_cons {s : P} {tt : TT} (h : s.ty = tt) (he : tt ≠ .eof) : ∃ t r n, s = ⟨t :: r, n⟩ ∧ t.type = tt := by
  obtain ⟨toks, n⟩ := s
  match toks, h with
  | [], h => exact absurd h.symm he
  | t :: r, h => exact ⟨t, r, n, rfl, h⟩

theorem expect_cases (s : P) {tt : TT} (he : tt ≠ .eof) :
    (∃ t r n, s = ⟨t :: r, n⟩ ∧ s.expect tt = (true, ⟨r, n⟩) ∧ (t.type = tt ∨ t.type = .error)) ∨ s.expect tt = (false, s.err) := by
  unfold P.expect
  split
  · rename_i h
    left
    rcases h with h | h
    · obtain ⟨t, r, n, rfl, ht⟩ := exists_cons h he
      exact ⟨t, r, n, rfl, rfl, Or.inl ht⟩
    · obtain ⟨t, r, n, rfl, ht⟩ := exists_cons h (by decide)
      exact ⟨t, r, n, rfl, rfl, Or.inr ht⟩
  · exact Or.inr rfl

theorem accept_cases (s : P) {tt : TT} (he : tt ≠ .eof) :
    (∃ t r n, s = ⟨t :: r, n⟩ ∧ s.accept tt = (true, ⟨r, n⟩) ∧ (t.type = tt ∨ t.type = .error)) ∨ (s.accept tt = (false, s) ∧ s.ty ≠ tt) := by
  unfold P.accept
  split
  · rename_i h
    left
    rcases h with h | h
    · obtain ⟨t, r, n, rfl, ht⟩ := exists_cons h he
      exact ⟨t, r, n, rfl, rfl, Or.inl ht⟩
    · obtain ⟨t, r, n, rfl, ht⟩ := exists_cons h (by decide)
      exact ⟨t, r, n, rfl, rfl, Or.inr ht⟩
  · rename_i h
    exact Or.inr ⟨rfl, fun h' => h (Or.inl h')⟩

theorem Ok.expectOr {α : Type} {G H : α → List Tok → P → Prop} {s : P} {tt : TT} {fs : List TT} {e : α} {k : P → Option (α × P)} (he : tt ≠ .eof)
    (hk : ∀ t r n, s = ⟨t :: r, n⟩ → Ok G (k ⟨r, n⟩) ⟨r, n⟩) (hG : ∀ t, t.type = tt → ∀ a ts s', G a ts s' → H a (t :: ts) s') :
    Ok H (Parse.expectOr tt fs e s k) s := by
  rcases expect_cases s he with ⟨t, r, n, rfl, h, ht⟩ | h
  · simp only [Parse.expectOr, h, if_true]
    exact (hk t r n rfl).cons fun a ts s' hne hg => hG t (ht.resolve_right hne) a ts s' hg
  · simp only [Parse.expectOr, h, Bool.false_eq_true, if_false]
    exact Ok.fail (suffix_recover _ _) (Nat.lt_succ_self _)

theorem Ok.expectFirst {α : Type} {G H : α → List Tok → P → Prop} {s : P} {tt : TT} {fs : List TT} {e : α} {k : P → Option (α × P)} (he : tt ≠ .eof)
    (hk : ∀ t r n, s = ⟨t :: r, n⟩ → Ok G (k ⟨r, n⟩) ⟨r, n⟩) (hG : ∀ t, t.type = tt → ∀ a ts s', G a ts s' → H a (t :: ts) s') :
    Ok H (Parse.expectFirst tt fs e s k) s := by
  rcases expect_cases s he with ⟨t, r, n, rfl, h, ht⟩ | h
  · simp only [Parse.expectFirst, h, if_true]
    exact (hk t r n rfl).cons fun a ts s' hne hg => hG t (ht.resolve_right hne) a ts s' hg
  · simp only [Parse.expectFirst, h, Bool.false_eq_true, if_false]
    exact Ok.fail ((suffix_recover _ _).trans (suffix_consume _)) (Nat.lt_succ_self _)

/-! ### Relations -/

/-- Expressions are not followed by an operator that would belong to them. -/
def Done (q : Nat) (s : P) : Prop := s.ty ≠ .lpar ∧ ∀ p, prec s.ty = some p → p < q

def GExpr (q : Nat) (e : Expr) (ts : List Tok) (s : P) : Prop := Spec.Exp true q e ts ∧ Done q s

def GPostfix (e : Expr) (e' : Expr) (ts : List Tok) (s : P) : Prop := s.ty ≠ .lpar ∧ ∀ ts0, Spec.Postfix true e ts0 → Spec.Postfix true e' (ts0 ++ ts)

def GLoop (q : Nat) (lhs : Expr) (s : P) (e : Expr) (ts : List Tok) (s' : P) : Prop :=
  ∀ m ts0, q ≤ m → Spec.Exp true m lhs ts0 → (∀ p, prec s.ty = some p → p ≤ m) → s.ty ≠ .lpar → Spec.Exp true q e (ts0 ++ ts) ∧ Done q s'

/-- `none` only comes with an error message. -/
def GOpt {α : Type} (G : α → List Tok → Prop) (a : Option α) (ts : List Tok) (_ : P) : Prop := ∃ x, a = some x ∧ G x ts

def G0 {α : Type} (G : α → List Tok → Prop) (a : α) (ts : List Tok) (_ : P) : Prop := G a ts

/-- What is needed about shorter inputs. -/
structure All (s : P) : Prop where
  expr : ∀ q ≤ 9, Ok (GExpr q) (parseExpr q s) s
  exprs : Ok (G0 (Spec.Exps true)) (parseExprs s) s
  postfix_ : ∀ e, Ok (GPostfix e) (parsePostfix e s) s
  loop : ∀ q ≤ 9, ∀ lhs, Ok (GLoop q lhs s) (parseLoop q lhs s) s
  select : Ok (G0 (Spec.Sel true)) (parseSelect s) s
  items : Ok (GOpt (Spec.Items true)) (parseItems s) s
  sources : Ok (GOpt (Spec.Srcs true)) (parseSources s) s
  orders : Ok (G0 (Spec.Orders true)) (parseOrders s) s

theorem level_of_prec {t : TT} {p : Nat} (h : prec t = some p) : Spec.binaryLevel true t = some p ∧ 1 ≤ p ∧ p ≤ 8 ∧ t ≠ .eof := by
  cases t with
  | kw w =>
    simp only [prec] at h
    simp only [Spec.binaryLevel]
    split at h
    · simp_all; omega
    · split at h
      · rename_i h1 h2
        subst h2
        simp at h
        subst h
        simp
      · split at h
        · rename_i h1 h2 h3
          subst h3
          simp at h
          subst h
          simp
        · split at h
          · rename_i h1 h2 h3 h4
            subst h4
            simp at h
            subst h
            simp
          · simp at h
  | _ => simp [prec] at h <;> (try subst h) <;> simp [Spec.binaryLevel]

theorem exp_mono {m q : Nat} {e : Expr} {ts : List Tok} (h : Spec.Exp true m e ts) (hq : q ≤ m) : Spec.Exp true q e ts := by
  cases h with
  | postfix_ h => exact .postfix_ h
  | sign h _ h' => exact .sign h (Or.inr rfl) h'
  | not h _ h' => exact .not h (Or.inr rfl) h'
  | binary h1 h2 h3 h4 => exact .binary h1 (Nat.le_trans hq h2) h3 h4


/-! ### The induction -/
section
variable {n : Nat} (ih : ∀ s : P, s.toks.length < n → All s)
include ih

omit ih in
theorem isConst_spec {t : TT} (h : isConst t = true) : Spec.ConstType t := by
  unfold Spec.ConstType
  cases t <;> simp_all [isConst, K]

def GParen (e : Expr) (ts : List Tok) (_ : P) : Prop := ∀ l r : Tok, l.type = .lpar → r.type = .rpar → Spec.Postfix true e (l :: (ts ++ [r]))

theorem paren_ok {s : P} (h : s.toks.length < n) : Ok GParen (parseParen s) s := by
  rw [parseParen]
  split
  · refine Ok.bind' (ih s h).select fun q s' hs he => Ok.ret ?_
    intro us hq l r hl hr
    rw [List.append_nil]
    exact .query hl hr hq
  · exact ((ih s h).expr 0 (by omega)).weaken fun e ts s' hg l r hl hr => .paren hl hr hg.1

/-- What `parsePrimary` returns. -/
def GPrimary (e : Expr) (ts : List Tok) (s : P) : Prop :=
  Spec.Postfix true e ts ∨ ((∀ q, Spec.Exp true q e ts) ∧ s.ty ≠ .lpar)

/-- `Ok` for `parsePrimary`. -/
def OkPrimary (s : P) : Prop :=
  ∃ e ok s', parsePrimary s = some (e, ok, s') ∧ s'.toks <:+ s.toks ∧ s.errs ≤ s'.errs ∧ (ok = false → s.errs < s'.errs) ∧
    (Clean s → s'.errs = s.errs → ∃ ts, s.toks = ts ++ s'.toks ∧ GPrimary e ts s')

omit ih in
theorem designator_ok (s : P) : Ok (fun e ts _ => Spec.Postfix true e ts) (some (parseDesignator s)) s := by
  rcases expect_cases s (tt := .identifier) (by decide) with ⟨t, r, m, rfl, h, ht⟩ | h
  · simp only [parseDesignator, h, if_true]
    refine Ok.cons (G := fun e ts _ => t.type = .identifier → Spec.Postfix true e (t :: ts)) ?_
      fun a ts s' hne hg => hg (ht.resolve_right hne)
    split
    · rename_i hd
      obtain ⟨d, r', m', hd, hdt⟩ := exists_cons hd (by decide)
      cases hd
      simp only [P.consume, List.tail_cons]
      rcases expect_cases ⟨r', m⟩ (tt := .identifier) (by decide) with ⟨t', r'', m'', heq, h', ht'⟩ | h'
      · cases heq
        simp only [h', if_true]
        refine Ok.cons (G := fun e ts _ => t.type = .identifier → Spec.Postfix true e (t :: d :: ts)) ?_
          fun a ts s' hne hg => hg
        refine Ok.cons (G := fun e ts _ => t'.type = .identifier → t.type = .identifier → Spec.Postfix true e (t :: d :: t' :: ts)) ?_
          fun a ts s' hne hg => hg (ht'.resolve_right hne)
        refine Ok.ret fun h1 h2 => ?_
        obtain ⟨x, y⟩ := t
        obtain ⟨x', y'⟩ := t'
        cases h1
        cases h2
        exact .qualified hdt
      · simp only [h', Bool.false_eq_true, if_false]
        exact Ok.fail ((suffix_recover _ _).trans (List.suffix_cons _ _)) (Nat.lt_succ_self _)
    · refine Ok.ret fun h1 => ?_
      obtain ⟨x, y⟩ := t
      cases h1
      exact .attr
  · simp only [parseDesignator, h, Bool.false_eq_true, if_false]
    exact Ok.fail (suffix_recover _ _) (Nat.lt_succ_self _)

theorem primary_ok {s : P} (h : s.toks.length ≤ n) : OkPrimary s := by
  unfold OkPrimary
  rw [parsePrimary]
  split
  · obtain ⟨a, s', h1, h2, h3, h4⟩ := designator_ok s
    simp only [Option.some.injEq] at h1
    rw [h1]
    exact ⟨_, _, _, rfl, h2, h3, by simp, fun hc he => let ⟨ts, h5, h6⟩ := h4 hc he; ⟨ts, h5, Or.inl h6⟩⟩
  split
  · rename_i h1 hc
    refine ⟨_, _, _, rfl, suffix_consume s, Nat.le_refl _, by simp, fun _ _ => ?_⟩
    obtain ⟨t, r, m, rfl, ht⟩ := exists_cons (s := s) rfl (by intro h'; rw [h'] at hc; simp [isConst] at hc)
    exact ⟨[t], rfl, Or.inl (.const (isConst_spec hc))⟩
  split
  · rename_i h1 h2 hl
    obtain ⟨l, r, m, rfl, hl⟩ := exists_cons hl (by decide)
    obtain ⟨e, s', h3, h4, h5, h6⟩ := paren_ok ih (s := ⟨r, m⟩) (Nat.lt_of_lt_of_le (Nat.lt_succ_self _) h)
    simp only [P.consume, List.tail_cons, h3]
    rcases expect_cases s' (tt := .rpar) (by decide) with ⟨t', r', m', rfl, h', ht'⟩ | h'
    · refine ⟨e, true, ⟨r', m'⟩, by simp [h'], ((List.suffix_cons _ _).trans h4).trans (List.suffix_cons _ _), h5, by simp, fun hc he => ?_⟩
      have hc' : Clean ⟨r, m⟩ := hc.suffix (List.suffix_cons _ _)
      obtain ⟨ts, h7, h8⟩ := h6 hc' he
      have hc'' : Clean ⟨t' :: r', m'⟩ := hc'.suffix h4
      refine ⟨l :: (ts ++ [t']), ?_, Or.inl (h8 l t' hl (ht'.resolve_right (hc'' t' (by simp)).1))⟩
      simp only at h7 ⊢
      rw [h7]
      simp
    · refine ⟨e, true, s'.err.recover Follow.primary, by simp [h'], (suffix_recover _ _).trans (h4.trans (List.suffix_cons _ _)),
        Nat.le_trans h5 (Nat.le_succ _), by simp, fun hc he => ?_⟩
      have : s'.errs + 1 = m := he
      have : m ≤ s'.errs := h5
      omega
  split
  · rename_i h1 h2 h3 hop
    obtain ⟨l, r, m, rfl, hl⟩ := exists_cons (s := s) rfl (by intro h'; simp [h'] at hop)
    obtain ⟨e, s', h4, h5, h6, h7⟩ := (ih ⟨r, m⟩ (Nat.lt_of_lt_of_le (Nat.lt_succ_self _) h)).expr 8 (by omega)
    simp only [P.consume, List.tail_cons, h4]
    refine ⟨_, _, _, rfl, h5.trans (List.suffix_cons _ _), h6, by simp, fun hc he => ?_⟩
    obtain ⟨ts, h8, h9⟩ := h7 (hc.suffix (List.suffix_cons _ _)) he
    exact ⟨l :: ts, by simp only at h8 ⊢; rw [h8]; simp, Or.inr ⟨fun q => .sign hop (Or.inr rfl) h9.1, h9.2.1⟩⟩
  split
  · rename_i h1 h2 h3 h0 hop
    obtain ⟨l, r, m, rfl, hl⟩ := exists_cons hop (by decide)
    obtain ⟨e, s', h4, h5, h6, h7⟩ := (ih ⟨r, m⟩ (Nat.lt_of_lt_of_le (Nat.lt_succ_self _) h)).expr 3 (by omega)
    simp only [P.consume, List.tail_cons, h4]
    refine ⟨_, _, _, rfl, h5.trans (List.suffix_cons _ _), h6, by simp, fun hc he => ?_⟩
    obtain ⟨ts, h8, h9⟩ := h7 (hc.suffix (List.suffix_cons _ _)) he
    exact ⟨l :: ts, by simp only at h8 ⊢; rw [h8]; simp, Or.inr ⟨fun q => .not hop (Or.inr rfl) h9.1, h9.2.1⟩⟩
  · refine ⟨_, _, _, rfl, suffix_recover _ _, Nat.le_succ _, fun _ => Nat.lt_succ_self _, fun hc he => ?_⟩
    have : s.errs + 1 = s.errs := he
    omega

def GArgs (args : List Expr) (us : List Tok) (_ : P) : Prop :=
  ∀ f ts (l r : Tok), Spec.Postfix true f ts → l.type = .lpar → r.type = .rpar → Spec.Postfix true (.fn f args) (ts ++ l :: (us ++ [r]))

theorem args_ok {s : P} (h : s.toks.length < n) : Ok GArgs (parseArgs s) s := by
  rw [parseArgs]
  split
  · rename_i ha
    obtain ⟨a, r, m, rfl, ha⟩ := exists_cons ha (by decide)
    refine Ok.cons (G := fun args ts _ => args = [] ∧ ts = []) (Ok.ret ⟨rfl, rfl⟩) ?_
    rintro args ts s' _ ⟨rfl, rfl⟩ f ts l r hf hl hr
    exact .star hl ha hr hf
  split
  · exact (ih s h).exprs.weaken fun es ts s' hg f us l r hf hl hr => .call hl hr hf hg
  · refine Ok.ret ?_
    intro f ts l r hf hl hr
    exact .call0 hl hr hf

theorem postfix_ok {s : P} (h : s.toks.length ≤ n) (e : Expr) : Ok (GPostfix e) (parsePostfix e s) s := by
  rw [parsePostfix]
  split
  · rename_i hl
    obtain ⟨l, r, m, rfl, hl⟩ := exists_cons hl (by decide)
    refine Ok.cons (G := fun e' ts s' => s'.ty ≠ .lpar ∧ ∀ ts0, Spec.Postfix true e ts0 → Spec.Postfix true e' (ts0 ++ l :: ts)) ?_
      fun e' ts s' _ hg => hg
    refine Ok.bind' (args_ok ih (s := ⟨r, m⟩) (Nat.lt_of_lt_of_le (Nat.lt_succ_self _) h)) fun args s' hs he => ?_
    have hlen : s'.toks.length < n := by
      have := hs.length_le
      simp only [List.length_cons] at h this
      omega
    rcases expect_cases s' (tt := .rpar) (by decide) with ⟨t', r', m', rfl, h', ht'⟩ | h'
    · simp only [h', if_true]
      refine Ok.cons ((ih ⟨r', m'⟩ (by simp only [List.length_cons] at hlen; simp only; omega)).postfix_ _) fun e' ts s'' hne hg us hu => ?_
      refine ⟨hg.1, fun ts0 h0 => ?_⟩
      have := hg.2 _ (hu e ts0 l t' h0 hl (ht'.resolve_right hne))
      simpa using this
    · simp only [h', Bool.false_eq_true, if_false]
      have h2 := (ih (s'.err.recover Follow.postfixExpr) (Nat.lt_of_le_of_lt (suffix_recover _ _).length_le hlen)).postfix_ .error
      obtain ⟨a, s'', h3, h4, h5, _⟩ := h2
      rw [h3]
      exact Ok.fail (h4.trans (suffix_recover _ _)) (Nat.lt_of_lt_of_le (Nat.lt_succ_self _) h5)
  · rename_i hl
    exact Ok.ret ⟨hl, fun ts0 h0 => by simpa using h0⟩

theorem loop_ok {s : P} (h : s.toks.length ≤ n) (q : Nat) (hq : q ≤ 9) (lhs : Expr) : Ok (GLoop q lhs s) (parseLoop q lhs s) s := by
  rw [parseLoop]
  split
  · rename_i hp
    refine Ok.ret fun m ts0 hm h0 _ hl => ⟨by simpa using exp_mono h0 hm, hl, fun p hp' => by simp [hp] at hp'⟩
  · rename_i p hp
    obtain ⟨hlev, hp1, hp8, hne⟩ := level_of_prec hp
    split
    · rename_i hqp
      refine Ok.ret fun m ts0 hm h0 _ hl => ⟨by simpa using exp_mono h0 hm, hl, fun p' hp' => ?_⟩
      rw [hp] at hp'
      cases hp'
      exact hqp
    · rename_i hqp
      obtain ⟨t, r, m, rfl, ht⟩ := exists_cons (s := s) rfl hne
      refine Ok.cons (G := fun e ts s' => ∀ m' ts0, q ≤ m' → Spec.Exp true m' lhs ts0 → p ≤ m' → Spec.Exp true q e (ts0 ++ t :: ts) ∧ Done q s') ?_ ?_
      · refine Ok.bind' ((ih ⟨r, m⟩ (Nat.lt_of_lt_of_le (Nat.lt_succ_self _) h)).expr (p + 1) (by omega)) fun rhs s' hs he => ?_
        have hlen : s'.toks.length < n := by
          have := hs.length_le
          simp only [List.length_cons] at h this
          omega
        refine ((ih s' hlen).loop q hq (.binary t lhs rhs)).weaken fun e ts s'' hg us hu m' ts0 hm' h0 hp' => ?_
        have := hg p (ts0 ++ t :: us) (by omega) (.binary hlev (Nat.le_refl _) (exp_mono h0 hp') hu.1)
          (fun p' hp' => Nat.le_of_lt_succ (hu.2.2 p' hp')) hu.2.1
        simpa using this
      · intro e ts s' _ hg m' ts0 hm h0 hpm _
        exact hg m' ts0 hm h0 (hpm p hp)

theorem expr_ok {s : P} (h : s.toks.length ≤ n) (q : Nat) (hq : q ≤ 9) : Ok (GExpr q) (parseExpr q s) s := by
  rw [parseExpr]
  obtain ⟨e, ok, s', h1, h2, h3, h4, h5⟩ := primary_ok ih h
  have hlen : s'.toks.length ≤ n := Nat.le_trans h2.length_le h
  rw [h1]
  cases ok with
  | false => exact Ok.fail h2 (h4 rfl)
  | true =>
    show Ok (GExpr q) (Option.bind (parsePostfix e s') fun x => parseLoop q x.1 x.2) s
    have key : Ok (fun e' ts s'' => ∀ us, GPrimary e us s' → GExpr q e' (us ++ ts) s'')
        (Option.bind (parsePostfix e s') fun x => parseLoop q x.1 x.2) s' := by
      obtain ⟨e1, s1, g1, g2, g3, g4⟩ := postfix_ok ih hlen e
      obtain ⟨e2, s2, k1, k2, k3, k4⟩ := loop_ok ih (Nat.le_trans g2.length_le hlen) q hq e1
      refine ⟨e2, s2, by simp [g1, k1], k2.trans g2, Nat.le_trans g3 k3, fun hc he => ?_⟩
      obtain ⟨ts1, g5, g6, g7⟩ := g4 hc (by omega)
      obtain ⟨ts2, k5, k6⟩ := k4 (hc.suffix g2) (by omega)
      refine ⟨ts1 ++ ts2, by rw [g5, k5, List.append_assoc], fun us hu => ?_⟩
      have hlev : ∀ p, prec s1.ty = some p → p ≤ 9 := fun p hp => by have := (level_of_prec hp).2.2.1; omega
      rcases hu with hu | ⟨hu, hl⟩
      · have := k6 9 (us ++ ts1) hq (.postfix_ (g7 us hu)) hlev g6
        simpa [GExpr] using this
      · rw [parsePostfix, if_neg hl] at g1
        cases g1
        have hts : ts1 = [] := by
          have := congrArg List.length g5
          rw [List.length_append] at this
          exact List.eq_nil_of_length_eq_zero (by omega)
        subst hts
        have := k6 9 us hq (hu 9) hlev hl
        simpa [GExpr] using this
    obtain ⟨e2, s2, k1, k2, k3, k4⟩ := key
    refine ⟨e2, s2, k1, k2.trans h2, Nat.le_trans h3 k3, fun hc he => ?_⟩
    obtain ⟨ts1, g5, g6⟩ := h5 hc (by omega)
    obtain ⟨ts2, k5, k6⟩ := k4 (hc.suffix h2) (by omega)
    exact ⟨ts1 ++ ts2, by rw [g5, k5, List.append_assoc], k6 _ g6⟩

omit ih in
theorem Ok.tok {α : Type} {H : α → List Tok → P → Prop} {m : Option (α × P)} {t : Tok} {r : List Tok} {k : Nat} {tt : TT}
    (ht : t.type = tt ∨ t.type = .error) (h : Ok (fun a ts s' => t.type = tt → H a (t :: ts) s') m ⟨r, k⟩) : Ok H m ⟨t :: r, k⟩ :=
  h.cons fun _ _ _ hne hg => hg (ht.resolve_right hne)

omit ih in
theorem Ok.skip {α : Type} {H : α → List Tok → P → Prop} {m : Option (α × P)} {t : Tok} {r : List Tok} {k : Nat}
    (h : Ok (fun a ts s' => H a (t :: ts) s') m ⟨r, k⟩) : Ok H m ⟨t :: r, k⟩ := h.cons fun _ _ _ _ hg => hg

omit ih in
theorem ident_eq {t : Tok} (h : t.type = .identifier) : t = ⟨t.text, .identifier⟩ := by
  obtain ⟨x, y⟩ := t
  cases h
  rfl

omit ih in
theorem alias_ok (s : P) : Ok (GOpt Spec.Alias) (some (parseAlias s)) s := by
  unfold parseAlias
  rcases accept_cases s (tt := K "AS") (by decide) with ⟨t, r, m, rfl, h, ht⟩ | ⟨h, h'⟩
  · simp only [h, if_true]
    refine Ok.tok ht ?_
    rcases expect_cases ⟨r, m⟩ (tt := .identifier) (by decide) with ⟨t', r', m', heq, h', ht'⟩ | h'
    · cases heq
      simp only [h', if_true]
      refine Ok.tok ht' (Ok.ret fun h1 h2 => ⟨_, rfl, ?_⟩)
      rw [ident_eq h1]
      exact .as_ h2
    · simp only [h', Bool.false_eq_true, if_false]
      exact Ok.fail List.suffix_rfl (Nat.lt_succ_self _)
  · simp only [h, Bool.false_eq_true, if_false]
    split
    · rename_i hi
      obtain ⟨t, r, m, rfl, ht⟩ := exists_cons hi (by decide)
      refine Ok.skip (Ok.ret ⟨_, rfl, ?_⟩)
      rw [ident_eq ht]
      exact .plain
    · exact Ok.ret ⟨_, rfl, .none⟩

omit ih in
theorem intType_of {t : TT} (h : t = .decInt ∨ t = .octInt ∨ t = .hexInt) : Spec.IntType t ∧ t ≠ .eof := by
  rcases h with rfl | rfl | rfl <;> simp [Spec.IntType]

omit ih in
theorem limit_ok (s : P) : Ok (G0 Spec.Limit) (parseLimit s) s := by
  unfold parseLimit
  refine Ok.expectFirst (G := fun c ts _ => ∀ k, k.type = K "LIMIT" → Spec.Limit c (k :: ts)) (by decide) ?_ fun t ht a ts s' h => h t ht
  intro t r n hs
  clear hs
  dsimp only
  split
  · rename_i hl
    obtain ⟨hi, hne⟩ := intType_of hl
    obtain ⟨l, r', m, heq, ht⟩ := exists_cons (s := ⟨r, n⟩) rfl (by exact hne)
    cases heq
    refine Ok.cons (G := fun c ts _ => ∀ k, k.type = K "LIMIT" → Spec.Limit c (k :: l :: ts)) ?_ fun _ _ _ _ h => h
    simp only [P.consume, List.tail_cons]
    rcases accept_cases ⟨r', n⟩ (tt := K "OFFSET") (by decide) with ⟨t', r'', m', heq, h', ht'⟩ | ⟨h', _⟩
    · cases heq
      simp only [h', if_true]
      refine Ok.tok ht' ?_
      split
      · rename_i ho
        obtain ⟨hi', hne'⟩ := intType_of ho
        obtain ⟨o, r3, m3, heq, _⟩ := exists_cons (s := ⟨r'', n⟩) rfl (by exact hne')
        cases heq
        refine Ok.cons (G := fun c ts _ => c = .limit l (some o) ∧ ts = []) (Ok.ret ⟨rfl, rfl⟩) ?_
        rintro _ _ _ _ ⟨rfl, rfl⟩ ht' k hk
        exact .offset hk hi ht' hi'
      · exact Ok.fail (suffix_recover _ _) (Nat.lt_succ_self _)
    · simp only [h', Bool.false_eq_true, if_false]
      exact Ok.ret fun k hk => .limit hk hi
  · exact Ok.fail (suffix_recover _ _) (Nat.lt_succ_self _)

theorem exprs_ok {s : P} (h : s.toks.length ≤ n) : Ok (G0 (Spec.Exps true)) (parseExprs s) s := by
  rw [parseExprs]
  refine Ok.bind' (expr_ok ih h 0 (by omega)) fun e s' hs he => ?_
  have hlen : s'.toks.length ≤ n := Nat.le_trans hs.length_le h
  rcases accept_cases s' (tt := .comma) (by decide) with ⟨t, r, m, rfl, hh, ht⟩ | ⟨hh, _⟩
  · simp only [hh, if_true]
    refine Ok.tok ht ?_
    refine Ok.bind' (ih ⟨r, m⟩ (Nat.lt_of_lt_of_le (Nat.lt_succ_self _) hlen)).exprs fun es s'' hs' he' => Ok.ret ?_
    intro us hus ht vs hvs
    rw [List.append_nil]
    exact .more hvs.1 ht hus
  · simp only [hh, Bool.false_eq_true, if_false]
    exact Ok.ret fun us hus => by rw [List.append_nil]; exact .one hus.1

theorem items_ok {s : P} (h : s.toks.length ≤ n) : Ok (GOpt (Spec.Items true)) (parseItems s) s := by
  rw [parseItems]
  refine Ok.bind' (expr_ok ih h 0 (by omega)) fun e s1 hs1 he1 => ?_
  have hlen1 : s1.toks.length ≤ n := Nat.le_trans hs1.length_le h
  obtain ⟨a, s2, h2, hs2, he2, g2⟩ := alias_ok s1
  simp only [Option.some.injEq] at h2
  have hlen2 : s2.toks.length ≤ n := Nat.le_trans hs2.length_le hlen1
  simp only [h2]
  cases a with
  | none =>
    refine ⟨_, _, rfl, hs2, he2, fun hc he => ?_⟩
    obtain ⟨_, _, x, hx, _⟩ := g2 hc he
    simp at hx
  | some a =>
    have key : Ok (fun is ts s' => ∀ us vs, GExpr 0 e us s1 → Spec.Alias a vs → GOpt (Spec.Items true) is (us ++ vs ++ ts) s')
        (Option.bind (parseMoreItems s2) fun x => some (x.1.map ((e, a) :: ·), x.2)) s2 := by
      rw [parseMoreItems]
      rcases accept_cases s2 (tt := .comma) (by decide) with ⟨t, r, m, rfl, hh, ht⟩ | ⟨hh, _⟩
      · simp only [hh, if_true]
        refine Ok.tok ht ?_
        refine Ok.bind' (ih ⟨r, m⟩ (Nat.lt_of_lt_of_le (Nat.lt_succ_self _) hlen2)).items fun is s3 hs3 he3 => Ok.ret ?_
        rintro ws ⟨x, rfl, hx⟩ ht us vs hus hvs
        refine ⟨_, rfl, ?_⟩
        rw [List.append_nil]
        exact .more hus.1 hvs ht hx
      · simp only [hh, Bool.false_eq_true, if_false]
        refine Ok.ret fun us vs hus hvs => ⟨_, rfl, ?_⟩
        rw [List.append_nil]
        exact .one hus.1 hvs
    obtain ⟨is, s3, h3, hs3, he3, g3⟩ := key
    refine ⟨is, s3, h3, hs3.trans hs2, Nat.le_trans he2 he3, fun hc he => ?_⟩
    obtain ⟨vs, h4, x, hx, h5⟩ := g2 hc (by omega)
    obtain ⟨ws, h6, h7⟩ := g3 (hc.suffix hs2) (by omega)
    cases hx
    refine ⟨vs ++ ws, by rw [h4, h6, List.append_assoc], fun us hus => ?_⟩
    have := h7 us vs hus h5
    simpa using this

theorem orders_ok {s : P} (h : s.toks.length ≤ n) : Ok (G0 (Spec.Orders true)) (parseOrders s) s := by
  rw [parseOrders]
  refine Ok.bind' (expr_ok ih h 0 (by omega)) fun e s1 hs1 he1 => ?_
  have hlen1 : s1.toks.length ≤ n := Nat.le_trans hs1.length_le h
  have key : ∀ d s2, s2.toks.length ≤ n → Ok (fun os ts s' => ∀ us ds, GExpr 0 e us s1 → Spec.Direction d ds → Spec.Orders true os (us ++ ds ++ ts))
      (if (P.accept s2 .comma).1 = true then Option.bind (parseOrders (P.accept s2 .comma).2) fun x => some ((e, d) :: x.1, x.2)
        else some ([(e, d)], (P.accept s2 .comma).2)) s2 := by
    intro d s2 hlen2
    rcases accept_cases s2 (tt := .comma) (by decide) with ⟨t, r, m, rfl, hh, ht⟩ | ⟨hh, _⟩
    · simp only [hh, if_true]
      refine Ok.tok ht ?_
      refine Ok.bind' (ih ⟨r, m⟩ (Nat.lt_of_lt_of_le (Nat.lt_succ_self _) hlen2)).orders fun os s3 hs3 he3 => Ok.ret ?_
      intro ws hx ht us ds hus hds
      rw [List.append_nil]
      exact .more hus.1 hds ht hx
    · simp only [hh, Bool.false_eq_true, if_false]
      refine Ok.ret fun us ds hus hds => ?_
      rw [List.append_nil]
      exact .one hus.1 hds
  dsimp only
  rcases accept_cases s1 (tt := K "DESC") (by decide) with ⟨t, r, m, rfl, hh, ht⟩ | ⟨hh, _⟩
  · simp only [hh, if_true]
    refine Ok.tok ht ?_
    refine (key false ⟨r, m⟩ (Nat.le_of_lt (Nat.lt_of_lt_of_le (Nat.lt_succ_self _) hlen1))).weaken fun os ts s' hg ht us hus => ?_
    have := hg us [t] hus (.desc ht)
    simpa [G0] using this
  · simp only [hh, Bool.false_eq_true, if_false]
    rcases accept_cases s1 (tt := K "ASC") (by decide) with ⟨t, r, m, rfl, h2, ht⟩ | ⟨h2, _⟩
    · simp only [h2]
      refine Ok.tok ht ?_
      refine (key true ⟨r, m⟩ (Nat.le_of_lt (Nat.lt_of_lt_of_le (Nat.lt_succ_self _) hlen1))).weaken fun os ts s' hg ht us hus => ?_
      have := hg us [t] hus (.asc ht)
      simpa [G0] using this
    · simp only [h2]
      refine (key true s1 hlen1).weaken fun os ts s' hg us hus => ?_
      have := hg us [] hus .default
      simpa [G0] using this

omit ih in
/-- Threading a result through a function that returns `some`. -/
theorem Ok.pure {α β : Type} {G : α → List Tok → P → Prop} {H : β → List Tok → P → Prop} {r : α × P} {s : P} {k : α × P → β × P}
    (h : Ok G (some r) s) (hk : ∀ a s', Ok (fun b ts s'' => ∀ us, G a us s' → H b (us ++ ts) s'') (some (k (a, s'))) s') :
    Ok H (some (k r)) s := by
  obtain ⟨a, s', h1, h2, h3, h4⟩ := h
  simp only [Option.some.injEq] at h1
  subst h1
  obtain ⟨b, s'', h5, h6, h7, h8⟩ := hk a s'
  refine ⟨b, s'', h5, h6.trans h2, Nat.le_trans h3 h7, fun hc he => ?_⟩
  obtain ⟨ts, h9, h10⟩ := h4 hc (by omega)
  obtain ⟨us, h11, h12⟩ := h8 (hc.suffix h2) (by omega)
  exact ⟨ts ++ us, by rw [h9, h11, List.append_assoc], h12 ts h10⟩

theorem source_ok {s : P} (h : s.toks.length ≤ n) : Ok (GOpt (Spec.Src true)) (parseSource s) s := by
  rw [parseSource]
  rcases accept_cases s (tt := .lpar) (by decide) with ⟨t, r, m, rfl, hh, ht⟩ | ⟨hh, _⟩
  · simp only [hh, if_true]
    refine Ok.tok ht ?_
    refine Ok.bind' (ih ⟨r, m⟩ (Nat.lt_of_lt_of_le (Nat.lt_succ_self _) h)).select fun q s1 hs1 he1 => ?_
    dsimp only
    rcases expect_cases s1 (tt := .rpar) (by decide) with ⟨t1, r1, m1, rfl, h1, ht1⟩ | h1
    · simp only [h1, if_true]
      refine Ok.tok ht1 ?_
      have key : ∀ s2 : P, Ok (fun a ts _ => ∃ t : Tok, ts = [⟨t.text, .identifier⟩] ∧ a = some (.nested q t.text))
          (if (s2.expect .identifier).1 = true then some (some (Source.nested q s2.tok.text), (s2.expect .identifier).2)
            else some (none, (s2.expect .identifier).2)) s2 := by
        intro s2
        rcases expect_cases s2 (tt := .identifier) (by decide) with ⟨t2, r2, m2, rfl, h2, ht2⟩ | h2
        · simp only [h2, if_true]
          refine Ok.tok ht2 (Ok.ret fun h3 => ⟨t2, ?_, rfl⟩)
          rw [← ident_eq h3]
        · simp only [h2, Bool.false_eq_true, if_false]
          exact Ok.fail List.suffix_rfl (Nat.lt_succ_self _)
      rcases accept_cases ⟨r1, m1⟩ (tt := K "AS") (by decide) with ⟨t2, r2, m2, heq, h2, ht2⟩ | ⟨h2, _⟩
      · cases heq
        simp only [h2]
        refine Ok.tok ht2 ((key ⟨r2, m1⟩).weaken ?_)
        rintro a ts s' ⟨t3, rfl, rfl⟩ has hr us hus hl
        exact ⟨_, rfl, by simpa using Spec.Src.nested hl hr hus (.as_ has)⟩
      · simp only [h2]
        refine (key ⟨r1, m1⟩).weaken ?_
        rintro a ts s' ⟨t3, rfl, rfl⟩ hr us hus hl
        exact ⟨_, rfl, by simpa using Spec.Src.nested hl hr hus .plain⟩
    · simp only [h1, Bool.false_eq_true, if_false]
      exact Ok.fail List.suffix_rfl (Nat.lt_succ_self _)
  · simp only [hh, Bool.false_eq_true, if_false]
    rcases expect_cases s (tt := .identifier) (by decide) with ⟨t2, r2, m2, rfl, h2, ht2⟩ | h2
    · simp only [h2, if_true]
      refine Ok.tok ht2 ?_
      refine Ok.pure (k := fun r => (r.1.map (Source.table t2.text), r.2)) (alias_ok ⟨r2, m2⟩) fun a s' => Ok.ret ?_
      rintro us ⟨x, rfl, hx⟩ hi
      refine ⟨_, rfl, ?_⟩
      rw [List.append_nil, ident_eq hi]
      exact .table hx
    · simp only [h2, Bool.false_eq_true, if_false]
      exact Ok.fail List.suffix_rfl (Nat.lt_succ_self _)

theorem sources_ok {s : P} (h : s.toks.length ≤ n) : Ok (GOpt (Spec.Srcs true)) (parseSources s) s := by
  rw [parseSources]
  refine Ok.bind' (source_ok ih h) fun x s' hs he => ?_
  have hlen : s'.toks.length ≤ n := Nat.le_trans hs.length_le h
  cases x with
  | none =>
    refine Ok.ret ?_
    rintro us ⟨x, hx, _⟩
    simp at hx
  | some x =>
    dsimp only
    rcases accept_cases s' (tt := .comma) (by decide) with ⟨t, r, m, rfl, hh, ht⟩ | ⟨hh, _⟩
    · simp only [hh, if_true]
      refine Ok.tok ht ?_
      refine Ok.bind' (ih ⟨r, m⟩ (Nat.lt_of_lt_of_le (Nat.lt_succ_self _) hlen)).sources fun es s'' hs' he' => Ok.ret ?_
      rintro us ⟨y, rfl, hy⟩ ht vs ⟨z, hz, hvs⟩
      cases hz
      refine ⟨_, rfl, ?_⟩
      rw [List.append_nil]
      exact .more hvs ht hy
    · simp only [hh, Bool.false_eq_true, if_false]
      refine Ok.ret ?_
      rintro vs ⟨z, hz, hvs⟩
      cases hz
      exact ⟨_, rfl, by rw [List.append_nil]; exact .one hvs⟩

omit ih in
/-- Errors of a list become an error clause. -/
theorem Ok.orErr {α β : Type} {G : α → List Tok → Prop} {H : β → List Tok → P → Prop} {m : Option (Option α × P)} {s : P} (f : α → β) (e : β) (fs : List TT)
    {k : Option α × P → Option (β × P)} (hm : Ok (GOpt G) m s) (h0 : ∀ a s', k (some a, s') = some (f a, s'))
    (h1 : ∀ s', k (none, s') = some (e, s'.recover fs)) (hf : ∀ a ts s', G a ts → H (f a) ts s') : Ok H (m.bind k) s := by
  obtain ⟨a, s', rfl, h2, h3, h4⟩ := hm
  cases a with
  | some a =>
    refine ⟨f a, s', h0 a s', h2, h3, fun hc he => ?_⟩
    obtain ⟨ts, h5, x, hx, h6⟩ := h4 hc he
    cases hx
    exact ⟨ts, h5, hf _ _ _ h6⟩
  | none =>
    refine ⟨e, s'.recover fs, h1 s', (suffix_recover _ _).trans h2, h3, fun hc he => ?_⟩
    obtain ⟨ts, h5, x, hx, h6⟩ := h4 hc he
    simp at hx

theorem selectClause_ok {s : P} (h : s.toks.length ≤ n) : Ok (G0 (Spec.SelClause true)) (parseSelectClause s) s := by
  rw [parseSelectClause]
  refine Ok.expectFirst (G := fun c ts _ => ∀ k, k.type = K "SELECT" → Spec.SelClause true c (k :: ts)) (by decide) ?_
    fun t ht a ts s' h => h t ht
  intro t r m hs
  subst hs
  have hlen : r.length ≤ n := Nat.le_of_lt (Nat.lt_of_lt_of_le (Nat.lt_succ_self _) h)
  split
  · rename_i ha
    obtain ⟨a, r', m', heq, ha⟩ := exists_cons ha (by decide)
    cases heq
    refine Ok.skip ?_
    refine Ok.orErr (G := fun is ts => ∀ k, k.type = K "SELECT" → Spec.SelClause true (.select true is) (k :: a :: ts)) (.select true) .error
      Follow.selectClause ?_ (fun _ _ => rfl) (fun _ => rfl) fun is ts s' hg => hg
    simp only [P.consume, List.tail_cons]
    rw [parseMoreItems]
    rcases accept_cases ⟨r', m⟩ (tt := .comma) (by decide) with ⟨t, r, m, heq, hh, ht⟩ | ⟨hh, _⟩
    · cases heq
      simp only [hh, if_true]
      refine Ok.tok ht (Ok.weaken (ih ⟨r, _⟩ (Nat.lt_of_lt_of_le (Nat.lt_succ_of_lt (Nat.lt_succ_self _)) hlen)).items ?_)
      rintro a ts s' ⟨x, rfl, hx⟩ hc
      exact ⟨_, rfl, fun k hk => .starMore hk ha hc hx⟩
    · simp only [hh, Bool.false_eq_true, if_false]
      exact Ok.ret ⟨_, rfl, fun k hk => .star hk ha⟩
  · exact Ok.orErr (.select false) .error Follow.selectClause (items_ok ih hlen) (fun _ _ => rfl) (fun _ => rfl) fun is ts s' hg k hk => .items hk hg

/-- An optional clause. -/
theorem optFrom_ok {s : P} (h : s.toks.length ≤ n) : Ok (G0 (Spec.OptCl true 0)) (parseOptFrom s) s := by
  rw [parseOptFrom]
  split
  · refine Ok.bind' (G := G0 (Spec.Cl true 0)) ?_ fun c s' _ _ => Ok.ret fun us hus => by rw [List.append_nil]; exact .some hus
    rw [parseFromClause]
    refine Ok.expectFirst (G := fun c ts _ => ∀ k, k.type = K "FROM" → Spec.Cl true 0 c (k :: ts)) (by decide) ?_ fun t ht a ts s' h => h t ht
    intro t r m hs
    subst hs
    have hlen : r.length ≤ n := Nat.le_of_lt (Nat.lt_of_lt_of_le (Nat.lt_succ_self _) h)
    exact Ok.orErr .from_ .error Follow.fromClause (sources_ok ih hlen) (fun _ _ => rfl) (fun _ => rfl) fun is ts s' hg k hk => .from_ hk hg
  · exact Ok.ret .none

theorem optWhere_ok {s : P} (h : s.toks.length ≤ n) : Ok (G0 (Spec.OptCl true 1)) (parseOptWhere s) s := by
  rw [parseOptWhere]
  split
  · refine Ok.bind' (G := G0 (Spec.Cl true 1)) ?_ fun c s' _ _ => Ok.ret fun us hus => by rw [List.append_nil]; exact .some hus
    refine Ok.expectFirst (G := fun c ts _ => ∀ k, k.type = K "WHERE" → Spec.Cl true 1 c (k :: ts)) (by decide) ?_ fun t ht a ts s' h => h t ht
    intro t r m hs
    subst hs
    have hlen : r.length ≤ n := Nat.le_of_lt (Nat.lt_of_lt_of_le (Nat.lt_succ_self _) h)
    exact Ok.bind' (expr_ok ih (s := ⟨r, m⟩) hlen 0 (by omega)) fun c s' _ _ => Ok.ret fun us hus k hk => by rw [List.append_nil]; exact .where_ hk hus.1
  · exact Ok.ret .none

theorem optGroupBy_ok {s : P} (h : s.toks.length ≤ n) : Ok (G0 (Spec.OptCl true 2)) (parseOptGroupBy s) s := by
  rw [parseOptGroupBy]
  split
  · refine Ok.bind' (G := G0 (Spec.Cl true 2)) ?_ fun c s' _ _ => Ok.ret fun us hus => by rw [List.append_nil]; exact .some hus
    refine Ok.expectFirst (G := fun c ts _ => ∀ k, k.type = K "GROUP" → Spec.Cl true 2 c (k :: ts)) (by decide) ?_ fun t ht a ts s' h => h t ht
    intro t r m hs
    subst hs
    refine Ok.expectOr (G := fun c ts _ => ∀ b, b.type = K "BY" → ∀ k, k.type = K "GROUP" → Spec.Cl true 2 c (k :: b :: ts)) (by decide) ?_ fun t ht a ts s' h => h t ht
    intro t' r' m' hs
    cases hs
    have hlen : r'.length ≤ n := Nat.le_of_lt (Nat.lt_of_lt_of_le (Nat.lt_succ_of_lt (Nat.lt_succ_self _)) h)
    exact Ok.orErr .groupBy .error Follow.groupByClause (items_ok ih hlen) (fun _ _ => rfl) (fun _ => rfl) fun is ts s' hg b hb k hk => .groupBy hk hb hg
  · exact Ok.ret .none

theorem optHaving_ok {s : P} (h : s.toks.length ≤ n) : Ok (G0 (Spec.OptCl true 3)) (parseOptHaving s) s := by
  rw [parseOptHaving]
  split
  · refine Ok.bind' (G := G0 (Spec.Cl true 3)) ?_ fun c s' _ _ => Ok.ret fun us hus => by rw [List.append_nil]; exact .some hus
    refine Ok.expectFirst (G := fun c ts _ => ∀ k, k.type = K "HAVING" → Spec.Cl true 3 c (k :: ts)) (by decide) ?_ fun t ht a ts s' h => h t ht
    intro t r m hs
    subst hs
    have hlen : r.length ≤ n := Nat.le_of_lt (Nat.lt_of_lt_of_le (Nat.lt_succ_self _) h)
    exact Ok.bind' (expr_ok ih (s := ⟨r, m⟩) hlen 0 (by omega)) fun c s' _ _ => Ok.ret fun us hus k hk => by rw [List.append_nil]; exact .having hk hus.1
  · exact Ok.ret .none

theorem optOrderBy_ok {s : P} (h : s.toks.length ≤ n) : Ok (G0 (Spec.OptCl true 4)) (parseOptOrderBy s) s := by
  rw [parseOptOrderBy]
  split
  · refine Ok.bind' (G := G0 (Spec.Cl true 4)) ?_ fun c s' _ _ => Ok.ret fun us hus => by rw [List.append_nil]; exact .some hus
    refine Ok.expectFirst (G := fun c ts _ => ∀ k, k.type = K "ORDER" → Spec.Cl true 4 c (k :: ts)) (by decide) ?_ fun t ht a ts s' h => h t ht
    intro t r m hs
    subst hs
    refine Ok.expectOr (G := fun c ts _ => ∀ b, b.type = K "BY" → ∀ k, k.type = K "ORDER" → Spec.Cl true 4 c (k :: b :: ts)) (by decide) ?_ fun t ht a ts s' h => h t ht
    intro t' r' m' hs
    cases hs
    have hlen : r'.length ≤ n := Nat.le_of_lt (Nat.lt_of_lt_of_le (Nat.lt_succ_of_lt (Nat.lt_succ_self _)) h)
    exact Ok.bind' (orders_ok ih (s := ⟨r', m⟩) hlen) fun c s' _ _ => Ok.ret fun us hus b hb k hk => by rw [List.append_nil]; exact .orderBy hk hb hus
  · exact Ok.ret .none

theorem select_ok {s : P} (h : s.toks.length ≤ n) : Ok (G0 (Spec.Sel true)) (parseSelect s) s := by
  rw [parseSelect]
  refine Ok.bind' (selectClause_ok ih h) fun sel s0 hs _ => ?_
  replace h := Nat.le_trans hs.length_le h
  refine Ok.bind' (optFrom_ok ih h) fun fr s1 hs _ => ?_
  replace h := Nat.le_trans hs.length_le h
  refine Ok.bind' (optWhere_ok ih h) fun wh s2 hs _ => ?_
  replace h := Nat.le_trans hs.length_le h
  refine Ok.bind' (optGroupBy_ok ih h) fun gr s3 hs _ => ?_
  replace h := Nat.le_trans hs.length_le h
  refine Ok.bind' (optHaving_ok ih h) fun ha s4 hs _ => ?_
  replace h := Nat.le_trans hs.length_le h
  refine Ok.bind' (optOrderBy_ok ih h) fun or_ s5 hs _ => ?_
  dsimp only
  split
  · refine Ok.bind' (limit_ok s5) fun li s6 hs _ => Ok.ret ?_
    intro t6 h6 t5 h5 t4 h4 t3 h3 t2 h2 t1 h1 t0 h0
    have := Spec.Sel.mk h0 h1 h2 h3 h4 h5 (.some (.limit h6))
    simpa [G0] using this
  · refine Ok.ret ?_
    intro t5 h5 t4 h4 t3 h3 t2 h2 t1 h1 t0 h0
    have := Spec.Sel.mk h0 h1 h2 h3 h4 h5 .none
    simpa [G0] using this

theorem all_step {s : P} (h : s.toks.length ≤ n) : All s where
  expr q hq := expr_ok ih h q hq
  exprs := exprs_ok ih h
  postfix_ e := postfix_ok ih h e
  loop q hq lhs := loop_ok ih h q hq lhs
  select := select_ok ih h
  items := items_ok ih h
  sources := sources_ok ih h
  orders := orders_ok ih h

end

theorem all (s : P) : All s := by
  have : ∀ n, ∀ s : P, s.toks.length < n → All s := by
    intro n
    induction n with
    | zero => intro s h; exact absurd h (Nat.not_lt_zero _)
    | succ n ih => intro s h; exact all_step ih (Nat.le_of_lt_succ h)
  exact this _ s (Nat.lt_succ_self _)

end Mutable.Parse
