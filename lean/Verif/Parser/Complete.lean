import Verif.Parser.Stmt
import Verif.Parser.Spec
/-!
# Everything the grammar generates is parsed, with the right tree
-/
namespace Mutable.Parse
open Mutable.Lex (TT)

/-! ### Tokens -/

@[simp] theorem ty_cons (t : Tok) (r : List Tok) (n : Nat) : P.ty ⟨t :: r, n⟩ = t.type := rfl
@[simp] theorem tok_cons (t : Tok) (r : List Tok) (n : Nat) : P.tok ⟨t :: r, n⟩ = t := rfl
@[simp] theorem consume_cons (t : Tok) (r : List Tok) (n : Nat) : P.consume ⟨t :: r, n⟩ = ⟨r, n⟩ := rfl
@[simp] theorem ty1_cons (t u : Tok) (r : List Tok) (n : Nat) : P.ty1 ⟨t :: u :: r, n⟩ = u.type := rfl

theorem accept_hit {t : Tok} {tt : TT} (h : t.type = tt) (r : List Tok) (n : Nat) : P.accept ⟨t :: r, n⟩ tt = (true, ⟨r, n⟩) := by
  simp [P.accept, h]

theorem expect_hit {t : Tok} {tt : TT} (h : t.type = tt) (r : List Tok) (n : Nat) : P.expect ⟨t :: r, n⟩ tt = (true, ⟨r, n⟩) := by
  simp [P.expect, h]

theorem accept_miss {s : P} {tt : TT} (h : s.ty ≠ tt) (he : s.ty ≠ .error) : s.accept tt = (false, s) := by
  simp [P.accept, h, he]

theorem expectFirst_hit {α : Type} {t : Tok} {tt : TT} (h : t.type = tt) (fs : List TT) (e : α) (r : List Tok) (n : Nat)
    (k : P → Option (α × P)) : expectFirst tt fs e ⟨t :: r, n⟩ k = k ⟨r, n⟩ := by
  simp [expectFirst, expect_hit h]

theorem expectOr_hit {α : Type} {t : Tok} {tt : TT} (h : t.type = tt) (fs : List TT) (e : α) (r : List Tok) (n : Nat)
    (k : P → Option (α × P)) : expectOr tt fs e ⟨t :: r, n⟩ k = k ⟨r, n⟩ := by
  simp [expectOr, expect_hit h]

/-- The type of the first token. -/
def hd (ts : List Tok) : TT := P.ty ⟨ts, 0⟩

@[simp] theorem hd_cons (t : Tok) (r : List Tok) : hd (t :: r) = t.type := rfl
theorem ty_hd (ts : List Tok) (n : Nat) : P.ty ⟨ts, n⟩ = hd ts := rfl
theorem hd_append_left {t r} (us : List Tok) : hd ((t :: r) ++ us) = t.type := rfl

theorem accept_miss' {r : List Tok} {tt : TT} (h : hd r ≠ tt) (he : hd r ≠ .error) (n : Nat) : P.accept ⟨r, n⟩ tt = (false, ⟨r, n⟩) :=
  accept_miss h he

/-! ### First tokens -/

/-- The tokens an expression may begin with. -/
def starts : List TT := [.identifier, .stringLiteral, .date, .dateTime, .octInt, .decInt, .hexInt, .decFloat, .hexFloat, K "NULL", K "TRUE",
  K "FALSE", .lpar, .plus, .minus, .tilde, K "NOT"]

theorem constType_starts : ∀ {t}, Spec.ConstType t → t ∈ starts := by
  intro t h
  simp only [Spec.ConstType, List.mem_cons, List.not_mem_nil, or_false] at h
  rcases h with h | h | h | h | h | h | h | h | h | h | h <;> subst h <;> decide

mutual

theorem start_postfix {lax : Bool} {e : Expr} {ts : List Tok} : Spec.Postfix lax e ts → ∃ t r, ts = t :: r ∧ t.type ∈ starts
  | .attr => ⟨_, _, rfl, by simp [starts]⟩
  | .qualified _ => ⟨_, _, rfl, by simp [starts]⟩
  | .const h => ⟨_, _, rfl, constType_starts h⟩
  | .paren hl _ _ => ⟨_, _, rfl, by rw [hl]; decide⟩
  | .query hl _ _ => ⟨_, _, rfl, by rw [hl]; decide⟩
  | .star _ _ _ hf => by
    obtain ⟨t, r, rfl, h⟩ := start_postfix hf
    exact ⟨t, _, rfl, h⟩
  | .call0 _ _ hf => by
    obtain ⟨t, r, rfl, h⟩ := start_postfix hf
    exact ⟨t, _, rfl, h⟩
  | .call _ _ hf _ => by
    obtain ⟨t, r, rfl, h⟩ := start_postfix hf
    exact ⟨t, _, rfl, h⟩

theorem start_exp {lax : Bool} {q : Nat} {e : Expr} {ts : List Tok} : Spec.Exp lax q e ts → ∃ t r, ts = t :: r ∧ t.type ∈ starts
  | .postfix_ h => start_postfix h
  | .sign h _ _ => ⟨_, _, rfl, by rcases h with h | h | h <;> rw [h] <;> decide⟩
  | .not h _ _ => ⟨_, _, rfl, by rw [h]; decide⟩
  | .binary _ _ hl _ => by
    obtain ⟨t, r, rfl, h⟩ := start_exp hl
    exact ⟨t, _, rfl, h⟩

end

theorem hd_exp {lax : Bool} {q : Nat} {e : Expr} {ts : List Tok} (h : Spec.Exp lax q e ts) (us : List Tok) : hd (ts ++ us) ∈ starts := by
  obtain ⟨t, r, rfl, h1⟩ := start_exp h
  exact h1

theorem hd_exps {lax : Bool} {es : List Expr} {ts : List Tok} (h : Spec.Exps lax es ts) (us : List Tok) : hd (ts ++ us) ∈ starts := by
  cases h with
  | one h => exact hd_exp h us
  | more h _ _ => rw [List.append_assoc]; exact hd_exp h _

theorem hd_items {lax : Bool} {es : List (Expr × Option Str)} {ts : List Tok} (h : Spec.Items lax es ts) (us : List Tok) : hd (ts ++ us) ∈ starts := by
  cases h with
  | one h => rw [List.append_assoc]; exact hd_exp h _
  | more h _ _ => rw [List.append_assoc, List.append_assoc]; exact hd_exp h _

theorem sel_start {lax : Bool} {q : Select} {ts : List Tok} (h : Spec.Sel lax q ts) (us : List Tok) : hd (ts ++ us) = K "SELECT" := by
  cases h with
  | mk h =>
    cases h with
    | star h => exact h
    | starMore h => exact h
    | items h => exact h

theorem isConst_of {t : TT} (h : Spec.ConstType t) : isConst t = true := by
  simp only [Spec.ConstType, List.mem_cons, List.not_mem_nil, or_false] at h
  rcases h with h | h | h | h | h | h | h | h | h | h | h <;> subst h <;> decide

theorem constType_ne {t : TT} (h : Spec.ConstType t) : t ≠ .identifier := by
  rintro rfl
  revert h
  simp [Spec.ConstType, K]

theorem prec_of_level {t : TT} {p : Nat} (h : Spec.binaryLevel false t = some p) : prec t = some p ∧ p ≠ 3 ∧ p ≠ 8 ∧ 1 ≤ p ∧ p ≤ 7 ∧ t ≠ .lpar ∧ t ≠ .error ∧ t ≠ .dot := by
  cases t with
  | kw w =>
    simp only [Spec.binaryLevel] at h
    simp only [prec]
    split at h
    · simp_all; omega
    · split at h
      · rename_i h1 h2
        subst h2
        simp at h
        subst h
        simp
      · split at h
        · rename_i h1 h2 h3
          subst h3
          simp at h
          subst h
          simp
        · simp at h
  | _ => simp [Spec.binaryLevel] at h <;> (try subst h) <;> simp [prec]

/-! ### Clauses -/

/-- The keywords of the clauses, by place. -/
def clauseKws : List TT := [K "FROM", K "WHERE", K "GROUP", K "HAVING", K "ORDER", K "LIMIT"]

/-- What may follow behind the clause at the place before `k`. -/
def stops (k : Nat) : List TT := [.eof, .rpar, .semicol] ++ clauseKws.drop k

theorem stops_mono {k l : Nat} (h : k ≤ l) {t : TT} (ht : t ∈ stops l) : t ∈ stops k := by
  simp only [stops, List.mem_append] at ht ⊢
  refine ht.imp id fun ht => ?_
  obtain ⟨d, rfl⟩ := Nat.exists_eq_add_of_le h
  rw [← List.drop_drop] at ht
  exact List.mem_of_mem_drop ht

/-- What may not follow an expression directly. -/
def Closed (t : TT) : Prop := prec t = none ∧ t ≠ .lpar ∧ t ≠ .error ∧ t ≠ .dot

instance (t : TT) : Decidable (Closed t) := inferInstanceAs (Decidable (_ ∧ _))

theorem stops_ok : ∀ t ∈ stops 0, Closed t ∧ t ≠ .comma ∧ t ≠ .identifier ∧ t ≠ K "AS" ∧ t ≠ K "ASC" ∧ t ≠ K "DESC" ∧ t ≠ K "OFFSET" := by
  decide

theorem stops_ne : ∀ k < 6, ∀ t ∈ stops (k + 1), t ≠ clauseKws.getD k .eof := by decide

/-- The parser for an optional clause. -/
def optParser : Nat → P → Option (Option Clause × P)
  | 0 => parseOptFrom
  | 1 => parseOptWhere
  | 2 => parseOptGroupBy
  | 3 => parseOptHaving
  | 4 => parseOptOrderBy
  | _ => fun s => if s.ty = K "LIMIT" then (parseLimit s).map fun r => (some r.1, r.2) else some (none, s)

theorem alias_parse {a : Option Str} {as : List Tok} (h : Spec.Alias a as) (rest : List Tok) (n : Nat) (h1 : hd rest ≠ .identifier)
    (h2 : hd rest ≠ K "AS") (h3 : hd rest ≠ .error) : parseAlias ⟨as ++ rest, n⟩ = (some a, ⟨rest, n⟩) := by
  cases h with
  | none =>
    have : P.accept ⟨rest, n⟩ (K "AS") = (false, ⟨rest, n⟩) := accept_miss h2 h3
    simp only [parseAlias, List.nil_append, this, Bool.false_eq_true, if_false, ty_hd, if_neg h1]
  | plain =>
    simp only [List.cons_append, List.nil_append, parseAlias]
    rw [accept_miss (by simp [K]) (by simp)]
    simp
  | as_ ha =>
    simp only [List.cons_append, List.nil_append, parseAlias]
    rw [accept_hit ha]
    simp [expect_hit (t := ⟨_, TT.identifier⟩) rfl]

theorem alias_start {a : Option Str} {as : List Tok} (h : Spec.Alias a as) (rest : List Tok) :
    hd (as ++ rest) = hd rest ∨ hd (as ++ rest) = .identifier ∨ hd (as ++ rest) = K "AS" := by
  cases h with
  | none => exact Or.inl rfl
  | plain => exact Or.inr (Or.inl rfl)
  | as_ ha => exact Or.inr (Or.inr ha)

theorem direction_start {d : Bool} {ds : List Tok} (h : Spec.Direction d ds) (rest : List Tok) :
    hd (ds ++ rest) = hd rest ∨ hd (ds ++ rest) = K "ASC" ∨ hd (ds ++ rest) = K "DESC" := by
  cases h with
  | default => exact Or.inl rfl
  | asc ha => exact Or.inr (Or.inl ha)
  | desc ha => exact Or.inr (Or.inr ha)

theorem closed_ids : Closed .identifier ∧ Closed (K "AS") ∧ Closed (K "ASC") ∧ Closed (K "DESC") ∧ Closed .comma ∧ Closed .rpar ∧ Closed .semicol := by decide

theorem intType_iff {t : TT} (h : Spec.IntType t) : t = .decInt ∨ t = .octInt ∨ t = .hexInt := by
  simp only [Spec.IntType, List.mem_cons, List.not_mem_nil, or_false] at h
  rcases h with h | h | h <;> simp [h]

theorem limit_parse {c : Clause} {ts : List Tok} (h : Spec.Limit c ts) (rest : List Tok) (n : Nat) (h1 : hd rest ≠ K "OFFSET")
    (h3 : hd rest ≠ .error) : parseLimit ⟨ts ++ rest, n⟩ = some (c, ⟨rest, n⟩) := by
  cases h with
  | limit hk hn =>
    have hi := intType_iff hn
    simp only [List.cons_append, List.nil_append, parseLimit, expectFirst_hit hk, tok_cons, hi, if_true, consume_cons,
      accept_miss' h1 h3, Bool.false_eq_true, if_false]
  | offset hk hn ho hm =>
    have hi := intType_iff hn
    have hi' := intType_iff hm
    simp only [List.cons_append, List.nil_append, parseLimit, expectFirst_hit hk, tok_cons, hi, consume_cons,
      accept_hit ho, if_true, hi']

theorem limit_start {c : Clause} {ts : List Tok} (h : Spec.Limit c ts) (rest : List Tok) : hd (ts ++ rest) = K "LIMIT" := by
  cases h with
  | limit hk _ => exact hk
  | offset hk _ _ _ => exact hk

theorem cl_start {k : Nat} {c : Clause} {ts : List Tok} (h : Spec.Cl false k c ts) (rest : List Tok) :
    k < 6 ∧ hd (ts ++ rest) = clauseKws.getD k .eof := by
  cases h with
  | from_ h _ => exact ⟨by decide, h⟩
  | where_ h _ => exact ⟨by decide, h⟩
  | groupBy h _ _ => exact ⟨by decide, h⟩
  | having h _ => exact ⟨by decide, h⟩
  | orderBy h _ _ => exact ⟨by decide, h⟩
  | limit h => exact ⟨by decide, limit_start h rest⟩

theorem kws_stops : ∀ k < 6, clauseKws.getD k .eof ∈ stops k := by decide

theorem optCl_start {k : Nat} {c : Option Clause} {ts : List Tok} (h : Spec.OptCl false k c ts) {rest : List Tok} (hr : hd rest ∈ stops (k + 1)) :
    hd (ts ++ rest) ∈ stops k := by
  cases h with
  | none => exact stops_mono (Nat.le_succ k) hr
  | some h =>
    obtain ⟨h1, h2⟩ := cl_start h rest
    rw [h2]
    exact kws_stops k h1

theorem optCl_none (k : Nat) (hk : k < 6) (rest : List Tok) (n : Nat) (hr : hd rest ∈ stops (k + 1)) : optParser k ⟨rest, n⟩ = some (none, ⟨rest, n⟩) := by
  have h := stops_ne k hk _ hr
  match k, hk with
  | 0, _ => simp only [optParser]; rw [parseOptFrom, if_neg]; exact h
  | 1, _ => simp only [optParser]; rw [parseOptWhere, if_neg]; exact h
  | 2, _ => simp only [optParser]; rw [parseOptGroupBy, if_neg]; exact h
  | 3, _ => simp only [optParser]; rw [parseOptHaving, if_neg]; exact h
  | 4, _ => simp only [optParser]; rw [parseOptOrderBy, if_neg]; exact h
  | 5, _ => simp only [optParser]; rw [if_neg]; exact h

/-! ### Expressions and queries -/

theorem loop_stop {q : Nat} {e : Expr} {s : P} (h : ∀ p, prec s.ty = some p → p < q) : parseLoop q e s = some (e, s) := by
  rw [parseLoop]
  split
  · rfl
  · rename_i p hp
    rw [if_pos (h p hp)]

theorem postfix_stop {e : Expr} {s : P} (h : s.ty ≠ .lpar) : parsePostfix e s = some (e, s) := by
  rw [parsePostfix, if_neg h]

/-- The condition on what follows an expression of level `q`. -/
def OkRest (q : Nat) (t : TT) : Prop := t ≠ .lpar ∧ t ≠ .error ∧ t ≠ .dot ∧ ∀ p, prec t = some p → p ≤ q ∧ p ≠ 3 ∧ p ≠ 8

theorem Closed.okRest {t : TT} (h : Closed t) (q : Nat) : OkRest q t := ⟨h.2.1, h.2.2.1, h.2.2.2, by simp [h.1]⟩

theorem OkRest.mono {t : TT} {q q' : Nat} (h : OkRest q t) (hq : q ≤ q') : OkRest q' t :=
  ⟨h.1, h.2.1, h.2.2.1, fun p hp => ⟨Nat.le_trans (h.2.2.2 p hp).1 hq, (h.2.2.2 p hp).2⟩⟩

theorem starts_ne : ∀ t ∈ starts, t ≠ K "SELECT" ∧ t ≠ .asterisk ∧ t ≠ .rpar ∧ t ≠ K "DEFAULT" ∧ t ≠ .error := by decide

theorem level_okRest {t : TT} {p : Nat} (h : Spec.binaryLevel false t = some p) : OkRest p t := by
  obtain ⟨h1, h2, h3, _, _, h4, h5, h6⟩ := prec_of_level h
  exact ⟨h4, h5, h6, fun p' hp' => by rw [h1] at hp'; cases hp'; exact ⟨Nat.le_refl _, h2, h3⟩⟩

theorem stop_exp {t : TT} (h : t ∈ stops 0) (q : Nat) : OkRest q t := (stops_ok t h).1.okRest q

mutual

theorem postfix_complete {e : Expr} {ts : List Tok} : Spec.Postfix false e ts → ∀ (q : Nat) (rest : List Tok) (n : Nat), hd rest ≠ .error → hd rest ≠ .dot →
    parseExpr q ⟨ts ++ rest, n⟩ = (parsePostfix e ⟨rest, n⟩).bind fun r => parseLoop q r.1 r.2
  | .attr, q, rest, n, _, hr => by
    rw [parseExpr, parsePrimary]
    have hr' : P.ty ⟨rest, n⟩ ≠ .dot := hr
    simp [parseDesignator, expect_hit (t := ⟨_, TT.identifier⟩) rfl, hr']
  | .qualified hd', q, rest, n, _, _ => by
    rw [parseExpr, parsePrimary]
    simp [parseDesignator, expect_hit (t := ⟨_, TT.identifier⟩) rfl, hd']
  | .const h, q, rest, n, _, _ => by
    rw [parseExpr, parsePrimary]
    simp [constType_ne h, isConst_of h]
  | .paren (l := l) (r := r) (ts := ts) hl hr h, q, rest, n, _, _ => by
    have hs := starts_ne _ (hd_exp h (r :: rest))
    have ih := exp_complete h 0 (r :: rest) n (Nat.le_refl _) (by rw [hd_cons, hr]; exact closed_ids.2.2.2.2.2.1.okRest 0)
    rw [loop_stop (by intro p hp; simp [hr, prec] at hp)] at ih
    have hty : P.ty ⟨ts ++ r :: rest, n⟩ ≠ K "SELECT" := hs.1
    rw [parseExpr, parsePrimary]
    simp only [List.cons_append, List.append_assoc, List.nil_append, ty_cons, hl, consume_cons]
    rw [parseParen, if_neg hty, ih]
    simp [isConst, expect_hit hr]
  | .query (l := l) (r := r) (ts := ts) hl hr h, q, rest, n, _, _ => by
    have ih := sel_complete h (r :: rest) n (by rw [hd_cons, hr]; decide)
    have hs : P.ty ⟨ts ++ r :: rest, n⟩ = K "SELECT" := sel_start h _
    rw [parseExpr, parsePrimary]
    simp only [List.cons_append, List.append_assoc, List.nil_append, ty_cons, hl, consume_cons]
    rw [parseParen, if_pos hs, ih]
    simp [isConst, expect_hit hr]
  | .star (l := l) (a := a) (r := r) hl ha hr hf, q, rest, n, _, _ => by
    rw [List.append_assoc, postfix_complete hf q _ n (by simp [hl]) (by simp [hl])]
    rw [parsePostfix.eq_1 _ ⟨[l, a, r] ++ rest, n⟩]
    simp only [List.cons_append, List.nil_append, ty_cons, hl, if_true, consume_cons]
    rw [parseArgs]
    simp [ha, expect_hit hr]
  | .call0 (l := l) (r := r) hl hr hf, q, rest, n, _, _ => by
    rw [List.append_assoc, postfix_complete hf q _ n (by simp [hl]) (by simp [hl])]
    rw [parsePostfix.eq_1 _ ⟨[l, r] ++ rest, n⟩]
    simp only [List.cons_append, List.nil_append, ty_cons, hl, if_true, consume_cons]
    rw [parseArgs]
    simp [hr, expect_hit hr]
  | .call (l := l) (r := r) (us := us) hl hr hf ha, q, rest, n, _, _ => by
    have ih := exps_complete ha (r :: rest) n (by rw [hd_cons, hr]; decide) (by simp [hr])
    have hs := starts_ne _ (hd_exps ha (r :: rest))
    have h1 : P.ty ⟨us ++ r :: rest, n⟩ ≠ .asterisk := hs.2.1
    have h2 : P.ty ⟨us ++ r :: rest, n⟩ ≠ .rpar := hs.2.2.1
    rw [List.append_assoc, postfix_complete hf q _ n (by simp [hl]) (by simp [hl])]
    rw [parsePostfix.eq_1 _ ⟨l :: (us ++ [r]) ++ rest, n⟩]
    simp only [List.cons_append, List.append_assoc, List.nil_append, ty_cons, hl, if_true, consume_cons]
    rw [parseArgs, if_neg h1, if_pos h2, ih]
    simp [expect_hit hr]

theorem exp_complete {p : Nat} {e : Expr} {ts : List Tok} : Spec.Exp false p e ts → ∀ (q : Nat) (rest : List Tok) (n : Nat), q ≤ p → OkRest p (hd rest) →
    parseExpr q ⟨ts ++ rest, n⟩ = parseLoop q e ⟨rest, n⟩
  | .postfix_ h, q, rest, n, _, hr => by
    rw [postfix_complete h q rest n hr.2.1 hr.2.2.1, postfix_stop (s := ⟨rest, n⟩) hr.1]
    rfl
  | .sign (op := op) (ts := ts) hop hq h, q, rest, n, hle, hr => by
    have hq : _ ≤ 8 := hq.resolve_right (by simp)
    have ih := exp_complete h 8 rest n (Nat.le_refl _) (hr.mono hq)
    rw [loop_stop (fun p' hp' => by have := hr.2.2.2 p' hp'; omega)] at ih
    have hni : op.type ≠ .identifier ∧ isConst op.type = false ∧ op.type ≠ .lpar := by rcases hop with h | h | h <;> rw [h] <;> decide
    rw [parseExpr, parsePrimary]
    simp only [List.cons_append, ty_cons, if_neg hni.1, hni.2.1, Bool.false_eq_true, if_false, if_neg hni.2.2, hop, if_true, consume_cons, tok_cons, ih]
    simp [postfix_stop (s := ⟨rest, n⟩) hr.1]
  | .not (op := op) (ts := ts) hop hq h, q, rest, n, hle, hr => by
    have hq : _ ≤ 3 := hq.resolve_right (by simp)
    have ih := exp_complete h 3 rest n (Nat.le_refl _) (hr.mono hq)
    rw [loop_stop (fun p' hp' => by have := hr.2.2.2 p' hp'; omega)] at ih
    have hni : op.type ≠ .identifier ∧ isConst op.type = false ∧ op.type ≠ .lpar ∧ ¬ (op.type = .plus ∨ op.type = .minus ∨ op.type = .tilde) := by rw [hop]; decide
    rw [parseExpr, parsePrimary]
    simp only [List.cons_append, ty_cons, if_neg hni.1, hni.2.1, Bool.false_eq_true, if_false, if_neg hni.2.2.1, if_neg hni.2.2.2, if_pos hop, consume_cons, tok_cons, ih]
    simp [postfix_stop (s := ⟨rest, n⟩) hr.1]
  | .binary (p := p) (op := op) (us := us) hp hpq hl hrr, q, rest, n, hle, hr => by
    obtain ⟨h1, h2, h3, h4, h5, h6, h7⟩ := prec_of_level hp
    have ihl := exp_complete hl q (op :: (us ++ rest)) n (Nat.le_trans hle hpq) (level_okRest hp)
    have ihr := exp_complete hrr (p + 1) rest n (Nat.le_refl _) (hr.mono (by omega))
    rw [loop_stop (fun p' hp' => by have := hr.2.2.2 p' hp'; omega)] at ihr
    rw [List.append_assoc, List.cons_append, ihl, parseLoop]
    simp only [ty_cons, h1, consume_cons, tok_cons, ihr]
    rw [if_neg (by omega)]
    rfl

theorem exps_complete {es : List Expr} {ts : List Tok} : Spec.Exps false es ts → ∀ (rest : List Tok) (n : Nat), Closed (hd rest) → hd rest ≠ .comma →
    parseExprs ⟨ts ++ rest, n⟩ = some (es, ⟨rest, n⟩)
  | .one h, rest, n, hr, hc => by
    rw [parseExprs, exp_complete h 0 rest n (Nat.le_refl _) (hr.okRest 0), loop_stop (fun p hp => by rw [ty_hd, hr.1] at hp; cases hp)]
    simp [accept_miss' hc hr.2.2.1]
  | .more (c := c) (us := us) h hcomma hs, rest, n, hr, hc => by
    have ih := exps_complete hs rest n hr hc
    have ihe := exp_complete h 0 (c :: (us ++ rest)) n (Nat.le_refl _) (by rw [hd_cons, hcomma]; exact closed_ids.2.2.2.2.1.okRest 0)
    rw [loop_stop (fun p hp => by simp [hcomma, prec] at hp)] at ihe
    rw [parseExprs, List.append_assoc, List.cons_append, ihe]
    simp [accept_hit hcomma, ih]

theorem items_complete {is : List (Expr × Option Str)} {ts : List Tok} : Spec.Items false is ts → ∀ (rest : List Tok) (n : Nat), hd rest ∈ stops 0 →
    parseItems ⟨ts ++ rest, n⟩ = some (some is, ⟨rest, n⟩)
  | .one (as := as) h ha, rest, n, hr => by
    have hk := stops_ok _ hr
    have hcl : Closed (hd (as ++ rest)) := by
      rcases alias_start ha rest with h | h | h <;> rw [h]
      · exact hk.1
      · exact closed_ids.1
      · exact closed_ids.2.1
    rw [parseItems, List.append_assoc, exp_complete h 0 _ n (Nat.le_refl _) (hcl.okRest 0),
      loop_stop (fun p hp => by rw [ty_hd, hcl.1] at hp; cases hp)]
    simp only [Option.bind_eq_bind, Option.bind_some, alias_parse ha rest n hk.2.2.1 hk.2.2.2.1 hk.1.2.2.1]
    rw [parseMoreItems, accept_miss' hk.2.1 hk.1.2.2.1]
    simp
  | .more (as := as) (c := c) (us := us) h ha hcomma hs, rest, n, hr => by
    have ih := items_complete hs rest n hr
    have hcl : Closed (hd (as ++ (c :: (us ++ rest)))) := by
      rcases alias_start ha (c :: (us ++ rest)) with h | h | h <;> rw [h]
      · rw [hd_cons, hcomma]; exact closed_ids.2.2.2.2.1
      · exact closed_ids.1
      · exact closed_ids.2.1
    rw [parseItems, List.append_assoc, List.append_assoc, List.cons_append, exp_complete h 0 _ n (Nat.le_refl _) (hcl.okRest 0),
      loop_stop (fun p hp => by rw [ty_hd, hcl.1] at hp; cases hp)]
    simp only [Option.bind_eq_bind, Option.bind_some,
      alias_parse ha (c :: (us ++ rest)) n (by simp [hcomma]) (by simp [hcomma, K]) (by simp [hcomma])]
    rw [parseMoreItems, accept_hit hcomma]
    simp [ih]

theorem src_complete {s : Source} {ts : List Tok} : Spec.Src false s ts → ∀ (rest : List Tok) (n : Nat), hd rest ≠ .identifier → hd rest ≠ K "AS" →
    hd rest ≠ .error → parseSource ⟨ts ++ rest, n⟩ = some (some s, ⟨rest, n⟩)
  | .table (t := t) ha, rest, n, h1, h2, h3 => by
    rw [parseSource, List.cons_append, accept_miss (by simp) (by simp)]
    simp [expect_hit (t := ⟨t, TT.identifier⟩) rfl, alias_parse ha rest n h1 h2 h3]
  | .nested (l := l) (r := r) (as := as) hl hr h ha, rest, n, h1, h2, h3 => by
    have ih := sel_complete h (r :: (as ++ rest)) n (by rw [hd_cons, hr]; decide)
    rw [parseSource, List.cons_append, List.append_assoc, List.cons_append, accept_hit hl]
    simp only [if_true, ih, Option.bind_eq_bind, Option.bind_some, expect_hit hr]
    cases ha with
    | plain =>
      simp only [List.cons_append, List.nil_append]
      rw [accept_miss (by simp [K]) (by simp)]
      simp [expect_hit (t := ⟨_, TT.identifier⟩) rfl]
    | as_ ha =>
      simp only [List.cons_append, List.nil_append]
      rw [accept_hit ha]
      simp [expect_hit (t := ⟨_, TT.identifier⟩) rfl]

theorem srcs_complete {l : List Source} {ts : List Tok} : Spec.Srcs false l ts → ∀ (rest : List Tok) (n : Nat), hd rest ∈ stops 0 →
    parseSources ⟨ts ++ rest, n⟩ = some (some l, ⟨rest, n⟩)
  | .one h, rest, n, hr => by
    have hk := stops_ok _ hr
    rw [parseSources, src_complete h rest n hk.2.2.1 hk.2.2.2.1 hk.1.2.2.1]
    simp [accept_miss' hk.2.1 hk.1.2.2.1]
  | .more (c := c) (us := us) h hcomma hs, rest, n, hr => by
    have ih := srcs_complete hs rest n hr
    rw [parseSources, List.append_assoc, List.cons_append,
      src_complete h (c :: (us ++ rest)) n (by simp [hcomma]) (by simp [hcomma, K]) (by simp [hcomma])]
    simp [accept_hit hcomma, ih]

theorem orders_complete {l : List (Expr × Bool)} {ts : List Tok} : Spec.Orders false l ts → ∀ (rest : List Tok) (n : Nat), hd rest ∈ stops 0 →
    parseOrders ⟨ts ++ rest, n⟩ = some (l, ⟨rest, n⟩)
  | .one (ds := ds) h hd', rest, n, hr => by
    have hk := stops_ok _ hr
    have hcl : Closed (hd (ds ++ rest)) := by
      rcases direction_start hd' rest with h | h | h <;> rw [h]
      · exact hk.1
      · exact closed_ids.2.2.1
      · exact closed_ids.2.2.2.1
    rw [parseOrders, List.append_assoc, exp_complete h 0 _ n (Nat.le_refl _) (hcl.okRest 0),
      loop_stop (fun p hp => by rw [ty_hd, hcl.1] at hp; cases hp)]
    cases hd' with
    | default => simp [accept_miss' hk.2.2.2.2.2.1 hk.1.2.2.1, accept_miss' hk.2.2.2.2.1 hk.1.2.2.1, accept_miss' hk.2.1 hk.1.2.2.1]
    | asc ha =>
      have : P.accept ⟨_ :: rest, n⟩ (K "DESC") = (false, ⟨_ :: rest, n⟩) := accept_miss' (by rw [hd_cons, ha]; decide) (by rw [hd_cons, ha]; decide) n
      simp [this, accept_hit ha, accept_miss' hk.2.1 hk.1.2.2.1]
    | desc ha => simp [accept_hit ha, accept_miss' hk.2.1 hk.1.2.2.1]
  | .more (ds := ds) (c := c) (us := us) h hd' hcomma hs, rest, n, hr => by
    have ih := orders_complete hs rest n hr
    have hcl : Closed (hd (ds ++ (c :: (us ++ rest)))) := by
      rcases direction_start hd' (c :: (us ++ rest)) with h | h | h <;> rw [h]
      · rw [hd_cons, hcomma]; exact closed_ids.2.2.2.2.1
      · exact closed_ids.2.2.1
      · exact closed_ids.2.2.2.1
    have hm : ∀ w, P.accept ⟨c :: (us ++ rest), n⟩ (K w) = (false, ⟨c :: (us ++ rest), n⟩) := fun w =>
      accept_miss' (by rw [hd_cons, hcomma]; simp [K]) (by rw [hd_cons, hcomma]; simp) n
    rw [parseOrders, List.append_assoc, List.append_assoc, List.cons_append, exp_complete h 0 _ n (Nat.le_refl _) (hcl.okRest 0),
      loop_stop (fun p hp => by rw [ty_hd, hcl.1] at hp; cases hp)]
    cases hd' with
    | default => simp [hm, accept_hit hcomma, ih]
    | asc ha =>
      have : P.accept ⟨_ :: (c :: (us ++ rest)), n⟩ (K "DESC") = (false, ⟨_ :: (c :: (us ++ rest)), n⟩) :=
        accept_miss' (by rw [hd_cons, ha]; decide) (by rw [hd_cons, ha]; decide) n
      simp [this, accept_hit ha, accept_hit hcomma, ih]
    | desc ha => simp [accept_hit ha, accept_hit hcomma, ih]

theorem selClause_complete {c : Clause} {ts : List Tok} : Spec.SelClause false c ts → ∀ (rest : List Tok) (n : Nat), hd rest ∈ stops 0 →
    parseSelectClause ⟨ts ++ rest, n⟩ = some (c, ⟨rest, n⟩)
  | .star hk ha, rest, n, hr => by
    have hs := stops_ok _ hr
    rw [parseSelectClause, List.cons_append, expectFirst_hit hk, List.cons_append, List.nil_append, ty_cons, if_pos ha, consume_cons,
      parseMoreItems, accept_miss' hs.2.1 hs.1.2.2.1]
    simp
  | .starMore hk ha hc h, rest, n, hr => by
    rw [parseSelectClause, List.cons_append, expectFirst_hit hk, List.cons_append, ty_cons, if_pos ha, consume_cons, List.cons_append,
      parseMoreItems, accept_hit hc]
    simp [items_complete h rest n hr]
  | .items (us := us) hk h, rest, n, hr => by
    have hs := starts_ne _ (hd_items h rest)
    have h1 : P.ty ⟨us ++ rest, n⟩ ≠ .asterisk := hs.2.1
    rw [parseSelectClause, List.cons_append, expectFirst_hit hk, if_neg h1, items_complete h rest n hr]
    simp

theorem cl_complete {k : Nat} {c : Clause} {ts : List Tok} : Spec.Cl false k c ts → ∀ (rest : List Tok) (n : Nat), hd rest ∈ stops (k + 1) →
    optParser k ⟨ts ++ rest, n⟩ = some (some c, ⟨rest, n⟩)
  | .from_ hk h, rest, n, hr => by
    have hr0 := stops_mono (Nat.zero_le _) hr
    simp only [optParser]
    rw [parseOptFrom, List.cons_append, ty_cons, if_pos hk, parseFromClause, expectFirst_hit hk, srcs_complete h rest n hr0]
    simp
  | .where_ hk h, rest, n, hr => by
    have hk0 := stops_ok _ (stops_mono (Nat.zero_le _) hr)
    simp only [optParser]
    rw [parseOptWhere, List.cons_append, ty_cons, if_pos hk, expectFirst_hit hk, exp_complete h 0 _ n (Nat.le_refl _) (hk0.1.okRest 0),
      loop_stop (fun p hp => by rw [ty_hd, hk0.1.1] at hp; cases hp)]
    simp
  | .groupBy hk hb h, rest, n, hr => by
    have hr0 := stops_mono (Nat.zero_le _) hr
    simp only [optParser]
    rw [parseOptGroupBy, List.cons_append, ty_cons, if_pos hk, expectFirst_hit hk, List.cons_append, expectOr_hit hb, items_complete h rest n hr0]
    simp
  | .having hk h, rest, n, hr => by
    have hk0 := stops_ok _ (stops_mono (Nat.zero_le _) hr)
    simp only [optParser]
    rw [parseOptHaving, List.cons_append, ty_cons, if_pos hk, expectFirst_hit hk, exp_complete h 0 _ n (Nat.le_refl _) (hk0.1.okRest 0),
      loop_stop (fun p hp => by rw [ty_hd, hk0.1.1] at hp; cases hp)]
    simp
  | .orderBy hk hb h, rest, n, hr => by
    have hr0 := stops_mono (Nat.zero_le _) hr
    simp only [optParser]
    rw [parseOptOrderBy, List.cons_append, ty_cons, if_pos hk, expectFirst_hit hk, List.cons_append, expectOr_hit hb, orders_complete h rest n hr0]
    simp
  | .limit h, rest, n, hr => by
    have hk0 := stops_ok _ (stops_mono (Nat.zero_le _) hr)
    have h1 : P.ty ⟨_ ++ rest, n⟩ = K "LIMIT" := limit_start h rest
    simp only [optParser]
    rw [if_pos h1, limit_parse h rest n hk0.2.2.2.2.2.2 hk0.1.2.2.1]
    rfl

theorem optCl_complete {k : Nat} {c : Option Clause} {ts : List Tok} : Spec.OptCl false k c ts → ∀ (rest : List Tok) (n : Nat), k < 6 → hd rest ∈ stops (k + 1) →
    optParser k ⟨ts ++ rest, n⟩ = some (c, ⟨rest, n⟩)
  | .none, rest, n, hk, hr => optCl_none k hk rest n hr
  | .some h, rest, n, _, hr => cl_complete h rest n hr

theorem sel_complete {q : Select} {ts : List Tok} : Spec.Sel false q ts → ∀ (rest : List Tok) (n : Nat), hd rest ∈ stops 6 →
    parseSelect ⟨ts ++ rest, n⟩ = some (q, ⟨rest, n⟩)
  | .mk (c5 := c5) h h0 h1 h2 h3 h4 h5, rest, n, hr => by
    have r5 := optCl_start h5 hr
    have r4 := optCl_start h4 r5
    have r3 := optCl_start h3 r4
    have r2 := optCl_start h2 r3
    have r1 := optCl_start h1 r2
    have r0 := optCl_start h0 r1
    have e0 := optCl_complete h0 _ n (by decide) r1
    have e1 := optCl_complete h1 _ n (by decide) r2
    have e2 := optCl_complete h2 _ n (by decide) r3
    have e3 := optCl_complete h3 _ n (by decide) r4
    have e4 := optCl_complete h4 _ n (by decide) r5
    have e5 := optCl_complete h5 _ n (by decide) hr
    have e := selClause_complete h _ n r0
    simp only [optParser] at e0 e1 e2 e3 e4 e5
    rw [parseSelect]
    simp only [List.append_assoc, e, e0, e1, e2, e3, e4, Option.bind_eq_bind, Option.bind_some]
    split at e5
    · rename_i hl
      rw [if_pos hl]
      cases hp : parseLimit ⟨_ ++ rest, n⟩ with
      | none => rw [hp] at e5; cases e5
      | some r =>
        rw [hp] at e5
        simp only [Option.map_some, Option.some.injEq, Prod.mk.injEq] at e5
        simp [← e5.1, ← e5.2]
    · rename_i hl
      rw [if_neg hl]
      simp only [Option.some.injEq, Prod.mk.injEq] at e5
      simp [← e5.1, ← e5.2]

end

end Mutable.Parse
