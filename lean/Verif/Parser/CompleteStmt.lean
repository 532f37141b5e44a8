import Verif.Parser.Complete
/-!
# Every statement of the grammar is parsed, with the right tree
-/
namespace Mutable.Parse
open Mutable.Lex (TT)

theorem expr_complete {e : Expr} {ts : List Tok} (h : Spec.Exp false 0 e ts) (rest : List Tok) (n : Nat) (hr : Closed (hd rest)) :
    parseExpr 0 ⟨ts ++ rest, n⟩ = some (e, ⟨rest, n⟩) := by
  rw [exp_complete h 0 rest n (Nat.le_refl _) (hr.okRest 0), loop_stop (fun p hp => by rw [ty_hd, hr.1] at hp; cases hp)]

/-! ### Data types -/

theorem digits_all {t : Str} (h : ∀ c ∈ t, '0' ≤ c ∧ c ≤ '9') : t.takeWhile Lex.isDec = t := by
  induction t with
  | nil => rfl
  | cons c r ih =>
    rw [List.takeWhile_cons, if_pos (by simpa [Lex.isDec] using h c (by simp)), ih fun d hd => h d (by simp [hd])]

theorem strtoul_of {t : Tok} {n : Nat} (h : Spec.Dec t n) (hn : n < 2 ^ 64) : strtoul t.text = some n := by
  obtain ⟨_, h1, h2⟩ := h
  simp only [strtoul, digits_all h1, digitVal]
  rw [List.foldl_map] at h2
  rw [← h2, if_pos hn]

theorem fits_lt {lax : Bool} {n : Nat} (h : Spec.Fits lax n) : n < 2 ^ 64 := by
  rcases h with h | h
  · omega
  · exact h.2

theorem size_parse {n : Nat} {us : List Tok} (h : Spec.Size n us) (hn : n < 2 ^ 64) (mk : Nat → Ty) (rest : List Tok) (m : Nat) :
    parseSize mk ⟨us ++ rest, m⟩ = (some (mk n), ⟨rest, m⟩) := by
  cases h with
  | mk hl ht hr => simp [parseSize, expect_hit hl, expect_hit ht.1, expect_hit hr, strtoul_of ht hn]

theorem decimal_parse {p : Nat} {us : List Tok} (h : Spec.Size p us) (hp : p < 2 ^ 64) (rest : List Tok) (m : Nat) :
    parseDecimal ⟨us ++ rest, m⟩ = (some (.decimal (p % 2 ^ 32) 0), ⟨rest, m⟩) := by
  cases h with
  | @mk _ t r _ hl ht hr =>
    have : P.accept ⟨r :: rest, m⟩ .comma = (false, ⟨r :: rest, m⟩) := accept_miss' (by simp [hr]) (by simp [hr]) m
    simp [parseDecimal, expect_hit hl, expect_hit ht.1, parseScale, this, expect_hit hr, mkDecimal, strtoul_of ht hp]

theorem type_complete {lax : Bool} {t : Ty} {ts : List Tok} (h : Spec.DataType lax t ts) (rest : List Tok) (n : Nat) :
    parseType ⟨ts ++ rest, n⟩ = (t, ⟨rest, n⟩) := by
  have key : parseTypeOpt ⟨ts ++ rest, n⟩ = (some t, ⟨rest, n⟩) := by
    cases h with
    | bool h => simp [parseTypeOpt, h]
    | char h hs hn => simp only [parseTypeOpt, List.cons_append, ty_cons, h, consume_cons, size_parse hs hn]; rfl
    | varchar h hs hn => simp only [parseTypeOpt, List.cons_append, ty_cons, h, consume_cons, size_parse hs hn]; rfl
    | date h => simp only [parseTypeOpt, List.cons_append, ty_cons, h, consume_cons]; rfl
    | datetime h => simp only [parseTypeOpt, List.cons_append, ty_cons, h, consume_cons]; rfl
    | int h hs hn => simp only [parseTypeOpt, List.cons_append, ty_cons, h, consume_cons, size_parse hs (fits_lt hn)]; rfl
    | float h => simp only [parseTypeOpt, List.cons_append, ty_cons, h, consume_cons]; rfl
    | double h => simp only [parseTypeOpt, List.cons_append, ty_cons, h, consume_cons]; rfl
    | decimal h hs hn => simp only [parseTypeOpt, List.cons_append, ty_cons, h, consume_cons, decimal_parse hs (fits_lt hn)]; rfl
    | @decimal2 k _ _ _ _ _ _ _ h hl ht hp hc hu hn hr =>
      have : ∀ (s : P), parseTypeOpt ⟨k :: s.toks, s.errs⟩ = parseDecimal s := fun s => by
        simp only [parseTypeOpt, ty_cons, h, consume_cons]; rfl
      simp only [List.cons_append, List.nil_append]
      rw [this ⟨_, n⟩]
      simp [parseDecimal, expect_hit hl, expect_hit ht.1, parseScale, accept_hit hc, expect_hit hu.1, expect_hit hr, mkDecimal,
        strtoul_of ht (fits_lt hp), strtoul_of hu (fits_lt hn)]
  simp only [parseType, key]

/-! ### Parts of statements -/

theorem constraint_complete {c : Constraint} {ts : List Tok} (h : Spec.Constr false c ts) (rest : List Tok) (n : Nat) :
    parseConstraint ⟨ts ++ rest, n⟩ = some (some (some c), ⟨rest, n⟩) := by
  cases h with
  | primaryKey h1 h2 => simp [parseConstraint, h1, expect_hit h2]
  | unique h => simp only [parseConstraint, List.cons_append, ty_cons, h, consume_cons]; rfl
  | notNull h1 h2 => simp only [parseConstraint, List.cons_append, ty_cons, h1, consume_cons, expect_hit h2]; rfl
  | check h1 h2 h3 h4 =>
    simp only [parseConstraint, List.cons_append, ty_cons, h1, consume_cons, expect_hit h2, List.append_assoc, List.nil_append,
      expr_complete h4 (_ :: rest) n (by rw [hd_cons, h3]; exact closed_ids.2.2.2.2.2.1), Option.bind_eq_bind, Option.bind_some, expect_hit h3]
    rfl
  | references h1 h2 h3 =>
    simp only [parseConstraint, List.cons_append, ty_cons, h1, consume_cons, expect_hit h2, List.nil_append, tok_cons,
      expect_hit (t := ⟨_, TT.identifier⟩) rfl, expect_hit h3]
    rfl

theorem constraints_complete {cs : List Constraint} {ts : List Tok} (h : Spec.Many (Spec.Constr false) cs ts) (rest : List Tok) (n : Nat)
    (hr : hd rest = .comma ∨ hd rest = .rpar) : parseConstraints ⟨ts ++ rest, n⟩ = some (cs, ⟨rest, n⟩) := by
  induction h with
  | nil =>
    rw [parseConstraints]
    have : parseConstraint ⟨rest, n⟩ = some (none, ⟨rest, n⟩) := by
      simp only [parseConstraint, ty_hd]
      rcases hr with h | h <;> rw [h] <;> rfl
    simp [this]
  | cons h _ ih =>
    rw [parseConstraints, List.append_assoc, constraint_complete h]
    simp [ih]

theorem attrs_complete {as : List (Str × Ty × List Constraint)} {ts : List Tok} (h : Spec.Sep (Spec.Attr false) as ts) (rest : List Tok) (n : Nat)
    (hr : hd rest = .rpar) : parseAttrs ⟨ts ++ rest, n⟩ = some (some as, ⟨rest, n⟩) := by
  induction h with
  | one h =>
    obtain ⟨us, vs, rfl, ht, hc⟩ := h
    rw [parseAttrs]
    simp only [List.cons_append, List.append_assoc, expect_hit (t := ⟨_, TT.identifier⟩) rfl, if_true, type_complete ht,
      constraints_complete hc rest n (Or.inr hr), Option.bind_eq_bind, Option.bind_some, accept_miss' (r := rest) (tt := .comma) (by rw [hr]; decide) (by rw [hr]; decide)]
    rfl
  | more h hcomma _ ih =>
    obtain ⟨us, vs, rfl, ht, hc⟩ := h
    rw [parseAttrs]
    simp only [List.cons_append, List.append_assoc, expect_hit (t := ⟨_, TT.identifier⟩) rfl, if_true, type_complete ht,
      constraints_complete hc (_ :: (_ ++ rest)) n (Or.inl hcomma), Option.bind_eq_bind, Option.bind_some, accept_hit hcomma, ih]
    rfl

theorem names_complete {ns : List Str} {ts : List Tok} (h : Spec.Sep Spec.Name ns ts) (rest : List Tok) (n : Nat) (hr : hd rest = .semicol) :
    parseNames ⟨ts ++ rest, n⟩ = some (some ns, ⟨rest, n⟩) := by
  induction h with
  | one h =>
    cases h
    rw [parseNames]
    simp [expect_hit (t := ⟨_, TT.identifier⟩) rfl, accept_miss' (r := rest) (tt := .comma) (by rw [hr]; decide) (by rw [hr]; decide)]
  | more h hcomma _ ih =>
    cases h
    rw [parseNames]
    simp [expect_hit (t := ⟨_, TT.identifier⟩) rfl, accept_hit hcomma, ih]

theorem fields_complete {fs : List Expr} {ts : List Tok} (h : Spec.Sep (Spec.Field false) fs ts) (rest : List Tok) (n : Nat) (hr : hd rest = .rpar) :
    parseFields ⟨ts ++ rest, n⟩ = some (some fs, ⟨rest, n⟩) := by
  have one : ∀ {e : Expr} {ts rest : List Tok}, Spec.Field false e ts → Closed (hd rest) →
      (if P.ty ⟨ts ++ rest, n⟩ = .identifier then some (some (.designator none (P.tok ⟨ts ++ rest, n⟩).text), P.consume ⟨ts ++ rest, n⟩)
    else if P.ty ⟨ts ++ rest, n⟩ = .lpar then do
      let (e, s) ← parseExpr 0 ⟨ts ++ rest, n⟩
      some (some e, s)
    else some (none, P.err ⟨ts ++ rest, n⟩) : Option (Option Expr × P)) = some (some e, ⟨rest, n⟩) := by
    intro e ts rest h hr
    cases h with
    | attr => simp
    | open_ h => cases h
    | expr hl hr' h =>
      have h1 : Spec.Exp false 0 e (_ :: (_ ++ [_])) := .postfix_ (.paren hl hr' h)
      rw [if_neg (by simp [hl]), if_pos (by simp [hl]), expr_complete h1 rest n hr]
      rfl
  induction h with
  | one h =>
    rw [parseFields, one h (by rw [hr]; exact closed_ids.2.2.2.2.2.1)]
    simp [accept_miss' (r := rest) (tt := .comma) (by rw [hr]; decide) (by rw [hr]; decide)]
  | @more _ _ c _ us h hcomma _ ih =>
    rw [parseFields, List.append_assoc, List.cons_append, one (rest := c :: (us ++ rest)) h (by rw [hd_cons, hcomma]; exact closed_ids.2.2.2.2.1)]
    simp [accept_hit hcomma, ih]

theorem elems_complete {es : List Elem} {ts : List Tok} (h : Spec.Sep (Spec.Value false) es ts) (rest : List Tok) (n : Nat) (hr : hd rest = .rpar) :
    parseElems ⟨ts ++ rest, n⟩ = some (es, ⟨rest, n⟩) := by
  have one : ∀ {e : Elem} {ts rest : List Tok}, Spec.Value false e ts → Closed (hd rest) →
      (if P.ty ⟨ts ++ rest, n⟩ = K "DEFAULT" then some (.default, P.consume ⟨ts ++ rest, n⟩)
    else if P.ty ⟨ts ++ rest, n⟩ = K "NULL" then some (.null, P.consume ⟨ts ++ rest, n⟩)
    else do
      let (e, s) ← parseExpr 0 ⟨ts ++ rest, n⟩
      some (.expr e, s) : Option (Elem × P)) = some (e, ⟨rest, n⟩) := by
    intro e ts rest h hr
    cases h with
    | default h => simp only [List.cons_append, ty_cons, h]; rfl
    | null h => simp only [List.cons_append, ty_cons, h]; rfl
    | expr h hn =>
      obtain ⟨t, r, rfl, hs⟩ := start_exp h
      have hx := expr_complete h rest n hr
      rw [List.cons_append] at hx ⊢
      rw [ty_cons, if_neg (starts_ne _ hs).2.2.2.1, if_neg (hn t rfl), hx]
      rfl
  induction h with
  | one h =>
    rw [parseElems, one h (by rw [hr]; exact closed_ids.2.2.2.2.2.1)]
    simp [accept_miss' (r := rest) (tt := .comma) (by rw [hr]; decide) (by rw [hr]; decide)]
  | @more _ _ c _ us h hcomma _ ih =>
    rw [parseElems, List.append_assoc, List.cons_append, one (rest := c :: (us ++ rest)) h (by rw [hd_cons, hcomma]; exact closed_ids.2.2.2.2.1)]
    simp [accept_hit hcomma, ih]

theorem tuple_complete {es : List Elem} {ts : List Tok} (h : Spec.Tuple false es ts) (rest : List Tok) (n : Nat) :
    parseTuple ⟨ts ++ rest, n⟩ = some (some es, ⟨rest, n⟩) := by
  cases h with
  | @mk _ r _ _ hl hr h => simp [parseTuple, expect_hit hl, elems_complete h (r :: rest) n hr, expect_hit hr]

theorem tuples_complete {l : List (List Elem)} {ts : List Tok} (h : Spec.Sep (Spec.Tuple false) l ts) (rest : List Tok) (n : Nat) (hr : hd rest = .semicol) :
    parseTuples ⟨ts ++ rest, n⟩ = some (l, ⟨rest, n⟩) := by
  induction h with
  | one h =>
    rw [parseTuples, tuple_complete h]
    simp [accept_miss' (r := rest) (tt := .comma) (by rw [hr]; decide) (by rw [hr]; decide)]
  | more h hcomma _ ih =>
    rw [parseTuples, List.append_assoc, List.cons_append, tuple_complete h]
    simp [accept_hit hcomma, ih]

theorem sets_complete {l : List (Str × Expr)} {ts : List Tok} (h : Spec.Sep (Spec.Assign false) l ts) (rest : List Tok) (n : Nat)
    (hr : hd rest ∈ stops 0) : parseSets ⟨ts ++ rest, n⟩ = some (some l, ⟨rest, n⟩) := by
  have hk := stops_ok _ hr
  induction h with
  | one h =>
    cases h with
    | mk hq h =>
      rw [parseSets]
      simp [expect_hit (t := ⟨_, TT.identifier⟩) rfl, expect_hit hq, expr_complete h rest n hk.1, accept_miss' hk.2.1 hk.1.2.2.1]
  | @more _ _ c _ us h hcomma _ ih =>
    cases h with
    | mk hq h =>
      rw [parseSets]
      simp [expect_hit (t := ⟨_, TT.identifier⟩) rfl, expect_hit hq,
        expr_complete h (c :: (us ++ rest)) n (by rw [hd_cons, hcomma]; exact closed_ids.2.2.2.2.1), accept_hit hcomma, ih]

/-! ### Statements -/

theorem ifExists_complete {b : Bool} {is : List Tok} (h : Spec.IfExists b is) (rest : List Tok) (n : Nat) (hr : hd rest = .identifier)
    (k : Bool → P → Option (Stmt × P)) : parseIfExists ⟨is ++ rest, n⟩ k = k b ⟨rest, n⟩ := by
  cases h with
  | no => simp [parseIfExists, accept_miss' (r := rest) (tt := K "IF") (by rw [hr]; decide) (by rw [hr]; decide)]
  | yes h1 h2 => simp [parseIfExists, accept_hit h1, expectOr_hit h2]

theorem indexName_complete {b : Bool} {name : Option Str} {ns : List Tok} (h : Spec.IndexName b name ns) (rest : List Tok) (n : Nat) (hr : hd rest = K "ON")
    (k : Bool → Option Str → P → Option (Stmt × P)) : parseIndexName ⟨ns ++ rest, n⟩ k = k b name ⟨rest, n⟩ := by
  cases h with
  | none =>
    have h1 : P.ty ⟨rest, n⟩ ≠ .identifier := by rw [ty_hd, hr]; decide
    simp [parseIndexName, accept_miss' (r := rest) (tt := K "IF") (by rw [hr]; decide) (by rw [hr]; decide), h1]
  | name =>
    simp only [parseIndexName, List.cons_append, List.nil_append]
    rw [accept_miss (by simp [K]) (by simp)]
    simp
  | ifNotExists h1 h2 h3 => simp [parseIndexName, accept_hit h1, expectOr_hit h2, expectOr_hit h3, expectOr_hit (t := ⟨_, TT.identifier⟩) rfl]

theorem method_complete {m : Option Tok} {ms : List Tok} (h : Spec.OptArg "USING" [.identifier, K "DEFAULT"] m ms) (rest : List Tok) (n : Nat)
    (hr : hd rest = .lpar) (k : Option Tok → P → Option (Stmt × P)) : parseMethod ⟨ms ++ rest, n⟩ k = k m ⟨rest, n⟩ := by
  cases h with
  | none => simp [parseMethod, accept_miss' (r := rest) (tt := K "USING") (by rw [hr]; decide) (by rw [hr]; decide)]
  | some h1 h2 =>
    simp only [List.mem_cons, List.not_mem_nil, or_false] at h2
    simp only [parseMethod, List.cons_append, List.nil_append, accept_hit h1, if_true, ty_cons, tok_cons, consume_cons]
    rw [if_neg]
    rintro ⟨h3, h4⟩
    exact h2.elim h3 h4

/-- What may follow in IMPORT. -/
def importKws : List TT := [K "ROWS", K "DELIMITER", K "ESCAPE", K "QUOTE", K "HAS", K "SKIP", .semicol]

theorem rows_complete {m : Option Tok} {ms : List Tok} (h : Spec.OptArg "ROWS" [.decInt, .octInt] m ms) (rest : List Tok) (n : Nat)
    (hr : hd rest ∈ importKws.drop 1) (k : Option Tok → P → Option (Stmt × P)) : parseRows ⟨ms ++ rest, n⟩ k = k m ⟨rest, n⟩ := by
  have hne : hd rest ≠ K "ROWS" ∧ hd rest ≠ .error := by
    have : ∀ t ∈ importKws.drop 1, t ≠ K "ROWS" ∧ t ≠ .error := by decide
    exact this _ hr
  cases h with
  | none => simp [parseRows, accept_miss' hne.1 hne.2]
  | some h1 h2 =>
    simp only [List.mem_cons, List.not_mem_nil, or_false] at h2
    simp only [parseRows, List.cons_append, List.nil_append, accept_hit h1, if_true, ty_cons, tok_cons, consume_cons]
    rw [if_pos h2]

theorem optString_complete {w : String} {m : Option Tok} {ms : List Tok} (h : Spec.OptArg w [.stringLiteral] m ms) (rest : List Tok) (n : Nat)
    (hr : hd rest ≠ K w) (he : hd rest ≠ .error) (k : Option Tok → P → Option (Stmt × P)) : parseOptString (K w) ⟨ms ++ rest, n⟩ k = k m ⟨rest, n⟩ := by
  cases h with
  | none => simp [parseOptString, accept_miss' hr he]
  | some h1 h2 =>
    simp only [List.mem_cons, List.not_mem_nil, or_false] at h2
    simp [parseOptString, accept_hit h1, expectOr_hit h2]

theorem header_complete {w : String} {b : Bool} {ms : List Tok} (h : Spec.OptHeader w b ms) (rest : List Tok) (n : Nat)
    (hr : hd rest ≠ K w) (he : hd rest ≠ .error) (k : Bool → P → Option (Stmt × P)) : parseHeader (K w) ⟨ms ++ rest, n⟩ k = k b ⟨rest, n⟩ := by
  cases h with
  | no => simp [parseHeader, accept_miss' hr he]
  | yes h1 h2 => simp [parseHeader, accept_hit h1, expectOr_hit h2]

theorem optArg_start {w : String} {tys : List TT} {m : Option Tok} {ms : List Tok} (h : Spec.OptArg w tys m ms) (rest : List Tok) :
    hd (ms ++ rest) = K w ∨ hd (ms ++ rest) = hd rest := by
  cases h with
  | none => exact Or.inr rfl
  | some h1 _ => exact Or.inl h1

theorem optHeader_start {w : String} {b : Bool} {ms : List Tok} (h : Spec.OptHeader w b ms) (rest : List Tok) :
    hd (ms ++ rest) = K w ∨ hd (ms ++ rest) = hd rest := by
  cases h with
  | no => exact Or.inr rfl
  | yes h1 _ => exact Or.inl h1

theorem kws1 {a : String} {ks : List Tok} (h : Spec.Kws [a] ks) : ∃ k, ks = [k] ∧ k.type = K a := by
  match ks, h with
  | [k], h => exact ⟨k, rfl, by simpa [Spec.Kws] using h⟩
  | [], h => simp [Spec.Kws] at h
  | _ :: _ :: _, h => simp [Spec.Kws] at h

theorem kws2 {a b : String} {ks : List Tok} (h : Spec.Kws [a, b] ks) : ∃ k l, ks = [k, l] ∧ k.type = K a ∧ l.type = K b := by
  match ks, h with
  | [k, l], h => exact ⟨k, l, rfl, by simpa [Spec.Kws] using h⟩
  | [], h => simp [Spec.Kws] at h
  | [_], h => simp [Spec.Kws] at h
  | _ :: _ :: _ :: _, h => simp [Spec.Kws] at h

theorem names_start {ns : List Str} {ts : List Tok} (h : Spec.Sep Spec.Name ns ts) (rest : List Tok) : hd (ts ++ rest) = .identifier := by
  cases h with
  | one h => cases h; rfl
  | more h => cases h; rfl

theorem expectS1_hit {t : Tok} {tt : TT} (h : t.type = tt) (r : List Tok) (n : Nat) (k : P → Option (Stmt × P)) :
    expectS1 tt ⟨t :: r, n⟩ k = k ⟨r, n⟩ := expectFirst_hit h _ _ r n k

theorem expectS_hit {t : Tok} {tt : TT} (h : t.type = tt) (r : List Tok) (n : Nat) (k : P → Option (Stmt × P)) :
    expectS tt ⟨t :: r, n⟩ k = k ⟨r, n⟩ := expectOr_hit h _ _ r n k

theorem ident_type (n : Str) : (⟨n, TT.identifier⟩ : Tok).type = .identifier := rfl

theorem finish_some {st : Stmt} {semi : Tok} {rest : List Tok} {n : Nat} (h : semi.type = .semicol) :
    finish (some (st, ⟨semi :: rest, n⟩)) = some (st, ⟨rest, n⟩) := by
  simp [finish, expect_hit h]

theorem where_complete {w : Option Clause} {vs : List Tok} (h : Spec.OptCl false 1 w vs) (semi : Tok) (hs : semi.type = .semicol) (rest : List Tok) (n : Nat) :
    parseOptWhere ⟨vs ++ semi :: rest, n⟩ = some (w, ⟨semi :: rest, n⟩) :=
  optCl_complete h (semi :: rest) n (by decide) (by rw [hd_cons, hs]; decide)

theorem statement_complete {st : Stmt} {ts : List Tok} (h : Spec.Statement false st ts) (semi : Tok) (hs : semi.type = .semicol) (rest : List Tok) (n : Nat) :
    parseStmt ⟨ts ++ semi :: rest, n⟩ = some (st, ⟨rest, n⟩) := by
  have hsemi : hd (semi :: rest) = .semicol := hs
  cases h with
  | createDatabase h =>
    obtain ⟨k, l, rfl, h1, h2⟩ := kws2 h
    simp only [parseStmt, List.cons_append, List.nil_append, ty_cons, ty1_cons, h1, h2, parseCreateDatabase, expectS1_hit h1, expectS_hit h2, tok_cons,
      expectS_hit (ident_type _), finish_some hs]
    rfl
  | dropDatabase h hi =>
    obtain ⟨k, l, rfl, h1, h2⟩ := kws2 h
    simp only [parseStmt, List.cons_append, List.nil_append, List.append_assoc, ty_cons, ty1_cons, h1, h2, parseDropDatabase, expectS1_hit h1, expectS_hit h2,
      ifExists_complete hi (⟨_, TT.identifier⟩ :: semi :: rest) n rfl, tok_cons, expectS_hit (ident_type _), finish_some hs]
    rfl
  | useDatabase h =>
    obtain ⟨k, rfl, h1⟩ := kws1 h
    simp only [parseStmt, List.cons_append, List.nil_append, ty_cons, h1, parseUse, expectS1_hit h1, tok_cons,
      expectS_hit (ident_type _), finish_some hs]
    rfl
  | @createTable _ _ _ r _ _ h hl ha hr =>
    obtain ⟨k, l, rfl, h1, h2⟩ := kws2 h
    simp only [parseStmt, List.cons_append, List.nil_append, List.append_assoc, ty_cons, ty1_cons, h1, h2, parseCreateTable, expectS1_hit h1, expectS_hit h2,
      tok_cons, expectS_hit (ident_type _), expectS_hit hl, attrs_complete ha (r :: semi :: rest) n hr, Option.bind_eq_bind, Option.bind_some, expectS_hit hr, finish_some hs]
    rfl
  | @dropTable _ _ _ _ us h hi hn =>
    obtain ⟨k, l, rfl, h1, h2⟩ := kws2 h
    simp only [parseStmt, List.cons_append, List.nil_append, List.append_assoc, ty_cons, ty1_cons, h1, h2, parseDropTable, expectS1_hit h1, expectS_hit h2,
      ifExists_complete hi (us ++ semi :: rest) n (names_start hn _), names_complete hn _ n hsemi, Option.bind_eq_bind, Option.bind_some, finish_some hs]
    rfl
  | @dropIndex _ _ _ _ us h hi hn =>
    obtain ⟨k, l, rfl, h1, h2⟩ := kws2 h
    simp only [parseStmt, List.cons_append, List.nil_append, List.append_assoc, ty_cons, ty1_cons, h1, h2, parseDropIndex, expectS1_hit h1, expectS_hit h2,
      ifExists_complete hi (us ++ semi :: rest) n (names_start hn _), names_complete hn _ n hsemi, Option.bind_eq_bind, Option.bind_some, finish_some hs]
    rfl
  | @createIndex k u us i b name ns o t m ms l fs vs r h1 hu hi hn ho hm hl hf hr =>
    have key : ∀ (s : P), s = ⟨ns ++ o :: ⟨t, .identifier⟩ :: (ms ++ l :: (vs ++ r :: semi :: rest)), n⟩ →
        (parseIndexName s fun b name s => expectS (K "ON") s fun s => expectS .identifier s fun s' => parseMethod s' fun method s' => expectS .lpar s' fun s' => do
          let (fs, s') ← parseFields s'
          match fs with
          | none => failStmt s'
          | some fs => expectS .rpar s' fun s' => some (.createIndex u b name s.tok.text method fs, s')) =
        some (.createIndex u b name t m fs, ⟨semi :: rest, n⟩) := by
      rintro s rfl
      simp only [indexName_complete hn (o :: ⟨t, .identifier⟩ :: (ms ++ l :: (vs ++ r :: semi :: rest))) n ho, expectS_hit ho, expectS_hit (ident_type _),
        method_complete hm (l :: (vs ++ r :: semi :: rest)) n hl, expectS_hit hl, fields_complete hf (r :: semi :: rest) n hr, Option.bind_eq_bind, Option.bind_some, expectS_hit hr, tok_cons]
    cases hu with
    | no =>
      have hnu : (i.type = K "UNIQUE") = False := by rw [hi]; exact eq_false (by decide)
      have h0 : parseCreateIndex ⟨k :: ([] ++ i :: (ns ++ o :: ⟨t, .identifier⟩ :: (ms ++ l :: (vs ++ r :: semi :: rest)))), n⟩ =
          some (.createIndex false b name t m fs, ⟨semi :: rest, n⟩) := by
        simp only [parseCreateIndex, expectS_hit h1, List.nil_append, ty_cons, hnu, decide_false, Bool.false_eq_true, if_false, expectS_hit hi]
        exact key _ rfl
      simp only [parseStmt, List.cons_append, List.nil_append, List.append_assoc, ty_cons, ty1_cons, h1, hi] at h0 ⊢
      rw [h0]
      simp only [finish_some hs]
      rfl
    | @yes x hx =>
      have hnu : (x.type = K "UNIQUE") = True := eq_true hx
      have h0 : parseCreateIndex ⟨k :: ([x] ++ i :: (ns ++ o :: ⟨t, .identifier⟩ :: (ms ++ l :: (vs ++ r :: semi :: rest)))), n⟩ =
          some (.createIndex true b name t m fs, ⟨semi :: rest, n⟩) := by
        simp only [parseCreateIndex, expectS_hit h1, List.cons_append, List.nil_append, ty_cons, hnu, decide_true, if_true, consume_cons, expectS_hit hi]
        exact key _ rfl
      simp only [parseStmt, List.cons_append, List.nil_append, List.append_assoc, ty_cons, ty1_cons, h1, hx] at h0 ⊢
      rw [h0]
      simp only [finish_some hs]
      rfl
  | select h =>
    have h0 := sel_complete h (semi :: rest) n (by rw [hsemi]; decide)
    have h1 : P.ty ⟨ts ++ semi :: rest, n⟩ = K "SELECT" := sel_start h _
    simp only [parseStmt, h1, h0, Option.bind_eq_bind, Option.bind_some, finish_some hs]
    rfl
  | insert h hv ht =>
    obtain ⟨k, l, rfl, h1, h2⟩ := kws2 h
    simp only [parseStmt, List.cons_append, List.nil_append, ty_cons, h1, parseInsert, expectS1_hit h1, expectS_hit h2, tok_cons,
      expectS_hit (ident_type _), expectS_hit hv, tuples_complete ht _ n hsemi, Option.bind_eq_bind, Option.bind_some, finish_some hs]
    rfl
  | @update _ _ _ _ _ _ vs h hv he hw =>
    obtain ⟨k, rfl, h1⟩ := kws1 h
    have hst : hd (vs ++ semi :: rest) ∈ stops 0 := stops_mono (Nat.zero_le 1) (optCl_start hw (by rw [hsemi]; decide))
    simp only [parseStmt, List.cons_append, List.nil_append, List.append_assoc, ty_cons, h1, parseUpdate, expectS1_hit h1, tok_cons,
      expectS_hit (ident_type _), expectS_hit hv, sets_complete he _ n hst, where_complete hw semi hs, Option.bind_eq_bind, Option.bind_some, finish_some hs]
    rfl
  | delete h hw =>
    obtain ⟨k, l, rfl, h1, h2⟩ := kws2 h
    simp only [parseStmt, List.cons_append, List.nil_append, ty_cons, h1, parseDelete, expectS1_hit h1, expectS_hit h2, tok_cons,
      expectS_hit (ident_type _), where_complete hw semi hs, Option.bind_eq_bind, Option.bind_some, finish_some hs]
    rfl
  | @importDSV _ tn d p rows rs del ds esc es quo qs has hs' skip ss h hd' hp hrows hdel hesc hquo hhas hskip =>
    obtain ⟨k, l, rfl, h1, h2⟩ := kws2 h
    have m6 : hd (semi :: rest) ∈ importKws.drop 6 := by rw [hsemi]; decide
    have step : ∀ (i : Nat) (w : String) (us r : List Tok), importKws[i]? = some (K w) → (hd (us ++ r) = K w ∨ hd (us ++ r) = hd r) → hd r ∈ importKws.drop (i + 1) →
        hd (us ++ r) ∈ importKws.drop i := by
      intro i w us r hi h hr
      have hmem : importKws.drop i = K w :: importKws.drop (i + 1) := by
        obtain ⟨hlt, hget⟩ := List.getElem?_eq_some_iff.1 hi
        rw [← hget]
        exact List.drop_eq_getElem_cons hlt
      rw [hmem]
      rcases h with h | h
      · rw [h]; simp
      · rw [h]; exact List.mem_cons_of_mem _ hr
    have m5 := step 5 "SKIP" ss _ rfl (optHeader_start hskip _) m6
    have m4 := step 4 "HAS" hs' _ rfl (optHeader_start hhas _) m5
    have m3 := step 3 "QUOTE" qs _ rfl (optArg_start hquo _) m4
    have m2 := step 2 "ESCAPE" es _ rfl (optArg_start hesc _) m3
    have m1 := step 1 "DELIMITER" ds _ rfl (optArg_start hdel _) m2
    have ne : ∀ i < 6, ∀ t ∈ importKws.drop (i + 1), t ≠ importKws.getD i .eof ∧ t ≠ .error := by decide
    have h0 : parseImport ⟨k :: l :: ⟨tn, .identifier⟩ :: d :: p :: (rs ++ (ds ++ (es ++ (qs ++ (hs' ++ (ss ++ semi :: rest)))))), n⟩ =
        some (.importDSV tn p rows del esc quo has skip, ⟨semi :: rest, n⟩) := by
      rw [parseImport, expectS1_hit h1, expectS_hit h2, expectS_hit (ident_type _), ty_cons, if_pos hd', consume_cons, tok_cons]
      simp only [tok_cons]
      rw [expectS_hit hp, rows_complete hrows _ n m1, optString_complete hdel _ n (ne 1 (by decide) _ m2).1 (ne 1 (by decide) _ m2).2,
        optString_complete hesc _ n (ne 2 (by decide) _ m3).1 (ne 2 (by decide) _ m3).2,
        optString_complete hquo _ n (ne 3 (by decide) _ m4).1 (ne 3 (by decide) _ m4).2,
        header_complete hhas _ n (ne 4 (by decide) _ m5).1 (ne 4 (by decide) _ m5).2,
        header_complete hskip _ n (ne 5 (by decide) _ m6).1 (ne 5 (by decide) _ m6).2]
    simp only [parseStmt, List.cons_append, List.nil_append, List.append_assoc, ty_cons, h1, h0, finish_some hs]
    rfl

end Mutable.Parse
