import Verif.Parser.PrintStmt
import Verif.Parser.SoundStmt
import Verif.Parser.CompleteStmt
/-!
# C37: parsing and printing

The grammar is `Spec.lean`: `Spec.Statement lax st ts` says that the statement `st` is written as the tokens `ts` (without
the final semicolon), `Spec.Exp lax q e ts` that the expression `e`, whose operators bind at least as tight as level `q`,
is written as `ts`.  `Printable.lean` describes the trees whose printed text can be read again.
-/
namespace Mutable.Parse
open Mutable.Lex (TT lex)
open Spec (PExpr PSel PStmt)

/-- The tokens of a text. -/
def toks (input : Str) : List Tok := (lex input).map fun t => ⟨t.text, t.type⟩

theorem toks_of_source {ts : List Tok} {input : Str} (h : Lex.Source (pairs ts) input) (h0 : Char.ofNat 0 ∉ input)
    (hb : input.getLast? ≠ some '\\') : toks input = ts ++ [eofTok] := by
  have h1 := congrArg (List.map fun p : List Char × TT => (⟨p.1, p.2⟩ : Tok)) (Lex.C36_round_trip h h0 hb)
  rw [List.map_map, List.map_append] at h1
  have h2 : (pairs ts).map (fun p : List Char × TT => (⟨p.1, p.2⟩ : Tok)) = ts := by
    rw [pairs, List.map_map]
    exact List.map_id _
  rw [h2] at h1
  exact h1

theorem parse_of_stmt {s s' : P} {st : Stmt} (h : parseStmt s = some (st, s')) (he : s'.errs = s.errs) : parse s = some (.stmt st, s') := by
  unfold parse
  by_cases hi : s.ty = .instruction
  · exfalso
    have : parseStmt s = noStmt s := by simp [parseStmt, hi, K]
    rw [this, noStmt, failStmt] at h
    cases h
    simp [P.recover, P.consume, P.err] at he
  · rw [if_neg hi, h]
    rfl

/-! ### Everything that the grammar derives is accepted, and the tree is the one of the grammar -/

/-- An expression is read with the precedence and associativity of the grammar, whatever precedes and follows it, unless
the next token continues the expression. -/
theorem C37_expression {e : Expr} {ts : List Tok} (h : Spec.Exp false 0 e ts) (rest : List Tok) (n : Nat)
    (hr : ∀ t ∈ rest.head?, t.type ∈ [.eof, .semicol, .comma, .rpar, .identifier, K "AS", K "FROM", K "WHERE", K "GROUP", K "HAVING",
      K "ORDER", K "LIMIT", K "ASC", K "DESC"]) :
    parseExpr 0 ⟨ts ++ rest, n⟩ = some (e, ⟨rest, n⟩) := by
  have ht : hd rest ∈ [TT.eof, .semicol, .comma, .rpar, .identifier, K "AS", K "FROM", K "WHERE", K "GROUP", K "HAVING",
      K "ORDER", K "LIMIT", K "ASC", K "DESC"] := by
    cases rest with
    | nil => exact List.mem_cons_self
    | cons t r => exact hr t rfl
  have hp : prec (hd rest) = none ∧ hd rest ≠ .lpar ∧ hd rest ≠ .error ∧ hd rest ≠ .dot := by
    generalize hd rest = t at ht
    revert t
    decide
  rw [exp_complete h 0 rest n (Nat.le_refl _) ⟨hp.2.1, hp.2.2.1, hp.2.2.2, by simp [hp.1]⟩]
  refine loop_stop ?_
  intro p h
  have h' : prec (hd rest) = some p := h
  rw [hp.1] at h'
  cases h'

/-- A statement and its semicolon are read without an error, and nothing else. -/
theorem C37_statement {st : Stmt} {ts : List Tok} (h : Spec.Statement false st ts) {semi : Tok} (hs : semi.type = .semicol) (rest : List Tok) (n : Nat) :
    parse ⟨ts ++ semi :: rest, n⟩ = some (.stmt st, ⟨rest, n⟩) :=
  parse_of_stmt (statement_complete h semi hs rest n) rfl

/-- The grammar is unambiguous. -/
theorem C37_unambiguous {st st' : Stmt} {ts : List Tok} (h : Spec.Statement false st ts) (h' : Spec.Statement false st' ts) : st = st' := by
  have h1 := C37_statement h (semi := sc) rfl [] 0
  rw [C37_statement h' (semi := sc) rfl [] 0] at h1
  injection h1 with h1
  injection h1 with h1
  injection h1 with h1
  exact h1.symm

/-- The text of a statement, with any white space and comments. -/
theorem C37_text {st : Stmt} {ts rest : List Tok} {semi : Tok} {input : Str} (h : Spec.Statement false st ts) (hs : semi.type = .semicol)
    (hi : Lex.Source (pairs (ts ++ semi :: rest)) input) (h0 : Char.ofNat 0 ∉ input) (hb : input.getLast? ≠ some '\\') :
    parse ⟨toks input, 0⟩ = some (.stmt st, ⟨rest ++ [eofTok], 0⟩) := by
  rw [toks_of_source hi h0 hb, List.append_assoc, List.cons_append]
  exact C37_statement h hs _ 0

/-! ### Printing -/

/-- Reading the printed expression again (`;` follows it) yields the expression.  Partial: `PExpr` excludes nested queries
that are not expanded (`C37_nested_query_lost`). -/
theorem C37_print_expression_partial {x : Bool} {e : Expr} (h : PExpr x e) (h0 : Char.ofNat 0 ∉ printExpr x e) :
    parseExpr 0 ⟨toks (printExpr x e ++ [';']), 0⟩ = some (e, ⟨[sc, eofTok], 0⟩) := by
  obtain ⟨ts, h1, h2⟩ := expr_print h
  have h3 : Lex.Source (pairs (ts ++ [sc])) (printExpr x e ++ [';']) := by
    have := h2 [';'] (pairs [sc]) dl_sc (src_semi (.eof (Or.inl .nil)))
    rwa [pairs_append]
  rw [toks_of_source h3 (by
    intro hm
    rcases List.mem_append.1 hm with hm | hm
    · exact h0 hm
    · simp at hm) (by simp), List.append_assoc]
  exact C37_expression (.postfix_ h1) [sc, eofTok] 0 (by simp [sc])

/-- Reading the printed statement again yields the statement.  Partial: `PStmt` excludes the statements of which the printer
loses something (see the defects below). -/
theorem C37_print_partial {x : Bool} {st : Stmt} (h : PStmt x st) (h0 : Char.ofNat 0 ∉ printStmt x st) :
    parse ⟨toks (printStmt x st), 0⟩ = some (.stmt st, ⟨[eofTok], 0⟩) := by
  obtain ⟨ts, h1, h2⟩ := stmt_print h
  have h3 : Lex.Source (pairs (ts ++ [sc])) (printStmt x st) := by
    have := h2 [] [] Delim.nil (.eof (Or.inl .nil))
    simpa using this
  have h4 : (printStmt x st).getLast? ≠ some '\\' := by
    have hl : ∀ (l : Str), (l ++ S ";").getLast? ≠ some '\\' := by
      intro l
      show (l ++ [';']).getLast? ≠ _
      simp
    have hl2 : ∀ (l : Str), (l ++ S "\n);").getLast? ≠ some '\\' := by
      intro l
      show (l ++ ['\n', ')', ';']).getLast? ≠ _
      simp
    cases h with
    | createTable => exact hl2 _
    | createIndex => exact hl2 _
    | _ => exact hl _
  rw [toks_of_source h3 h0 h4, List.append_assoc]
  exact C37_statement h1 rfl [eofTok] 0

/-! ### Arbitrary input -/

theorem parseInstruction_cons (t : Tok) (r : List Tok) (n : Nat) : parseInstruction ⟨t :: r, n⟩ =
    (.instruction t.text (t.text.tail.takeWhile fun c => !isDelim c) (splitArgs t.text.tail.length (t.text.tail.dropWhile fun c => !isDelim c)),
      ((⟨r, n⟩ : P).expect .semicol).2) := rfl

theorem expect_snd (s : P) (tt : TT) : (s.ty = tt ∨ s.ty = .error) ∧ (s.expect tt).2 = s.consume ∨ (s.expect tt).2 = s.err := by
  unfold P.expect
  split
  · exact Or.inl ⟨by assumption, rfl⟩
  · exact Or.inr rfl

/-- The parser terminates for every sequence of tokens, the rest of which is a suffix.  It consumes at least one token. -/
theorem C37_terminates (s : P) : ∃ c s', parse s = some (c, s') ∧ s'.toks <:+ s.toks.tail ∧ s.errs ≤ s'.errs := by
  obtain ⟨l, n⟩ := s
  cases l with
  | nil =>
    refine ⟨.stmt .error, ⟨[], n + 1⟩, ?_, List.suffix_rfl, Nat.le_succ _⟩
    simp [parse, parseStmt, P.ty, P.tok, eofTok, K, noStmt, failStmt, P.err, P.consume, P.recover]
  | cons t r =>
    unfold parse
    split
    · rw [parseInstruction_cons]
      refine ⟨_, _, rfl, ?_⟩
      rcases expect_snd ⟨r, n⟩ .semicol with ⟨_, h⟩ | h <;> simp only [h, List.tail_cons]
      · exact ⟨List.tail_suffix r, Nat.le_refl _⟩
      · exact ⟨List.suffix_rfl, Nat.le_succ _⟩
    · obtain ⟨st, s', h, h1, h2, _⟩ := stmt_ok t r n
      exact ⟨.stmt st, s', by rw [h]; rfl, h1, h2⟩

/-- A text that is read without an error consists of a statement of the (lax) grammar, an instruction or an empty
statement, and a semicolon.  Partial: the parser accepts more than the strict grammar (`C37_binary_not`). -/
theorem C37_sound_partial (input : Str) (h0 : Char.ofNat 0 ∉ input) (hb : input.getLast? ≠ some '\\') (hne : ∀ t ∈ lex input, t.type ≠ .error)
    {us : List Tok} (hu : us <:+ toks input) {c : Command} {rest : List Tok} (h : parse ⟨us, 0⟩ = some (c, ⟨rest, 0⟩)) :
    ∃ ts semi, us = ts ++ semi :: rest ∧ semi.type = .semicol ∧
      ((∃ st, c = .stmt st ∧ (st = .empty ∧ ts = [] ∨ Spec.Statement true st ts)) ∨
        ∃ t name args, c = .instruction t.text name args ∧ ts = [t] ∧ t.type = .instruction) := by
  have hcl : ∀ n, Clean ⟨us, n⟩ := by
    intro n t ht
    obtain ⟨t', ht', rfl⟩ := List.mem_map.1 (hu.subset ht)
    refine ⟨hne t' ht', fun hd c hc => ?_⟩
    simp only at hd hc
    rcases Lex.C36_sound_partial input h0 hb t' ht' (hne t' ht') (by rw [hd]; simp) (by rw [hd]; simp) (by rw [hd]; simp) with hv | ⟨hv, _⟩
    · rw [hd] at hv
      generalize t'.text = w at hv hc
      cases hv with
      | decInt h1 _ h2 =>
        rcases List.mem_cons.1 hc with rfl | hc
        · simpa [Lex.isDec] using h1
        · simpa [Lex.isDec] using h2 c hc
    · rw [hd] at hv
      cases hv
  cases us with
  | nil =>
    exfalso
    simp [parse, parseStmt, P.ty, P.tok, eofTok, K, noStmt, failStmt, P.err, P.consume, P.recover] at h
  | cons t r =>
    unfold parse at h
    split at h
    · rename_i hi
      rw [parseInstruction_cons] at h
      simp only [Option.some.injEq, Prod.mk.injEq] at h
      obtain ⟨rfl, h⟩ := h
      rcases expect_snd ⟨r, 0⟩ .semicol with ⟨hs, h'⟩ | h' <;> rw [h'] at h
      · simp only [P.consume] at h
        cases r with
        | nil => simp [P.ty, P.tok, eofTok] at hs
        | cons u r =>
          simp only [List.tail_cons, P.mk.injEq, and_true] at h
          subst h
          have hu' : u.type = .semicol := by
            rcases hs with hs | hs
            · exact hs
            · exact absurd hs ((hcl 0) u (by simp)).1
          exact ⟨[t], u, rfl, hu', Or.inr ⟨t, _, _, rfl, rfl, hi⟩⟩
      · simp [P.err] at h
    · obtain ⟨st, s', h', h1, h2, h3⟩ := stmt_ok t r 0
      rw [h'] at h
      simp only [Option.bind_eq_bind, Option.bind_some, Option.some.injEq, Prod.mk.injEq] at h
      obtain ⟨rfl, rfl⟩ := h
      obtain ⟨ts, h4, h5⟩ := h3 ((hcl 0).suffix (List.suffix_cons _ _)) rfl
      simp only at h4
      rcases h5 with ⟨rfl, h6, rfl⟩ | ⟨vs, semi, h6, h7, h8⟩
      · exact ⟨[], t, by simp [h4], h6, Or.inl ⟨_, rfl, Or.inl ⟨rfl, rfl⟩⟩⟩
      · refine ⟨vs, semi, ?_, h7, Or.inl ⟨st, rfl, Or.inr h8⟩⟩
        rw [h4, ← List.cons_append, h6]
        simp

/-! ### Instructions -/

/-- `w` consists of the given words, which blanks and newlines separate. -/
inductive Spec.Words : Str → List Str → Prop
  | nil {g} : (∀ c ∈ g, c = ' ' ∨ c = '\n') → Words g []
  | cons {g w r ws} : (∀ c ∈ g, c = ' ' ∨ c = '\n') → w ≠ [] → (∀ c ∈ w, c ≠ ' ' ∧ c ≠ '\n') → (∀ c ∈ r.head?, c = ' ' ∨ c = '\n') →
      Words r ws → Words (g ++ w ++ r) (w :: ws)

theorem isDelim_iff {c : Char} : isDelim c = true ↔ c = ' ' ∨ c = '\n' := by simp [isDelim]

theorem head_dropWhile {p : Char → Bool} {l : Str} : ∀ c ∈ (l.dropWhile p).head?, p c = false := by
  induction l with
  | nil => simp
  | cons a l ih =>
    by_cases h : p a = true
    · simpa [List.dropWhile_cons, h] using ih
    · simp [List.dropWhile_cons, h]

theorem splitArgs_words : ∀ (f : Nat) (w : Str), w.length ≤ f → Spec.Words w (splitArgs f w)
  | 0, w, h => by
    have : w = [] := List.length_eq_zero_iff.1 (by omega)
    subst this
    exact .nil (by simp)
  | f + 1, w, h => by
    unfold splitArgs
    have e := List.takeWhile_append_dropWhile (p := isDelim) (l := w)
    have hg : ∀ c ∈ w.takeWhile isDelim, c = ' ' ∨ c = '\n' := fun c hc => isDelim_iff.1 (List.mem_takeWhile_imp hc)
    have hh := head_dropWhile (p := isDelim) (l := w)
    have hlen : (w.dropWhile isDelim).length ≤ w.length := (List.dropWhile_suffix _).length_le
    generalize w.dropWhile isDelim = v at e hh hlen
    cases v with
    | nil =>
      simp only [List.append_nil] at e
      rw [e] at hg
      exact .nil hg
    | cons c r =>
      have hc : isDelim c = false := hh c rfl
      have e2 := List.takeWhile_append_dropWhile (p := fun c => !isDelim c) (l := c :: r)
      simp only
      rw [← e, ← e2, ← List.append_assoc]
      rw [e2]
      refine .cons hg (by simp [List.takeWhile_cons, hc]) ?_ ?_ (splitArgs_words f _ ?_)
      · intro d hd
        have := List.mem_takeWhile_imp hd
        simpa [isDelim] using this
      · intro d hd
        have := head_dropWhile d hd
        simpa [isDelim, or_iff_not_imp_left] using this
      · have h1 : ((c :: r).dropWhile fun c => !isDelim c).length ≤ r.length := by
          rw [List.dropWhile_cons]
          simp only [hc, Bool.not_false, if_true]
          exact (List.dropWhile_suffix _).length_le
        simp only [List.length_cons] at hlen
        omega

/-- An instruction `\\name arguments;` is read as its name and its arguments. -/
theorem C37_instruction (t semi : Tok) (ht : t.type = .instruction) (hs : semi.type = .semicol) (r : List Tok) (n : Nat) :
    ∃ name rest args, parse ⟨t :: semi :: r, n⟩ = some (.instruction t.text name args, ⟨r, n⟩) ∧ t.text.tail = name ++ rest ∧
      (∀ c ∈ name, c ≠ ' ' ∧ c ≠ '\n') ∧ (∀ c ∈ rest.head?, c = ' ' ∨ c = '\n') ∧ Spec.Words rest args := by
  refine ⟨t.text.tail.takeWhile fun c => !isDelim c, t.text.tail.dropWhile fun c => !isDelim c, _, ?_,
    List.takeWhile_append_dropWhile.symm, ?_, ?_, splitArgs_words t.text.tail.length _ (List.dropWhile_suffix _).length_le⟩
  · have h1 : (⟨t :: semi :: r, n⟩ : P).ty = .instruction := ht
    have h2 : (⟨semi :: r, n⟩ : P).ty = .semicol := hs
    simp only [parse, h1, if_true, parseInstruction, P.consume, List.tail_cons, P.expect, h2, true_or]
    rfl
  · intro d hd
    have := List.mem_takeWhile_imp hd
    simpa [isDelim] using this
  · intro d hd
    have := head_dropWhile d hd
    simpa [isDelim, or_iff_not_imp_left] using this

/-! ### Defects -/

/-- Nested queries in WHERE are printed as an alias: different statements have the same text. -/
theorem C37_nested_query_lost (x : Bool) (q q' : Select) :
    printClause x (.where_ (.query q)) = printClause x (.where_ (.query q')) := rfl

/-- ESCAPE and QUOTE of IMPORT are not printed. -/
theorem C37_quote_lost (x : Bool) (t : Str) (p : Tok) (rows del esc quo : Option Tok) (has skip : Bool) :
    printStmt x (.importDSV t p rows del esc quo has skip) = printStmt x (.importDSV t p rows del none none has skip) := rfl

/-- The value `(NULL)` of INSERT, an expression, is printed as the keyword. -/
theorem C37_null_lost : printElem (.expr (.const ⟨"NULL".toList, K "NULL"⟩)) = printElem .null := rfl

/-- `DECIMAL(8)` is printed as `DECIMAL(8, 0)`, which is rejected since `0` is an octal number. -/
theorem C37_decimal_rejected : parseType ⟨toks "DECIMAL(8)".toList, 0⟩ = (.decimal 8 0, ⟨[eofTok], 0⟩) ∧
    (parseType ⟨toks (printType (.decimal 8 0)), 0⟩).1 = .error ∧ (parseType ⟨toks (printType (.decimal 8 0)), 0⟩).2.errs = 1 := by
  decide +kernel

/-- Sizes beyond 32 bits are truncated without an error. -/
theorem C37_size_truncated : parseType ⟨toks "INT(4294967300)".toList, 0⟩ = (.int 4, ⟨[eofTok], 0⟩) := by
  decide +kernel

/-- An error token is accepted in place of any token: the name of this database has the text `$`. -/
theorem C37_error_token_accepted : (parse ⟨toks "CREATE DATABASE $;".toList, 0⟩) = some (.stmt (.createDatabase "$".toList), ⟨[eofTok], 0⟩) := by
  have h : toks "CREATE DATABASE $;".toList = [⟨"CREATE".toList, K "CREATE"⟩, ⟨"DATABASE".toList, K "DATABASE"⟩, ⟨"$".toList, .error⟩, sc, eofTok] := by
    decide +kernel
  rw [h]
  rfl

/-- The parser accepts `NOT` as a binary operator. -/
theorem C37_binary_not : ∃ s, parseExpr 0 ⟨toks "a NOT b".toList, 0⟩ =
    some (.binary ⟨"NOT".toList, K "NOT"⟩ (.designator none ['a']) (.designator none ['b']), s) ∧ s.errs = 0 := by
  have h : toks "a NOT b".toList = [⟨['a'], .identifier⟩, ⟨"NOT".toList, K "NOT"⟩, ⟨['b'], .identifier⟩, eofTok] := by
    decide +kernel
  rw [h]
  refine ⟨⟨[eofTok], 0⟩, ?_, rfl⟩
  have e1 : parseExpr 4 ⟨[⟨['b'], .identifier⟩, eofTok], 0⟩ = some (.designator none ['b'], ⟨[eofTok], 0⟩) := by
    rw [parseExpr, parsePrimary]
    simp only [P.ty, P.tok, List.headD_cons, if_true, parseDesignator, P.expect, P.consume, List.tail_cons, true_or, eofTok]
    simp only [reduceCtorEq, if_false, Option.bind_eq_bind, Option.bind_some, if_true]
    rw [postfix_stop (by decide)]
    simp only [Option.bind_some]
    rw [loop_stop (by intro p hp; simp [P.ty, P.tok, prec] at hp)]
  rw [parseExpr, parsePrimary]
  have hk : P.ty ⟨[⟨"NOT".toList, K "NOT"⟩, ⟨['b'], .identifier⟩, eofTok], 0⟩ = K "NOT" := rfl
  simp only [P.ty, P.tok, List.headD_cons, if_true, parseDesignator, P.expect, P.consume, List.tail_cons, true_or]
  simp only [K, reduceCtorEq, if_false, Option.bind_eq_bind, Option.bind_some, if_true]
  rw [postfix_stop (by decide)]
  simp only [Option.bind_some]
  rw [parseLoop]
  have hp : prec (P.ty ⟨[⟨"NOT".toList, TT.kw "NOT".toList⟩, ⟨['b'], .identifier⟩, eofTok], 0⟩) = some 3 := by decide
  rw [hp]
  simp only [gt_iff_lt, Nat.not_lt_zero, if_false, P.consume, List.tail_cons, e1, Option.bind_eq_bind, Option.bind_some]
  rw [loop_stop (by intro p hp; simp [P.ty, P.tok, eofTok, prec] at hp)]
  rfl

/-! ### The hypotheses can be met -/

/-- `(a + (T.b * 12))` -/
def demoExpr : Expr := .binary ⟨['+'], .plus⟩ (.designator none ['a'])
  (.binary ⟨['*'], .asterisk⟩ (.designator (some ['T']) ['b']) (.const ⟨"12".toList, .decInt⟩))

theorem ident_demo : Spec.Ident ['a'] ∧ Spec.Ident ['T'] ∧ Spec.Ident ['b'] :=
  ⟨.identifier (Or.inr rfl) (by simp) (by decide), .identifier (Or.inr rfl) (by simp) (by decide), .identifier (Or.inr rfl) (by simp) (by decide)⟩

theorem demo_printable (x : Bool) : PExpr x demoExpr :=
  .binary (p := 6) rfl Lex.Spec.Valid.plus (.attr ident_demo.1) (.binary (p := 7) rfl Lex.Spec.Valid.asterisk
    (.qualified ident_demo.2.1 ident_demo.2.2) (.const (by simp [Spec.ConstType]) (Lex.Spec.Valid.decInt rfl (by decide) (by decide))))

/-- `SELECT *, (a + (T.b * 12)) AS b FROM T WHERE … ORDER BY a DESC LIMIT 12;` -/
def demoStmt : Stmt := .select (.mk (.select true [(demoExpr, some ['b'])]) (some (.from_ [.table ['T'] none])) (some (.where_ demoExpr)) none none
  (some (.orderBy [(.designator none ['a'], false)])) (some (.limit ⟨"12".toList, .decInt⟩ none)))

theorem demo_stmt (x : Bool) : PStmt x demoStmt := by
  refine .select (.mk (Or.inl rfl) ?_ ?_ ?_ ?_ ?_ ?_ ?_ ?_)
  · intro i hi; simp at hi; subst hi; exact demo_printable x
  · intro i hi n hn; simp at hi; subst hi; cases hn; exact ident_demo.2.2
  · intro c hc; cases hc; exact .from_ (by simp) (by intro s hs; simp at hs; subst hs; exact .table ident_demo.2.1 (by intro n hn; cases hn))
  · intro c hc; cases hc; exact .where_ (demo_printable false)
  · intro c hc; cases hc
  · intro c hc; cases hc
  · intro c hc; cases hc; exact .orderBy (by simp) (by intro i hi; simp at hi; subst hi; exact .attr ident_demo.1)
  · intro c hc; cases hc
    exact .limit (by simp [Spec.IntType]) (Lex.Spec.Valid.decInt rfl (by decide) (by decide)) (by intro m hm; cases hm)

example : parse ⟨toks (printStmt true demoStmt), 0⟩ = some (.stmt demoStmt, ⟨[eofTok], 0⟩) :=
  C37_print_partial (demo_stmt true) (by decide +kernel)

example : printStmt true demoStmt =
    "SELECT *, (a + (T.b * 12)) AS b\nFROM T\nWHERE (a + (T.b * 12))\nORDER BY a DESC\nLIMIT 12;".toList := by decide +kernel

example : parseExpr 0 ⟨toks (printExpr true demoExpr ++ [';']), 0⟩ = some (demoExpr, ⟨[sc, eofTok], 0⟩) :=
  C37_print_expression_partial (demo_printable true) (by decide +kernel)

/-- `a - b - a` is `(a - b) - a`. -/
example (rest : List Tok) (n : Nat) : parseExpr 0 ⟨[⟨['a'], .identifier⟩, ⟨['-'], .minus⟩, ⟨['b'], .identifier⟩, ⟨['-'], .minus⟩, ⟨['a'], .identifier⟩] ++ sc :: rest, n⟩ =
    some (.binary ⟨['-'], .minus⟩ (.binary ⟨['-'], .minus⟩ (.designator none ['a']) (.designator none ['b'])) (.designator none ['a']), ⟨sc :: rest, n⟩) :=
  C37_expression (.binary (p := 6) (ts := [⟨['a'], .identifier⟩, ⟨['-'], .minus⟩, ⟨['b'], .identifier⟩]) rfl (Nat.zero_le _)
    (.binary (p := 6) (ts := [⟨['a'], .identifier⟩]) rfl (Nat.le_refl _) (.postfix_ .attr) (.postfix_ .attr)) (.postfix_ .attr)) _ n (by simp [sc])

end Mutable.Parse
