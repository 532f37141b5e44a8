import Verif.G2S.Text
import Verif.Parser.Props
/-!
# C75: the SQL text of a query graph

`Spec.lean` has the statement that is meant (`selOf`); `toks` and `parse` are the scanner and the parser of the code (C36, C37).
-/
namespace Mutable.G2S
open Mutable.Parse (Expr Str S K Tok Stmt sc eofTok parse toks printExpr pairs pairs_append toks_of_source C37_statement src_semi dl_sc)
open Mutable.Parse.Spec (Ident AliasOK PExpr ValidTok)
open Mutable.SQL (K3)

/-! ## The text -/

/-- The text of a query graph, read again by the scanner and the parser, is the statement that is meant; no assertion fails.
Partial: the graphs of `Ok`, i.e. without nested query expressions, with tables that have an alias, and with names that are identifiers
(see the defects below). -/
theorem C75_text_partial {g : Graph} {id : Nat} (h : Ok g) : ∃ t, translate id g = some (t, (selOf id g).2) ∧
    (Char.ofNat 0 ∉ t → parse ⟨toks (t ++ [';']), 0⟩ = some (.stmt (.select (selOf id g).1), ⟨[eofTok], 0⟩)) := by
  obtain ⟨t, h1, ts, h2, h3⟩ := graph_text g id h
  refine ⟨t, h1, fun h0 => ?_⟩
  have h4 : Lex.Source (pairs (ts ++ [sc])) (t ++ [';']) := by
    have := h3 [';'] (pairs [sc]) dl_sc (src_semi (.eof (Or.inl .nil)))
    rwa [pairs_append]
  rw [toks_of_source h4 (by
    intro hm
    rcases List.mem_append.1 hm with hm | hm
    · exact h0 hm
    · simp at hm) (by simp), List.append_assoc]
  exact C37_statement (.select h2) rfl [eofTok] 0

/-! ## The condition -/

/-- A three-valued evaluation that interprets NOT, AND and OR. -/
structure Logic (ev : Expr → K3) : Prop where
  not : ∀ e, ev (.unary ⟨S "NOT", K "NOT"⟩ e) = K3.not (ev e)
  and : ∀ l r, ev (.binary ⟨S "AND", K "AND"⟩ l r) = K3.and (ev l) (ev r)
  or : ∀ l r, ev (.binary ⟨S "OR", K "OR"⟩ l r) = K3.or (ev l) (ev r)

/-- The value of a predicate. -/
def predValue (ev : Expr → K3) (p : Pred) : K3 := if p.1 then K3.not (ev (lower p.2)) else ev (lower p.2)
/-- The value of a clause: the disjunction of its predicates. -/
def clauseValue (ev : Expr → K3) (c : Clause) : K3 := (c.map (predValue ev)).foldr K3.or .F
/-- The value of a formula: the conjunction of its clauses. -/
def cnfValue (ev : Expr → K3) (c : CNF) : K3 := (c.map (clauseValue ev)).foldr K3.and .T

theorem pred_value {ev : Expr → K3} (h : Logic ev) (p : Pred) : ev (predOf p) = predValue ev p := by
  unfold predOf predValue
  split_ifs
  · exact h.not _
  · rfl

theorem disj_value {ev : Expr → K3} (h : Logic ev) : ∀ (ps : List Pred) (l : Expr),
    ev (ps.foldl (fun l r => .binary ⟨S "OR", K "OR"⟩ l (predOf r)) l) = K3.or (ev l) (clauseValue ev ps)
  | [], l => by simp [clauseValue]
  | p :: ps, l => by
    rw [List.foldl_cons, disj_value h ps, h.or, pred_value h, K3.or_assoc]
    rfl

theorem clause_value {ev : Expr → K3} (h : Logic ev) {c : Clause} (h0 : c ≠ []) : ev (disj c) = clauseValue ev c := by
  cases c with
  | nil => exact absurd rfl h0
  | cons p ps =>
    show ev (ps.foldl _ _) = _
    rw [disj_value h, pred_value h]
    rfl

theorem conj_value {ev : Expr → K3} (h : Logic ev) : ∀ (cs : CNF) (l : Expr), (∀ c ∈ cs, c ≠ []) →
    ev (cs.foldl (fun l r => .binary ⟨S "AND", K "AND"⟩ l (disj r)) l) = K3.and (ev l) (cnfValue ev cs)
  | [], l, _ => by simp [cnfValue]
  | c :: cs, l, h0 => by
    rw [List.foldl_cons, conj_value h cs _ fun c hc => h0 c (by simp [hc]), h.and, clause_value h (h0 c (by simp)), K3.and_assoc]
    rfl

/-- The condition of the statement has the value of the formula, under every three-valued interpretation of the predicates. -/
theorem C75_condition {ev : Expr → K3} (h : Logic ev) {c : CNF} (h0 : c ≠ []) (h1 : ∀ cl ∈ c, cl ≠ []) : ev (conj c) = cnfValue ev c := by
  cases c with
  | nil => exact absurd rfl h0
  | cons d cs =>
    show ev (cs.foldl _ _) = _
    rw [conj_value h cs _ fun c hc => h1 c (by simp [hc]), clause_value h (h1 d (by simp))]
    rfl

theorem value_append (ev : Expr → K3) (c d : CNF) : cnfValue ev (c ++ d) = K3.and (cnfValue ev c) (cnfValue ev d) := by
  unfold cnfValue
  induction c with
  | nil => simp
  | cons x c ih => simp only [List.cons_append, List.map_cons, List.foldr_cons, ih, K3.and_assoc]

theorem value_flatten (ev : Expr → K3) (l : List CNF) : cnfValue ev l.flatten = (l.map (cnfValue ev)).foldr K3.and .T := by
  induction l with
  | nil => rfl
  | cons c l ih => rw [List.flatten_cons, value_append, ih]; rfl

/-- A row satisfies the condition iff it satisfies every filter of a source and the condition of every join. -/
theorem C75_filters (ev : Expr → K3) (ss : List Source) (js : List CNF) :
    cnfValue ev (condition ss js) = .T ↔ (∀ s ∈ ss, cnfValue ev s.filter = .T) ∧ ∀ j ∈ js, cnfValue ev j = .T := by
  have hT : ∀ l : List K3, l.foldr K3.and .T = .T ↔ ∀ v ∈ l, v = .T := by
    intro l
    induction l with
    | nil => simp
    | cons v l ih =>
      rw [List.foldr_cons, List.forall_mem_cons, ← ih]
      generalize l.foldr K3.and .T = w
      cases v <;> cases w <;> simp [K3.and]
  have hand : ∀ a b : K3, K3.and a b = .T ↔ a = .T ∧ b = .T := by intro a b; cases a <;> cases b <;> simp [K3.and]
  unfold condition
  rw [value_append, hand, value_flatten, value_flatten, hT, hT]
  simp

/-! ## Names -/

/-- Behind a grouping, an application refers to the attribute under the name that a projection of the application without an alias gets in the query that computes it. -/
theorem C75_column_name (f : Expr) (as : List Expr) : ∃ n, lower (.fn f as) = .designator none n ∧
    ((itemOf (.fn f as, none)).2 = some n ∨ (itemOf (.fn f as, none)).2 = none ∧ printExpr false (.fn f as) = n) := by
  refine ⟨_, rfl, ?_⟩
  unfold itemOf
  dsimp only
  split_ifs with h
  · exact Or.inr ⟨rfl, h⟩
  · exact Or.inl rfl

/-- An application always gets such an alias: its text has a parenthesis, which no name has. -/
theorem C75_column_alias (f : Expr) (as : List Expr) :
    itemOf (.fn f as, none) = (.fn f as, some (mangle (printExpr false (.fn f as)))) := by
  have h : printExpr false (.fn f as) ≠ mangle (printExpr false (.fn f as)) := by
    intro h
    have h1 : '(' ∈ printExpr false (.fn f as) := by
      show '(' ∈ printExpr false f ++ S "(" ++ _ ++ S ")"
      simp [S]
    rw [h] at h1
    unfold mangle replaceAll at h1
    simp only [List.map_map, List.mem_map, Function.comp] at h1
    obtain ⟨c, _, hc⟩ := h1
    revert hc
    by_cases c1 : c = '.'
    · subst c1; decide
    by_cases c2 : c = ','
    · subst c2; decide
    by_cases c3 : c = ' '
    · subst c3; decide
    by_cases c4 : c = '('
    · subst c4; decide
    by_cases c5 : c = ')'
    · subst c5; decide
    simp only [c1, c2, c3, c4, c5, if_false]
    exact fun h => h
  unfold itemOf
  rw [if_neg h]

mutual

theorem le_selOf : ∀ (g : Graph) (id : Nat), id ≤ (selOf id g).2
  | .mk _ ss _ _ _ _ _, id => by simpa [selOf] using le_srcsOf ss id

theorem le_srcsOf : ∀ (ss : List Source) (id : Nat), id ≤ (srcsOf id ss).2
  | [], id => by simp [srcsOf]
  | s :: ss, id => by simp only [srcsOf]; exact (le_srcOf s id).trans (le_srcsOf ss _)

theorem le_srcOf : ∀ (s : Source) (id : Nat), id ≤ (srcOf id s).2
  | .table n a f, id => by simp [srcOf]
  | .query g (some a) f, id => by simpa [srcOf] using le_selOf g id
  | .query g none f, id => by simp only [srcOf]; have := le_selOf g id; omega

end

/-- A query without an alias gets a new one each time: the number is counted up, also in the queries inside. -/
theorem C75_new_aliases (id : Nat) (g : Graph) (f : CNF) : (srcOf id (.query g none f)).1 = .nested (selOf id g).1 (uniqueAlias (selOf id g).2) ∧
    id ≤ (selOf id g).2 ∧ (srcOf id (.query g none f)).2 = (selOf id g).2 + 1 :=
  ⟨by simp [srcOf], le_selOf g id, by simp [srcOf]⟩

/-- Different numbers are different names. -/
theorem C75_alias_injective {n m : Nat} (h : uniqueAlias n = uniqueAlias m) : n = m := by
  have h1 : Parse.printNat n = Parse.printNat m := List.append_cancel_left h
  rw [Parse.printNat_eq, Parse.printNat_eq] at h1
  have := congrArg (fun l => Nat.ofDigitChars 10 l 0) h1
  simpa using this

/-! ## Defects -/

/-- A graph with one table that has no alias fails an assertion, although `FROM t` would be right. -/
theorem C75_bug_no_alias (t : Str) (f : CNF) : translate 0 (.mk [] [.table t none f] [] [] [] 0 0) = none := rfl

def attr (n : String) : Expr := .designator none (S n)
def qattr (t n : String) : Expr := .designator (some (S t)) (S n)

/-- Different aggregates get the same name: `SUM(a.b)` and `SUM(a_b)`. -/
theorem C75_bug_same_name : lower (.fn (attr "SUM") [qattr "a" "b"]) = lower (.fn (attr "SUM") [attr "a_b"]) ∧
    (.fn (attr "SUM") [qattr "a" "b"] : Expr) ≠ .fn (attr "SUM") [attr "a_b"] := ⟨by simp only [lower]; rw [show printExpr false (.fn (attr "SUM") [qattr "a" "b"]) = S "SUM(a.b)" from rfl, show printExpr false (.fn (attr "SUM") [attr "a_b"]) = S "SUM(a_b)" from rfl]; rw [show mangle (S "SUM(a.b)") = mangle (S "SUM(a_b)") by decide], by simp [attr, qattr]⟩

/-- Only five characters are replaced: the projection `a + b` without an alias is written as `(a + b) AS _a_+_b_`, whose last part is three tokens. -/
theorem C75_bug_operator_name :
    translate 0 (.mk [(.binary ⟨S "+", .plus⟩ (attr "a") (attr "b"), none)] [.table (S "t") (some (S "t")) []] [] [] [] 0 0) =
      some (S "SELECT (a + b) AS _a_+_b_ FROM t", 0) ∧
    toks (S "_a_+_b_") = [⟨S "_a_", .identifier⟩, ⟨S "+", .plus⟩, ⟨S "_b_", .identifier⟩, eofTok] := by
  constructor <;> decide +kernel

/-- The attribute of a nested query expression is written with the name `$q_…`, which is not even a token. -/
theorem C75_bug_nested_name (q : Parse.Select) : expr true (.query q) = S "$q_._res" ∧ ⟨S "$", .error⟩ ∈ toks (S "$q_._res") := by
  refine ⟨rfl, ?_⟩
  decide +kernel

/-- An offset without a limit (0) is written as `LIMIT 0`, with which SQL yields no rows. -/
theorem C75_bug_offset_without_limit : translate 0 (.mk [] [.table (S "t") (some (S "t")) []] [] [] [] 0 3) = some (S "SELECT * FROM t LIMIT 0 OFFSET 3", 0) := by
  decide +kernel

/-- A function in a condition is always taken for an attribute, also if no grouping computed it: `WHERE ISNULL(x)` becomes `WHERE ISNULL_x_`. -/
theorem C75_bug_function_in_condition :
    translate 0 (.mk [] [.table (S "t") (some (S "t")) [[(false, .fn (attr "ISNULL") [attr "x"])]]] [] [] [] 0 0) =
      some (S "SELECT * FROM t WHERE ISNULL_x_", 0) := by
  decide +kernel

/-! ## Witnesses -/

theorem ident_of {c : Char} {cs : Str} (h0 : c = '_' ∨ Lex.isAlpha c = true) (h1 : ∀ d ∈ cs, d = '_' ∨ Lex.isAlnum d = true)
    (h2 : c :: cs ∉ Lex.Spec.reserved) : Ident (c :: cs) := .identifier h0 h1 h2

def lt (l r : Expr) : Expr := .binary ⟨S "<", .less⟩ l r

/-- `SELECT SUM(t.x), g AS k FROM t, (SELECT * FROM u AS v) WHERE …`: a filter with a negation and two clauses, a join, a grouping, an order and a limit. -/
def demo : Graph :=
  .mk [(.fn (attr "SUM") [qattr "t" "x"], none), (attr "g", some (S "$k"))]
    [.table (S "t") (some (S "t")) [[(true, lt (attr "x") (attr "g")), (false, attr "b")], [(false, attr "c")]],
     .query (.mk [] [.table (S "u") (some (S "v")) []] [] [] [] 0 0) none []]
    [[[(false, lt (attr "x") (attr "y"))]]] [(attr "g", none)] [(.fn (attr "SUM") [qattr "t" "x"], false)] 10 3

theorem demo_text : translate 4 demo = some (S "SELECT SUM(t.x) AS SUM_t_x_, g AS _k FROM t, (SELECT * FROM u AS v) AS alias_4 WHERE (NOT (x < g) OR b) AND (c) AND ((x < y)) GROUP BY g ORDER BY SUM(t.x) DESC LIMIT 10 OFFSET 3", 5) := by
  decide +kernel

macro "ident" : tactic => `(tactic| exact ident_of (by decide) (by decide) (by decide))

theorem demo_ok : Ok demo := by
  have hSUM : Ident (S "SUM") := by ident
  have ht : Ident (S "t") := by ident
  have hu : Ident (S "u") := by ident
  have hv : Ident (S "v") := by ident
  have hx : Ident (S "x") := by ident
  have hy : Ident (S "y") := by ident
  have hg : Ident (S "g") := by ident
  have hb : Ident (S "b") := by ident
  have hc : Ident (S "c") := by ident
  have hk : Ident (S "_k") := by ident
  have hn : Ident (S "SUM_t_x_") := by ident
  have hsum : PExpr false (.fn (attr "SUM") [qattr "t" "x"]) := .fn (.attr hSUM) (by
    intro a ha
    rw [List.mem_singleton.1 ha]
    exact .qualified ht hx)
  have hlt : ∀ {l r}, PExpr false l → PExpr false r → PExpr false (lt l r) :=
    fun h1 h2 => .binary (p := 4) (by decide) (Lex.Spec.Valid.less) h1 h2
  refine ⟨?_, ⟨⟨ht, ⟨_, rfl, ht⟩, ?_⟩, ⟨⟨?_, ⟨⟨hu, ⟨_, rfl, hv⟩, ?_⟩, trivial⟩, ?_, ?_, ?_⟩, ?_, ?_⟩, trivial⟩, ?_, ?_, ?_⟩
  · intro p hp
    rcases List.mem_cons.1 hp with rfl | hp
    · refine ⟨hsum, ?_⟩
      rw [C75_column_alias]
      intro a ha
      cases ha
      exact hn
    · rw [List.mem_singleton.1 hp]
      exact ⟨.attr hg, by intro a ha; cases ha; exact hk⟩
  · intro c hc'
    rcases List.mem_cons.1 hc' with rfl | hc'
    · refine ⟨by simp, fun p hp => ?_⟩
      rcases List.mem_cons.1 hp with rfl | hp
      · exact hlt (.attr hx) (.attr hg)
      · rw [List.mem_singleton.1 hp]
        exact .attr hb
    · rw [List.mem_singleton.1 hc']
      refine ⟨by simp, fun p hp => ?_⟩
      rw [List.mem_singleton.1 hp]
      exact .attr hc
  · intro p hp; cases hp
  · intro p hp; cases hp
  · intro p hp; cases hp
  · intro p hp; cases hp
  · intro p hp; cases hp
  · intro p hp; cases hp
  · intro p hp; cases hp
  · intro j hj
    rw [List.mem_singleton.1 hj]
    intro c hc'
    rw [List.mem_singleton.1 hc']
    refine ⟨by simp, fun p hp => ?_⟩
    rw [List.mem_singleton.1 hp]
    exact hlt (.attr hx) (.attr hy)
  · intro p hp
    rw [List.mem_singleton.1 hp]
    exact ⟨.attr hg, by intro a ha; cases ha⟩
  · intro p hp
    rw [List.mem_singleton.1 hp]
    exact hsum

example : ∃ t, translate 4 demo = some (t, 5) ∧
    parse ⟨toks (t ++ [';']), 0⟩ = some (.stmt (.select (selOf 4 demo).1), ⟨[eofTok], 0⟩) := by
  obtain ⟨t, h1, h2⟩ := C75_text_partial (id := 4) demo_ok
  have h3 := demo_text
  rw [h1] at h3
  injection h3 with h3
  injection h3 with h3 h4
  refine ⟨t, by rw [h1, h4], h2 ?_⟩
  rw [h3]
  decide +kernel

/-- An interpretation: `b` is unknown, other attributes are true, comparisons are false. -/
def demoEv : Expr → K3
  | .designator _ a => if a = S "b" then .N else .T
  | .unary op e => if op = ⟨S "NOT", K "NOT"⟩ then K3.not (demoEv e) else .N
  | .binary op l r => if op = ⟨S "AND", K "AND"⟩ then K3.and (demoEv l) (demoEv r) else
      if op = ⟨S "OR", K "OR"⟩ then K3.or (demoEv l) (demoEv r) else .F
  | _ => .N

theorem demo_logic : Logic demoEv :=
  ⟨fun e => by simp [demoEv], fun l r => by simp [demoEv], fun l r => by
    rw [demoEv, if_neg (by decide), if_pos rfl]⟩

example : demoEv (conj [[(true, attr "a"), (false, attr "b")], [(false, attr "c")]]) = .N := by
  rw [C75_condition demo_logic (by simp) (by simp)]
  decide

/-- Generated column names contain none of the characters that end an identifier in `f(a.b, c)` — points, commas, blanks and parentheses — since each
of them became an underscore; nothing else changes. -/
theorem C75_column_names (t : Str) :
    mangle t = t.map (fun c => if c ∈ ['.', ',', ' ', '(', ')'] then '_' else c) ∧ ∀ c ∈ ['.', ',', ' ', '(', ')'], c ∉ mangle t := by
  have h : mangle t = t.map (fun c => if c ∈ ['.', ',', ' ', '(', ')'] then '_' else c) := by
    unfold mangle replaceAll
    simp only [List.map_map]
    refine List.map_congr_left fun c _ => ?_
    simp only [Function.comp]
    by_cases h1 : c = '.'
    · subst h1; rfl
    · by_cases h2 : c = ','
      · subst h2; rfl
      · by_cases h3 : c = ' '
        · subst h3; rfl
        · by_cases h4 : c = '('
          · subst h4; rfl
          · by_cases h5 : c = ')'
            · subst h5; rfl
            · simp [h1, h2, h3, h4, h5]
  refine ⟨h, fun c hc hm => ?_⟩
  rw [h, List.mem_map] at hm
  obtain ⟨x, _, e⟩ := hm
  split at e
  · subst e; simp at hc
  · rename_i hx; exact hx (e ▸ hc)

example : mangle (S "f(a.b, c)") = S "f_a_b__c_" := by decide +kernel

end Mutable.G2S
