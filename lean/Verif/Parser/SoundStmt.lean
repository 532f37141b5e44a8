import Verif.Parser.Sound
import Verif.Parser.CompleteStmt
/-!
# Statements: termination and soundness
-/
namespace Mutable.Parse
open Mutable.Lex (TT)

/-! ### Combinators -/

theorem Ok.eOr {α : Type} {H : α → List Tok → P → Prop} {s : P} {tt : TT} {fs : List TT} {e : α} {k : P → Option (α × P)} (he : tt ≠ .eof)
    (hk : ∀ t r m, s = ⟨t :: r, m⟩ → Ok (fun a ts s' => t.type = tt → H a (t :: ts) s') (k ⟨r, m⟩) ⟨r, m⟩) :
    Ok H (Parse.expectOr tt fs e s k) s := by
  rcases expect_cases s he with ⟨t, r, n, rfl, h, ht⟩ | h
  · simp only [Parse.expectOr, h, if_true]
    exact Ok.tok ht (hk t r n rfl)
  · simp only [Parse.expectOr, h, Bool.false_eq_true, if_false]
    exact Ok.fail (suffix_recover _ _) (Nat.lt_succ_self _)

/-- The first keyword of a statement. -/
theorem eFirst_eq {α : Type} {t : Tok} {r : List Tok} {m : Nat} {tt : TT} {fs : List TT} {e : α} {k : P → Option (α × P)} (ht : t.type = tt) :
    Parse.expectFirst tt fs e ⟨t :: r, m⟩ k = k ⟨r, m⟩ := by
  have : (⟨t :: r, m⟩ : P).expect tt = (true, ⟨r, m⟩) := by
    unfold P.expect
    rw [if_pos]
    · rfl
    · exact Or.inl ht
  simp only [Parse.expectFirst, this, if_true]

theorem eOr_eq {α : Type} {t : Tok} {r : List Tok} {m : Nat} {tt : TT} {fs : List TT} {e : α} {k : P → Option (α × P)} (ht : t.type = tt) :
    Parse.expectOr tt fs e ⟨t :: r, m⟩ k = k ⟨r, m⟩ := by
  have : (⟨t :: r, m⟩ : P).expect tt = (true, ⟨r, m⟩) := by
    unfold P.expect
    rw [if_pos]
    · rfl
    · exact Or.inl ht
  simp only [Parse.expectOr, this, if_true]

theorem Ok.failS {H : Stmt → List Tok → P → Prop} {s s' : P} (hs : s'.toks <:+ s.toks) (h : s.errs < s'.errs) : Ok H (failStmt s') s :=
  Ok.fail ((suffix_recover _ _).trans hs) h

/-- A list that is `none` only after an error, and the rest of the statement. -/
theorem Ok.list {α : Type} {G : α → List Tok → Prop} {H : Stmt → List Tok → P → Prop} {m : Option (Option α × P)} {s : P} {f : α → P → Option (Stmt × P)}
    {k : Option α × P → Option (Stmt × P)} (hm : Ok (GOpt G) m s) (hk : ∀ a s', k (some a, s') = f a s') (hk0 : ∀ s', k (none, s') = failStmt s')
    (hf : ∀ a s', Ok (fun b ts s'' => ∀ us, G a us → H b (us ++ ts) s'') (f a s') s') : Ok H (m.bind k) s := by
  refine Ok.bind' hm fun a s' _ _ => ?_
  cases a with
  | none =>
    rw [hk0]
    obtain ⟨vs, hv⟩ := suffix_recover s' Follow.statement
    refine ⟨_, _, rfl, suffix_recover _ _, Nat.le_refl _, fun _ _ => ⟨vs, hv.symm, ?_⟩⟩
    rintro us ⟨x, hx, _⟩
    simp at hx
  | some a =>
    rw [hk]
    refine (hf a s').weaken ?_
    rintro b ts s'' hg us ⟨x, hx, hxs⟩
    cases hx
    exact hg us hxs

/-! ### Data types -/

theorem strtoul_some {t : Tok} {v : Nat} (h : strtoul t.text = some v) (hd : ∀ c ∈ t.text, '0' ≤ c ∧ c ≤ '9') (ht : t.type = .decInt) :
    Spec.Dec t v ∧ v < 2 ^ 64 := by
  unfold strtoul at h
  have h1 : t.text.takeWhile Lex.isDec = t.text := digits_all hd
  simp only [h1] at h
  split at h
  · rename_i hlt
    cases h
    refine ⟨⟨ht, hd, ?_⟩, hlt⟩
    rw [List.foldl_map]
    rfl
  · simp at h

/-- As `Ok.tok`, for a decimal number. -/
theorem Ok.dec {α : Type} {H : α → List Tok → P → Prop} {m : Option (α × P)} {t : Tok} {r : List Tok} {k : Nat}
    (ht : t.type = .decInt ∨ t.type = .error)
    (h : Ok (fun a ts s' => t.type = .decInt → (∀ c ∈ t.text, '0' ≤ c ∧ c ≤ '9') → H a (t :: ts) s') m ⟨r, k⟩) : Ok H m ⟨t :: r, k⟩ := by
  obtain ⟨a, s', h1, h2, h3, h4⟩ := h
  refine ⟨a, s', h1, h2.trans (List.suffix_cons t r), h3, fun hc he => ?_⟩
  obtain ⟨ts, h5, h6⟩ := h4 (hc.suffix (List.suffix_cons t r)) he
  have h7 := hc t (by simp)
  have h8 := ht.resolve_right h7.1
  exact ⟨t :: ts, by rw [List.cons_append, ← h5], h6 h8 (h7.2 h8)⟩

theorem Ok.bad {α : Type} {G : α → List Tok → P → Prop} {a : α} {s : P} : Ok G (some (a, s.err)) s :=
  Ok.fail List.suffix_rfl (Nat.lt_succ_self _)

theorem size_ok (mk : Nat → Ty) (s : P) :
    Ok (GOpt fun ty ts => ∃ n, ty = mk n ∧ n < 2 ^ 64 ∧ Spec.Size n ts) (some (parseSize mk s)) s := by
  unfold parseSize
  rcases expect_cases s (tt := .lpar) (by decide) with ⟨t, r, m, rfl, h, ht⟩ | h
  · simp only [h, if_true]
    refine Ok.tok ht ?_
    rcases expect_cases ⟨r, m⟩ (tt := .decInt) (by decide) with ⟨t1, r1, m1, heq, h1, ht1⟩ | h1
    · cases heq
      simp only [h1, if_true]
      refine Ok.dec ht1 ?_
      rcases expect_cases ⟨r1, m⟩ (tt := .rpar) (by decide) with ⟨t2, r2, m2, heq, h2, ht2⟩ | h2
      · cases heq
        simp only [h2, if_true]
        refine Ok.tok ht2 ?_
        show Ok _ (some (match strtoul t1.text with | some n => _ | none => _)) _
        cases hn : strtoul t1.text with
        | none => exact Ok.bad
        | some v =>
          refine Ok.ret fun h3 h4 h5 h6 => ?_
          obtain ⟨h7, h8⟩ := strtoul_some hn h5 h4
          exact ⟨_, rfl, v, rfl, h8, .mk h6 h7 h3⟩
      · simp only [h2, Bool.false_eq_true, if_false]
        exact Ok.bad
    · simp only [h1, Bool.false_eq_true, if_false]
      exact Ok.bad
  · simp only [h, Bool.false_eq_true, if_false]
    exact Ok.bad

theorem scale_ok (s : P) : Ok (GOpt fun sc ts => (sc = none ∧ ts = []) ∨ ∃ c t : Tok, sc = some t ∧ ts = [c, t] ∧ c.type = .comma ∧ t.type = .decInt ∧
    ∀ d ∈ t.text, '0' ≤ d ∧ d ≤ '9') (some (parseScale s)) s := by
  unfold parseScale
  rcases accept_cases s (tt := .comma) (by decide) with ⟨t, r, m, rfl, h, ht⟩ | ⟨h, _⟩
  · simp only [h, if_true]
    refine Ok.tok ht ?_
    rcases expect_cases ⟨r, m⟩ (tt := .decInt) (by decide) with ⟨t1, r1, m1, heq, h1, ht1⟩ | h1
    · cases heq
      simp only [h1, if_true]
      exact Ok.dec ht1 (Ok.ret fun h2 h3 h4 => ⟨_, rfl, Or.inr ⟨t, t1, rfl, rfl, h4, h2, h3⟩⟩)
    · simp only [h1, Bool.false_eq_true, if_false]
      exact Ok.bad
  · simp only [h, Bool.false_eq_true, if_false]
    exact Ok.ret ⟨_, rfl, Or.inl ⟨rfl, rfl⟩⟩

theorem decimal_ok (s : P) {k : Tok} (hk : k.type = K "DECIMAL") : Ok (GOpt fun ty ts => Spec.DataType true ty (k :: ts)) (some (parseDecimal s)) s := by
  unfold parseDecimal
  rcases expect_cases s (tt := .lpar) (by decide) with ⟨t, r, m, rfl, h, ht⟩ | h
  · simp only [h, if_true]
    refine Ok.tok ht ?_
    rcases expect_cases ⟨r, m⟩ (tt := .decInt) (by decide) with ⟨t1, r1, m1, heq, h1, ht1⟩ | h1
    · cases heq
      simp only [h1, if_true]
      refine Ok.dec ht1 ?_
      refine Ok.pure (k := fun r => match r.1 with
        | none => (none, r.2)
        | some scale => if (r.2.expect .rpar).1 = true then mkDecimal t1 scale (r.2.expect .rpar).2 else (none, (r.2.expect .rpar).2))
        (scale_ok ⟨r1, m⟩) fun sc s' => ?_
      cases sc with
      | none =>
        refine Ok.ret ?_
        rintro us ⟨x, hx, _⟩
        simp at hx
      | some sc =>
        dsimp only
        rcases expect_cases s' (tt := .rpar) (by decide) with ⟨t2, r2, m2, rfl, h2, ht2⟩ | h2
        · simp only [h2, if_true]
          refine Ok.tok ht2 ?_
          unfold mkDecimal
          cases hp : strtoul t1.text with
          | none => exact Ok.bad
          | some p =>
            cases sc with
            | none =>
              refine Ok.ret ?_
              rintro h3 us ⟨x, hx, hsc⟩ h4 h5 h6
              cases hx
              rcases hsc with ⟨_, rfl⟩ | ⟨_, _, hx, _⟩
              · obtain ⟨h7, h8⟩ := strtoul_some hp h5 h4
                exact ⟨_, rfl, .decimal hk (.mk h6 h7 h3) (Or.inr ⟨rfl, h8⟩)⟩
              · simp at hx
            | some sc =>
              dsimp only
              cases hc : strtoul sc.text with
              | none => exact Ok.bad
              | some c =>
                refine Ok.ret ?_
                rintro h3 us ⟨x, hx, hsc⟩ h4 h5 h6
                cases hx
                rcases hsc with ⟨hx, _⟩ | ⟨c', t', hx, rfl, g1, g2, g3⟩
                · simp at hx
                · cases hx
                  obtain ⟨h7, h8⟩ := strtoul_some hp h5 h4
                  obtain ⟨g7, g8⟩ := strtoul_some hc g3 g2
                  exact ⟨_, rfl, .decimal2 hk h6 h7 (Or.inr ⟨rfl, h8⟩) g1 g7 (Or.inr ⟨rfl, g8⟩) h3⟩
        · simp only [h2, Bool.false_eq_true, if_false]
          exact Ok.bad
    · simp only [h1, Bool.false_eq_true, if_false]
      exact Ok.bad
  · simp only [h, Bool.false_eq_true, if_false]
    exact Ok.bad

theorem typeOpt_ok (s : P) : Ok (GOpt (Spec.DataType true)) (some (parseTypeOpt s)) s := by
  unfold parseTypeOpt
  have one : ∀ {w : String} {ty : Ty}, K w ≠ .eof → s.ty = K w → (∀ k : Tok, k.type = K w → Spec.DataType true ty [k]) →
      Ok (GOpt (Spec.DataType true)) (some (some ty, s.consume)) s := by
    intro w ty hne hs hd
    obtain ⟨t, r, m, rfl, ht⟩ := exists_cons hs hne
    exact Ok.skip (Ok.ret ⟨_, rfl, hd t ht⟩)
  have two : ∀ {w : String} {mk : Nat → Ty}, K w ≠ .eof → s.ty = K w →
      (∀ (k : Tok) n ts, k.type = K w → Spec.Size n ts → n < 2 ^ 64 → Spec.DataType true (mk n) (k :: ts)) →
      Ok (GOpt (Spec.DataType true)) (some (parseSize mk s.consume)) s := by
    intro w mk hne hs hd
    obtain ⟨t, r, m, rfl, ht⟩ := exists_cons hs hne
    refine Ok.skip ((size_ok mk ⟨r, m⟩).weaken ?_)
    rintro a ts s' ⟨ty, rfl, n, rfl, h1, h2⟩
    exact ⟨_, rfl, hd t n ts ht h2 h1⟩
  split
  · exact one (by decide) ‹_› fun k => .bool
  split
  · exact two (by decide) ‹_› fun k n ts h1 h2 h3 => .char h1 h2 h3
  split
  · exact two (by decide) ‹_› fun k n ts h1 h2 h3 => .varchar h1 h2 h3
  split
  · exact one (by decide) ‹_› fun k => .date
  split
  · exact one (by decide) ‹_› fun k => .datetime
  split
  · exact two (by decide) ‹_› fun k n ts h1 h2 h3 => .int h1 h2 (Or.inr ⟨rfl, h3⟩)
  split
  · exact one (by decide) ‹_› fun k => .float
  split
  · exact one (by decide) ‹_› fun k => .double
  split
  · rename_i hs
    obtain ⟨t, r, m, rfl, ht⟩ := exists_cons hs (by decide)
    exact Ok.skip (decimal_ok ⟨r, m⟩ ht)
  · exact Ok.bad

theorem type_ok (s : P) : Ok (G0 (Spec.DataType true)) (some (parseType s)) s := by
  unfold parseType
  obtain ⟨a, s', h1, h2, h3, h4⟩ := typeOpt_ok s
  simp only [Option.some.injEq] at h1
  rw [h1]
  cases a with
  | none =>
    refine ⟨_, _, rfl, (suffix_recover _ _).trans h2, h3, fun hc he => ?_⟩
    obtain ⟨ts, h5, x, hx, h6⟩ := h4 hc he
    simp at hx
  | some a =>
    refine ⟨_, _, rfl, h2, h3, fun hc he => ?_⟩
    obtain ⟨ts, h5, x, hx, h6⟩ := h4 hc he
    cases hx
    exact ⟨ts, h5, h6⟩


/-! ### Lists -/

theorem expr_all (s : P) : Ok (GExpr 0) (parseExpr 0 s) s := (all s).expr 0 (by omega)

/-- Induction over the number of tokens. -/
theorem length_ind {M : P → Prop} (h : ∀ s, (∀ s' : P, s'.toks.length < s.toks.length → M s') → M s) (s : P) : M s := by
  have : ∀ n, ∀ s : P, s.toks.length < n → M s := by
    intro n
    induction n with
    | zero => intro s h; exact absurd h (Nat.not_lt_zero _)
    | succ n ih => intro s hs; exact h s fun s' hs' => ih s' (by omega)
  exact this _ s (Nat.lt_succ_self _)

theorem suffix_lt {s s' : P} {t : Tok} {r : List Tok} {m : Nat} (hs : s = ⟨t :: r, m⟩) (h : s'.toks <:+ r) : s'.toks.length < s.toks.length := by
  subst hs
  exact Nat.lt_succ_of_le h.length_le

theorem names_ok (s : P) : Ok (GOpt (Spec.Sep Spec.Name)) (parseNames s) s := by
  induction s using length_ind with | _ s ih =>
  rw [parseNames]
  rcases expect_cases s (tt := .identifier) (by decide) with ⟨t, r, m, rfl, h, ht⟩ | h
  · simp only [h, if_true]
    refine Ok.tok ht ?_
    rcases accept_cases ⟨r, m⟩ (tt := .comma) (by decide) with ⟨t1, r1, m1, heq, h1, ht1⟩ | ⟨h1, _⟩
    · cases heq
      simp only [h1, if_true]
      refine Ok.tok ht1 (Ok.bind' (ih ⟨r1, m⟩ (suffix_lt rfl (List.suffix_cons _ _))) fun ns s' _ _ => Ok.ret ?_)
      rintro us ⟨x, rfl, hx⟩ hc hi
      refine ⟨_, rfl, ?_⟩
      rw [List.append_nil]
      exact .more (ts := [t]) (by rw [ident_eq hi]; rfl) hc hx
    · simp only [h1, Bool.false_eq_true, if_false]
      exact Ok.ret fun hi => ⟨_, rfl, .one (by rw [ident_eq hi]; rfl)⟩
  · simp only [h, Bool.false_eq_true, if_false]
    exact Ok.bad

def GConstraint (a : Option (Option Constraint)) (ts : List Tok) (_ : P) : Prop :=
  (a = none ∧ ts = []) ∨ ∃ c, a = some (some c) ∧ ts ≠ [] ∧ Spec.Constr true c ts

theorem constraint_ok (s : P) : Ok GConstraint (parseConstraint s) s ∧
    (∀ a s', parseConstraint s = some (a, s') → a ≠ none → s'.toks.length < s.toks.length) := by
  have strict : ∀ {t : Tok} {r : List Tok} {m : Nat} {H : Option (Option Constraint) → List Tok → P → Prop} {c : Option (Option (Option Constraint) × P)},
      Ok H c ⟨r, m⟩ → ∀ a s', c = some (a, s') → a ≠ none → s'.toks.length < (t :: r).length := by
    rintro t r m H c ⟨a, s', h1, h2, _⟩ a' s'' h3 _
    rw [h1] at h3
    cases h3
    exact Nat.lt_succ_of_le h2.length_le
  have key : ∀ {t : Tok} {r : List Tok} {m : Nat} {c : Option (Option (Option Constraint) × P)},
      Ok (fun a ts s' => GConstraint a (t :: ts) s') c ⟨r, m⟩ → Ok GConstraint c ⟨t :: r, m⟩ ∧
      ∀ a s', c = some (a, s') → a ≠ none → s'.toks.length < (t :: r).length := fun h => ⟨Ok.skip h, strict h⟩
  unfold parseConstraint
  split
  · rename_i hs
    obtain ⟨t, r, m, rfl, ht⟩ := exists_cons hs (by decide)
    refine key ?_
    simp only [P.consume, List.tail_cons]
    rcases expect_cases ⟨r, m⟩ (tt := K "KEY") (by decide) with ⟨t1, r1, m1, heq, h1, ht1⟩ | h1
    · cases heq
      simp only [h1, if_true]
      exact Ok.tok ht1 (Ok.ret fun h2 => Or.inr ⟨_, rfl, by simp, .primaryKey ht h2⟩)
    · simp only [h1]
      exact Ok.bad
  split
  · rename_i hs
    obtain ⟨t, r, m, rfl, ht⟩ := exists_cons hs (by decide)
    refine key ?_
    simp only [P.consume, List.tail_cons]
    rcases expect_cases ⟨r, m⟩ (tt := K "NULL") (by decide) with ⟨t1, r1, m1, heq, h1, ht1⟩ | h1
    · cases heq
      simp only [h1, if_true]
      exact Ok.tok ht1 (Ok.ret fun h2 => Or.inr ⟨_, rfl, by simp, .notNull ht h2⟩)
    · simp only [h1]
      exact Ok.bad
  split
  · rename_i hs
    obtain ⟨t, r, m, rfl, ht⟩ := exists_cons hs (by decide)
    exact key (Ok.ret (Or.inr ⟨_, rfl, by simp, .unique ht⟩))
  split
  · rename_i hs
    obtain ⟨t, r, m, rfl, ht⟩ := exists_cons hs (by decide)
    refine key ?_
    simp only [P.consume, List.tail_cons]
    rcases expect_cases ⟨r, m⟩ (tt := .lpar) (by decide) with ⟨t1, r1, m1, heq, h1, ht1⟩ | h1
    · cases heq
      simp only [h1, if_true]
      refine Ok.tok ht1 (Ok.bind' (expr_all ⟨r1, m⟩) fun e s' _ _ => ?_)
      dsimp only
      rcases expect_cases s' (tt := .rpar) (by decide) with ⟨t2, r2, m2, rfl, h2, ht2⟩ | h2
      · simp only [h2, if_true]
        exact Ok.tok ht2 (Ok.ret fun hr us hus hl => Or.inr ⟨_, rfl, by simp, .check ht hl hr hus.1⟩)
      · simp only [h2]
        exact Ok.bad
    · simp only [h1, Bool.false_eq_true, if_false]
      exact Ok.bad
  split
  · rename_i hs
    obtain ⟨t, r, m, rfl, ht⟩ := exists_cons hs (by decide)
    refine key ?_
    simp only [P.consume, List.tail_cons]
    rcases expect_cases ⟨r, m⟩ (tt := .identifier) (by decide) with ⟨t1, r1, m1, heq, h1, ht1⟩ | h1
    · cases heq
      simp only [h1, if_true]
      refine Ok.tok ht1 ?_
      rcases expect_cases ⟨r1, m⟩ (tt := .lpar) (by decide) with ⟨t2, r2, m2, heq, h2, ht2⟩ | h2
      · cases heq
        simp only [h2, if_true]
        refine Ok.tok ht2 ?_
        rcases expect_cases ⟨r2, m⟩ (tt := .identifier) (by decide) with ⟨t3, r3, m3, heq, h3, ht3⟩ | h3
        · cases heq
          simp only [h3, if_true]
          refine Ok.tok ht3 ?_
          rcases expect_cases ⟨r3, m⟩ (tt := .rpar) (by decide) with ⟨t4, r4, m4, heq, h4, ht4⟩ | h4
          · cases heq
            simp only [h4, if_true]
            refine Ok.tok ht4 (Ok.ret fun g4 g3 g2 g1 => Or.inr ⟨_, rfl, by simp, ?_⟩)
            rw [ident_eq g3, ident_eq g1]
            exact .references ht g2 g4
          · simp only [h4]
            exact Ok.bad
        · simp only [h3, Bool.false_eq_true, if_false]
          exact Ok.bad
      · simp only [h2, Bool.false_eq_true, if_false]
        exact Ok.bad
    · simp only [h1, Bool.false_eq_true, if_false]
      exact Ok.bad
  · refine ⟨Ok.ret (Or.inl ⟨rfl, rfl⟩), ?_⟩
    rintro a s' h hne
    cases h
    exact absurd rfl hne

theorem Ok.bindE {α β : Type} {G : α → List Tok → P → Prop} {R : β → List Tok → P → Prop}
    {m : Option (α × P)} {s : P} {k : α × P → Option (β × P)} (hm : Ok G m s)
    (hk : ∀ a s', m = some (a, s') → s'.toks <:+ s.toks → Ok (fun b ts s'' => ∀ us, G a us s' → R b (us ++ ts) s'') (k (a, s')) s') :
    Ok R (m.bind k) s := by
  obtain ⟨a, s', h1, h2, h3, h4⟩ := hm
  subst h1
  obtain ⟨b, s'', h5, h6, h7, h8⟩ := hk a s' rfl h2
  refine ⟨b, s'', h5, h6.trans h2, Nat.le_trans h3 h7, fun hc he => ?_⟩
  obtain ⟨ts, h9, h10⟩ := h4 hc (by omega)
  obtain ⟨us, h11, h12⟩ := h8 (hc.suffix h2) (by omega)
  exact ⟨ts ++ us, by rw [h9, h11, List.append_assoc], h12 ts h10⟩

theorem constraints_ok (s : P) : Ok (G0 (Spec.Many (Spec.Constr true))) (parseConstraints s) s := by
  induction s using length_ind with | _ s ih =>
  rw [parseConstraints]
  obtain ⟨h1, h2⟩ := constraint_ok s
  refine Ok.bindE h1 fun c s' heq _ => ?_
  cases c with
  | none =>
    refine Ok.ret ?_
    rintro us (⟨_, rfl⟩ | ⟨c, hc, _⟩)
    · exact .nil
    · simp at hc
  | some c =>
    cases c with
    | none =>
      obtain ⟨vs, hv⟩ := suffix_recover s' Follow.constraint
      refine ⟨_, _, rfl, suffix_recover _ _, Nat.le_refl _, fun _ _ => ⟨vs, hv.symm, ?_⟩⟩
      rintro us (⟨hx, _⟩ | ⟨x, hx, _⟩) <;> simp at hx
    | some c =>
      refine Ok.bind' (ih s' (h2 _ _ heq (by simp))) fun cs s'' _ _ => Ok.ret ?_
      rintro us hus vs (⟨hx, _⟩ | ⟨x, hx, _, hv⟩)
      · simp at hx
      · cases hx
        rw [List.append_nil]
        exact .cons hv hus

theorem attrs_ok (s : P) : Ok (GOpt (Spec.Sep (Spec.Attr true))) (parseAttrs s) s := by
  induction s using length_ind with | _ s ih =>
  rw [parseAttrs]
  rcases expect_cases s (tt := .identifier) (by decide) with ⟨t, r, m, rfl, h, ht⟩ | h
  · simp only [h, if_true]
    refine Ok.tok ht ?_
    obtain ⟨ty, s1, h1, h2, h3, h4⟩ := type_ok ⟨r, m⟩
    simp only [Option.some.injEq] at h1
    rw [h1]
    dsimp only
    have key : Ok (fun as ts s' => ∀ us, Spec.DataType true ty us → t.type = .identifier → GOpt (Spec.Sep (Spec.Attr true)) as (t :: (us ++ ts)) s')
        (Option.bind (parseConstraints s1) fun x => if (x.2.accept .comma).1 = true then
            Option.bind (parseAttrs (x.2.accept .comma).2) fun y => some (y.1.map ((t.text, ty, x.1) :: ·), y.2)
          else some (some [(t.text, ty, x.1)], (x.2.accept .comma).2)) s1 := by
      refine Ok.bindE (constraints_ok s1) fun cs s2 _ hs2 => ?_
      have attr : ∀ us vs, Spec.DataType true ty us → Spec.Many (Spec.Constr true) cs vs → t.type = .identifier →
          Spec.Attr true (t.text, ty, cs) (t :: (us ++ vs)) := fun us vs h5 h6 h7 => ⟨us, vs, by rw [← ident_eq h7], h5, h6⟩
      dsimp only
      rcases accept_cases s2 (tt := .comma) (by decide) with ⟨t1, r1, m1, rfl, g1, ht1⟩ | ⟨g1, _⟩
      · simp only [g1, if_true]
        refine Ok.tok ht1 (Ok.bind' (ih ⟨r1, m1⟩ (suffix_lt rfl ((List.suffix_cons _ _).trans (hs2.trans h2)))) fun as s3 _ _ => Ok.ret ?_)
        rintro ws ⟨x, rfl, hx⟩ hc vs hvs us hus hi
        refine ⟨_, rfl, ?_⟩
        have := Spec.Sep.more (attr us vs hus hvs hi) hc hx
        simpa using this
      · simp only [g1, Bool.false_eq_true, if_false]
        refine Ok.ret fun vs hvs us hus hi => ⟨_, rfl, ?_⟩
        rw [List.append_nil]
        exact .one (attr us vs hus hvs hi)
    obtain ⟨as, s2, g1, g2, g3, g4⟩ := key
    refine ⟨as, s2, g1, g2.trans h2, Nat.le_trans h3 g3, fun hc he => ?_⟩
    obtain ⟨us, h5, h6⟩ := h4 hc (by simp only at *; omega)
    obtain ⟨vs, g5, g6⟩ := g4 (hc.suffix h2) (by simp only at *; omega)
    exact ⟨us ++ vs, by rw [h5, g5, List.append_assoc], fun hi => g6 us h6 hi⟩
  · simp only [h, Bool.false_eq_true, if_false]
    exact Ok.bad

/-- The loop over elements that are separated by commas, where the elements and the list may be missing after an error. -/
theorem sep_ok {α : Type} {R : α → List Tok → Prop} {one : P → Option (Option α × P)} {many : P → Option (Option (List α) × P)}
    (h1 : ∀ s, Ok (GOpt R) (one s) s)
    (hm : ∀ s, many s = (one s).bind fun x => match x.1 with
      | none => some (none, x.2)
      | some a => if (x.2.accept .comma).1 = true then Option.bind (many (x.2.accept .comma).2) fun y => some (y.1.map (a :: ·), y.2)
        else some (some [a], (x.2.accept .comma).2)) (s : P) : Ok (GOpt (Spec.Sep R)) (many s) s := by
  induction s using length_ind with | _ s ih =>
  rw [hm]
  refine Ok.bindE (h1 s) fun x s' _ hs' => ?_
  cases x with
  | none =>
    refine Ok.ret ?_
    rintro us ⟨x, hx, _⟩
    simp at hx
  | some a =>
    dsimp only
    rcases accept_cases s' (tt := .comma) (by decide) with ⟨t1, r1, m1, rfl, g1, ht1⟩ | ⟨g1, _⟩
    · simp only [g1, if_true]
      refine Ok.tok ht1 (Ok.bind' (ih ⟨r1, m1⟩ (Nat.lt_of_lt_of_le (Nat.lt_succ_self _) hs'.length_le)) fun as s3 _ _ => Ok.ret ?_)
      rintro us ⟨x, rfl, hx⟩ hc vs ⟨y, hy, hvs⟩
      cases hy
      refine ⟨_, rfl, ?_⟩
      rw [List.append_nil]
      exact .more hvs hc hx
    · simp only [g1, Bool.false_eq_true, if_false]
      refine Ok.ret ?_
      rintro vs ⟨y, hy, hvs⟩
      cases hy
      exact ⟨_, rfl, by rw [List.append_nil]; exact .one hvs⟩

/-- An expression starts with the first token. -/
theorem exprHd_ok (s : P) : Ok (fun e ts _ => Spec.Exp true 0 e ts ∧ ∃ u us, ts = u :: us ∧ u.type = s.ty) (parseExpr 0 s) s := by
  obtain ⟨a, s', h1, h2, h3, h4⟩ := expr_all s
  refine ⟨a, s', h1, h2, h3, fun hc he => ?_⟩
  obtain ⟨ts, h5, h6, _⟩ := h4 hc he
  obtain ⟨u, us, rfl, _⟩ := start_exp h6
  refine ⟨_, h5, h6, u, us, rfl, ?_⟩
  unfold P.ty P.tok
  rw [h5]
  rfl

/-- As `sep_ok`, where an error drops an element. -/
theorem sepT_ok {α β : Type} {R : α → List Tok → Prop} {f : β → List α} {one : P → Option (β × P)} {many : P → Option (List α × P)}
    (h1 : ∀ s, Ok (fun b ts _ => ∃ a, f b = [a] ∧ R a ts) (one s) s)
    (hm : ∀ s, many s = (one s).bind fun x => if (x.2.accept .comma).1 = true then
        Option.bind (many (x.2.accept .comma).2) fun y => some (f x.1 ++ y.1, y.2)
      else some (f x.1, (x.2.accept .comma).2)) (s : P) : Ok (G0 (Spec.Sep R)) (many s) s := by
  induction s using length_ind with | _ s ih =>
  rw [hm]
  refine Ok.bindE (h1 s) fun x s' _ hs' => ?_
  dsimp only
  rcases accept_cases s' (tt := .comma) (by decide) with ⟨t1, r1, m1, rfl, g1, ht1⟩ | ⟨g1, _⟩
  · simp only [g1, if_true]
    refine Ok.tok ht1 (Ok.bind' (ih ⟨r1, m1⟩ (Nat.lt_of_lt_of_le (Nat.lt_succ_self _) hs'.length_le)) fun as s3 _ _ => Ok.ret ?_)
    rintro us hx hc vs ⟨y, hy, hvs⟩
    rw [List.append_nil, hy]
    exact .more hvs hc hx
  · simp only [g1, Bool.false_eq_true, if_false]
    refine Ok.ret ?_
    rintro vs ⟨y, hy, hvs⟩
    rw [List.append_nil, hy]
    exact .one hvs

theorem fields_ok (s : P) : Ok (GOpt (Spec.Sep (Spec.Field true))) (parseFields s) s := by
  refine sep_ok (one := fun s => if s.ty = .identifier then some (some (.designator none s.tok.text), s.consume)
    else if s.ty = .lpar then (parseExpr 0 s).bind fun x => some (some x.1, x.2)
    else some (none, s.err)) ?_ (fun s => by
      rw [parseFields]
      show Option.bind _ _ = Option.bind _ _
      congr 1
      · funext x
        obtain ⟨a, s'⟩ := x
        cases a <;> rfl) s
  intro s
  split
  · rename_i hs
    obtain ⟨t, r, m, rfl, ht⟩ := exists_cons hs (by decide)
    exact Ok.skip (Ok.ret ⟨_, rfl, by rw [ident_eq ht]; exact .attr⟩)
  split
  · rename_i hs
    refine Ok.bind' (exprHd_ok s) fun e s' _ _ => Ok.ret ?_
    rintro us ⟨h1, u, vs, rfl, h2⟩
    refine ⟨_, rfl, ?_⟩
    rw [List.append_nil]
    exact .open_ rfl (h2.trans hs) h1
  · exact Ok.bad

theorem elems_ok (s : P) : Ok (G0 (Spec.Sep (Spec.Value true))) (parseElems s) s := by
  refine sepT_ok (f := fun e => [e]) (one := fun s => if s.ty = K "DEFAULT" then some (.default, s.consume)
    else if s.ty = K "NULL" then some (.null, s.consume)
    else (parseExpr 0 s).bind fun x => some (.expr x.1, x.2)) ?_ (fun s => by
      rw [parseElems]
      rfl) s
  intro s
  split
  · rename_i hs
    obtain ⟨t, r, m, rfl, ht⟩ := exists_cons hs (by decide)
    exact Ok.skip (Ok.ret ⟨_, rfl, .default ht⟩)
  split
  · rename_i hs
    obtain ⟨t, r, m, rfl, ht⟩ := exists_cons hs (by decide)
    exact Ok.skip (Ok.ret ⟨_, rfl, .null ht⟩)
  · rename_i hd hn
    refine Ok.bind' (exprHd_ok s) fun e s' _ _ => Ok.ret ?_
    rintro us ⟨h1, u, vs, rfl, h2⟩
    refine ⟨_, rfl, ?_⟩
    rw [List.append_nil]
    refine .expr h1 ?_
    rintro k hk
    simp only [List.head?_cons, Option.mem_def, Option.some.injEq] at hk
    subst hk
    rw [h2]
    exact hn

theorem tuple_ok (s : P) : Ok (GOpt (Spec.Tuple true)) (parseTuple s) s := by
  unfold parseTuple
  rcases expect_cases s (tt := .lpar) (by decide) with ⟨t, r, m, rfl, h, ht⟩ | h
  · simp only [h, if_true]
    refine Ok.tok ht (Ok.bind' (elems_ok ⟨r, m⟩) fun es s' _ _ => ?_)
    dsimp only
    rcases expect_cases s' (tt := .rpar) (by decide) with ⟨t1, r1, m1, rfl, h1, ht1⟩ | h1
    · simp only [h1, if_true]
      exact Ok.tok ht1 (Ok.ret fun hr us hus hl => ⟨_, rfl, .mk hl hr hus⟩)
    · simp only [h1, Bool.false_eq_true, if_false]
      exact Ok.fail (suffix_recover _ _) (Nat.lt_succ_self _)
  · simp only [h, Bool.false_eq_true, if_false]
    exact Ok.fail (suffix_recover _ _) (Nat.lt_succ_self _)

theorem tuples_ok (s : P) : Ok (G0 (Spec.Sep (Spec.Tuple true))) (parseTuples s) s := by
  refine sepT_ok (f := Option.toList) (one := parseTuple) ?_ (fun s => by
      rw [parseTuples]
      rfl) s
  intro s
  refine (tuple_ok s).weaken ?_
  rintro a ts s' ⟨x, rfl, hx⟩
  exact ⟨x, rfl, hx⟩

theorem sets_ok (s : P) : Ok (GOpt (Spec.Sep (Spec.Assign true))) (parseSets s) s := by
  refine sep_ok (one := fun s => if (s.expect .identifier).1 = true then
      if ((s.expect .identifier).2.expect .equal).1 = true then
        (parseExpr 0 ((s.expect .identifier).2.expect .equal).2).bind fun x => some (some (s.tok.text, x.1), x.2)
      else some (none, ((s.expect .identifier).2.expect .equal).2)
    else some (none, (s.expect .identifier).2)) ?_ (fun s => by
      rw [parseSets]
      dsimp only
      split
      · split
        · generalize parseExpr 0 _ = x
          cases x with
          | none => rfl
          | some x => rfl
        · rfl
      · rfl) s
  intro s
  rcases expect_cases s (tt := .identifier) (by decide) with ⟨t, r, m, rfl, h, ht⟩ | h
  · simp only [h, if_true]
    refine Ok.tok ht ?_
    rcases expect_cases ⟨r, m⟩ (tt := .equal) (by decide) with ⟨t1, r1, m1, heq, h1, ht1⟩ | h1
    · cases heq
      simp only [h1, if_true]
      refine Ok.tok ht1 (Ok.bind' (expr_all ⟨r1, m⟩) fun e s' _ _ => Ok.ret ?_)
      intro us hus hq hi
      refine ⟨_, rfl, ?_⟩
      rw [List.append_nil, ident_eq hi]
      exact .mk hq hus.1
    · simp only [h1, Bool.false_eq_true, if_false]
      exact Ok.bad
  · simp only [h, Bool.false_eq_true, if_false]
    exact Ok.bad

theorem optWhere_all (s : P) : Ok (G0 (Spec.OptCl true 1)) (parseOptWhere s) s :=
  optWhere_ok (n := s.toks.length) (fun s _ => all s) (Nat.le_refl _)

/-! ### Statements -/

/-- A statement whose first token has been checked. -/
abbrev OkStmt (f : P → Option (Stmt × P)) (t : Tok) (r : List Tok) (m : Nat) : Prop :=
  Ok (fun st ts _ => Spec.Statement true st (t :: ts)) (f ⟨t :: r, m⟩) ⟨r, m⟩

theorem mkKws2 {a b : String} {t u : Tok} (ht : t.type = K a) (hu : u.type = K b) : Spec.Kws [a, b] [t, u] := by
  simp [Spec.Kws, ht, hu]

theorem mkKws1 {a : String} {t : Tok} (ht : t.type = K a) : Spec.Kws [a] [t] := by
  simp [Spec.Kws, ht]

theorem createDatabase_ok {t : Tok} {r : List Tok} {m : Nat} (ht : t.type = K "CREATE") : OkStmt parseCreateDatabase t r m := by
  unfold OkStmt parseCreateDatabase
  rw [expectS1, eFirst_eq ht]
  refine Ok.eOr (by decide) fun t1 r1 m1 h => ?_
  cases h
  refine Ok.eOr (by decide) fun t2 r2 m2 h => ?_
  cases h
  refine Ok.ret fun h2 h1 => ?_
  rw [ident_eq h2]
  exact .createDatabase (mkKws2 ht h1)

theorem ifExists_ok {H : Stmt → List Tok → P → Prop} {k : Bool → P → Option (Stmt × P)}
    (hk : ∀ b s, Ok (fun st ts s' => ∀ us, Spec.IfExists b us → H st (us ++ ts) s') (k b s) s) (s : P) : Ok H (parseIfExists s k) s := by
  unfold parseIfExists
  rcases accept_cases s (tt := K "IF") (by decide) with ⟨t, r, m, rfl, h, ht⟩ | ⟨h, _⟩
  · simp only [h, if_true]
    refine Ok.tok ht (Ok.eOr (by decide) fun t1 r1 m1 h => ?_)
    cases h
    exact (hk true ⟨r1, m⟩).weaken fun st ts s' hg he hi => hg [t, t1] (.yes hi he)
  · simp only [h, Bool.false_eq_true, if_false]
    exact (hk false s).weaken fun st ts s' hg => hg [] .no

theorem dropDatabase_ok {t : Tok} {r : List Tok} {m : Nat} (ht : t.type = K "DROP") : OkStmt parseDropDatabase t r m := by
  unfold OkStmt parseDropDatabase
  rw [expectS1, eFirst_eq ht]
  refine Ok.eOr (by decide) fun t1 r1 m1 h => ?_
  cases h
  refine ifExists_ok (fun b s => ?_) _
  refine Ok.eOr (by decide) fun t2 r2 m2 h => ?_
  cases h
  refine Ok.ret fun h2 us hus h1 => ?_
  rw [ident_eq h2]
  exact .dropDatabase (mkKws2 ht h1) hus

theorem use_ok {t : Tok} {r : List Tok} {m : Nat} (ht : t.type = K "USE") : OkStmt parseUse t r m := by
  unfold OkStmt parseUse
  rw [expectS1, eFirst_eq ht]
  refine Ok.eOr (by decide) fun t1 r1 m1 h => ?_
  cases h
  refine Ok.ret fun h1 => ?_
  rw [ident_eq h1]
  exact .useDatabase (mkKws1 ht)

theorem createTable_ok {t : Tok} {r : List Tok} {m : Nat} (ht : t.type = K "CREATE") : OkStmt parseCreateTable t r m := by
  unfold OkStmt parseCreateTable
  rw [expectS1, eFirst_eq ht]
  refine Ok.eOr (by decide) fun t1 r1 m1 h => ?_
  cases h
  refine Ok.eOr (by decide) fun t2 r2 m2 h => ?_
  cases h
  refine Ok.eOr (by decide) fun t3 r3 m3 h => ?_
  cases h
  refine Ok.list (attrs_ok _) (fun _ _ => rfl) (fun _ => rfl) fun as s => ?_
  refine Ok.eOr (by decide) fun t4 r4 m4 h => ?_
  cases h
  refine Ok.ret fun h4 us hus h3 h2 h1 => ?_
  rw [ident_eq h2]
  exact .createTable (mkKws2 ht h1) h3 hus h4

theorem dropTable_ok {t : Tok} {r : List Tok} {m : Nat} (ht : t.type = K "DROP") : OkStmt parseDropTable t r m := by
  unfold OkStmt parseDropTable
  rw [expectS1, eFirst_eq ht]
  refine Ok.eOr (by decide) fun t1 r1 m1 h => ?_
  cases h
  refine ifExists_ok (fun b s => ?_) _
  refine Ok.list (f := fun ns s => some (.dropTable b ns, s)) (names_ok _) (fun _ _ => rfl) (fun _ => rfl) fun ns s => Ok.ret ?_
  intro us hus vs hvs h1
  rw [List.append_nil]
  exact .dropTable (mkKws2 ht h1) hvs hus

theorem dropIndex_ok {t : Tok} {r : List Tok} {m : Nat} (ht : t.type = K "DROP") : OkStmt parseDropIndex t r m := by
  unfold OkStmt parseDropIndex
  rw [expectS1, eFirst_eq ht]
  refine Ok.eOr (by decide) fun t1 r1 m1 h => ?_
  cases h
  refine ifExists_ok (fun b s => ?_) _
  refine Ok.list (f := fun ns s => some (.dropIndex b ns, s)) (names_ok _) (fun _ _ => rfl) (fun _ => rfl) fun ns s => Ok.ret ?_
  intro us hus vs hvs h1
  rw [List.append_nil]
  exact .dropIndex (mkKws2 ht h1) hvs hus

theorem indexName_ok {H : Stmt → List Tok → P → Prop} {k : Bool → Option Str → P → Option (Stmt × P)}
    (hk : ∀ b o s, Ok (fun st ts s' => ∀ us, Spec.IndexName b o us → H st (us ++ ts) s') (k b o s) s) (s : P) : Ok H (parseIndexName s k) s := by
  unfold parseIndexName
  rcases accept_cases s (tt := K "IF") (by decide) with ⟨t, r, m, rfl, h, ht⟩ | ⟨h, _⟩
  · simp only [h, if_true]
    refine Ok.tok ht (Ok.eOr (by decide) fun t1 r1 m1 h => ?_)
    cases h
    refine Ok.eOr (by decide) fun t2 r2 m2 h => ?_
    cases h
    refine Ok.eOr (by decide) fun t3 r3 m3 h => ?_
    cases h
    refine (hk true (some t3.text) ⟨r3, m⟩).weaken fun st ts s' hg h3 h2 h1 h0 => hg [t, t1, t2, t3] ?_
    rw [ident_eq h3]
    exact .ifNotExists h0 h1 h2
  · simp only [h, Bool.false_eq_true, if_false]
    split
    · rename_i hs
      obtain ⟨t, r, m, rfl, ht⟩ := exists_cons hs (by decide)
      refine Ok.skip ((hk false (some t.text) ⟨r, m⟩).weaken fun st ts s' hg => hg [t] ?_)
      rw [ident_eq ht]
      exact .name
    · exact (hk false none s).weaken fun st ts s' hg => hg [] .none

theorem method_ok {H : Stmt → List Tok → P → Prop} {k : Option Tok → P → Option (Stmt × P)}
    (hk : ∀ o s, Ok (fun st ts s' => ∀ us, Spec.OptArg "USING" [.identifier, K "DEFAULT"] o us → H st (us ++ ts) s') (k o s) s) (s : P) :
    Ok H (parseMethod s k) s := by
  unfold parseMethod
  rcases accept_cases s (tt := K "USING") (by decide) with ⟨t, r, m, rfl, h, ht⟩ | ⟨h, _⟩
  · simp only [h, if_true]
    refine Ok.tok ht ?_
    split
    · exact Ok.failS List.suffix_rfl (Nat.lt_succ_self _)
    · rename_i hs
      have hty : (⟨r, m⟩ : P).ty ∈ [TT.identifier, K "DEFAULT"] := by
        simp only [List.mem_cons, List.not_mem_nil, or_false]
        by_cases h1 : (⟨r, m⟩ : P).ty = .identifier
        · exact Or.inl h1
        · exact Or.inr (by by_cases h2 : (⟨r, m⟩ : P).ty = K "DEFAULT"; exact h2; exact absurd ⟨h1, h2⟩ hs)
      obtain ⟨t1, r1, m1, heq, ht1⟩ := exists_cons (s := ⟨r, m⟩) rfl (by intro h'; rw [h'] at hty; simp [K] at hty)
      cases heq
      exact Ok.skip ((hk (some t1) ⟨r1, m⟩).weaken fun st ts s' hg h1 => hg [t, t1] (.some h1 hty))
  · simp only [h, Bool.false_eq_true, if_false]
    exact (hk none s).weaken fun st ts s' hg => hg [] .none

theorem createIndex_ok {t : Tok} {r : List Tok} {m : Nat} (ht : t.type = K "CREATE") : OkStmt parseCreateIndex t r m := by
  unfold OkStmt parseCreateIndex
  rw [expectS, eOr_eq ht]
  dsimp only
  have key : ∀ (u : Bool) (us : List Tok) (s : P), Spec.OptKw "UNIQUE" u us → Ok (fun st ts _ => Spec.Statement true st (t :: (us ++ ts)))
      (expectS (K "INDEX") s fun s => parseIndexName s fun b name s =>
      expectS (K "ON") s fun s =>
        let table := s.tok.text
        expectS .identifier s fun s => parseMethod s fun method s => expectS .lpar s fun s => do
          let (fs, s) ← parseFields s
          match fs with
          | none => failStmt s
          | some fs => expectS .rpar s fun s => some (.createIndex u b name table method fs, s)) s := by
    intro u us s hu
    refine Ok.eOr (by decide) fun t1 r1 m1 h => ?_
    cases h
    refine indexName_ok (fun b name s => ?_) _
    refine Ok.eOr (by decide) fun t2 r2 m2 h => ?_
    cases h
    refine Ok.eOr (by decide) fun t3 r3 m3 h => ?_
    cases h
    refine method_ok (fun me s => ?_) _
    refine Ok.eOr (by decide) fun t4 r4 m4 h => ?_
    cases h
    refine Ok.list (fields_ok _) (fun _ _ => rfl) (fun _ => rfl) fun fs s => ?_
    refine Ok.eOr (by decide) fun t5 r5 m5 h => ?_
    cases h
    refine Ok.ret fun h5 vs hvs h4 ms hms h3 h2 ns hns h1 => ?_
    have := Spec.Statement.createIndex (t := t3.text) ht hu h1 hns h2 hms h4 hvs h5
    rw [← ident_eq h3] at this
    simpa using this
  by_cases hu : (⟨r, m⟩ : P).ty = K "UNIQUE"
  · obtain ⟨t1, r1, m1, heq, ht1⟩ := exists_cons hu (by decide)
    cases heq
    simp only [hu, decide_true, if_true]
    exact Ok.skip (key true [t1] ⟨r1, m⟩ (.yes ht1))
  · simp only [hu, decide_false, Bool.false_eq_true, if_false]
    exact key false [] ⟨r, m⟩ .no

theorem insert_ok {t : Tok} {r : List Tok} {m : Nat} (ht : t.type = K "INSERT") : OkStmt parseInsert t r m := by
  unfold OkStmt parseInsert
  rw [expectS1, eFirst_eq ht]
  refine Ok.eOr (by decide) fun t1 r1 m1 h => ?_
  cases h
  refine Ok.eOr (by decide) fun t2 r2 m2 h => ?_
  cases h
  refine Ok.eOr (by decide) fun t3 r3 m3 h => ?_
  cases h
  refine Ok.bind' (tuples_ok _) fun ts s _ _ => Ok.ret ?_
  intro us hus h3 h2 h1
  rw [List.append_nil, ident_eq h2]
  exact .insert (mkKws2 ht h1) h3 hus

theorem update_ok {t : Tok} {r : List Tok} {m : Nat} (ht : t.type = K "UPDATE") : OkStmt parseUpdate t r m := by
  unfold OkStmt parseUpdate
  rw [expectS1, eFirst_eq ht]
  refine Ok.eOr (by decide) fun t1 r1 m1 h => ?_
  cases h
  refine Ok.eOr (by decide) fun t2 r2 m2 h => ?_
  cases h
  refine Ok.list (sets_ok _) (fun _ _ => rfl) (fun _ => rfl) fun es s => ?_
  refine Ok.bind' (optWhere_all _) fun w s _ _ => Ok.ret ?_
  intro vs hvs us hus h2 h1
  rw [List.append_nil, ident_eq h1]
  exact .update (mkKws1 ht) h2 hus hvs

theorem delete_ok {t : Tok} {r : List Tok} {m : Nat} (ht : t.type = K "DELETE") : OkStmt parseDelete t r m := by
  unfold OkStmt parseDelete
  rw [expectS1, eFirst_eq ht]
  refine Ok.eOr (by decide) fun t1 r1 m1 h => ?_
  cases h
  refine Ok.eOr (by decide) fun t2 r2 m2 h => ?_
  cases h
  refine Ok.bind' (optWhere_all _) fun w s _ _ => Ok.ret ?_
  intro vs hvs h2 h1
  rw [List.append_nil, ident_eq h2]
  exact .delete (mkKws2 ht h1) hvs

theorem rows_ok {H : Stmt → List Tok → P → Prop} {k : Option Tok → P → Option (Stmt × P)}
    (hk : ∀ o s, Ok (fun st ts s' => ∀ us, Spec.OptArg "ROWS" [.decInt, .octInt] o us → H st (us ++ ts) s') (k o s) s) (s : P) :
    Ok H (parseRows s k) s := by
  unfold parseRows
  rcases accept_cases s (tt := K "ROWS") (by decide) with ⟨t, r, m, rfl, h, ht⟩ | ⟨h, _⟩
  · simp only [h, if_true]
    refine Ok.tok ht ?_
    split
    · rename_i hs
      have hty : (⟨r, m⟩ : P).ty ∈ [TT.decInt, .octInt] := by
        simpa using hs
      obtain ⟨t1, r1, m1, heq, ht1⟩ := exists_cons (s := ⟨r, m⟩) rfl (by intro h'; rw [h'] at hty; simp at hty)
      cases heq
      exact Ok.skip ((hk (some t1) ⟨r1, m⟩).weaken fun st ts s' hg h1 => hg [t, t1] (.some h1 hty))
    · exact Ok.failS List.suffix_rfl (Nat.lt_succ_self _)
  · simp only [h, Bool.false_eq_true, if_false]
    exact (hk none s).weaken fun st ts s' hg => hg [] .none

theorem optString_ok {H : Stmt → List Tok → P → Prop} {w : String} (hw : K w ≠ .eof) {k : Option Tok → P → Option (Stmt × P)}
    (hk : ∀ o s, Ok (fun st ts s' => ∀ us, Spec.OptArg w [.stringLiteral] o us → H st (us ++ ts) s') (k o s) s) (s : P) :
    Ok H (parseOptString (K w) s k) s := by
  unfold parseOptString
  rcases accept_cases s (tt := K w) hw with ⟨t, r, m, rfl, h, ht⟩ | ⟨h, _⟩
  · simp only [h, if_true]
    refine Ok.tok ht (Ok.eOr (by decide) fun t1 r1 m1 h => ?_)
    cases h
    exact (hk (some t1) ⟨r1, m⟩).weaken fun st ts s' hg h1 h0 => hg [t, t1] (.some h0 (by simp [h1]))
  · simp only [h, Bool.false_eq_true, if_false]
    exact (hk none s).weaken fun st ts s' hg => hg [] .none

theorem header_ok {H : Stmt → List Tok → P → Prop} {w : String} (hw : K w ≠ .eof) {k : Bool → P → Option (Stmt × P)}
    (hk : ∀ o s, Ok (fun st ts s' => ∀ us, Spec.OptHeader w o us → H st (us ++ ts) s') (k o s) s) (s : P) :
    Ok H (parseHeader (K w) s k) s := by
  unfold parseHeader
  rcases accept_cases s (tt := K w) hw with ⟨t, r, m, rfl, h, ht⟩ | ⟨h, _⟩
  · simp only [h, if_true]
    refine Ok.tok ht (Ok.eOr (by decide) fun t1 r1 m1 h => ?_)
    cases h
    exact (hk true ⟨r1, m⟩).weaken fun st ts s' hg h1 h0 => hg [t, t1] (.yes h0 h1)
  · simp only [h, Bool.false_eq_true, if_false]
    exact (hk false s).weaken fun st ts s' hg => hg [] .no

theorem import_ok {t : Tok} {r : List Tok} {m : Nat} (ht : t.type = K "IMPORT") : OkStmt parseImport t r m := by
  unfold OkStmt parseImport
  rw [expectS1, eFirst_eq ht]
  refine Ok.eOr (by decide) fun t1 r1 m1 h => ?_
  cases h
  refine Ok.eOr (by decide) fun t2 r2 m2 h => ?_
  cases h
  split
  · rename_i hd
    obtain ⟨t3, r3, m3, heq, ht3⟩ := exists_cons hd (by decide)
    cases heq
    refine Ok.skip ?_
    refine Ok.eOr (s := ⟨r3, m⟩) (by decide) fun t4 r4 m4 h => ?_
    cases h
    refine rows_ok (fun rows s => ?_) _
    refine optString_ok (by decide) (fun del s => ?_) _
    refine optString_ok (by decide) (fun esc s => ?_) _
    refine optString_ok (by decide) (fun quo s => ?_) _
    refine header_ok (by decide) (fun has s => ?_) _
    refine header_ok (by decide) (fun skip s => ?_) _
    refine Ok.ret fun ss hss hs hhs qs hqs es hes ds hds rs hrs h4 h2 h1 => ?_
    have := Spec.Statement.importDSV (lax := true) (n := t2.text) (mkKws2 ht h1) ht3 h4 hrs hds hes hqs hhs hss
    rw [← ident_eq h2] at this
    simpa using this
  · exact Ok.failS List.suffix_rfl (Nat.lt_succ_self _)

/-- A query consumes its first keyword. -/
theorem select_stmt_ok {t : Tok} {r : List Tok} {m : Nat} (ht : t.type = K "SELECT") :
    OkStmt (fun s => (parseSelect s).bind fun x => some (.select x.1, x.2)) t r m := by
  have h1 : Ok (G0 (Spec.Sel true)) (parseSelect ⟨t :: r, m⟩) ⟨t :: r, m⟩ := (all _).select
  have h2 : ∀ q s', parseSelect ⟨t :: r, m⟩ = some (q, s') → s'.toks <:+ r := by
    intro q s' h
    rw [parseSelect] at h
    have h3 : Ok (fun _ _ _ => True) (parseSelectClause ⟨t :: r, m⟩) ⟨r, m⟩ := by
      rw [parseSelectClause, eFirst_eq ht]
      split
      · rename_i ha
        obtain ⟨a, r', m', heq, ha⟩ := exists_cons ha (by decide)
        cases heq
        refine Ok.skip ?_
        refine Ok.orErr (G := fun _ _ => True) (.select true) .error Follow.selectClause ?_ (fun _ _ => rfl) (fun _ => rfl) fun is ts s' _ => trivial
        simp only [P.consume, List.tail_cons]
        rw [parseMoreItems]
        rcases accept_cases ⟨r', m⟩ (tt := .comma) (by decide) with ⟨t, r, m, heq, hh, ht⟩ | ⟨hh, _⟩
        · cases heq
          simp only [hh, if_true]
          refine Ok.skip (Ok.weaken (all _).items ?_)
          rintro a ts s' ⟨x, rfl, hx⟩
          exact ⟨_, rfl, trivial⟩
        · simp only [hh, Bool.false_eq_true, if_false]
          exact Ok.ret ⟨_, rfl, trivial⟩
      · exact Ok.orErr (.select false) .error Follow.selectClause (all _).items (fun _ _ => rfl) (fun _ => rfl) fun is ts s' _ => trivial
    obtain ⟨c, s0, h4, h5, _⟩ := h3
    rw [h4] at h
    obtain ⟨q', s'', h6, h7, _⟩ : Ok (fun _ _ _ => True) (Option.bind (some (c, s0)) fun x => do
        let (fr, s) ← parseOptFrom x.2
        let (wh, s) ← parseOptWhere s
        let (gr, s) ← parseOptGroupBy s
        let (ha, s) ← parseOptHaving s
        let (or_, s) ← parseOptOrderBy s
        if s.ty = K "LIMIT" then
          let (li, s) ← parseLimit s
          some (Select.mk x.1 fr wh gr ha or_ (some li), s)
        else some (Select.mk x.1 fr wh gr ha or_ none, s)) s0 := by
      rw [Option.bind_some]
      refine Ok.bind' (optFrom_ok (fun s _ => all s) (Nat.le_refl _)) fun fr s1 hs _ => ?_
      refine Ok.bind' (optWhere_ok (fun s _ => all s) (Nat.le_refl _)) fun wh s2 hs _ => ?_
      refine Ok.bind' (optGroupBy_ok (fun s _ => all s) (Nat.le_refl _)) fun gr s3 hs _ => ?_
      refine Ok.bind' (optHaving_ok (fun s _ => all s) (Nat.le_refl _)) fun ha s4 hs _ => ?_
      refine Ok.bind' (optOrderBy_ok (fun s _ => all s) (Nat.le_refl _)) fun or_ s5 hs _ => ?_
      dsimp only
      split
      · exact Ok.bind' (limit_ok s5) fun li s6 hs _ => Ok.ret fun _ _ _ _ _ _ _ _ _ _ _ _ => trivial
      · exact Ok.ret fun _ _ _ _ _ _ _ _ _ _ => trivial
    have : some (q', s'') = some (q, s') := h6.symm.trans h
    cases this
    exact h7.trans h5
  obtain ⟨q, s', h3, h4, h5, h6⟩ := h1
  unfold OkStmt
  dsimp only
  rw [h3]
  refine ⟨_, _, rfl, h2 q s' h3, h5, fun hc he => ?_⟩
  have hc' : Clean ⟨t :: r, m⟩ := by
    intro u hu
    rcases List.mem_cons.1 hu with rfl | hu
    · exact ⟨by rw [ht]; decide, by rw [ht]; intro h; exact absurd h (by decide)⟩
    · exact hc u hu
  obtain ⟨ts, h7, h8⟩ := h6 hc' he
  cases ts with
  | nil =>
    have := (h2 q s' h3).length_le
    have h9 := congrArg List.length h7
    simp only [List.nil_append, List.length_cons] at h9
    omega
  | cons u ts =>
    simp only [List.cons_append, List.cons.injEq] at h7
    obtain ⟨rfl, h7⟩ := h7
    exact ⟨ts, h7, .select h8⟩


/-- What a statement with its semicolon has consumed. -/
def GFinish (t : Tok) (st : Stmt) (ts : List Tok) (_ : P) : Prop :=
  ∃ us semi, t :: ts = us ++ [semi] ∧ semi.type = .semicol ∧ Spec.Statement true st us

theorem finish_ok {f : P → Option (Stmt × P)} {t : Tok} {r : List Tok} {m : Nat} (h : OkStmt f t r m) :
    Ok (GFinish t) (finish (f ⟨t :: r, m⟩)) ⟨r, m⟩ := by
  refine Ok.bind' h fun st s _ _ => ?_
  dsimp only
  rcases expect_cases s (tt := .semicol) (by decide) with ⟨t1, r1, m1, rfl, h1, ht1⟩ | h1
  · simp only [h1]
    exact Ok.tok ht1 (Ok.ret fun h2 us hus => ⟨t :: us, t1, by simp, h2, hus⟩)
  · simp only [h1]
    exact Ok.bad

theorem noStmt_ok {G : Stmt → List Tok → P → Prop} {t : Tok} {r : List Tok} {m : Nat} : Ok G (noStmt ⟨t :: r, m⟩) ⟨r, m⟩ :=
  Ok.failS (s' := P.consume (P.err ⟨t :: r, m⟩)) List.suffix_rfl (Nat.lt_succ_self m)

/-- `parse_Stmt` terminates, consumes a token, and what it accepts without an error is a statement. -/
theorem stmt_ok (t : Tok) (r : List Tok) (m : Nat) :
    Ok (fun st ts s => (st = .empty ∧ t.type = .semicol ∧ ts = []) ∨ GFinish t st ts s) (parseStmt ⟨t :: r, m⟩) ⟨r, m⟩ := by
  have fin : ∀ {f : P → Option (Stmt × P)}, OkStmt f t r m →
      Ok (fun st ts s => (st = .empty ∧ t.type = .semicol ∧ ts = []) ∨ GFinish t st ts s) (finish (f ⟨t :: r, m⟩)) ⟨r, m⟩ :=
    fun h => (finish_ok h).weaken fun _ _ _ hg => Or.inr hg
  unfold parseStmt
  have hty : (⟨t :: r, m⟩ : P).ty = t.type := rfl
  rw [hty]
  split
  · rename_i h
    exact Ok.ret (Or.inl ⟨rfl, h, rfl⟩)
  split
  · rename_i h
    split
    · exact fin (createDatabase_ok h)
    split
    · exact fin (createTable_ok h)
    split
    · exact fin (createIndex_ok h)
    · exact noStmt_ok
  split
  · rename_i h
    split
    · exact fin (dropDatabase_ok h)
    split
    · exact fin (dropTable_ok h)
    split
    · exact fin (dropIndex_ok h)
    · exact noStmt_ok
  split
  · exact fin (use_ok ‹_›)
  split
  · exact fin (select_stmt_ok ‹_›)
  split
  · exact fin (insert_ok ‹_›)
  split
  · exact fin (update_ok ‹_›)
  split
  · exact fin (delete_ok ‹_›)
  split
  · exact fin (import_ok ‹_›)
  · exact noStmt_ok

end Mutable.Parse
