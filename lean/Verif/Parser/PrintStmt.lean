import Verif.Parser.Print
/-!
# The printed text of a statement
-/
namespace Mutable.Parse
open Mutable.Lex (TT)
open Mutable.Lex.Spec (Valid)
open Spec (Ident ValidTok AliasOK PExpr PSrc PCl PSel PType PConstraint PAttr PElem PField PStmt headNull)

/-- The text is read as the given tokens. -/
def Reads (ts : List Tok) (text : Str) : Prop := ∀ rest tr, Delim rest → Text tr rest → Text (pairs ts ++ tr) (text ++ rest)

theorem Reads.mk {R : List Tok → Prop} {ts : List Tok} {a : Str} (h : Reads ts a) (hR : R ts) : Prn R a := ⟨ts, hR, h⟩

variable {ts us : List Tok} {a b : Str}

theorem Reads.nil : Reads [] [] := fun _ _ _ h => h

theorem Reads.append (h1 : Reads ts a) (h2 : Reads us b) (hd : Delim b) : Reads (ts ++ us) (a ++ b) := by
  intro rest tr hr h
  rw [pairs_append, List.append_assoc, List.append_assoc]
  exact h1 _ _ (hd.append hr) (h2 _ _ hr h)

theorem Reads.space (h : Reads ts a) : Reads ts (' ' :: a) := fun rest tr hr h' => src_space (h rest tr hr h')
theorem Reads.newline (h : Reads ts a) : Reads ts ('\n' :: a) := fun rest tr hr h' => src_newline (h rest tr hr h')
theorem Reads.white : ∀ w : Str, (∀ c ∈ w, c = ' ' ∨ c = '\n') → Reads ts a → Reads ts (w ++ a)
  | [], _, h => h
  | c :: w, hw, h => by
    have := Reads.white w (fun d hd => hw d (by simp [hd])) h
    rcases hw c (by simp) with rfl | rfl
    · exact this.space
    · exact this.newline
theorem Reads.lpar (h : Reads ts a) : Reads (lp :: ts) ('(' :: a) := fun rest tr hr h' => src_lpar (h rest tr hr h')
theorem Reads.rpar (h : Reads ts a) : Reads (rp :: ts) (')' :: a) := fun rest tr hr h' => src_rpar (h rest tr hr h')
theorem Reads.comma (h : Reads ts a) : Reads (cm :: ts) (',' :: a) := fun rest tr hr h' => src_comma (h rest tr hr h')
theorem Reads.semi (h : Reads ts a) : Reads (sc :: ts) (';' :: a) := fun rest tr hr h' => src_semi (h rest tr hr h')

theorem Reads.tok {t : Tok} (hv : ValidTok t) (hty : t.type ≠ .instruction) (h : Reads ts a) (hd : Delim a) :
    Reads (t :: ts) (t.text ++ a) := by
  intro rest tr hr h'
  rw [List.append_assoc]
  exact src_tok hv hty (hd.append hr) (h _ _ hr h')

theorem Reads.ident {n : Str} (hv : Ident n) (h : Reads ts a) (hd : Delim a) : Reads (⟨n, .identifier⟩ :: ts) (n ++ a) :=
  Reads.tok (t := ⟨n, .identifier⟩) hv (by simp) h hd

theorem Reads.ident0 {n : Str} (hv : Ident n) : Reads [⟨n, .identifier⟩] n := by
  simpa using Reads.ident hv Reads.nil Delim.nil

/-- A keyword token. -/
def kt (w : String) : Tok := ⟨w.toList, K w⟩

theorem Reads.kw (w : String) (hw : w.toList ∈ Lex.Spec.reserved) (h : Reads ts a) (hd : Delim a) : Reads (kt w :: ts) (w.toList ++ a) :=
  Reads.tok (t := kt w) (Valid.kw hw) (by simp [kt, K]) h hd

theorem Reads.kw0 (w : String) (hw : w.toList ∈ Lex.Spec.reserved) : Reads [kt w] w.toList := by
  simpa using Reads.kw w hw Reads.nil Delim.nil

theorem dl_sc {l : Str} : Delim (';' :: l) := delim_cons rfl

/-- The character behind a text, if the text may be empty. -/
theorem Delim.opt {b : Bool} {w v : Str} (h1 : Delim w) (h2 : Delim v) : Delim ((if b then w else []) ++ v) := by
  cases b
  · exact h2
  · exact h1.append h2

/-! ### Lists -/

theorem flatten_map_append {α : Type} (f g : α → Str) (l : List α) : (l.map fun b => f b ++ g b).flatten = l.flatMap fun b => f b ++ g b := by
  rw [List.flatMap_def]

theorem printSep_cons {α : Type} (sep : String) (f : α → Str) (x y : α) (l : List α) :
    printSep sep f (x :: y :: l) = f x ++ (S sep ++ printSep sep f (y :: l)) := by
  simp only [printSep, List.map_cons, List.flatten_cons, List.append_assoc]

theorem prn_sep {α : Type} {sep : String} {f : α → Str} {R : α → List Tok → Prop} (w : Str) (hs : S sep = ',' :: w) (hw : ∀ c ∈ w, c = ' ' ∨ c = '\n') :
    ∀ l : List α, (∀ x ∈ l, Prn (R x) (f x)) → l ≠ [] → Prn (Spec.Sep R l) (printSep sep f l)
  | [x], h, _ => by
    have := (h x (by simp)).imp (P := Spec.Sep R [x]) fun us h => .one h
    simpa [printSep] using this
  | x :: y :: l, h, _ => by
    obtain ⟨vs, h1, h2⟩ := prn_sep w hs hw (y :: l) (fun z hz => h z (by simp [hz])) (by simp)
    obtain ⟨ts, g1, g2⟩ := h x (by simp)
    rw [printSep_cons, hs]
    exact Reads.mk (Reads.append (ts := ts) g2 (Reads.comma (Reads.white w hw h2)) dl_cm) (.more g1 rfl h1)

theorem prn_many {α : Type} {f : α → Str} {R : α → List Tok → Prop} : ∀ l : List α, (∀ x ∈ l, Prn (R x) (f x)) →
    Prn (Spec.Many R l) ((l.map fun c => S " " ++ f c).flatten) ∧ Delim ((l.map fun c => S " " ++ f c).flatten)
  | [], _ => ⟨Prn.nil .nil, Delim.nil⟩
  | x :: l, h => by
    obtain ⟨⟨vs, h1, h2⟩, h3⟩ := prn_many l (fun z hz => h z (by simp [hz]))
    obtain ⟨ts, g1, g2⟩ := h x (by simp)
    rw [List.map_cons, List.flatten_cons, List.append_assoc]
    exact ⟨Reads.mk (Reads.space (Reads.append (ts := ts) (a := f x) g2 h2 h3)) (.cons g1 h1), dl_sp⟩

/-! ### Types -/

theorem digit_iff {c : Char} : c.isDigit = true ↔ '0' ≤ c ∧ c ≤ '9' := by
  simp only [Char.isDigit, Bool.and_eq_true, decide_eq_true_eq, Char.le_def]

theorem toDigits_head {n : Nat} (h : 0 < n) : ∃ c r, Nat.toDigits 10 n = c :: r ∧ c ≠ '0' := by
  induction n using Nat.strongRecOn with
  | ind n ih =>
    rw [Nat.toDigits_eq_if (by decide)]
    split
    · refine ⟨_, _, rfl, ?_⟩
      rw [Ne, Nat.digitChar_eq_zero]
      omega
    · obtain ⟨c, r, e, hc⟩ := ih (n / 10) (by omega) (by omega)
      exact ⟨c, r ++ _, by rw [e]; rfl, hc⟩

theorem printNat_eq (n : Nat) : printNat n = Nat.toDigits 10 n := by
  simp only [printNat, Nat.toString_eq_repr, Nat.toList_repr]

theorem nat_tok {n : Nat} (h : 0 < n) : ValidTok ⟨printNat n, .decInt⟩ ∧ Spec.Dec ⟨printNat n, .decInt⟩ n := by
  rw [printNat_eq]
  have hd : ∀ c ∈ Nat.toDigits 10 n, '0' ≤ c ∧ c ≤ '9' := fun c hc =>
    digit_iff.1 (Nat.isDigit_of_mem_toDigits (by decide) (by decide) hc)
  refine ⟨?_, rfl, hd, ?_⟩
  · obtain ⟨c, r, e, hc⟩ := toDigits_head h
    show Valid .decInt (Nat.toDigits 10 n)
    rw [e] at hd ⊢
    exact .decInt (by simpa [Lex.isDec] using hd c (by simp)) hc fun d hd' => by simpa [Lex.isDec] using hd d (by simp [hd'])
  · rw [List.foldl_map]
    exact (Nat.ofDigitChars_ten_toDigits (n := n)).symm

theorem reads_nat {n : Nat} (h : 0 < n) (h1 : Reads ts a) (hd : Delim a) : Reads (⟨printNat n, .decInt⟩ :: ts) (printNat n ++ a) :=
  Reads.tok (t := ⟨printNat n, .decInt⟩) (nat_tok h).1 (by simp) h1 hd

theorem reads_size {n : Nat} (h : 0 < n) : Reads [lp, ⟨printNat n, .decInt⟩, rp] ('(' :: (printNat n ++ [')'])) :=
  Reads.lpar (reads_nat h (Reads.rpar Reads.nil) dl_rp)

theorem size_spec {n : Nat} (h : 0 < n) : Spec.Size n [lp, ⟨printNat n, .decInt⟩, rp] := .mk rfl (nat_tok h).2 rfl

theorem type_print {t : Ty} (h : PType t) : Prn (Spec.DataType false t) (printType t) := by
  cases t with
  | error => exact h.elim
  | bool => exact Reads.mk (Reads.kw0 "BOOL" (by decide)) (.bool rfl)
  | date => exact Reads.mk (Reads.kw0 "DATE" (by decide)) (.date rfl)
  | datetime => exact Reads.mk (Reads.kw0 "DATETIME" (by decide)) (.datetime rfl)
  | float => exact Reads.mk (Reads.kw0 "FLOAT" (by decide)) (.float rfl)
  | double => exact Reads.mk (Reads.kw0 "DOUBLE" (by decide)) (.double rfl)
  | char n =>
    have e : printType (.char n) = "CHAR".toList ++ '(' :: (printNat n ++ [')']) := by
      show "CHAR".toList ++ ['('] ++ printNat n ++ [')'] = _
      simp only [List.append_assoc, List.cons_append, List.nil_append]
    rw [e]
    exact Reads.mk (Reads.kw "CHAR" (by decide) (reads_size h.1) dl_lp) (.char rfl (size_spec h.1) h.2)
  | varchar n =>
    have e : printType (.varchar n) = "VARCHAR".toList ++ '(' :: (printNat n ++ [')']) := by
      show "VARCHAR".toList ++ ['('] ++ printNat n ++ [')'] = _
      simp only [List.append_assoc, List.cons_append, List.nil_append]
    rw [e]
    exact Reads.mk (Reads.kw "VARCHAR" (by decide) (reads_size h.1) dl_lp) (.varchar rfl (size_spec h.1) h.2)
  | int n =>
    have e : printType (.int n) = "INT".toList ++ '(' :: (printNat n ++ [')']) := by
      show ("INT".toList ++ ['(']) ++ printNat n ++ [')'] = _
      simp only [List.append_assoc, List.cons_append, List.nil_append]
    rw [e]
    have := Reads.mk (R := Spec.DataType false (.int (n % 2 ^ 32))) (Reads.kw "INT" (by decide) (reads_size h.1) dl_lp) (.int rfl (size_spec h.1) (Or.inl h.2))
    rwa [Nat.mod_eq_of_lt h.2] at this
  | decimal p s =>
    obtain ⟨h1, h2, h3, h4⟩ := h
    have e : printType (.decimal p s) = "DECIMAL".toList ++ '(' :: (printNat p ++ ',' :: ' ' :: (printNat s ++ [')'])) := by
      show ("DECIMAL".toList ++ ['(']) ++ printNat p ++ [',', ' '] ++ printNat s ++ [')'] = _
      simp only [List.append_assoc, List.cons_append, List.nil_append]
    rw [e]
    have := Reads.mk (R := Spec.DataType false (.decimal (p % 2 ^ 32) (s % 2 ^ 32)))
      (Reads.kw "DECIMAL" (by decide) (Reads.lpar (reads_nat h1 (Reads.comma (Reads.space (reads_nat h3 (Reads.rpar Reads.nil) dl_rp))) dl_cm)) dl_lp)
      (.decimal2 rfl rfl (nat_tok h1).2 (Or.inl h2) rfl (nat_tok h3).2 (Or.inl h4) rfl)
    rwa [Nat.mod_eq_of_lt h2, Nat.mod_eq_of_lt h4] at this

theorem constraint_print {c : Constraint} (h : PConstraint c) : Prn (Spec.Constr false c) (printConstraint c) := by
  cases c with
  | primaryKey => exact Reads.mk (Reads.kw "PRIMARY" (by decide) (Reads.space (Reads.kw0 "KEY" (by decide))) dl_sp) (.primaryKey rfl rfl)
  | unique => exact Reads.mk (Reads.kw0 "UNIQUE" (by decide)) (.unique rfl)
  | notNull => exact Reads.mk (Reads.kw "NOT" (by decide) (Reads.space (Reads.kw0 "NULL" (by decide))) dl_sp) (.notNull rfl rfl)
  | check e =>
    obtain ⟨ts, h1, h2⟩ := expr_print h
    have e : printConstraint (.check e) = "CHECK".toList ++ ' ' :: '(' :: (printExpr false e ++ [')']) := by
      show ("CHECK".toList ++ [' ', '(']) ++ printExpr false e ++ [')'] = _
      simp only [List.append_assoc, List.cons_append, List.nil_append]
    rw [e]
    exact Reads.mk (Reads.kw "CHECK" (by decide) (Reads.space (Reads.lpar (Reads.append (ts := ts) h2 (Reads.rpar Reads.nil) dl_rp))) dl_sp)
      (.check rfl rfl rfl (.postfix_ h1))
  | references t a =>
    have e : printConstraint (.references t a) = "REFERENCES".toList ++ ' ' :: (t ++ '(' :: (a ++ [')'])) := by
      show ("REFERENCES".toList ++ [' ']) ++ t ++ ['('] ++ a ++ [')'] = _
      simp only [List.append_assoc, List.cons_append, List.nil_append]
    rw [e]
    exact Reads.mk (Reads.kw "REFERENCES" (by decide) (Reads.space (Reads.ident h.1 (Reads.lpar (Reads.ident h.2 (Reads.rpar Reads.nil) dl_rp)) dl_lp)) dl_sp)
      (.references rfl rfl rfl)

theorem attr_print {at_ : Str × Ty × List Constraint} (h : PAttr at_) : Prn (Spec.Attr false at_) (printAttr at_) := by
  obtain ⟨n, t, cs⟩ := at_
  obtain ⟨h1, h2, h3⟩ := h
  obtain ⟨us, g1, g2⟩ := type_print h2
  obtain ⟨⟨vs, k1, k2⟩, k3⟩ := prn_many cs fun c hc => constraint_print (h3 c hc)
  have e : printAttr (n, t, cs) = ['\n', ' ', ' ', ' ', ' '] ++ (n ++ ' ' :: (printType t ++ (cs.map fun c => S " " ++ printConstraint c).flatten)) := by
    show ['\n', ' ', ' ', ' ', ' '] ++ n ++ [' '] ++ printType t ++ (cs.map fun c => S " " ++ printConstraint c).flatten = _
    simp only [List.append_assoc, List.cons_append, List.nil_append]
  rw [e]
  exact Reads.mk (Reads.white _ (by simp) (Reads.ident h1 (Reads.space (Reads.append (ts := us) g2 k2 k3)) dl_sp)) ⟨us, vs, rfl, g1, k1⟩

/-! ### Values and fields -/

/-- An expression of the grammar that starts with `NULL` is printed for such an expression only. -/
theorem postfix_head {e : Expr} {ts : List Tok} (h : Spec.Postfix false e ts) :
    (∃ t r, ts = t :: r ∧ t.type = K "NULL") → headNull e := by
  cases h with
  | attr => rintro ⟨t, r, e, h⟩; cases e; simp [K] at h
  | qualified _ => rintro ⟨t, r, e, h⟩; cases e; simp [K] at h
  | const _ => rintro ⟨t, r, e, h⟩; cases e; exact h
  | paren h1 => rintro ⟨t, r, e, h⟩; cases e; rw [h1] at h; simp [K] at h
  | query h1 => rintro ⟨t, r, e, h⟩; cases e; rw [h1] at h; simp [K] at h
  | @star l a r f ts h1 h2 h3 h4 =>
    rintro ⟨t, w, e, h⟩
    cases ts with
    | nil => cases e; rw [h1] at h; simp [K] at h
    | cons u us =>
      cases e
      show headNull f
      exact postfix_head h4 ⟨t, us, rfl, h⟩
  | @call0 l r f ts h1 h2 h4 =>
    rintro ⟨t, w, e, h⟩
    cases ts with
    | nil => cases e; rw [h1] at h; simp [K] at h
    | cons u us =>
      cases e
      show headNull f
      exact postfix_head h4 ⟨t, us, rfl, h⟩
  | @call l r f ts args vs h1 h2 h4 =>
    rintro ⟨t, w, e, h⟩
    cases ts with
    | nil => cases e; rw [h1] at h; simp [K] at h
    | cons u us =>
      cases e
      show headNull f
      exact postfix_head h4 ⟨t, us, rfl, h⟩

theorem elem_print {e : Elem} (h : PElem e) : Prn (Spec.Value false e) (printElem e) := by
  cases e with
  | default => exact Reads.mk (Reads.kw0 "DEFAULT" (by decide)) (.default rfl)
  | null => exact Reads.mk (Reads.kw0 "NULL" (by decide)) (.null rfl)
  | expr e =>
    obtain ⟨ts, h1, h2⟩ := expr_print h.1
    refine Reads.mk (ts := ts) h2 (.expr (.postfix_ h1) ?_)
    intro k hk hn
    refine h.2 (postfix_head h1 ?_)
    cases ts with
    | nil => simp at hk
    | cons t r => cases hk; exact ⟨k, r, rfl, hn⟩

theorem field_of_postfix {e : Expr} {ts : List Tok} (h : Spec.Postfix false e ts) (he : (∃ op f, e = .unary op f) ∨ ∃ op l r, e = .binary op l r) :
    Spec.Field false e ts := by
  cases h with
  | paren h1 h2 h3 => exact .expr h1 h2 h3
  | _ => rcases he with ⟨_, _, h⟩ | ⟨_, _, _, h⟩ <;> cases h

theorem field_print {x : Bool} {e : Expr} (h : PField x e) : Prn (Spec.Field false e) (printExpr x e) := by
  cases h with
  | attr h => exact Reads.mk (Reads.ident0 h) .attr
  | unary h => exact (expr_print h).imp fun us h => field_of_postfix h (Or.inl ⟨_, _, rfl⟩)
  | binary h => exact (expr_print h).imp fun us h => field_of_postfix h (Or.inr ⟨_, _, _, rfl⟩)

theorem optCl_print {x : Bool} {n : Nat} {c : Option Clause} (h : ∀ d ∈ c, PCl x n d) : Prn (Spec.OptCl false n c) (printOptClause x c) ∧ Delim (printOptClause x c) := by
  cases c with
  | none => exact ⟨Prn.nil .none, Delim.nil⟩
  | some c => exact ⟨Prn.newline ((cl_print (h c rfl)).imp fun us h => .some h), dl_nl⟩

theorem names_print {l : List Str} (h : ∀ n ∈ l, Ident n) (hne : l ≠ []) : Prn (Spec.Sep Spec.Name l) (printSep ", " id l) :=
  prn_sep [' '] rfl (by simp) l (fun n hn => Reads.mk (Reads.ident0 (h n hn)) rfl) hne

/-- `IF EXISTS ` -/
theorem ifExists_print {b : Bool} (h : Reads ts a) : ∃ us, Spec.IfExists b us ∧ Reads (us ++ ts) ((if b then S "IF EXISTS " else []) ++ a) := by
  cases b
  · exact ⟨[], .no, h⟩
  · exact ⟨[kt "IF", kt "EXISTS"], .yes rfl rfl, Reads.kw "IF" (by decide) (Reads.space (Reads.kw "EXISTS" (by decide) (Reads.space h) dl_sp)) dl_sp⟩

theorem optArg_print {k : String} {tys : List TT} (hk : k.toList ∈ Lex.Spec.reserved) {o : Option Tok} (h : ∀ t ∈ o, t.type ∈ tys ∧ ValidTok t)
    (hty : TT.instruction ∉ tys) {s : String} (hs : S s = ' ' :: (k.toList ++ [' '])) (hr : Reads ts a) (hd : Delim a) :
    ∃ us, Spec.OptArg k tys o us ∧ Reads (us ++ ts) (printOpt s o ++ a) ∧ Delim (printOpt s o ++ a) := by
  cases o with
  | none => exact ⟨[], .none, hr, hd⟩
  | some t =>
    obtain ⟨h1, h2⟩ := h t rfl
    have e : printOpt s (some t) ++ a = ' ' :: (k.toList ++ ' ' :: (t.text ++ a)) := by
      show S s ++ t.text ++ a = _
      rw [hs]
      simp only [List.append_assoc, List.cons_append, List.nil_append]
    rw [e]
    exact ⟨[kt k, t], .some rfl h1, Reads.space (Reads.kw k hk (Reads.space (Reads.tok h2 (fun h => hty (h ▸ h1)) hr hd)) dl_sp), dl_sp⟩

theorem header_print {k : String} (hk : k.toList ∈ Lex.Spec.reserved) {b : Bool} {s : String} (hs : S s = ' ' :: (k.toList ++ ' ' :: "HEADER".toList))
    (hr : Reads ts a) (hd : Delim a) :
    ∃ us, Spec.OptHeader k b us ∧ Reads (us ++ ts) ((if b then S s else []) ++ a) ∧ Delim ((if b then S s else []) ++ a) := by
  cases b
  · exact ⟨[], .no, hr, hd⟩
  · have e : (if true then S s else []) ++ a = ' ' :: (k.toList ++ ' ' :: ("HEADER".toList ++ a)) := by
      rw [if_pos rfl, hs]
      simp only [List.append_assoc, List.cons_append]
    rw [e]
    exact ⟨[kt k, kt "HEADER"], .yes rfl rfl, Reads.space (Reads.kw k hk (Reads.space (Reads.kw "HEADER" (by decide) hr hd)) dl_sp), dl_sp⟩

theorem index_print {b : Bool} {name : Option Str} (hn : AliasOK name) (hb : b = true → name ≠ none) (hr : Reads ts a) :
    ∃ us, Spec.IndexName b name us ∧
      Reads (us ++ ts) ((if b then S "IF NOT EXISTS " else []) ++ (printIndexName name ++ a)) := by
  cases name with
  | none =>
    cases b
    · exact ⟨[], .none, hr⟩
    · exact (hb rfl rfl).elim
  | some n =>
    have e : (n ++ S " ") ++ a = n ++ ' ' :: a := by
      show (n ++ [' ']) ++ a = _
      simp only [List.append_assoc, List.cons_append, List.nil_append]
    have h1 := Reads.ident (hn n rfl) (Reads.space hr) dl_sp
    have e' : printIndexName (some n) ++ a = n ++ ' ' :: a := e
    rw [e']
    cases b
    · exact ⟨[⟨n, .identifier⟩], .name, h1⟩
    · exact ⟨[kt "IF", kt "NOT", kt "EXISTS", ⟨n, .identifier⟩], .ifNotExists rfl rfl rfl,
        Reads.kw "IF" (by decide) (Reads.space (Reads.kw "NOT" (by decide) (Reads.space (Reads.kw "EXISTS" (by decide) (Reads.space h1) dl_sp)) dl_sp)) dl_sp⟩

theorem reads_end : Reads [sc] [';'] := Reads.semi Reads.nil

theorem stmt_print {x : Bool} {st : Stmt} (h : PStmt x st) : ∃ ts, Spec.Statement false st ts ∧ Reads (ts ++ [sc]) (printStmt x st) := by
  cases h with
  | @createDatabase n h1 =>
    have e : printStmt x (.createDatabase n) = "CREATE".toList ++ ' ' :: ("DATABASE".toList ++ ' ' :: (n ++ [';'])) := by
      show ("CREATE".toList ++ ' ' :: ("DATABASE".toList ++ [' '])) ++ n ++ [';'] = _
      simp only [List.append_assoc, List.cons_append, List.nil_append]
    rw [e]
    exact ⟨_, .createDatabase (ks := [kt "CREATE", kt "DATABASE"]) rfl,
      Reads.kw "CREATE" (by decide) (Reads.space (Reads.kw "DATABASE" (by decide) (Reads.space (Reads.ident h1 reads_end dl_sc)) dl_sp)) dl_sp⟩
  | @dropDatabase b n h1 =>
    obtain ⟨us, g1, g2⟩ := ifExists_print (b := b) (Reads.ident h1 reads_end dl_sc)
    have e : printStmt x (.dropDatabase b n) = "DROP".toList ++ ' ' :: ("DATABASE".toList ++ ' ' :: ((if b then S "IF EXISTS " else []) ++ (n ++ [';']))) := by
      show ("DROP".toList ++ ' ' :: ("DATABASE".toList ++ [' '])) ++ (if b then S "IF EXISTS " else []) ++ n ++ [';'] = _
      simp only [List.append_assoc, List.cons_append, List.nil_append]
    rw [e]
    refine ⟨_, .dropDatabase (ks := [kt "DROP", kt "DATABASE"]) rfl g1, ?_⟩
    have := Reads.kw "DROP" (by decide) (Reads.space (Reads.kw "DATABASE" (by decide) (Reads.space g2) dl_sp)) dl_sp
    simpa only [List.append_assoc, List.cons_append, List.nil_append] using this
  | @useDatabase n h1 =>
    have e : printStmt x (.useDatabase n) = "USE".toList ++ ' ' :: (n ++ [';']) := by
      show ("USE".toList ++ [' ']) ++ n ++ [';'] = _
      simp only [List.append_assoc, List.cons_append, List.nil_append]
    rw [e]
    exact ⟨_, .useDatabase (ks := [kt "USE"]) rfl, Reads.kw "USE" (by decide) (Reads.space (Reads.ident h1 reads_end dl_sc)) dl_sp⟩
  | @createTable n l h1 hne h2 =>
    obtain ⟨us, g1, g2⟩ := prn_sep (sep := ",") [] rfl (by simp) l (fun c hc => attr_print (h2 c hc)) hne
    have e : printStmt x (.createTable n l) = "CREATE".toList ++ ' ' :: ("TABLE".toList ++ ' ' :: (n ++ '\n' :: '(' :: (printSep "," printAttr l ++ '\n' :: ')' :: [';']))) := by
      show ("CREATE".toList ++ ' ' :: ("TABLE".toList ++ [' '])) ++ n ++ ['\n', '('] ++ printSep "," printAttr l ++ ['\n', ')', ';'] = _
      simp only [List.append_assoc, List.cons_append, List.nil_append]
    rw [e]
    refine ⟨_, .createTable (ks := [kt "CREATE", kt "TABLE"]) (l := lp) (r := rp) rfl rfl g1 rfl, ?_⟩
    have := Reads.kw "CREATE" (by decide) (Reads.space (Reads.kw "TABLE" (by decide) (Reads.space (Reads.ident h1 (Reads.newline (Reads.lpar
      (Reads.append (ts := us) g2 (Reads.newline (Reads.rpar reads_end)) dl_nl))) dl_nl)) dl_sp)) dl_sp
    simpa only [List.append_assoc, List.cons_append, List.nil_append] using this
  | @dropTable b l hne h1 =>
    obtain ⟨vs, k1, k2⟩ := names_print h1 hne
    obtain ⟨us, g1, g2⟩ := ifExists_print (b := b) (Reads.append (ts := vs) k2 reads_end dl_sc)
    have e : printStmt x (.dropTable b l) = "DROP".toList ++ ' ' :: ("TABLE".toList ++ ' ' :: ((if b then S "IF EXISTS " else []) ++ (printSep ", " id l ++ [';']))) := by
      show ("DROP".toList ++ ' ' :: ("TABLE".toList ++ [' '])) ++ (if b then S "IF EXISTS " else []) ++ printSep ", " id l ++ [';'] = _
      simp only [List.append_assoc, List.cons_append, List.nil_append]
    rw [e]
    refine ⟨_, .dropTable (ks := [kt "DROP", kt "TABLE"]) rfl g1 k1, ?_⟩
    have := Reads.kw "DROP" (by decide) (Reads.space (Reads.kw "TABLE" (by decide) (Reads.space g2) dl_sp)) dl_sp
    simpa only [List.append_assoc, List.cons_append, List.nil_append] using this
  | @dropIndex b l hne h1 =>
    obtain ⟨vs, k1, k2⟩ := names_print h1 hne
    obtain ⟨us, g1, g2⟩ := ifExists_print (b := b) (Reads.append (ts := vs) k2 reads_end dl_sc)
    have e : printStmt x (.dropIndex b l) = "DROP".toList ++ ' ' :: ("INDEX".toList ++ ' ' :: ((if b then S "IF EXISTS " else []) ++ (printSep ", " id l ++ [';']))) := by
      show ("DROP".toList ++ ' ' :: ("INDEX".toList ++ [' '])) ++ (if b then S "IF EXISTS " else []) ++ printSep ", " id l ++ [';'] = _
      simp only [List.append_assoc, List.cons_append, List.nil_append]
    rw [e]
    refine ⟨_, .dropIndex (ks := [kt "DROP", kt "INDEX"]) rfl g1 k1, ?_⟩
    have := Reads.kw "DROP" (by decide) (Reads.space (Reads.kw "INDEX" (by decide) (Reads.space g2) dl_sp)) dl_sp
    simpa only [List.append_assoc, List.cons_append, List.nil_append] using this
  | @createIndex u b name t m l hb hn ht hm hne hf =>
    have hf' : ∀ f ∈ l, Prn (Spec.Field false f) ((fun e => S "\n    " ++ printExpr x e) f) := by
      intro f hf'
      obtain ⟨us, g1, g2⟩ := field_print (hf f hf')
      exact Reads.mk (ts := us) (Reads.white _ (by decide) g2) g1
    obtain ⟨vs, k1, k2⟩ := prn_sep (sep := ",") [] rfl (by simp) l hf' hne
    have r1 : Reads (lp :: (vs ++ [rp, sc])) ('\n' :: '(' :: (printSep "," (fun e => S "\n    " ++ printExpr x e) l ++ '\n' :: ')' :: [';'])) :=
      Reads.newline (Reads.lpar (Reads.append (ts := vs) k2 (Reads.newline (Reads.rpar reads_end)) dl_nl))
    obtain ⟨ms, m1, m2, m3⟩ := optArg_print (k := "USING") (by decide) hm (by simp [K]) (s := " USING ") rfl r1 dl_nl
    have r2 := Reads.kw "ON" (by decide) (Reads.space (Reads.ident ht m2 m3)) dl_sp
    obtain ⟨ns, n1, n2⟩ := index_print hn hb r2
    have r3 := Reads.kw "INDEX" (by decide) (Reads.space n2) dl_sp
    have r4 : ∃ us, Spec.OptKw "UNIQUE" u us ∧ Reads (us ++ kt "INDEX" :: (ns ++ kt "ON" :: ⟨t, .identifier⟩ :: (ms ++ lp :: (vs ++ [rp, sc]))))
        ((if u then "UNIQUE".toList ++ [' '] else []) ++ ("INDEX".toList ++ ' ' :: ((if b then S "IF NOT EXISTS " else []) ++
          (printIndexName name ++ ("ON".toList ++ ' ' :: (t ++ (printOpt " USING " m ++
          '\n' :: '(' :: (printSep "," (fun e => S "\n    " ++ printExpr x e) l ++ '\n' :: ')' :: [';'])))))))) := by
      cases u
      · exact ⟨[], .no, r3⟩
      · have := Reads.kw "UNIQUE" (by decide) (Reads.space r3) dl_sp
        refine ⟨[kt "UNIQUE"], .yes rfl, ?_⟩
        simpa only [if_true, List.append_assoc, List.cons_append, List.nil_append] using this
    obtain ⟨us, u1, u2⟩ := r4
    have e : printStmt x (.createIndex u b name t m l) = "CREATE".toList ++ ' ' :: ((if u then "UNIQUE".toList ++ [' '] else []) ++ ("INDEX".toList ++ ' ' :: ((if b then S "IF NOT EXISTS " else []) ++
          (printIndexName name ++ ("ON".toList ++ ' ' :: (t ++ (printOpt " USING " m ++
          '\n' :: '(' :: (printSep "," (fun e => S "\n    " ++ printExpr x e) l ++ '\n' :: ')' :: [';'])))))))) := by
      show ("CREATE".toList ++ [' ']) ++ (if u then "UNIQUE".toList ++ [' '] else []) ++ ("INDEX".toList ++ [' ']) ++ (if b then S "IF NOT EXISTS " else []) ++
          printIndexName name ++ ("ON".toList ++ [' ']) ++ t ++ printOpt " USING " m ++
          ['\n', '('] ++ printSep "," (fun e => S "\n    " ++ printExpr x e) l ++ ['\n', ')', ';'] = _
      simp only [List.append_assoc, List.cons_append, List.nil_append]
    rw [e]
    refine ⟨_, .createIndex (k := kt "CREATE") (i := kt "INDEX") (o := kt "ON") (l := lp) (r := rp) rfl u1 rfl n1 rfl m1 rfl k1 rfl, ?_⟩
    have := Reads.kw "CREATE" (by decide) (Reads.space u2) dl_sp
    simpa only [List.append_assoc, List.cons_append, List.nil_append] using this
  | @select q h1 =>
    obtain ⟨us, g1, g2⟩ := sel_print h1
    exact ⟨us, .select g1, Reads.append (ts := us) g2 reads_end dl_sc⟩
  | @insert t l h1 hne h2 =>
    have ht : ∀ es ∈ l, Prn (Spec.Tuple false es) ((fun es => S "(" ++ printSep ", " printElem es ++ S ")") es) := by
      intro es hes
      obtain ⟨vs, k1, k2⟩ := prn_sep (sep := ", ") [' '] rfl (by simp) es (fun c hc => elem_print ((h2 es hes).2 c hc)) (h2 es hes).1
      have e : (fun es => S "(" ++ printSep ", " printElem es ++ S ")") es = '(' :: (printSep ", " printElem es ++ [')']) := by
        show ['('] ++ printSep ", " printElem es ++ [')'] = _
        simp only [List.cons_append, List.nil_append]
      rw [e]
      exact Reads.mk (Reads.lpar (Reads.append (ts := vs) k2 (Reads.rpar Reads.nil) dl_rp)) (.mk rfl rfl k1)
    obtain ⟨vs, k1, k2⟩ := prn_sep (sep := ",\n    ") ['\n', ' ', ' ', ' ', ' '] rfl (by simp) l ht hne
    have e : printStmt x (.insert t l) = "INSERT".toList ++ ' ' :: ("INTO".toList ++ ' ' :: (t ++ '\n' :: ("VALUES".toList ++
        '\n' :: ' ' :: ' ' :: ' ' :: ' ' :: (printSep ",\n    " (fun es => S "(" ++ printSep ", " printElem es ++ S ")") l ++ [';'])))) := by
      show ("INSERT".toList ++ ' ' :: ("INTO".toList ++ [' '])) ++ t ++ ('\n' :: ("VALUES".toList ++ ['\n', ' ', ' ', ' ', ' '])) ++
        printSep ",\n    " (fun es => S "(" ++ printSep ", " printElem es ++ S ")") l ++ [';'] = _
      simp only [List.append_assoc, List.cons_append, List.nil_append]
    rw [e]
    refine ⟨_, .insert (ks := [kt "INSERT", kt "INTO"]) (v := kt "VALUES") rfl rfl k1, ?_⟩
    have := Reads.kw "INSERT" (by decide) (Reads.space (Reads.kw "INTO" (by decide) (Reads.space (Reads.ident h1 (Reads.newline (Reads.kw "VALUES" (by decide)
      (Reads.newline (Reads.space (Reads.space (Reads.space (Reads.space (Reads.append (ts := vs) k2 reads_end dl_sc)))))) dl_nl)) dl_nl)) dl_sp)) dl_sp
    simpa only [List.append_assoc, List.cons_append, List.nil_append] using this
  | @update t l w h1 hne h2 h3 =>
    have ht : ∀ s ∈ l, Prn (Spec.Assign false s) ((fun e => S "    " ++ e.1 ++ S " = " ++ printExpr false e.2) s) := by
      intro s hs
      obtain ⟨n, e⟩ := s
      obtain ⟨vs, k1, k2⟩ := expr_print (h2 _ hs).2
      have e : (fun e : Str × Expr => S "    " ++ e.1 ++ S " = " ++ printExpr false e.2) (n, e) = ' ' :: ' ' :: ' ' :: ' ' :: (n ++ ' ' :: (['='] ++ ' ' :: printExpr false e)) := by
        show [' ', ' ', ' ', ' '] ++ n ++ [' ', '=', ' '] ++ printExpr false e = _
        simp only [List.append_assoc, List.cons_append, List.nil_append]
      rw [e]
      exact Reads.mk (Reads.space (Reads.space (Reads.space (Reads.space (Reads.ident (h2 _ hs).1 (Reads.space (Reads.tok (t := ⟨['='], .equal⟩)
        Valid.equal (by simp) (Reads.space k2) dl_sp)) dl_sp))))) (.mk rfl (.postfix_ k1))
    obtain ⟨vs, k1, k2⟩ := prn_sep (sep := ",\n") ['\n'] rfl (by simp) l ht hne
    obtain ⟨⟨ws, w1, w2⟩, w3⟩ := optCl_print h3
    have e : printStmt x (.update t l w) = "UPDATE".toList ++ ' ' :: (t ++ '\n' :: ("SET".toList ++ '\n' ::
        (printSep ",\n" (fun e => S "    " ++ e.1 ++ S " = " ++ printExpr false e.2) l ++ (printOptClause false w ++ [';'])))) := by
      show ("UPDATE".toList ++ [' ']) ++ t ++ ('\n' :: ("SET".toList ++ ['\n'])) ++
        printSep ",\n" (fun e => S "    " ++ e.1 ++ S " = " ++ printExpr false e.2) l ++ printOptClause false w ++ [';'] = _
      simp only [List.append_assoc, List.cons_append, List.nil_append]
    rw [e]
    refine ⟨_, .update (ks := [kt "UPDATE"]) (v := kt "SET") rfl rfl k1 w1, ?_⟩
    have := Reads.kw "UPDATE" (by decide) (Reads.space (Reads.ident h1 (Reads.newline (Reads.kw "SET" (by decide) (Reads.newline
      (Reads.append (ts := vs) k2 (Reads.append (ts := ws) w2 reads_end dl_sc) (w3.append dl_sc))) dl_nl)) dl_nl)) dl_sp
    simpa only [List.append_assoc, List.cons_append, List.nil_append] using this
  | @delete t w h1 h3 =>
    obtain ⟨⟨ws, w1, w2⟩, w3⟩ := optCl_print h3
    have e : printStmt x (.delete t w) = "DELETE".toList ++ ' ' :: ("FROM".toList ++ ' ' :: (t ++ (printOptClause false w ++ [';']))) := by
      show ("DELETE".toList ++ ' ' :: ("FROM".toList ++ [' '])) ++ t ++ printOptClause false w ++ [';'] = _
      simp only [List.append_assoc, List.cons_append, List.nil_append]
    rw [e]
    refine ⟨_, .delete (ks := [kt "DELETE", kt "FROM"]) rfl w1, ?_⟩
    have := Reads.kw "DELETE" (by decide) (Reads.space (Reads.kw "FROM" (by decide) (Reads.space (Reads.ident h1 (Reads.append (ts := ws) w2 reads_end dl_sc)
      (w3.append dl_sc))) dl_sp)) dl_sp
    simpa only [List.append_assoc, List.cons_append, List.nil_append] using this
  | @importDSV t p rows del has skip h1 hp1 hp2 hr hd =>
    obtain ⟨s1, a1, a2, a3⟩ := header_print (k := "SKIP") (by decide) (b := skip) (s := " SKIP HEADER") rfl reads_end dl_sc
    obtain ⟨s2, b1, b2, b3⟩ := header_print (k := "HAS") (by decide) (b := has) (s := " HAS HEADER") rfl a2 a3
    obtain ⟨s3, c1, c2, c3⟩ := optArg_print (k := "DELIMITER") (tys := [.stringLiteral]) (by decide) (o := del) (by
      intro t ht; obtain ⟨h1, h2⟩ := hd t ht; exact ⟨by simp [h1], h2⟩) (by simp) (s := " DELIMITER ") rfl b2 b3
    obtain ⟨s4, d1, d2, d3⟩ := optArg_print (k := "ROWS") (tys := [.decInt, .octInt]) (by decide) hr (by simp) (s := " ROWS ") rfl c2 c3
    have e : printStmt x (.importDSV t p rows del none none has skip) = "IMPORT".toList ++ ' ' :: ("INTO".toList ++ ' ' :: (t ++ ' ' :: ("DSV".toList ++
        ' ' :: (p.text ++ (printOpt " ROWS " rows ++ (printOpt " DELIMITER " del ++ ((if has then S " HAS HEADER" else []) ++
        ((if skip then S " SKIP HEADER" else []) ++ [';'])))))))) := by
      show ("IMPORT".toList ++ ' ' :: ("INTO".toList ++ [' '])) ++ t ++ (' ' :: ("DSV".toList ++ [' '])) ++
        p.text ++ printOpt " ROWS " rows ++ printOpt " DELIMITER " del ++ (if has then S " HAS HEADER" else []) ++
        (if skip then S " SKIP HEADER" else []) ++ [';'] = _
      simp only [List.append_assoc, List.cons_append, List.nil_append]
    rw [e]
    refine ⟨_, .importDSV (ks := [kt "IMPORT", kt "INTO"]) (d := kt "DSV") rfl rfl hp1 d1 c1 .none .none b1 a1, ?_⟩
    have := Reads.kw "IMPORT" (by decide) (Reads.space (Reads.kw "INTO" (by decide) (Reads.space (Reads.ident h1 (Reads.space (Reads.kw "DSV" (by decide)
      (Reads.space (Reads.tok hp2 (by rw [hp1]; simp) d2 d3)) dl_sp)) dl_sp)) dl_sp)) dl_sp
    simpa only [List.append_assoc, List.cons_append, List.nil_append] using this

end Mutable.Parse
