import Verif.Parser.Printable
import Verif.Parser.Printer
import Verif.Lexer.Props
/-!
# The printed text of a tree consists of tokens that the grammar derives from the tree
-/
namespace Mutable.Parse
open Mutable.Lex (TT)
open Mutable.Lex.Spec (Gap FinalGap Valid NoGlue White)
open Spec (Ident ValidTok AliasOK PExpr PSrc PCl PSel)

/-! ### Texts -/

abbrev Text := Lex.Source

/-- Tokens as pairs of text and type. -/
def pairs (ts : List Tok) : List (List Char × TT) := ts.map fun t => (t.text, t.type)

theorem pairs_append (a b : List Tok) : pairs (a ++ b) = pairs a ++ pairs b := by simp [pairs]

/-- The characters that the printer puts behind a token. -/
def delim (c : Char) : Bool := c = ' ' ∨ c = '\n' ∨ c = '(' ∨ c = ')' ∨ c = ',' ∨ c = ';'

/-- A text that starts with such a character, or is empty. -/
def Delim (l : Str) : Prop := ∀ c ∈ l.head?, delim c = true

theorem src_gap {ts : List (List Char × TT)} {l g : Str} (hg : Gap g) (h : Text ts l) : Text ts (g ++ l) := by
  cases h with
  | eof h => exact .eof (Lex.FinalGap.prepend hg h)
  | @token g' w ty l ts h1 h2 h3 h4 =>
    have := Lex.Source.token (Lex.Gap.append hg h1) h2 h3 h4
    simpa using this

theorem src_space {ts : List (List Char × TT)} {l : Str} (h : Text ts l) : Text ts (' ' :: l) :=
  src_gap (g := [' ']) (.space ((Lex.white_iff _).2 (by decide)) .nil) h

theorem src_newline {ts : List (List Char × TT)} {l : Str} (h : Text ts l) : Text ts ('\n' :: l) :=
  src_gap (g := ['\n']) (.space ((Lex.white_iff _).2 (by decide)) .nil) h

theorem src_cons {ts : List (List Char × TT)} {l : Str} {ty : TT} {w : Str} (hv : Valid ty w) (hg : NoGlue ty w l) (h : Text ts l) :
    Text ((w, ty) :: ts) (w ++ l) := by
  have := Lex.Source.token .nil hv hg h
  simpa using this

theorem src_lpar {ts : List (List Char × TT)} {l : Str} (h : Text ts l) : Text ((['('], .lpar) :: ts) ('(' :: l) :=
  src_cons .lpar (by intro x _; trivial) h

theorem src_rpar {ts : List (List Char × TT)} {l : Str} (h : Text ts l) : Text (([')'], .rpar) :: ts) (')' :: l) :=
  src_cons .rpar (by intro x _; trivial) h

theorem src_comma {ts : List (List Char × TT)} {l : Str} (h : Text ts l) : Text (([','], .comma) :: ts) (',' :: l) :=
  src_cons .comma (by intro x _; trivial) h

theorem src_semi {ts : List (List Char × TT)} {l : Str} (h : Text ts l) : Text (([';'], .semicol) :: ts) (';' :: l) :=
  src_cons .semicol (by intro x _; trivial) h

theorem delim_cases {c : Char} (h : delim c = true) : c = ' ' ∨ c = '\n' ∨ c = '(' ∨ c = ')' ∨ c = ',' ∨ c = ';' := by
  simpa [delim] using h

/-- No token but an instruction continues with such a character. -/
theorem noGlue_delim {ty : TT} {w l : Str} (hty : ty ≠ .instruction) (h : Delim l) : NoGlue ty w l := by
  intro c hc
  have hd := delim_cases (h c hc)
  cases ty <;> first
    | trivial
    | exact absurd rfl hty
    | (rcases hd with rfl | rfl | rfl | rfl | rfl | rfl <;> simp <;> decide)

theorem src_tok {ts : List (List Char × TT)} {l : Str} {ty : TT} {w : Str} (hv : Valid ty w) (hty : ty ≠ .instruction) (hd : Delim l) (h : Text ts l) :
    Text ((w, ty) :: ts) (w ++ l) := src_cons hv (noGlue_delim hty hd) h

theorem src_kw {ts : List (List Char × TT)} {l : Str} {w : String} (hw : w.toList ∈ Lex.Spec.reserved) (hd : Delim l) (h : Text ts l) :
    Text ((w.toList, K w) :: ts) (w.toList ++ l) := src_tok (.kw hw) (by simp [K]) hd h

/-- The text is read as tokens that satisfy `R`. -/
def Prn (R : List Tok → Prop) (text : Str) : Prop :=
  ∃ ts, R ts ∧ ∀ rest tr, Delim rest → Text tr rest → Text (pairs ts ++ tr) (text ++ rest)


theorem delim_cons {c : Char} {l : Str} (h : delim c = true) : Delim (c :: l) := by
  intro d hd
  simp only [List.head?_cons, Option.mem_def, Option.some.injEq] at hd
  subst hd
  exact h

theorem Delim.nil : Delim [] := by intro c hc; simp at hc

theorem Delim.append {a b : Str} (ha : Delim a) (hb : Delim b) : Delim (a ++ b) := by
  cases a with
  | nil => exact hb
  | cons c l => exact ha

/-! ### Combinators -/

def lp : Tok := ⟨['('], .lpar⟩
def rp : Tok := ⟨[')'], .rpar⟩
def cm : Tok := ⟨[','], .comma⟩
def sc : Tok := ⟨[';'], .semicol⟩

variable {R Q P : List Tok → Prop} {a b : Str}

theorem Prn.imp (h : Prn R a) (f : ∀ us, R us → P us) : Prn P a := by
  obtain ⟨ts, h1, h2⟩ := h
  exact ⟨ts, f ts h1, h2⟩

theorem Prn.nil (h : R []) : Prn R [] := ⟨[], h, fun _ _ _ h => h⟩

theorem Prn.append (h1 : Prn R a) (h2 : Prn Q b) (hd : Delim b) (f : ∀ u v, R u → Q v → P (u ++ v)) : Prn P (a ++ b) := by
  obtain ⟨ts, g1, g2⟩ := h1
  obtain ⟨us, k1, k2⟩ := h2
  refine ⟨ts ++ us, f _ _ g1 k1, fun rest tr hr h => ?_⟩
  rw [pairs_append, List.append_assoc, List.append_assoc]
  exact g2 _ _ (hd.append hr) (k2 _ _ hr h)

theorem Prn.space (h : Prn R a) : Prn R (' ' :: a) := by
  obtain ⟨ts, h1, h2⟩ := h
  exact ⟨ts, h1, fun rest tr hr h => src_space (h2 _ _ hr h)⟩

theorem Prn.newline (h : Prn R a) : Prn R ('\n' :: a) := by
  obtain ⟨ts, h1, h2⟩ := h
  exact ⟨ts, h1, fun rest tr hr h => src_newline (h2 _ _ hr h)⟩

theorem Prn.lpar (h : Prn R a) (f : ∀ us, R us → P (lp :: us)) : Prn P ('(' :: a) := by
  obtain ⟨ts, h1, h2⟩ := h
  exact ⟨lp :: ts, f _ h1, fun rest tr hr h => src_lpar (h2 _ _ hr h)⟩

theorem Prn.rpar (h : Prn R a) (f : ∀ us, R us → P (rp :: us)) : Prn P (')' :: a) := by
  obtain ⟨ts, h1, h2⟩ := h
  exact ⟨rp :: ts, f _ h1, fun rest tr hr h => src_rpar (h2 _ _ hr h)⟩

theorem Prn.comma (h : Prn R a) (f : ∀ us, R us → P (cm :: us)) : Prn P (',' :: a) := by
  obtain ⟨ts, h1, h2⟩ := h
  exact ⟨cm :: ts, f _ h1, fun rest tr hr h => src_comma (h2 _ _ hr h)⟩

theorem Prn.rpar0 (f : P [rp]) : Prn P [')'] := Prn.rpar (R := fun us => us = []) (.nil rfl) (by rintro _ rfl; exact f)

theorem Prn.tok {t : Tok} (hv : ValidTok t) (hty : t.type ≠ .instruction) (hd : Delim a) (h : Prn R a) (f : ∀ us, R us → P (t :: us)) :
    Prn P (t.text ++ a) := by
  obtain ⟨ts, h1, h2⟩ := h
  refine ⟨t :: ts, f _ h1, fun rest tr hr h => ?_⟩
  rw [List.append_assoc]
  exact src_tok hv hty (hd.append hr) (h2 _ _ hr h)

theorem Prn.tok0 {t : Tok} (hv : ValidTok t) (hty : t.type ≠ .instruction) (f : P [t]) : Prn P t.text := by
  have := Prn.tok hv hty Delim.nil (Prn.nil (R := fun us => us = []) rfl) (P := P) (by rintro _ rfl; exact f)
  simpa using this

theorem Prn.ident {n : Str} (hv : Ident n) (hd : Delim a) (h : Prn R a) (f : ∀ us, R us → P (⟨n, .identifier⟩ :: us)) : Prn P (n ++ a) :=
  Prn.tok (t := ⟨n, .identifier⟩) hv (by simp) hd h f

theorem Prn.ident0 {n : Str} (hv : Ident n) (f : P [⟨n, .identifier⟩]) : Prn P n :=
  Prn.tok0 (t := ⟨n, .identifier⟩) hv (by simp) f

theorem Prn.kw (w : String) (hw : w.toList ∈ Lex.Spec.reserved) (hd : Delim a) (h : Prn R a) (f : ∀ us, R us → P (⟨w.toList, K w⟩ :: us)) :
    Prn P (w.toList ++ a) :=
  Prn.tok (t := ⟨w.toList, K w⟩) (.kw hw) (by simp [K]) hd h f

theorem Prn.kw0 (w : String) (hw : w.toList ∈ Lex.Spec.reserved) (f : P [⟨w.toList, K w⟩]) : Prn P w.toList :=
  Prn.tok0 (t := ⟨w.toList, K w⟩) (.kw hw) (by simp [K]) f

theorem dl_sp {l : Str} : Delim (' ' :: l) := delim_cons rfl
theorem dl_nl {l : Str} : Delim ('\n' :: l) := delim_cons rfl
theorem dl_lp {l : Str} : Delim ('(' :: l) := delim_cons rfl
theorem dl_rp {l : Str} : Delim (')' :: l) := delim_cons rfl
theorem dl_cm {l : Str} : Delim (',' :: l) := delim_cons rfl

/-! ### What the printer prints -/

theorem pe_binary (x op l r) : printExpr x (.binary op l r) = '(' :: (printExpr x l ++ ' ' :: (op.text ++ ' ' :: (printExpr x r ++ [')']))) := by
  show ['('] ++ printExpr x l ++ [' '] ++ op.text ++ [' '] ++ printExpr x r ++ [')'] = _
  simp only [List.append_assoc, List.cons_append, List.nil_append]
theorem pe_fn (x f args) : printExpr x (.fn f args) = printExpr x f ++ '(' :: (printArgs x args ++ [')']) := by
  show printExpr x f ++ ['('] ++ printArgs x args ++ [')'] = _
  simp only [List.append_assoc, List.cons_append, List.nil_append]
theorem pe_not (x e) {op : Tok} (h : op.type = K "NOT") : printExpr x (.unary op e) = '(' :: (op.text ++ ' ' :: (printExpr x e ++ [')'])) := by
  show ['('] ++ op.text ++ (if op.type = K "NOT" then [' '] else []) ++ printExpr x e ++ [')'] = _
  rw [if_pos h]
  simp only [List.append_assoc, List.cons_append, List.nil_append]
theorem pe_sign (x e) {op : Tok} (h : op.type ≠ K "NOT") : printExpr x (.unary op e) = '(' :: (op.text ++ (printExpr x e ++ [')'])) := by
  show ['('] ++ op.text ++ (if op.type = K "NOT" then [' '] else []) ++ printExpr x e ++ [')'] = _
  rw [if_neg h]
  simp only [List.append_assoc, List.cons_append, List.nil_append]
theorem pe_query (q) : printExpr true (.query q) = '(' :: (printSelect true q ++ [')']) := by
  show ['('] ++ printSelect true q ++ [')'] = _
  simp only [List.cons_append, List.nil_append]
theorem pe_qual (x t a) : printExpr x (.designator (some t) a) = t ++ '.' :: a := by
  show t ++ ['.'] ++ a = _
  simp only [List.append_assoc, List.cons_append, List.nil_append]
theorem pe_moreArgs (x e es) : printMoreArgs x (e :: es) = ',' :: ' ' :: (printExpr x e ++ printMoreArgs x es) := rfl
theorem pe_alias (n) : printAlias (some n) = ' ' :: ("AS".toList ++ ' ' :: n) := rfl
theorem pe_items (x e a r) : printItems x ((e, a) :: r) = printExpr x e ++ (printAlias a ++ printMoreItems x r) := by
  show printExpr x e ++ printAlias a ++ printMoreItems x r = _
  rw [List.append_assoc]
theorem pe_moreItems (x e a r) : printMoreItems x ((e, a) :: r) = ',' :: ' ' :: printItems x ((e, a) :: r) := rfl
theorem pe_moreSources (x s r) : printMoreSources x (s :: r) = ',' :: ' ' :: printSources x (s :: r) := rfl
theorem pe_orders (x e d r) : printOrders x ((e, d) :: r) = printExpr x e ++ (' ' :: ((if d then "ASC".toList else "DESC".toList) ++ printMoreOrders x r)) := by
  cases d
  · show printExpr x e ++ (' ' :: "DESC".toList) ++ printMoreOrders x r = _
    rw [List.append_assoc]; rfl
  · show printExpr x e ++ (' ' :: "ASC".toList) ++ printMoreOrders x r = _
    rw [List.append_assoc]; rfl
theorem pe_moreOrders (x e a r) : printMoreOrders x ((e, a) :: r) = ',' :: ' ' :: printOrders x ((e, a) :: r) := rfl

theorem const_ne {t : TT} (h : Spec.ConstType t) : t ≠ .instruction := by
  rintro rfl
  simp [Spec.ConstType, K] at h

theorem const_ne_minus {t : TT} (h : Spec.ConstType t) : t ≠ .minus := by
  rintro rfl
  simp [Spec.ConstType, K] at h

theorem int_ne {t : TT} (h : Spec.IntType t) : t ≠ .instruction := by
  rintro rfl
  simp [Spec.IntType] at h

theorem binary_ne {t : TT} {p : Nat} (h : Spec.binaryLevel false t = some p) : t ≠ .instruction := by
  rintro rfl
  simp [Spec.binaryLevel] at h

/-- The first character of an identifier. -/
theorem ident_head {a : Str} (h : Ident a) : ∃ c r, a = c :: r ∧ c ≠ '.' ∧ Lex.isDec c = false ∧ c ≠ '-' := by
  cases h with
  | @identifier x r h1 h2 h3 =>
    refine ⟨x, r, rfl, ?_, ?_, ?_⟩
    · rintro rfl; revert h1; decide
    · rcases h1 with rfl | h1
      · decide
      · simp only [Lex.isAlpha, Lex.isLower, Lex.isUpper, Bool.or_eq_true, decide_eq_true_eq, Char.le_def, UInt32.le_iff_toNat_le] at h1
        simp only [Lex.isDec, decide_eq_false_iff_not, Char.le_def, UInt32.le_iff_toNat_le]
        have e1 : 'a'.val.toNat = 97 := rfl
        have e2 : 'A'.val.toNat = 65 := rfl
        have e3 : '9'.val.toNat = 57 := rfl
        omega
    · rintro rfl; revert h1; decide

/-- The first character of an expression. -/
theorem expr_head {x : Bool} {e : Expr} (h : PExpr x e) : ∃ c r, printExpr x e = c :: r ∧ c ≠ '-' := by
  match h with
  | .attr h => obtain ⟨c, r, e, _, _, h⟩ := ident_head h; exact ⟨c, r, e, h⟩
  | .qualified (t := t) (a := a) h _ =>
    obtain ⟨c, r, e, _, _, h⟩ := ident_head h
    refine ⟨c, r ++ '.' :: a, ?_, h⟩
    rw [pe_qual, e]; rfl
  | .const (t := t) h1 h2 =>
    obtain ⟨c, r, e, _, h⟩ := Lex.valid_head h2
    exact ⟨c, r, e, fun hc => const_ne_minus h1 (h hc).2⟩
  | .fn hf _ =>
    obtain ⟨c, r, e, h⟩ := expr_head hf
    exact ⟨c, r ++ _, by rw [pe_fn, e]; rfl, h⟩
  | .sign (op := op) hop _ _ =>
    have hnot : op.type ≠ K "NOT" := by rcases hop with hop | hop | hop <;> rw [hop] <;> simp [K]
    exact ⟨_, _, pe_sign _ _ hnot, by decide⟩
  | .not hop _ _ => exact ⟨_, _, pe_not _ _ hop, by decide⟩
  | .binary _ _ _ _ => exact ⟨_, _, pe_binary _ _ _ _, by decide⟩
  | .query _ => exact ⟨_, _, pe_query _, by decide⟩

theorem prn_exps {x : Bool} : ∀ (args : List Expr), (∀ a ∈ args, Prn (Spec.Postfix false a) (printExpr x a)) → args ≠ [] →
    Prn (Spec.Exps false args) (printArgs x args)
  | [e], h, _ => by
    have := (h e (by simp)).imp (P := Spec.Exps false [e]) fun us h => .one (.postfix_ h)
    show Prn _ (printExpr x e ++ [])
    simpa using this
  | e :: e' :: es, h, _ => by
    refine Prn.append (h e (by simp)) (Prn.comma (Prn.space (prn_exps (e' :: es) (fun a ha => h a (by simp [ha])) (by simp)))
      (P := fun us => ∃ vs, us = cm :: vs ∧ Spec.Exps false (e' :: es) vs) fun us h => ⟨us, rfl, h⟩) dl_cm ?_
    rintro u v h1 ⟨w, rfl, h2⟩
    exact .more (.postfix_ h1) rfl h2

theorem prn_alias {al : Option Str} (h : AliasOK al) : Prn (Spec.Alias al) (printAlias al) ∧ Delim (printAlias al) := by
  cases al with
  | none => exact ⟨Prn.nil .none, Delim.nil⟩
  | some n =>
    rw [pe_alias]
    exact ⟨Prn.space (Prn.kw "AS" (by decide) dl_sp (Prn.space (Prn.ident0 (h n rfl) (P := fun us => us = [⟨n, .identifier⟩]) rfl))
      (by rintro _ rfl; exact .as_ rfl)), dl_sp⟩

theorem delim_moreItems {x l} : Delim (printMoreItems x l) := by
  cases l with
  | nil => exact Delim.nil
  | cons i l => obtain ⟨e, al⟩ := i; exact dl_cm

theorem prn_items {x : Bool} : ∀ (l : List (Expr × Option Str)), (∀ i ∈ l, Prn (Spec.Postfix false i.1) (printExpr x i.1)) →
    (∀ i ∈ l, AliasOK i.2) → l ≠ [] → Prn (Spec.Items false l) (printItems x l)
  | [(e, al)], h, ha, _ => by
    rw [pe_items]
    obtain ⟨h2, h3⟩ := prn_alias (ha (e, al) (by simp))
    have h4 : printMoreItems x [] = [] := rfl
    rw [h4, List.append_nil]
    exact Prn.append (h (e, al) (by simp)) h2 h3 fun u v h1 h2 => .one (.postfix_ h1) h2
  | (e, al) :: i' :: l, h, ha, _ => by
    rw [pe_items]
    obtain ⟨h2, h3⟩ := prn_alias (ha (e, al) (by simp))
    refine Prn.append (h (e, al) (by simp)) (Q := fun us => ∃ ws vs, us = ws ++ cm :: vs ∧ Spec.Alias al ws ∧ Spec.Items false (i' :: l) vs)
      (Prn.append h2 (Q := fun us => ∃ vs, us = cm :: vs ∧ Spec.Items false (i' :: l) vs)
        (Prn.comma (Prn.space (prn_items (i' :: l) (fun i hi => h i (by simp [hi])) (fun i hi => ha i (by simp [hi])) (by simp)))
          fun us h => ⟨us, rfl, h⟩) delim_moreItems ?_) (h3.append delim_moreItems) ?_
    · rintro u v h1 ⟨w, rfl, h2⟩
      exact ⟨u, w, rfl, h1, h2⟩
    · rintro u _ h1 ⟨w, v, rfl, h2, h3⟩
      rw [← List.append_assoc]
      exact .more (.postfix_ h1) h2 rfl h3

theorem prn_srcs {x : Bool} : ∀ (l : List Source), (∀ s ∈ l, Prn (Spec.Src false s) (printSource x s)) → l ≠ [] →
    Prn (Spec.Srcs false l) (printSources x l)
  | [s], h, _ => by
    have := (h s (by simp)).imp (P := Spec.Srcs false [s]) fun us h => .one h
    show Prn _ (printSource x s ++ [])
    simpa using this
  | s :: s' :: l, h, _ => by
    refine Prn.append (h s (by simp)) (Prn.comma (Prn.space (prn_srcs (s' :: l) (fun a ha => h a (by simp [ha])) (by simp)))
      (P := fun us => ∃ vs, us = cm :: vs ∧ Spec.Srcs false (s' :: l) vs) fun us h => ⟨us, rfl, h⟩) dl_cm ?_
    rintro u v h1 ⟨w, rfl, h2⟩
    exact .more h1 rfl h2

theorem delim_moreOrders {x l} : Delim (printMoreOrders x l) := by
  cases l with
  | nil => exact Delim.nil
  | cons i l => obtain ⟨e, al⟩ := i; exact dl_cm

theorem prn_dir {d : Bool} (hd : Delim b) (h : Prn R b) (f : ∀ u v, Spec.Direction d u → R v → P (u ++ v)) :
    Prn P (' ' :: ((if d then "ASC".toList else "DESC".toList) ++ b)) := by
  refine Prn.space ?_
  cases d
  · exact Prn.kw "DESC" (by decide) hd h fun us h => f [_] us (.desc rfl) h
  · exact Prn.kw "ASC" (by decide) hd h fun us h => f [_] us (.asc rfl) h

theorem prn_orders {x : Bool} : ∀ (l : List (Expr × Bool)), (∀ i ∈ l, Prn (Spec.Postfix false i.1) (printExpr x i.1)) →
    l ≠ [] → Prn (Spec.Orders false l) (printOrders x l)
  | [(e, d)], h, _ => by
    rw [pe_orders]
    refine Prn.append (h (e, d) (by simp)) (Q := fun us => Spec.Direction d us) (prn_dir delim_moreOrders
      (Prn.nil (R := fun us => us = []) rfl) ?_) dl_sp fun u v h1 h2 => .one (.postfix_ h1) h2
    rintro u _ h rfl
    simpa using h
  | (e, d) :: i' :: l, h, _ => by
    rw [pe_orders]
    refine Prn.append (h (e, d) (by simp)) (Q := fun us => ∃ ws vs, us = ws ++ cm :: vs ∧ Spec.Direction d ws ∧ Spec.Orders false (i' :: l) vs)
      (prn_dir delim_moreOrders (R := fun us => ∃ vs, us = cm :: vs ∧ Spec.Orders false (i' :: l) vs)
        (Prn.comma (Prn.space (prn_orders (i' :: l) (fun i hi => h i (by simp [hi])) (by simp)))
          fun us h => ⟨us, rfl, h⟩) ?_) dl_sp ?_
    · rintro u v h1 ⟨w, rfl, h2⟩
      exact ⟨u, w, rfl, h1, h2⟩
    · rintro u _ h1 ⟨w, v, rfl, h2, h3⟩
      rw [← List.append_assoc]
      exact .more (.postfix_ h1) h2 rfl h3

mutual

theorem expr_print {x : Bool} {e : Expr} : PExpr x e → Prn (Spec.Postfix false e) (printExpr x e)
  | .attr h => Prn.ident0 h .attr
  | .qualified (t := t) (a := a) h1 h2 => by
    refine ⟨[⟨t, .identifier⟩, ⟨['.'], .dot⟩, ⟨a, .identifier⟩], .qualified rfl, fun rest tr hd h => ?_⟩
    have h3 := src_tok h2 (by simp) hd h
    obtain ⟨c, r, rfl, g1, g2, _⟩ := ident_head h2
    have h4 : Text ((['.'], .dot) :: (c :: r, .identifier) :: tr) (['.'] ++ (c :: r ++ rest)) := src_cons .dot (by
      intro y hy
      simp only [List.cons_append, List.head?_cons, Option.mem_def, Option.some.injEq] at hy
      subst hy
      exact ⟨g1, g2⟩) h3
    have h5 : Text ((t, .identifier) :: (['.'], .dot) :: (c :: r, .identifier) :: tr) (t ++ (['.'] ++ (c :: r ++ rest))) := src_cons h1 (by
      intro y hy
      simp only [List.cons_append, List.head?_cons, Option.mem_def, Option.some.injEq] at hy
      subst hy
      exact ⟨by decide, by decide, by simp⟩) h4
    rw [pe_qual, List.append_assoc]
    exact h5
  | .const h1 h2 => Prn.tok0 h2 (const_ne h1) (.const h1)
  | .fn (f := f) (args := args) hf ha => by
    rw [pe_fn]
    by_cases hne : args = []
    · subst hne
      exact Prn.append (expr_print hf) (Q := fun us => us = [lp, rp]) (Prn.lpar (R := fun us => us = [rp]) (Prn.rpar0 rfl)
        (by rintro _ rfl; rfl)) dl_lp (by rintro u _ h rfl; exact .call0 rfl rfl h)
    · refine Prn.append (expr_print hf) (Q := fun us => ∃ vs, us = lp :: (vs ++ [rp]) ∧ Spec.Exps false args vs) (Prn.lpar
        (R := fun us => ∃ vs, us = vs ++ [rp] ∧ Spec.Exps false args vs) (Prn.append (prn_exps args (fun a h => expr_print (ha a h)) hne)
          (Q := fun us => us = [rp]) (Prn.rpar0 rfl) dl_rp (by rintro u _ h rfl; exact ⟨u, rfl, h⟩)) (by rintro _ ⟨v, rfl, h⟩; exact ⟨v, rfl, h⟩)) dl_lp ?_
      rintro u _ h ⟨v, rfl, h2⟩
      exact .call rfl rfl h h2
  | .sign (op := op) (e := e) hop hv he => by
    have hnot : op.type ≠ K "NOT" := by rcases hop with hop | hop | hop <;> rw [hop] <;> simp [K]
    rw [pe_sign _ _ hnot]
    obtain ⟨ts, h1, h2⟩ := expr_print he
    refine ⟨lp :: (op :: ts ++ [rp]), .paren rfl rfl (.sign hop (Or.inl (by omega)) (.postfix_ h1)), fun rest tr hd h => ?_⟩
    obtain ⟨c, r, hc, hm⟩ := expr_head he
    have h3 := h2 _ _ (delim_cons rfl) (src_rpar h)
    have h4 := src_cons hv (by
      rw [hc]
      intro y hy
      simp only [List.cons_append, List.head?_cons, Option.mem_def, Option.some.injEq] at hy
      subst hy
      rcases hop with hop | hop | hop <;> rw [hop] <;> first | exact hm | trivial) h3
    have h5 := src_lpar h4
    simpa only [pairs, lp, rp, List.map_cons, List.map_append, List.map_nil, List.cons_append, List.append_assoc, List.nil_append] using h5
  | .not (op := op) (e := e) hop hv he => by
    rw [pe_not _ _ hop]
    refine Prn.lpar (R := fun us => ∃ vs, us = op :: (vs ++ [rp]) ∧ Spec.Postfix false e vs) (Prn.tok hv (by rw [hop]; simp [K]) dl_sp
      (R := fun us => ∃ vs, us = vs ++ [rp] ∧ Spec.Postfix false e vs) (Prn.space (Prn.append (expr_print he) (Q := fun us => us = [rp]) (Prn.rpar0 rfl)
        dl_rp (by rintro u _ h rfl; exact ⟨u, rfl, h⟩))) (by rintro _ ⟨v, rfl, h⟩; exact ⟨v, rfl, h⟩)) ?_
    rintro _ ⟨v, rfl, h⟩
    exact .paren rfl rfl (ts := op :: v) (.not hop (Or.inl (by omega)) (.postfix_ h))
  | .binary (op := op) (l := l) (r := r) hop hv hl hr => by
    rw [pe_binary]
    refine Prn.lpar (R := fun us => ∃ vs ws, us = vs ++ op :: (ws ++ [rp]) ∧ Spec.Postfix false l vs ∧ Spec.Postfix false r ws)
      (Prn.append (expr_print hl) (Q := fun us => ∃ ws, us = op :: (ws ++ [rp]) ∧ Spec.Postfix false r ws) (Prn.space (Prn.tok hv (binary_ne hop) dl_sp
      (R := fun us => ∃ vs, us = vs ++ [rp] ∧ Spec.Postfix false r vs) (Prn.space (Prn.append (expr_print hr) (Q := fun us => us = [rp]) (Prn.rpar0 rfl)
        dl_rp (by rintro u _ h rfl; exact ⟨u, rfl, h⟩))) (by rintro _ ⟨v, rfl, h⟩; exact ⟨v, rfl, h⟩))) dl_sp ?_) ?_
    · rintro u _ h1 ⟨w, rfl, h2⟩
      exact ⟨u, w, rfl, h1, h2⟩
    · rintro _ ⟨v, w, rfl, h1, h2⟩
      have := Spec.Postfix.paren (lax := false) (l := lp) (r := rp) rfl rfl (.binary hop (Nat.zero_le _) (.postfix_ h1) (.postfix_ h2))
      simpa using this
  | .query (q := q) hq => by
    rw [pe_query]
    refine Prn.lpar (R := fun us => ∃ vs, us = vs ++ [rp] ∧ Spec.Sel false q vs) (Prn.append (sel_print hq) (Q := fun us => us = [rp]) (Prn.rpar0 rfl)
        dl_rp (by rintro u _ h rfl; exact ⟨u, rfl, h⟩)) ?_
    rintro _ ⟨v, rfl, h⟩
    exact .query rfl rfl h

theorem src_print {x : Bool} {s : Source} : PSrc x s → Prn (Spec.Src false s) (printSource x s)
  | .table (t := t) (a := a) h1 h2 => by
    obtain ⟨h3, h4⟩ := prn_alias h2
    exact Prn.ident h1 h4 h3 fun us h => .table h
  | .nested (q := q) (a := a) h1 h2 => by
    have e : printSource x (.nested q a) = '(' :: (printSelect x q ++ ')' :: printAlias (some a)) := by
      show ['('] ++ printSelect x q ++ [')'] ++ (' ' :: ("AS".toList ++ [' '])) ++ a = _
      rw [pe_alias]
      simp only [List.append_assoc, List.cons_append, List.nil_append]
    rw [e]
    obtain ⟨h3, h4⟩ := prn_alias (al := some a) (by rintro n hn; cases hn; exact h2)
    refine Prn.lpar (R := fun us => ∃ vs ws, us = vs ++ rp :: ws ∧ Spec.Sel false q vs ∧ Spec.Alias (some a) ws) (Prn.append (sel_print h1)
      (Q := fun us => ∃ ws, us = rp :: ws ∧ Spec.Alias (some a) ws) (Prn.rpar h3 fun us h => ⟨us, rfl, h⟩) dl_rp ?_) ?_
    · rintro u _ h1 ⟨w, rfl, h2⟩
      exact ⟨u, w, rfl, h1, h2⟩
    · rintro _ ⟨v, w, rfl, h1, h2⟩
      exact .nested rfl rfl h1 h2

theorem cl_print {x : Bool} {n : Nat} {c : Clause} : PCl x n c → Prn (Spec.Cl false n c) (printClause x c)
  | .from_ (l := l) hne h => by
    have e : printClause x (.from_ l) = "FROM".toList ++ ' ' :: printSources x l := rfl
    rw [e]
    exact Prn.kw "FROM" (by decide) dl_sp (Prn.space (prn_srcs l (fun s hs => src_print (h s hs)) hne)) fun us h => .from_ rfl h
  | .where_ (e := e) h => by
    have e : printClause x (.where_ e) = "WHERE".toList ++ ' ' :: printExpr false e := rfl
    rw [e]
    exact Prn.kw "WHERE" (by decide) dl_sp (Prn.space (expr_print h)) fun us h => .where_ rfl (.postfix_ h)
  | .groupBy (l := l) hne h h' => by
    have e : printClause x (.groupBy l) = "GROUP".toList ++ ' ' :: ("BY".toList ++ ' ' :: printItems x l) := rfl
    rw [e]
    exact Prn.kw "GROUP" (by decide) dl_sp (Prn.space (Prn.kw "BY" (by decide) dl_sp (Prn.space (prn_items l (fun s hs => expr_print (h s hs)) h' hne))
      (P := fun us => ∃ b vs, us = b :: vs ∧ b.type = K "BY" ∧ Spec.Items false l vs) fun us h => ⟨_, us, rfl, rfl, h⟩))
      (by rintro _ ⟨b, v, rfl, h1, h2⟩; exact .groupBy rfl h1 h2)
  | .having (e := e) h => by
    have e : printClause x (.having e) = "HAVING".toList ++ ' ' :: printExpr false e := rfl
    rw [e]
    exact Prn.kw "HAVING" (by decide) dl_sp (Prn.space (expr_print h)) fun us h => .having rfl (.postfix_ h)
  | .orderBy (l := l) hne h => by
    have e : printClause x (.orderBy l) = "ORDER".toList ++ ' ' :: ("BY".toList ++ ' ' :: printOrders x l) := rfl
    rw [e]
    exact Prn.kw "ORDER" (by decide) dl_sp (Prn.space (Prn.kw "BY" (by decide) dl_sp (Prn.space (prn_orders l (fun s hs => expr_print (h s hs)) hne))
      (P := fun us => ∃ b vs, us = b :: vs ∧ b.type = K "BY" ∧ Spec.Orders false l vs) fun us h => ⟨_, us, rfl, rfl, h⟩))
      (by rintro _ ⟨b, v, rfl, h1, h2⟩; exact .orderBy rfl h1 h2)
  | .limit (n := n) (o := none) h1 h2 _ => by
    have e : printClause x (.limit n none) = "LIMIT".toList ++ ' ' :: n.text := by
      show ("LIMIT".toList ++ [' ']) ++ n.text ++ [] = _
      simp only [List.append_assoc, List.cons_append, List.nil_append, List.append_nil]
    rw [e]
    exact Prn.kw "LIMIT" (by decide) dl_sp (Prn.space (Prn.tok0 h2 (int_ne h1) (P := fun us => us = [n]) rfl))
      (by rintro _ rfl; exact .limit (.limit rfl h1))
  | .limit (n := n) (o := some m) h1 h2 h3 => by
    have e : printClause x (.limit n (some m)) = "LIMIT".toList ++ ' ' :: (n.text ++ ' ' :: ("OFFSET".toList ++ ' ' :: m.text)) := by
      show ("LIMIT".toList ++ [' ']) ++ n.text ++ ((' ' :: ("OFFSET".toList ++ [' '])) ++ m.text) = _
      simp only [List.append_assoc, List.cons_append, List.nil_append]
    rw [e]
    obtain ⟨h3, h4⟩ := h3 m rfl
    exact Prn.kw "LIMIT" (by decide) dl_sp (Prn.space (Prn.tok h2 (int_ne h1) dl_sp (Prn.space (Prn.kw "OFFSET" (by decide) dl_sp
      (Prn.space (Prn.tok0 h4 (int_ne h3) (P := fun us => us = [m]) rfl))
      (P := fun us => ∃ o, us = [o, m] ∧ o.type = K "OFFSET") (by rintro _ rfl; exact ⟨_, rfl, rfl⟩)))
      (P := fun us => ∃ o, us = [n, o, m] ∧ o.type = K "OFFSET") (by rintro _ ⟨o, rfl, h⟩; exact ⟨_, rfl, h⟩)))
      (by rintro _ ⟨o, rfl, h⟩; exact .limit (.offset rfl h1 h h3))

theorem sel_print {x : Bool} {q : Select} : PSel x q → Prn (Spec.Sel false q) (printSelect x q)
  | .mk (all := all) (items := items) (c0 := c0) (c1 := c1) (c2 := c2) (c3 := c3) (c4 := c4) (c5 := c5) ha hi hal h0 h1 h2 h3 h4 h5 => by
    have e : printSelect x (.mk (.select all items) c0 c1 c2 c3 c4 c5) = printClause x (.select all items) ++ (printOptClause x c0 ++
      (printOptClause x c1 ++ (printOptClause x c2 ++ (printOptClause x c3 ++ (printOptClause x c4 ++ printOptClause x c5))))) := by
      show printClause x (.select all items) ++ printOptClause x c0 ++ printOptClause x c1 ++ printOptClause x c2 ++ printOptClause x c3 ++
        printOptClause x c4 ++ printOptClause x c5 = _
      simp only [List.append_assoc]
    have dO : ∀ c : Option Clause, Delim (printOptClause x c) := by
      intro c
      cases c with
      | none => exact Delim.nil
      | some c => exact dl_nl
    have pO : ∀ (n : Nat) (c : Option Clause), (∀ d ∈ c, Prn (Spec.Cl false n d) (printClause x d)) → Prn (Spec.OptCl false n c) (printOptClause x c) := by
      intro n c h
      cases c with
      | none => exact Prn.nil .none
      | some c => exact Prn.newline ((h c rfl).imp fun us h => .some h)
    have p0 := pO 0 c0 fun d hd => cl_print (h0 d hd)
    have p1 := pO 1 c1 fun d hd => cl_print (h1 d hd)
    have p2 := pO 2 c2 fun d hd => cl_print (h2 d hd)
    have p3 := pO 3 c3 fun d hd => cl_print (h3 d hd)
    have p4 := pO 4 c4 fun d hd => cl_print (h4 d hd)
    have p5 := pO 5 c5 fun d hd => cl_print (h5 d hd)
    have pit : items ≠ [] → Prn (Spec.Items false items) (printItems x items) := prn_items items (fun i h => expr_print (hi i h)) hal
    have ps : Prn (Spec.SelClause false (.select all items)) (printClause x (.select all items)) := by
      cases all with
      | true =>
        have e : printClause x (.select true items) = "SELECT".toList ++ ' ' :: (['*'] ++ printMoreItems x items) := rfl
        rw [e]
        have hs : ValidTok ⟨['*'], .asterisk⟩ := Lex.Spec.Valid.asterisk
        cases items with
        | nil =>
          exact Prn.kw "SELECT" (by decide) dl_sp (Prn.space (Prn.tok (t := ⟨['*'], .asterisk⟩) hs (by simp) Delim.nil (Prn.nil (R := fun us => us = []) rfl)
            (P := fun us => us = [⟨['*'], .asterisk⟩]) (by rintro _ rfl; rfl))) (by rintro _ rfl; exact .star rfl rfl)
        | cons i l =>
          have e : printMoreItems x (i :: l) = ',' :: ' ' :: printItems x (i :: l) := rfl
          rw [e]
          exact Prn.kw "SELECT" (by decide) dl_sp (Prn.space (Prn.tok (t := ⟨['*'], .asterisk⟩) hs (by simp) dl_cm
            (Prn.comma (Prn.space (pit (by simp))) (P := fun us => ∃ vs, us = cm :: vs ∧ Spec.Items false (i :: l) vs) fun us h => ⟨us, rfl, h⟩)
            (P := fun us => ∃ s vs, us = s :: cm :: vs ∧ s.type = .asterisk ∧ Spec.Items false (i :: l) vs)
            (by rintro _ ⟨v, rfl, h⟩; exact ⟨_, v, rfl, rfl, h⟩))) (by rintro _ ⟨s, v, rfl, h1, h2⟩; exact .starMore rfl h1 rfl h2)
      | false =>
        have e : printClause x (.select false items) = "SELECT".toList ++ ' ' :: printItems x items := rfl
        rw [e]
        exact Prn.kw "SELECT" (by decide) dl_sp (Prn.space (pit (by rcases ha with h | h; cases h; exact h))) fun us h => .items rfl h
    rw [e]
    refine Prn.append ps (Prn.append p0 (Prn.append p1 (Prn.append p2 (Prn.append p3 (Prn.append p4 p5 (dO _)
      (P := fun us => ∃ t4 t5, us = t4 ++ t5 ∧ Spec.OptCl false 4 c4 t4 ∧ Spec.OptCl false 5 c5 t5) fun u v h1 h2 => ⟨u, v, rfl, h1, h2⟩)
      ((dO _).append (dO _))
      (P := fun us => ∃ t3 t4 t5, us = t3 ++ (t4 ++ t5) ∧ Spec.OptCl false 3 c3 t3 ∧ Spec.OptCl false 4 c4 t4 ∧ Spec.OptCl false 5 c5 t5) ?_)
      ((dO _).append ((dO _).append (dO _)))
      (P := fun us => ∃ t2 t3 t4 t5, us = t2 ++ (t3 ++ (t4 ++ t5)) ∧ Spec.OptCl false 2 c2 t2 ∧ Spec.OptCl false 3 c3 t3 ∧ Spec.OptCl false 4 c4 t4 ∧
        Spec.OptCl false 5 c5 t5) ?_)
      ((dO _).append ((dO _).append ((dO _).append (dO _))))
      (P := fun us => ∃ t1 t2 t3 t4 t5, us = t1 ++ (t2 ++ (t3 ++ (t4 ++ t5))) ∧ Spec.OptCl false 1 c1 t1 ∧ Spec.OptCl false 2 c2 t2 ∧ Spec.OptCl false 3 c3 t3 ∧
        Spec.OptCl false 4 c4 t4 ∧ Spec.OptCl false 5 c5 t5) ?_)
      ((dO _).append ((dO _).append ((dO _).append ((dO _).append (dO _)))))
      (P := fun us => ∃ t0 t1 t2 t3 t4 t5, us = t0 ++ (t1 ++ (t2 ++ (t3 ++ (t4 ++ t5)))) ∧ Spec.OptCl false 0 c0 t0 ∧ Spec.OptCl false 1 c1 t1 ∧
        Spec.OptCl false 2 c2 t2 ∧ Spec.OptCl false 3 c3 t3 ∧ Spec.OptCl false 4 c4 t4 ∧ Spec.OptCl false 5 c5 t5) ?_)
      ((dO _).append ((dO _).append ((dO _).append ((dO _).append ((dO _).append (dO _)))))) ?_
    · rintro u _ h3 ⟨t4, t5, rfl, h4, h5⟩
      exact ⟨_, _, _, rfl, h3, h4, h5⟩
    · rintro u _ h2 ⟨t3, t4, t5, rfl, h3, h4, h5⟩
      exact ⟨_, _, _, _, rfl, h2, h3, h4, h5⟩
    · rintro u _ h1 ⟨t2, t3, t4, t5, rfl, h2, h3, h4, h5⟩
      exact ⟨_, _, _, _, _, rfl, h1, h2, h3, h4, h5⟩
    · rintro u _ h0 ⟨t1, t2, t3, t4, t5, rfl, h1, h2, h3, h4, h5⟩
      exact ⟨_, _, _, _, _, _, rfl, h0, h1, h2, h3, h4, h5⟩
    · rintro u _ hs ⟨t0, t1, t2, t3, t4, t5, rfl, h0, h1, h2, h3, h4, h5⟩
      exact .mk hs h0 h1 h2 h3 h4 h5

end

end Mutable.Parse
