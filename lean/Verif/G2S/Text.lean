import Verif.G2S.Spec
/-! # The text of a query graph consists of tokens of the statement that is meant -/
namespace Mutable.G2S
open Mutable.Parse
open Mutable.Parse (Expr Str S K Tok Select printExpr printNat printItems printOrders)
open Mutable.Parse.Spec (Ident AliasOK PExpr ValidTok)

/-! ## Expressions -/

mutual

theorem expr_true : ∀ e : Expr, PExpr false e → expr true e = printExpr false e
  | .error, h => by cases h
  | .designator none a, _ => rfl
  | .designator (some t) a, _ => rfl
  | .const tok, _ => rfl
  | .fn f as, h => by
    cases h with
    | fn h1 h2 =>
      have e1 := expr_true f h1
      have e2 := args_true as h2
      show expr true f ++ S "(" ++ args true as ++ S ")" = printExpr false f ++ S "(" ++ printArgs false as ++ S ")"
      rw [e1, e2]
  | .unary op e, h => by
    have he : PExpr false e := by cases h <;> assumption
    show S "(" ++ op.text ++ _ ++ expr true e ++ S ")" = S "(" ++ op.text ++ _ ++ printExpr false e ++ S ")"
    rw [expr_true e he]
  | .binary op l r, h => by
    cases h with
    | binary _ _ h1 h2 =>
      show S "(" ++ expr true l ++ S " " ++ op.text ++ S " " ++ expr true r ++ S ")" =
        S "(" ++ printExpr false l ++ S " " ++ op.text ++ S " " ++ printExpr false r ++ S ")"
      rw [expr_true l h1, expr_true r h2]
  | .query q, h => by cases h

theorem args_true : ∀ as : List Expr, (∀ a ∈ as, PExpr false a) → args true as = printArgs false as
  | [], _ => rfl
  | e :: es, h => by
    show expr true e ++ moreArgs true es = printExpr false e ++ printMoreArgs false es
    rw [expr_true e (h e (by simp)), moreArgs_true es fun a ha => h a (by simp [ha])]

theorem moreArgs_true : ∀ as : List Expr, (∀ a ∈ as, PExpr false a) → moreArgs true as = printMoreArgs false as
  | [], _ => rfl
  | e :: es, h => by
    show S ", " ++ expr true e ++ moreArgs true es = S ", " ++ printExpr false e ++ printMoreArgs false es
    rw [expr_true e (h e (by simp)), moreArgs_true es fun a ha => h a (by simp [ha])]

end

theorem expr_false : ∀ e : Expr, PExpr false (lower e) → expr false e = printExpr false (lower e)
  | .error, h => by cases h
  | .designator none a, _ => rfl
  | .designator (some t) a, _ => rfl
  | .const tok, _ => rfl
  | .fn f as, _ => rfl
  | .unary op e, h => by
    have he : PExpr false (lower e) := by
      have h' : PExpr false (.unary op (lower e)) := h
      cases h' <;> assumption
    show S "(" ++ op.text ++ _ ++ expr false e ++ S ")" = S "(" ++ op.text ++ _ ++ printExpr false (lower e) ++ S ")"
    rw [expr_false e he]
  | .binary op l r, h => by
    have h' : PExpr false (.binary op (lower l) (lower r)) := h
    cases h' with
    | binary _ _ h1 h2 =>
      show S "(" ++ expr false l ++ S " " ++ op.text ++ S " " ++ expr false r ++ S ")" =
        S "(" ++ printExpr false (lower l) ++ S " " ++ op.text ++ S " " ++ printExpr false (lower r) ++ S ")"
      rw [expr_false l h1, expr_false r h2]
  | .query q, h => by cases h

/-! ## Conditions -/

theorem exp_weaken {q q' : Nat} {e : Expr} {ts : List Tok} (h : Spec.Exp false q e ts) (hq : q' ≤ q) : Spec.Exp false q' e ts := by
  cases h with
  | postfix_ h => exact .postfix_ h
  | sign h1 h2 h3 => exact .sign h1 (h2.imp (fun h => hq.trans h) id) h3
  | not h1 h2 h3 => exact .not h1 (h2.imp (fun h => hq.trans h) id) h3
  | binary h1 h2 h3 h4 => exact .binary h1 (hq.trans h2) h3 h4

theorem prn_pred {p : Pred} (h : PExpr false (lower p.2)) : Prn (Spec.Exp false 3 (predOf p)) (pred p) := by
  obtain ⟨n, e⟩ := p
  have he := expr_print h
  cases n with
  | false =>
    show Prn _ ([] ++ expr false e)
    rw [expr_false e h]
    exact he.imp fun us h => .postfix_ h
  | true =>
    have e1 : pred (true, e) = "NOT".toList ++ ' ' :: expr false e := rfl
    rw [e1, expr_false e h]
    exact Prn.kw "NOT" (by decide) dl_sp (Prn.space he) fun us h => .not rfl (Or.inl le_rfl) (.postfix_ h)

theorem dl_morePreds (ps : List Pred) : Delim (morePreds ps) := by
  cases ps with
  | nil => exact Delim.nil
  | cons p ps => exact dl_sp

theorem prn_morePreds : ∀ (ps : List Pred) (l : Expr) (a : Str), (∀ p ∈ ps, PExpr false (lower p.2)) → Prn (Spec.Exp false 1 l) a →
    Prn (Spec.Exp false 1 (ps.foldl (fun l r => .binary ⟨S "OR", K "OR"⟩ l (predOf r)) l)) (a ++ morePreds ps)
  | [], l, a, _, h => by show Prn _ (a ++ []); rw [List.append_nil]; exact h
  | p :: ps, l, a, hp, h => by
    have e1 : a ++ morePreds (p :: ps) = (a ++ ' ' :: ("OR".toList ++ ' ' :: pred p)) ++ morePreds ps := by
      show a ++ (((' ' :: ("OR".toList ++ [' '])) ++ pred p) ++ morePreds ps) = _
      simp only [List.append_assoc, List.cons_append, List.nil_append]
    rw [e1]
    refine prn_morePreds ps _ _ (fun p h => hp p (by simp [h])) ?_
    refine Prn.append h (Q := fun us => ∃ o vs, us = o :: vs ∧ o = ⟨S "OR", K "OR"⟩ ∧ Spec.Exp false 3 (predOf p) vs)
      (Prn.space (Prn.kw "OR" (by decide) dl_sp (Prn.space (prn_pred (hp p (by simp)))) fun us h => ⟨_, us, rfl, rfl, h⟩)) dl_sp ?_
    rintro u _ h1 ⟨o, v, rfl, rfl, h2⟩
    exact .binary (p := 1) (by simp [Spec.binaryLevel, K]) le_rfl h1 (exp_weaken h2 (by omega))

theorem prn_clause {c : Clause} (h0 : c ≠ []) (h : ∀ p ∈ c, PExpr false (lower p.2)) : Prn (Spec.Exp false 1 (disj c)) (clause c) := by
  cases c with
  | nil => exact absurd rfl h0
  | cons p ps =>
    exact prn_morePreds ps _ _ (fun p h' => h p (by simp [h'])) ((prn_pred (h p (by simp))).imp fun us h => exp_weaken h (by omega))

theorem prn_paren {c : Clause} (h0 : c ≠ []) (h : ∀ p ∈ c, PExpr false (lower p.2)) :
    Prn (Spec.Exp false 3 (disj c)) ('(' :: (clause c ++ [')'])) := by
  refine Prn.lpar (R := fun us => ∃ vs, us = vs ++ [rp] ∧ Spec.Exp false 0 (disj c) vs) (Prn.append (prn_clause h0 h) (Q := fun us => us = [rp])
    (Prn.rpar0 rfl) dl_rp (by rintro u _ h rfl; exact ⟨u, rfl, exp_weaken h (by omega)⟩)) ?_
  rintro _ ⟨v, rfl, h⟩
  exact .postfix_ (.paren rfl rfl h)

theorem prn_moreClauses : ∀ (cs : List Clause) (l : Expr) (a : Str), OkCNF cs → Prn (Spec.Exp false 2 l) a →
    Prn (Spec.Exp false 2 (cs.foldl (fun l r => .binary ⟨S "AND", K "AND"⟩ l (disj r)) l)) (a ++ moreClauses cs)
  | [], l, a, _, h => by show Prn _ (a ++ []); rw [List.append_nil]; exact h
  | c :: cs, l, a, hp, h => by
    have e1 : a ++ moreClauses (c :: cs) = (a ++ ' ' :: ("AND".toList ++ ' ' :: ('(' :: (clause c ++ [')'])))) ++ moreClauses cs := by
      show a ++ (((((' ' :: ("AND".toList ++ [' '])) ++ ['(']) ++ clause c) ++ [')']) ++ moreClauses cs) = _
      simp only [List.append_assoc, List.cons_append, List.nil_append]
    rw [e1]
    refine prn_moreClauses cs _ _ (fun c h => hp c (by simp [h])) ?_
    obtain ⟨g1, g2⟩ := hp c (by simp)
    refine Prn.append h (Q := fun us => ∃ o vs, us = o :: vs ∧ o = ⟨S "AND", K "AND"⟩ ∧ Spec.Exp false 3 (disj c) vs)
      (Prn.space (Prn.kw "AND" (by decide) dl_sp (Prn.space (prn_paren g1 g2)) fun us h => ⟨_, us, rfl, rfl, h⟩)) dl_sp ?_
    rintro u _ h1 ⟨o, v, rfl, rfl, h2⟩
    exact .binary (p := 2) (by simp [Spec.binaryLevel, K]) le_rfl h1 h2

theorem prn_cnf : ∀ {c : CNF}, c ≠ [] → OkCNF c → Prn (Spec.Exp false 0 (conj c)) (cnf c)
  | [], h, _ => absurd rfl h
  | [c], _, h => by
    obtain ⟨g1, g2⟩ := h c (by simp)
    exact (prn_clause g1 g2).imp fun us h => exp_weaken h (by omega)
  | c :: d :: cs, _, h => by
    obtain ⟨g1, g2⟩ := h c (by simp)
    have := prn_moreClauses (d :: cs) (disj c) _ (fun c hc => h c (by simp [hc])) ((prn_paren g1 g2).imp fun us h => exp_weaken h (q' := 2) (by omega))
    refine Prn.imp (R := Spec.Exp false 2 (conj (c :: d :: cs))) ?_ fun us h => exp_weaken h (by omega)
    have e1 : cnf (c :: d :: cs) = '(' :: (clause c ++ [')']) ++ moreClauses (d :: cs) := by
      show ((['('] ++ clause c) ++ [')']) ++ moreClauses (d :: cs) = _
      simp only [List.append_assoc, List.cons_append, List.nil_append]
    rw [e1]
    exact this

/-! ## Items -/

theorem dollar_eq (a : Str) : replaceAll '$' '_' a = a.map fun c => if c = '$' then '_' else c := rfl

theorem projection_eq {p : Expr × Option Str} (h : PExpr false p.1) : projection p = printExpr false (itemOf p).1 ++ printAlias (itemOf p).2 := by
  obtain ⟨e, a⟩ := p
  have he := expr_true e h
  cases a with
  | some a =>
    show expr true e ++ S " AS " ++ replaceAll '$' '_' a = printExpr false e ++ (S " AS " ++ _)
    rw [he, dollar_eq, List.append_assoc]
  | none =>
    simp only [projection, insertProjection, itemOf]
    rw [he]
    split_ifs with h1
    · show _ = printExpr false e ++ []
      rw [List.append_nil]
    · show _ = printExpr false e ++ (S " AS " ++ _)
      rw [List.append_assoc]

theorem items_eq : ∀ {ps : List (Expr × Option Str)}, (∀ p ∈ ps, PExpr false p.1) →
    moreProjections ps = printMoreItems false (ps.map itemOf)
  | [], _ => rfl
  | p :: ps, h => by
    show S ", " ++ projection p ++ moreProjections ps = S ", " ++ printExpr false (itemOf p).1 ++ printAlias (itemOf p).2 ++ _
    rw [projection_eq (h p (by simp)), items_eq fun p hp => h p (by simp [hp])]
    simp only [List.append_assoc]

theorem keys_eq : ∀ {gs : List (Expr × Option Str)}, (∀ g ∈ gs, PExpr false (lower g.1)) →
    moreKeys gs = printMoreItems false (gs.map fun g => (lower g.1, g.2))
  | [], _ => rfl
  | (e, a) :: gs, h => by
    have hk : groupKey (e, a) = printExpr false (lower e) ++ printAlias a := by
      unfold groupKey
      rw [expr_false e (h (e, a) (by simp))]
      cases a <;> rfl
    show S ", " ++ groupKey (e, a) ++ moreKeys gs = S ", " ++ printExpr false (lower e) ++ printAlias a ++ _
    rw [hk, keys_eq fun p hp => h p (by simp [hp])]
    simp only [List.append_assoc]

theorem key_eq {e : Expr} {a : Option Str} (h : PExpr false (lower e)) : groupKey (e, a) = printExpr false (lower e) ++ printAlias a := by
  unfold groupKey
  rw [expr_false e h]
  cases a <;> rfl

theorem orders_eq : ∀ {os : List (Expr × Bool)}, (∀ o ∈ os, PExpr false o.1) → moreOrders os = printMoreOrders false os
  | [], _ => rfl
  | (e, d) :: os, h => by
    show S ", " ++ (expr true e ++ _) ++ moreOrders os = S ", " ++ printExpr false e ++ _ ++ printMoreOrders false os
    rw [expr_true e (h (e, d) (by simp)), orders_eq fun p hp => h p (by simp [hp])]
    simp only [List.append_assoc]

/-! ## Numbers and names -/

theorem intTok_ok (n : Nat) : Spec.IntType (intTok n).type ∧ ValidTok (intTok n) := by
  by_cases h : n = 0
  · subst h
    exact ⟨by simp [Spec.IntType, intTok], Lex.Spec.Valid.octInt (D := []) (by simp)⟩
  · have := (nat_tok (Nat.pos_of_ne_zero h)).1
    unfold intTok
    rw [if_neg h]
    exact ⟨by simp [Spec.IntType], this⟩

theorem uniqueAlias_ident (n : Nat) : Ident (uniqueAlias n) := by
  have hd : ∀ c ∈ printNat n, c.isDigit = true := fun c hc => by
    rw [printNat_eq] at hc
    exact Nat.isDigit_of_mem_toDigits (by decide) (by decide) hc
  show Lex.Spec.Valid .identifier ('a' :: ("lias_".toList ++ printNat n))
  refine .identifier (Or.inr (by decide)) ?_ ?_
  · intro c hc
    rcases List.mem_append.1 hc with hc | hc
    · have : ∀ c ∈ "lias_".toList, c = '_' ∨ Lex.isAlnum c = true := by decide
      exact this c hc
    · right
      have := digit_iff.1 (hd c hc)
      simp [Lex.isAlnum, Lex.isDec, this.1, this.2]
  · intro hm
    have : ∀ w ∈ Lex.Spec.reserved, w.take 6 ≠ "alias_".toList := by decide
    exact this _ hm rfl

/-! ## The statement -/

/-- The text of an optional clause: nothing, or a blank and the clause. -/
def OptText (n : Nat) (c : Option Parse.Clause) (t : Str) : Prop := Prn (Spec.OptCl false n c) t ∧ Delim t

theorem OptText.none_ {n : Nat} : OptText n none [] := ⟨Prn.nil .none, Delim.nil⟩

theorem OptText.some_ {n : Nat} {c : Parse.Clause} {t : Str} (h : Prn (Spec.Cl false n c) t) : OptText n (some c) (' ' :: t) :=
  ⟨Prn.space (h.imp fun us h => .some h), dl_sp⟩

theorem sel_text {s : Parse.Clause} {c0 c1 c2 c3 c4 c5 : Option Parse.Clause} {ts t0 t1 t2 t3 t4 t5 : Str} (hs : Prn (Spec.SelClause false s) ts)
    (h0 : OptText 0 c0 t0) (h1 : OptText 1 c1 t1) (h2 : OptText 2 c2 t2) (h3 : OptText 3 c3 t3) (h4 : OptText 4 c4 t4) (h5 : OptText 5 c5 t5) :
    Prn (Spec.Sel false (.mk s c0 c1 c2 c3 c4 c5)) (ts ++ (t0 ++ (t1 ++ (t2 ++ (t3 ++ (t4 ++ t5)))))) := by
  obtain ⟨us, k1, k2⟩ := hs
  obtain ⟨⟨u0, a0, b0⟩, d0⟩ := h0
  obtain ⟨⟨u1, a1, b1⟩, d1⟩ := h1
  obtain ⟨⟨u2, a2, b2⟩, d2⟩ := h2
  obtain ⟨⟨u3, a3, b3⟩, d3⟩ := h3
  obtain ⟨⟨u4, a4, b4⟩, d4⟩ := h4
  obtain ⟨⟨u5, a5, b5⟩, d5⟩ := h5
  have r5 : Reads u5 t5 := b5
  have r4 := Reads.append (b4 : Reads u4 t4) r5 d5
  have r3 := Reads.append (b3 : Reads u3 t3) r4 (d4.append d5)
  have r2 := Reads.append (b2 : Reads u2 t2) r3 (d3.append (d4.append d5))
  have r1 := Reads.append (b1 : Reads u1 t1) r2 (d2.append (d3.append (d4.append d5)))
  have r0 := Reads.append (b0 : Reads u0 t0) r1 (d1.append (d2.append (d3.append (d4.append d5))))
  have r := Reads.append (k2 : Reads us ts) r0 (d0.append (d1.append (d2.append (d3.append (d4.append d5)))))
  exact r.mk (.mk k1 a0 a1 a2 a3 a4 a5)

theorem select_ok {ps : List (Expr × Option Str)} (h : ∀ p ∈ ps, PExpr false p.1 ∧ AliasOK (itemOf p).2) :
    Prn (Spec.SelClause false (.select (ps = []) (ps.map itemOf))) (selectText ps) := by
  cases ps with
  | nil =>
    have e1 : selectText [] = "SELECT".toList ++ ' ' :: ['*'] := rfl
    rw [e1]
    have hs : ValidTok ⟨['*'], .asterisk⟩ := Lex.Spec.Valid.asterisk
    exact Prn.kw "SELECT" (by decide) dl_sp (Prn.space (Prn.tok0 (t := ⟨['*'], .asterisk⟩) hs (by simp)
      (P := fun us => us = [⟨['*'], .asterisk⟩]) rfl)) (by rintro _ rfl; exact .star rfl rfl)
  | cons p ps =>
    have e1 : selectText (p :: ps) = "SELECT".toList ++ ' ' :: printItems false ((p :: ps).map itemOf) := by
      show (("SELECT".toList ++ [' ']) ++ (projection p ++ moreProjections ps)) = _ ++ ' ' :: (printExpr false (itemOf p).1 ++ printAlias (itemOf p).2 ++ _)
      rw [projection_eq (h p (by simp)).1, items_eq fun p hp => (h p (by simp [hp])).1]
      simp only [List.append_assoc, List.cons_append, List.nil_append]
    rw [e1]
    have hit := prn_items (x := false) ((p :: ps).map itemOf) (by
      intro i hi
      obtain ⟨q, hq, rfl⟩ := List.mem_map.1 hi
      have : (itemOf q).1 = q.1 := by unfold itemOf; cases q.2 <;> rfl
      rw [this]
      exact expr_print (h q hq).1) (by
      intro i hi
      obtain ⟨q, hq, rfl⟩ := List.mem_map.1 hi
      exact (h q hq).2) (by simp)
    exact Prn.kw "SELECT" (by decide) dl_sp (Prn.space hit) fun us h => by
      simpa using Spec.SelClause.items rfl h

theorem group_ok {gs : List (Expr × Option Str)} (h : ∀ g ∈ gs, PExpr false (lower g.1) ∧ AliasOK g.2) :
    OptText 2 (if gs = [] then none else some (.groupBy (gs.map fun g => (lower g.1, g.2)))) (groupText gs) := by
  cases gs with
  | nil => exact OptText.none_
  | cons p ps =>
    obtain ⟨e, a⟩ := p
    have e1 : groupText ((e, a) :: ps) = ' ' :: ("GROUP".toList ++ ' ' :: ("BY".toList ++ ' ' ::
        printItems false (((e, a) :: ps).map fun g => (lower g.1, g.2)))) := by
      show S " GROUP BY " ++ (groupKey (e, a) ++ moreKeys ps) = _
      rw [key_eq (h (e, a) (by simp)).1, keys_eq fun p hp => (h p (by simp [hp])).1]
      rfl
    rw [e1, if_neg (by simp)]
    have hit := prn_items (x := false) (((e, a) :: ps).map fun g => (lower g.1, g.2)) (by
      intro i hi
      obtain ⟨q, hq, rfl⟩ := List.mem_map.1 hi
      exact expr_print (h q hq).1) (by
      intro i hi
      obtain ⟨q, hq, rfl⟩ := List.mem_map.1 hi
      exact (h q hq).2) (by simp)
    exact OptText.some_ (Prn.kw "GROUP" (by decide) dl_sp (Prn.space (Prn.kw "BY" (by decide) dl_sp (Prn.space hit)
      (P := fun us => ∃ b vs, us = b :: vs ∧ b.type = K "BY" ∧ Spec.Items false (((e, a) :: ps).map fun g => (lower g.1, g.2)) vs)
      fun us h => ⟨_, us, rfl, rfl, h⟩)) (by rintro _ ⟨b, v, rfl, h1, h2⟩; exact .groupBy rfl h1 h2))

theorem order_ok {os : List (Expr × Bool)} (h : ∀ o ∈ os, PExpr false o.1) :
    OptText 4 (if os = [] then none else some (.orderBy os)) (orderText os) := by
  cases os with
  | nil => exact OptText.none_
  | cons p ps =>
    obtain ⟨e, d⟩ := p
    have e1 : orderText ((e, d) :: ps) = ' ' :: ("ORDER".toList ++ ' ' :: ("BY".toList ++ ' ' :: printOrders false ((e, d) :: ps))) := by
      show S " ORDER BY " ++ ((expr true e ++ (if d then S " ASC" else S " DESC")) ++ moreOrders ps) = _
      rw [expr_true e (h (e, d) (by simp)), orders_eq fun p hp => h p (by simp [hp])]
      rfl
    rw [e1, if_neg (by simp)]
    have hit := prn_orders (x := false) ((e, d) :: ps) (fun i hi => expr_print (h i hi)) (by simp)
    exact OptText.some_ (Prn.kw "ORDER" (by decide) dl_sp (Prn.space (Prn.kw "BY" (by decide) dl_sp (Prn.space hit)
      (P := fun us => ∃ b vs, us = b :: vs ∧ b.type = K "BY" ∧ Spec.Orders false ((e, d) :: ps) vs)
      fun us h => ⟨_, us, rfl, rfl, h⟩)) (by rintro _ ⟨b, v, rfl, h1, h2⟩; exact .orderBy rfl h1 h2))

theorem limit_ok (l o : Nat) :
    OptText 5 (if l = 0 ∧ o = 0 then none else some (.limit (intTok l) (if o = 0 then none else some (intTok o)))) (limitText l o) := by
  by_cases h : l = 0 ∧ o = 0
  · rw [if_pos h]
    unfold limitText
    rw [if_neg (by omega)]
    exact OptText.none_
  · rw [if_neg h]
    obtain ⟨l1, l2⟩ := intTok_ok l
    obtain ⟨o1, o2⟩ := intTok_ok o
    have e0 : limitText l o = ' ' :: printClause false (.limit (intTok l) (if o = 0 then none else some (intTok o))) := by
      unfold limitText
      rw [if_pos (by omega)]
      by_cases ho : o = 0
      · rw [if_pos ho, if_neg (by simpa using ho)]
        rfl
      · rw [if_neg ho, if_pos ho]
        rfl
    rw [e0]
    refine OptText.some_ (cl_print (.limit l1 l2 ?_))
    intro m hm
    by_cases ho : o = 0
    · rw [if_pos ho] at hm; cases hm
    · rw [if_neg ho] at hm; cases hm; exact ⟨o1, o2⟩

theorem where_ok {c : CNF} (h : OkCNF c) : OptText 1 (if c = [] then none else some (.where_ (conj c))) (whereText c) := by
  by_cases hc : c = []
  · subst hc; exact OptText.none_
  · unfold whereText
    rw [if_neg hc, if_neg hc]
    have e1 : S " WHERE " ++ cnf c = ' ' :: ("WHERE".toList ++ ' ' :: cnf c) := rfl
    rw [e1]
    exact OptText.some_ (Prn.kw "WHERE" (by decide) dl_sp (Prn.space (prn_cnf hc h)) fun us h => .where_ rfl h)

theorem okCNF_condition {ss : List Source} {js : List CNF} (h1 : OkL ss) (h2 : ∀ j ∈ js, OkCNF j) : OkCNF (condition ss js) := by
  intro c hc
  unfold condition at hc
  rcases List.mem_append.1 hc with hc | hc
  · obtain ⟨f, hf, hc⟩ := List.mem_flatten.1 hc
    obtain ⟨s, hs, rfl⟩ := List.mem_map.1 hf
    have : ∀ ss : List Source, OkL ss → s ∈ ss → OkCNF s.filter := by
      intro ss
      induction ss with
      | nil => intro _ h; cases h
      | cons t ss ih =>
        intro h hm
        rcases List.mem_cons.1 hm with rfl | hm
        · cases s with
          | table => exact h.1.2.2
          | query => exact h.1.2.2
        · exact ih h.2 hm
    exact this ss h1 hs c hc
  · obtain ⟨j, hj, hc⟩ := List.mem_flatten.1 hc
    exact h2 j hj c hc

theorem prn_as {n : Str} (h : Ident n) : Prn (Spec.Alias (some n)) (S " AS " ++ n) := (prn_alias (al := some n) (by rintro m hm; cases hm; exact h)).1

theorem nested_text {q : Select} {a t : Str} (h : Prn (Spec.Sel false q) t) (ha : Ident a) :
    Prn (Spec.Src false (.nested q a)) (S "(" ++ (t ++ (S ") AS " ++ a))) := by
  have e1 : S "(" ++ (t ++ (S ") AS " ++ a)) = '(' :: (t ++ ')' :: (S " AS " ++ a)) := rfl
  rw [e1]
  refine Prn.lpar (R := fun us => ∃ vs ws, us = vs ++ rp :: ws ∧ Spec.Sel false q vs ∧ Spec.Alias (some a) ws) (Prn.append h
    (Q := fun us => ∃ ws, us = rp :: ws ∧ Spec.Alias (some a) ws) (Prn.rpar (prn_as ha) fun us h => ⟨us, rfl, h⟩) dl_rp ?_) ?_
  · rintro u _ h1 ⟨w, rfl, h2⟩
    exact ⟨u, w, rfl, h1, h2⟩
  · rintro _ ⟨v, w, rfl, h1, h2⟩
    exact .nested rfl rfl h1 h2

mutual

theorem graph_text : ∀ (g : Graph) (id : Nat), Ok g →
    ∃ t, translate id g = some (t, (selOf id g).2) ∧ Prn (Spec.Sel false (selOf id g).1) t
  | .mk ps ss js gs os l o, id, h => by
    obtain ⟨h1, h2, h3, h4, h5⟩ := h
    have hf : ∃ t, fromText id ss = some (t, (srcsOf id ss).2) ∧ OptText 0 (if ss = [] then none else some (.from_ (srcsOf id ss).1)) t := by
      cases ss with
      | nil => exact ⟨[], rfl, OptText.none_⟩
      | cons s ss =>
        obtain ⟨t, e1, p1⟩ := source_text s id h2.1
        obtain ⟨t', e2, d2, p2⟩ := sources_text ss (srcOf id s).2 h2.2
        refine ⟨S " FROM " ++ (t ++ t'), ?_, ?_⟩
        · simp only [fromText, e1, e2, srcsOf]
        · rw [if_neg (by simp)]
          have e3 : S " FROM " ++ (t ++ t') = ' ' :: ("FROM".toList ++ ' ' :: (t ++ t')) := rfl
          rw [e3]
          exact OptText.some_ (Prn.kw "FROM" (by decide) dl_sp (Prn.space (p2 _ _ p1)) fun us h => .from_ rfl h)
    obtain ⟨t, e, hf⟩ := hf
    refine ⟨_, ?_, sel_text (select_ok h1) hf (where_ok (okCNF_condition h2 h3)) (group_ok h4) (c3 := none) (t3 := []) OptText.none_
      (order_ok h5) (limit_ok l o)⟩
    simp only [translate, e, selOf, List.nil_append]

theorem sources_text : ∀ (ss : List Source) (id : Nat), OkL ss → ∃ t, moreSources id ss = some (t, (srcsOf id ss).2) ∧ Delim t ∧
    ∀ (s : Parse.Source) (a : Str), Prn (Spec.Src false s) a → Prn (Spec.Srcs false (s :: (srcsOf id ss).1)) (a ++ t)
  | [], id, _ => ⟨[], rfl, Delim.nil, fun s a h => by rw [List.append_nil]; exact h.imp fun us h => .one h⟩
  | s :: ss, id, h => by
    obtain ⟨t, e1, p1⟩ := source_text s id h.1
    obtain ⟨t', e2, d2, p2⟩ := sources_text ss (srcOf id s).2 h.2
    refine ⟨S ", " ++ (t ++ t'), by simp only [moreSources, e1, e2, srcsOf], dl_cm, fun s' a ha => ?_⟩
    have e3 : S ", " ++ (t ++ t') = ',' :: ' ' :: (t ++ t') := rfl
    rw [e3]
    refine Prn.append ha (Prn.comma (Prn.space (p2 _ _ p1)) (P := fun us => ∃ vs, us = cm :: vs ∧ Spec.Srcs false _ vs)
      fun us h => ⟨us, rfl, h⟩) dl_cm ?_
    rintro u _ h1 ⟨w, rfl, h2⟩
    exact .more h1 rfl h2

theorem source_text : ∀ (s : Source) (id : Nat), OkS s → ∃ t, source id s = some (t, (srcOf id s).2) ∧ Prn (Spec.Src false (srcOf id s).1) t
  | .table n a f, id, h => by
    obtain ⟨h1, ⟨b, rfl, h2⟩, _⟩ := h
    by_cases hb : n = b
    · subst hb
      refine ⟨n, by simp [source, srcOf], ?_⟩
      simp only [srcOf, if_pos]
      exact Prn.ident0 h1 (.table .none)
    · refine ⟨n ++ (S " AS " ++ b), by simp [source, srcOf, hb], ?_⟩
      simp only [srcOf]
      rw [if_neg (by simpa using fun h => hb h.symm)]
      exact Prn.ident h1 dl_sp (prn_as h2) fun us h => .table h
  | .query g a f, id, h => by
    obtain ⟨h1, h2, _⟩ := h
    obtain ⟨t, e1, p1⟩ := graph_text g id h1
    cases a with
    | some a => exact ⟨S "(" ++ (t ++ (S ") AS " ++ a)), by simp [source, srcOf, e1], nested_text p1 (h2 a rfl)⟩
    | none => exact ⟨S "(" ++ (t ++ (S ") AS " ++ uniqueAlias (selOf id g).2)), by simp [source, srcOf, e1], nested_text p1 (uniqueAlias_ident _)⟩

end

end Mutable.G2S
