import Verif.CNF.Model
/-! C17: conversion to conjunctive normal form preserves SQL's three-valued meaning. -/
namespace Mutable.CNF
open Mutable.SQL

/-! ### Specification -/

/-- SQL truth value of a Boolean expression.  `v` gives the value of atoms: leaves and operators that are not logical
connectives over Booleans (comparisons of numbers, LIKE, ...). -/
def sqlVal (Γ : Nat → Ty) (v : Expr → K3) : Expr → K3
  | .unary .not e => (sqlVal Γ v e).not
  | .binary .and l r => K3.and (sqlVal Γ v l) (sqlVal Γ v r)
  | .binary .or l r => K3.or (sqlVal Γ v l) (sqlVal Γ v r)
  | .binary .equal l r =>
    if typeOf Γ l = some .bool then K3.eq (sqlVal Γ v l) (sqlVal Γ v r) else v (.binary .equal l r)
  | .binary .bangEqual l r =>
    if typeOf Γ l = some .bool then K3.ne (sqlVal Γ v l) (sqlVal Γ v r) else v (.binary .bangEqual l r)
  | e => v e

/-- Truth value of a literal. -/
def Pred.val (v : Expr → K3) (p : Pred) : K3 := if p.negative then (v p.expr).not else v p.expr

/-- Truth value of a clause: SQL `OR` over its literals (FALSE when empty). -/
def Clause.val (v : Expr → K3) (c : Clause) : K3 := c.foldr (fun p acc => K3.or (p.val v) acc) .F

/-- Truth value of a CNF: SQL `AND` over its clauses (TRUE when empty). -/
def CNF.val (v : Expr → K3) (c : CNF) : K3 := c.foldr (fun cl acc => K3.and (Clause.val v cl) acc) .T

/-! ### Lemmas -/

@[simp] theorem clause_val_nil (v) : Clause.val v [] = .F := rfl
@[simp] theorem clause_val_cons (v p c) : Clause.val v (p :: c) = K3.or (Pred.val v p) (Clause.val v c) := rfl
@[simp] theorem cnf_val_nil (v) : CNF.val v [] = .T := rfl
@[simp] theorem cnf_val_cons (v p c) : CNF.val v (p :: c) = K3.and (Clause.val v p) (CNF.val v c) := rfl

theorem pred_neg_val (v p) : Pred.val v (Pred.neg p) = (Pred.val v p).not := by
  unfold Pred.val Pred.neg; cases h : p.negative <;> simp

theorem clause_or_val (v a b) : Clause.val v (Clause.or a b) = K3.or (Clause.val v a) (Clause.val v b) := by
  unfold Clause.or
  induction a with
  | nil => simp
  | cons p a ih => simp [ih, K3.or_assoc]

theorem cnf_append_val (v) (a b : CNF) : CNF.val v (a ++ b) = K3.and (CNF.val v a) (CNF.val v b) := by
  induction a with
  | nil => simp
  | cons p a ih => simp [ih, K3.and_assoc]

theorem cnf_and_val (v a b) : CNF.val v (CNF.and a b) = K3.and (CNF.val v a) (CNF.val v b) := cnf_append_val v a b

theorem map_or_val (v) (c : Clause) {b : CNF} :
    CNF.val v (b.map fun cr => Clause.or c cr) = K3.or (Clause.val v c) (CNF.val v b) := by
  induction b with
  | nil => simp
  | cons d b ih => simp [ih, clause_or_val, K3.or_and]

theorem cnf_or_val (v) {a b : CNF} (ha : a ≠ []) (hb : b ≠ []) :
    CNF.val v (CNF.or a b) = K3.or (CNF.val v a) (CNF.val v b) := by
  have h1 : a.length ≠ 0 := by simpa using ha
  have h2 : b.length ≠ 0 := by simpa using hb
  unfold CNF.or
  rw [if_neg h1, if_neg h2]
  clear ha h1
  induction a with
  | nil => simp
  | cons c a ih => rw [List.flatMap_cons, cnf_append_val, map_or_val, ih, cnf_val_cons, K3.and_or]

theorem cnf_or_ne_nil {a b : CNF} (ha : a ≠ []) : CNF.or a b ≠ [] := by
  unfold CNF.or
  have h1 : a.length ≠ 0 := by simpa using ha
  rw [if_neg h1]
  split
  · exact ha
  · rename_i h2
    obtain ⟨c, a, rfl⟩ := List.exists_cons_of_ne_nil ha
    obtain ⟨d, b, rfl⟩ := List.exists_cons_of_ne_nil (l := b) (by simpa using h2)
    simp

theorem cnf_or_ne_nil' {a b : CNF} (hb : b ≠ []) : CNF.or a b ≠ [] := by
  cases a with
  | nil => simpa [CNF.or] using hb
  | cons => exact cnf_or_ne_nil (by simp)

theorem clause_not_val (v c) : CNF.val v (Clause.not c) = (Clause.val v c).not := by
  unfold Clause.not
  induction c with
  | nil => rfl
  | cons p c ih => simp [ih, pred_neg_val, K3.not_or]

/-- A CNF without the two degenerate shapes: it has a clause and no clause is empty. -/
def Proper (c : CNF) : Prop := c ≠ [] ∧ ∀ cl ∈ c, cl ≠ []

theorem clause_not_proper {c : Clause} (h : c ≠ []) : Proper (Clause.not c) := by
  refine ⟨by simpa [Clause.not] using h, ?_⟩
  intro cl hcl
  simp only [Clause.not, List.mem_map] at hcl
  obtain ⟨p, -, rfl⟩ := hcl
  simp

theorem and_proper {a b : CNF} (ha : Proper a) (hb : Proper b) : Proper (CNF.and a b) := by
  refine ⟨by simp [CNF.and, ha.1], ?_⟩
  intro cl hcl
  rcases List.mem_append.1 hcl with h | h
  · exact ha.2 _ h
  · exact hb.2 _ h

theorem or_proper {a b : CNF} (ha : Proper a) (hb : Proper b) : Proper (CNF.or a b) := by
  refine ⟨cnf_or_ne_nil ha.1, ?_⟩
  intro cl hcl
  have h1 : a.length ≠ 0 := by simpa using ha.1
  have h2 : b.length ≠ 0 := by simpa using hb.1
  unfold CNF.or at hcl
  rw [if_neg h1, if_neg h2] at hcl
  simp only [List.mem_flatMap, List.mem_map] at hcl
  obtain ⟨c, hc, d, hd, rfl⟩ := hcl
  simp [Clause.or, ha.2 c hc]

theorem not_fold (v) : ∀ (c : CNF) (res : CNF), Proper res → (∀ cl ∈ c, cl ≠ []) →
    Proper (c.foldl (fun res cl => CNF.or res (Clause.not cl)) res) ∧
    CNF.val v (c.foldl (fun res cl => CNF.or res (Clause.not cl)) res) = K3.or (CNF.val v res) (CNF.val v c).not
  | [], res, h, _ => by simp [h, K3.not]
  | cl :: c, res, h, hc => by
    have hcl := clause_not_proper (hc cl (by simp))
    have := not_fold v c (CNF.or res (Clause.not cl)) (or_proper h hcl) (fun x hx => hc x (by simp [hx]))
    refine ⟨this.1, ?_⟩
    rw [List.foldl_cons, this.2, cnf_or_val v h.1 hcl.1, clause_not_val, cnf_val_cons, K3.not_and, K3.or_assoc]

theorem not_spec (v) {c : CNF} (h : Proper c) : Proper (CNF.not c) ∧ CNF.val v (CNF.not c) = (CNF.val v c).not := by
  obtain ⟨cl, c, rfl⟩ := List.exists_cons_of_ne_nil h.1
  have hcl := clause_not_proper (h.2 cl (by simp))
  have := not_fold v c (Clause.not cl) hcl (fun x hx => h.2 x (by simp [hx]))
  have e : CNF.or [] (Clause.not cl) = Clause.not cl := by simp [CNF.or]
  unfold CNF.not
  rw [List.foldl_cons, e]
  refine ⟨this.1, ?_⟩
  rw [this.2, clause_not_val, cnf_val_cons, K3.not_and]

theorem lit_proper (e n) : Proper (lit e n) := ⟨by simp [lit], by simp [lit]⟩

theorem lit_val (v e n) : CNF.val v (lit e n) = if n then (v e).not else v e := by
  simp [lit, Pred.val]

theorem gen_spec (Γ : Nat → Ty) (v : Expr → K3) : ∀ (e : Expr) (neg : Bool), typeOf Γ e = some .bool →
    ∃ c, gen Γ neg e = some c ∧ Proper c ∧
      CNF.val v c = if neg then (sqlVal Γ v e).not else sqlVal Γ v e := by
  intro e
  induction e with
  | leaf i => intro neg _; exact ⟨_, rfl, lit_proper _ _, by rw [lit_val]; rfl⟩
  | unary op e ih =>
    intro neg h
    cases op with
    | not =>
      have ht : typeOf Γ e = some .bool := by
        simp only [typeOf] at h; split at h
        · assumption
        · simp at h
      obtain ⟨c, h1, h2, h3⟩ := ih (!neg) ht
      refine ⟨c, h1, h2, ?_⟩
      rw [h3]
      cases neg <;> simp [sqlVal]
    | plus => exact ⟨_, rfl, lit_proper _ _, by rw [lit_val]; rfl⟩
    | minus => exact ⟨_, rfl, lit_proper _ _, by rw [lit_val]; rfl⟩
    | tilde => exact ⟨_, rfl, lit_proper _ _, by rw [lit_val]; rfl⟩
  | binary op l r ihl ihr =>
    intro neg h
    by_cases hb : typeOf Γ l = some .bool ∧ typeOf Γ r = some .bool
    · obtain ⟨cl, gl, pl, vl⟩ := ihl neg hb.1
      obtain ⟨cr, gr, pr, vr⟩ := ihr neg hb.2
      have nl := not_spec v pl
      have nr := not_spec v pr
      have eqv : Proper (CNF.and (CNF.or (CNF.not cl) cr) (CNF.or (CNF.not cr) cl)) :=
        and_proper (or_proper nl.1 pr) (or_proper nr.1 pl)
      have eqval : CNF.val v (CNF.and (CNF.or (CNF.not cl) cr) (CNF.or (CNF.not cr) cl))
          = K3.eq (CNF.val v cl) (CNF.val v cr) := by
        rw [cnf_and_val, cnf_or_val v nl.1.1 pr.1, cnf_or_val v nr.1.1 pl.1, nl.2, nr.2, K3.equiv_eq]
      have neqv := not_spec v eqv
      have andp := and_proper pl pr
      have orp := or_proper pl pr
      simp only [gen]
      rw [if_pos hb, gl, gr]
      simp only [typeOf, hb.1, hb.2] at h
      cases op <;> simp at h <;> cases neg <;> simp [sqlVal, andp, orp, eqv, neqv, eqval, hb.1, cnf_and_val,
        cnf_or_val v pl.1 pr.1, vl, vr, K3.not_and, K3.not_or, K3.not_eq, K3.not_ne, K3.eq_not] at *
    · refine ⟨_, by simp only [gen]; rw [if_neg hb], lit_proper _ _, ?_⟩
      rw [lit_val]
      have : sqlVal Γ v (.binary op l r) = v (.binary op l r) := by
        simp only [typeOf] at h
        cases hl : typeOf Γ l with
        | none => simp [hl] at h
        | some tl =>
          cases hr : typeOf Γ r with
          | none => simp [hl, hr] at h
          | some tr =>
            simp only [hl, hr] at h hb
            cases op <;> simp at h hb <;> simp_all [sqlVal]
      rw [this]

/-! ### Theorems -/

/-- C17: for every well-typed Boolean expression, `to_CNF` succeeds (it never reaches its unreachable branch), yields
at least one clause, no empty clause, and its three-valued truth value equals that of the expression under every
valuation of the atoms. -/
theorem C17_to_CNF_preserves_meaning (Γ : Nat → Ty) (e : Expr) (h : typeOf Γ e = some .bool) :
    ∃ c, toCNF Γ e = some c ∧ c ≠ [] ∧ (∀ cl ∈ c, cl ≠ []) ∧ ∀ v, CNF.val v c = sqlVal Γ v e := by
  obtain ⟨c, h1, h2, -⟩ := gen_spec Γ (fun _ => .N) e false h
  refine ⟨c, h1, h2.1, h2.2, fun v => ?_⟩
  obtain ⟨c', h1', -, h3⟩ := gen_spec Γ v e false h
  rw [h1] at h1'; cases h1'
  simpa using h3

/-- Non-trivial case: `NOT ((a = b) AND (x < y))` with Boolean `a`, `b` and numeric `x`, `y`. -/
example : let Γ : Nat → Ty := fun i => if i < 2 then .bool else .num
    typeOf Γ (.unary .not (.binary .and (.binary .equal (.leaf 0) (.leaf 1)) (.binary .less (.leaf 2) (.leaf 3))))
      = some .bool := by decide

/-- The atoms of an expression: the maximal sub-expressions that are not `NOT`, or a connective over Booleans. -/
def atoms (Γ : Nat → Ty) : Expr → List Expr
  | .unary .not e => atoms Γ e
  | .binary op l r =>
    if typeOf Γ l = some .bool ∧ typeOf Γ r = some .bool then atoms Γ l ++ atoms Γ r else [.binary op l r]
  | e => [e]

theorem mem_or {a b : CNF} {cl : Clause} (h : cl ∈ CNF.or a b) {p : Pred} (hp : p ∈ cl) :
    (∃ c ∈ a, p ∈ c) ∨ (∃ c ∈ b, p ∈ c) := by
  unfold CNF.or at h
  split at h
  · exact Or.inr ⟨_, h, hp⟩
  · split at h
    · exact Or.inl ⟨_, h, hp⟩
    · simp only [List.mem_flatMap, List.mem_map] at h
      obtain ⟨c, hc, d, hd, rfl⟩ := h
      rcases List.mem_append.1 hp with h | h
      · exact Or.inl ⟨_, hc, h⟩
      · exact Or.inr ⟨_, hd, h⟩

theorem mem_not {S : Expr → Prop} : ∀ (c res : CNF), (∀ cl ∈ res, ∀ p ∈ cl, S p.expr) → (∀ cl ∈ c, ∀ p ∈ cl, S p.expr) →
    ∀ cl ∈ c.foldl (fun res cl => CNF.or res (Clause.not cl)) res, ∀ p ∈ cl, S p.expr
  | [], res, h, _ => h
  | d :: c, res, h, hc => by
    refine mem_not c _ ?_ (fun x hx => hc x (by simp [hx]))
    intro cl hcl p hp
    rcases mem_or hcl hp with ⟨x, hx, hpx⟩ | ⟨x, hx, hpx⟩
    · exact h x hx p hpx
    · simp only [Clause.not, List.mem_map] at hx
      obtain ⟨q, hq, rfl⟩ := hx
      simp only [List.mem_singleton] at hpx
      subst hpx
      exact hc d (by simp) q hq

theorem mem_not' {S : Expr → Prop} {c : CNF} (hc : ∀ cl ∈ c, ∀ p ∈ cl, S p.expr) :
    ∀ cl ∈ CNF.not c, ∀ p ∈ cl, S p.expr := mem_not c [] (by simp) hc

theorem gen_atoms (Γ : Nat → Ty) : ∀ (e : Expr) (neg : Bool) (c : CNF), gen Γ neg e = some c →
    ∀ cl ∈ c, ∀ p ∈ cl, p.expr ∈ atoms Γ e := by
  intro e
  induction e with
  | leaf i => intro neg c h; simp [gen, lit] at h; subst h; simp [atoms]
  | unary op e ih =>
    intro neg c h
    cases op
    case not => simpa [atoms] using ih _ c h
    all_goals (simp [gen, lit] at h; subst h; simp [atoms])
  | binary op l r ihl ihr =>
    intro neg c h
    simp only [gen] at h
    by_cases hb : typeOf Γ l = some .bool ∧ typeOf Γ r = some .bool
    · rw [if_pos hb] at h
      simp only [Option.bind_eq_bind] at h
      obtain ⟨cl, hl, h⟩ := Option.bind_eq_some_iff.1 h
      obtain ⟨cr, hr, h⟩ := Option.bind_eq_some_iff.1 h
      have il : ∀ x ∈ cl, ∀ p ∈ x, p.expr ∈ atoms Γ l ++ atoms Γ r := fun x hx p hp =>
        List.mem_append_left _ (ihl _ _ hl x hx p hp)
      have ir : ∀ x ∈ cr, ∀ p ∈ x, p.expr ∈ atoms Γ l ++ atoms Γ r := fun x hx p hp =>
        List.mem_append_right _ (ihr _ _ hr x hx p hp)
      have hor : ∀ {a b : CNF}, (∀ x ∈ a, ∀ p ∈ x, p.expr ∈ atoms Γ l ++ atoms Γ r) →
          (∀ x ∈ b, ∀ p ∈ x, p.expr ∈ atoms Γ l ++ atoms Γ r) →
          ∀ x ∈ CNF.or a b, ∀ p ∈ x, p.expr ∈ atoms Γ l ++ atoms Γ r := by
        intro a b ha hb x hx p hp
        rcases mem_or hx hp with ⟨y, hy, hpy⟩ | ⟨y, hy, hpy⟩
        · exact ha y hy p hpy
        · exact hb y hy p hpy
      have hand : ∀ {a b : CNF}, (∀ x ∈ a, ∀ p ∈ x, p.expr ∈ atoms Γ l ++ atoms Γ r) →
          (∀ x ∈ b, ∀ p ∈ x, p.expr ∈ atoms Γ l ++ atoms Γ r) →
          ∀ x ∈ CNF.and a b, ∀ p ∈ x, p.expr ∈ atoms Γ l ++ atoms Γ r := by
        intro a b ha hb x hx p hp
        rcases List.mem_append.1 hx with h | h
        · exact ha x h p hp
        · exact hb x h p hp
      simp only [atoms, if_pos hb]
      split at h
      · cases h; exact hand il ir
      · split at h
        · cases h; exact hor il ir
        · split at h
          · have heq := hand (hor (mem_not' (S := (· ∈ atoms Γ l ++ atoms Γ r)) il) ir)
              (hor (mem_not' (S := (· ∈ atoms Γ l ++ atoms Γ r)) ir) il)
            split at h
            · cases h; exact mem_not' (S := (· ∈ atoms Γ l ++ atoms Γ r)) heq
            · cases h; exact heq
          · simp at h
    · rw [if_neg hb] at h
      simp only [lit, Option.some.injEq] at h
      subst h
      simp [atoms, if_neg hb]

/-- C17: every literal of the CNF is an atom of the expression (so evaluating the CNF needs nothing that the
expression does not need). -/
theorem C17_literals_are_atoms (Γ : Nat → Ty) (e : Expr) (c : CNF) (h : toCNF Γ e = some c) :
    ∀ cl ∈ c, ∀ p ∈ cl, p.expr ∈ atoms Γ e := gen_atoms Γ e false c h

example : (toCNF (fun _ => .bool) (.binary .or (.leaf 0) (.binary .and (.leaf 1) (.unary .not (.leaf 2))))) =
    some [[⟨.leaf 0, false⟩, ⟨.leaf 1, false⟩], [⟨.leaf 0, false⟩, ⟨.leaf 2, true⟩]] := by decide

theorem clause_le_of_mem (v) {c : Clause} {p : Pred} (h : p ∈ c) : K3.le (p.val v) (Clause.val v c) := by
  induction c with
  | nil => simp at h
  | cons q c ih =>
    rcases List.mem_cons.1 h with rfl | h
    · exact K3.le_or_left _ _
    · exact K3.le_trans (ih h) (K3.le_or_right _ _)

theorem clause_le (v) {c : Clause} {k : K3} (h : ∀ p ∈ c, K3.le (p.val v) k) : K3.le (Clause.val v c) k := by
  induction c with
  | nil => cases k <;> trivial
  | cons q c ih => exact K3.or_le (h q (by simp)) (ih fun p hp => h p (by simp [hp]))

theorem cnf_le_of_mem (v) {c : CNF} {cl : Clause} (h : cl ∈ c) : K3.le (CNF.val v c) (Clause.val v cl) := by
  induction c with
  | nil => simp at h
  | cons q c ih =>
    rcases List.mem_cons.1 h with rfl | h
    · exact K3.and_le_left _ _
    · exact K3.le_trans (K3.and_le_right _ _) (ih h)

theorem le_cnf (v) {c : CNF} {k : K3} (h : ∀ cl ∈ c, K3.le k (Clause.val v cl)) : K3.le k (CNF.val v c) := by
  induction c with
  | nil => cases k <;> trivial
  | cons q c ih => exact K3.le_and (h q (by simp)) (ih fun p hp => h p (by simp [hp]))

/-- C17: `a <= b` on clauses implies that `b` is at least as true as `a` under every valuation. -/
theorem C17_clause_le_sound (a b : Clause) (h : Clause.leb a b = true) (v) :
    K3.le (Clause.val v a) (Clause.val v b) := by
  refine clause_le v fun p hp => clause_le_of_mem v ?_
  simpa using List.all_eq_true.1 h p hp

theorem C17_clause_eq_sound (a b : Clause) (h : Clause.beq a b = true) (v) : Clause.val v a = Clause.val v b := by
  simp only [Clause.beq, Bool.and_eq_true] at h
  exact K3.le_antisymm (C17_clause_le_sound a b h.2 v) (C17_clause_le_sound b a h.1 v)

/-- C17: `a <= b` on CNFs (more clauses on the right) implies that `a` is at least as true as `b`. -/
theorem C17_cnf_le_sound (a b : CNF) (h : CNF.leb a b = true) (v) : K3.le (CNF.val v b) (CNF.val v a) := by
  refine le_cnf v fun cl hcl => ?_
  obtain ⟨d, hd, he⟩ := List.any_eq_true.1 (List.all_eq_true.1 h cl hcl)
  rw [← C17_clause_eq_sound d cl he v]
  exact cnf_le_of_mem v hd

/-- C17: CNFs that compare equal with `==` have the same truth value under every valuation. -/
theorem C17_cnf_eq_sound (a b : CNF) (h : CNF.beq a b = true) (v) : CNF.val v a = CNF.val v b := by
  simp only [CNF.beq, Bool.and_eq_true] at h
  exact K3.le_antisymm (C17_cnf_le_sound b a h.1 v) (C17_cnf_le_sound a b h.2 v)

/-- Duplicated and reordered literals and clauses compare equal. -/
example : CNF.beq [[⟨.leaf 0, false⟩, ⟨.leaf 1, true⟩], [⟨.leaf 2, false⟩]]
    [[⟨.leaf 2, false⟩, ⟨.leaf 2, false⟩], [⟨.leaf 1, true⟩, ⟨.leaf 0, false⟩]] = true := by decide

/-- C17 (operators on their own): on arbitrary CNFs with at least one clause, `and`, `or` are the SQL connectives. -/
theorem C17_connectives (a b : CNF) (ha : a ≠ []) (hb : b ≠ []) (v) :
    CNF.val v (CNF.and a b) = K3.and (CNF.val v a) (CNF.val v b) ∧
    CNF.val v (CNF.or a b) = K3.or (CNF.val v a) (CNF.val v b) :=
  ⟨cnf_and_val v a b, cnf_or_val v ha hb⟩

/-- C17 (limits of the operators): the empty CNF prints as TRUE, yet `or` with it is not TRUE, and `not` of it is not
FALSE.  These inputs never arise from `to_CNF` (`C17_to_CNF_preserves_meaning`). -/
theorem C17_empty_is_not_TRUE : ∃ (a : CNF) (v : Expr → K3),
    CNF.val v (CNF.or [] a) ≠ K3.or (CNF.val v []) (CNF.val v a) ∧ CNF.val v (CNF.not []) ≠ (CNF.val v []).not :=
  ⟨[[⟨.leaf 0, false⟩]], fun _ => .F, by decide, by decide⟩

end Mutable.CNF
