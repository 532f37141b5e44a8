import Verif.StackMachine.Lemmas

namespace Mutable.SM

variable {M : Mach} {env : Nat → Nat → Option SVal} {B : Prop}

/-- Everything the proof needs of the sub-expressions. -/
structure Good (M : Mach) (env : Nat → Nat → Option SVal) (B : Prop) (e : E) : Prop where
  attr : ∀ x ∈ subs e, AttrOK M env x
  scale : ∀ x ∈ subs e, ScaleOK x
  cat : ∀ x ∈ subs e, CatOK M.like env x
  div : ∀ x ∈ subs e, DivBad M.like env x → B

theorem Good.mono {e e' : E} (h : Good M env B e) (hs : ∀ x ∈ subs e', x ∈ subs e) : Good M env B e' :=
  ⟨fun x hx => h.attr x (hs x hx), fun x hx => h.scale x (hs x hx), fun x hx => h.cat x (hs x hx),
    fun x hx => h.div x (hs x hx)⟩

theorem self_mem_subs (e : E) : e ∈ subs e := by cases e <;> simp [subs]

abbrev Sound (M : Mach) (env : Nat → Nat → Option SVal) (B : Prop) (e : E) : Prop :=
  ∀ S, Post B (fun x => Holds e.ty x (sem M.like env e)) S (den M e S)

/-- Binary operators whose operands are brought to a common scale. -/
theorem scaled_post {l r : E} {op : Op} {P : Slot → Prop} {d d' : Bool} {s s' : Nat} (hl : l.ty = .num d s)
    (hr : r.ty = .num d' s') (h1 : max s s' - s ≤ 18) (h2 : max s s' - s' ≤ 18)
    (sl : Sound M env B l) (sr : Sound M env B r)
    (h : ∀ S x y, HoldsN (max s s') x (sem M.like env l) → HoldsN (max s s') y (sem M.like env r) →
      Post B P S (step M op (y :: x :: S))) (S : List Slot) :
    Post B P S (((((((den M l).seq (scaleD M l.ty (join l.ty r.ty))).seq (den M r)).seq
      (scaleD M r.ty (join l.ty r.ty)))).seq (step M op)) S) := by
  have e : ((((((den M l).seq (scaleD M l.ty (join l.ty r.ty))).seq (den M r)).seq
      (scaleD M r.ty (join l.ty r.ty)))).seq (step M op)) S =
      (((((den M l).seq (scaleD M l.ty (join l.ty r.ty)))).seq ((den M r).seq
      (scaleD M r.ty (join l.ty r.ty)))).seq (step M op)) S := by
    unfold Den.seq
    cases den M l S with
    | error e => rfl
    | ok T =>
      simp only [Except.bind]
      cases scaleD M l.ty (join l.ty r.ty) T with
      | error e => rfl
      | ok T => rfl
  rw [e]
  rw [hl, hr, join]
  refine Post.seq2 (P := fun x => HoldsN (max s s') x (sem M.like env l))
    (Q := fun x => HoldsN (max s s') x (sem M.like env r)) ?_ ?_ (fun x y hx hy => h S x y hx hy)
  · have := sl S
    refine Post.seq1 this (fun x hx => ?_)
    rw [hl] at hx
    exact scaleD_post M (by omega) h1 (Holds.num.1 hx) S
  · intro T
    have := sr T
    refine Post.seq1 this (fun x hx => ?_)
    rw [hr] at hx
    exact scaleD_post M (by omega) h2 (Holds.num.1 hx) T

theorem isNone_or {a b : Option SVal} {c : Option SVal} (h1 : a = none → c = none) (h2 : b = none → c = none)
    (h3 : a ≠ none → b ≠ none → c ≠ none) : (a.isNone || b.isNone) = c.isNone := by
  cases a with
  | none => simp [h1 rfl]
  | some a =>
    cases b with
    | none => simp [h2 rfl]
    | some b =>
      have := h3 (by simp) (by simp)
      cases c with
      | none => exact absurd rfl this
      | some c => rfl

theorem HoldsN.cases_val {s : Nat} {x : Slot} {o : Option SVal} (h : HoldsN s x o) :
    o = none ∨ ∃ z : ℤ, o = some (.num (z / 10 ^ s)) := by
  rcases h.split.2 with h | ⟨z, _, h⟩
  · exact Or.inl h
  · exact Or.inr ⟨z, h⟩

/-- The result of a numeric operation. -/
theorem arith_holds {op : Arith} {t : Nat} {a b w : ℤ} {sa sb : Nat} {oa ob : Option SVal} {x y : Slot}
    (hx : HoldsN sa x oa) (hy : HoldsN sb y ob)
    (h3 : ∀ v, oa = some v → v = .num (a / 10 ^ sa)) (h4 : ∀ v, ob = some v → v = .num (b / 10 ^ sb))
    (hw : oa ≠ none → ob ≠ none → arith op t (a / 10 ^ sa) (b / 10 ^ sb) = w / 10 ^ t) :
    HoldsN t (.i w, oa.isNone || ob.isNone)
      (arithVal op t oa ob) := by
  cases oa with
  | none => exact ⟨by simp [arithVal], w, rfl, by simp [arithVal]⟩
  | some va =>
    obtain rfl := h3 va rfl
    cases ob with
    | none => exact ⟨by simp [arithVal], w, rfl, by simp [arithVal]⟩
    | some vb =>
      obtain rfl := h4 vb rfl
      refine ⟨by simp [arithVal], w, rfl, ?_⟩
      intro v hv
      simp only [arithVal, Option.some.injEq] at hv
      rw [← hv, hw (by simp) (by simp)]

theorem Post.mono {P Q : Slot → Prop} {S : List Slot} {r : Except Err (List Slot)} (h : Post B P S r)
    (hpq : ∀ x, P x → Q x) : Post B Q S r := by
  cases r with
  | error e => exact h
  | ok st => obtain ⟨x, e, hx⟩ := h; exact ⟨x, e, hpq x hx⟩

/-- `/` of a machine integer by a power of ten. -/
theorem divF_post {k : Nat} {x : Slot} {P : Slot → Prop} (h18 : k ≤ 18) (S : List Slot) {z : ℤ} {n : Bool}
    (hx : x = (.i z, n)) (hP : P (.i (z.tdiv (10 ^ k)), n)) :
    Post B P S (((ldD (factor k)).seq (step M .divI)) (x :: S)) := by
  rw [seq_ld, step]
  subst hx
  rw [factor, wrap64_pow h18]
  simp only [binI, asI, bind, Except.bind, pure, Except.pure]
  have h0 : (10 : ℤ) ^ k ≠ 0 := by positivity
  rw [if_neg h0]
  rcases chk_cases (z.tdiv (10 ^ k)) with hc | hc
  · rw [hc]; exact ⟨_, rfl, by simpa using hP⟩
  · rw [hc]; exact Or.inl rfl

attribute [local irreducible] factor

theorem Holds.bool_cases {x : Slot} {o : Option SVal} (h : Holds .bool x o) :
    (o = none ∧ ∃ v, x = (v, true)) ∨ ∃ b, o = some (.bool b) ∧ x = (.b b, false) := by
  obtain ⟨v, n⟩ := x
  obtain ⟨h1, h2⟩ := h
  cases o with
  | none => left; exact ⟨rfl, v, by simpa using h1⟩
  | some w =>
    right
    obtain ⟨b, h3, h4⟩ := h2 w rfl
    simp at h1 h3
    exact ⟨b, by rw [h4], by rw [h1, h3]⟩

theorem Holds.str_cases {x : Slot} {o : Option SVal} (h : Holds .str x o) :
    ∃ t, (o = none ∧ x = (.s t, true)) ∨ (o = some (.str t) ∧ x = (.s t, false)) := by
  obtain ⟨v, n⟩ := x
  obtain ⟨h1, t, h2, h3⟩ := h
  refine ⟨t, ?_⟩
  simp only at h1 h2
  subst h2
  cases o with
  | none => left; exact ⟨rfl, by simpa using h1⟩
  | some w => right; exact ⟨by rw [h3 w rfl], by simpa using h1⟩

theorem Holds.date_cases {x : Slot} {o : Option SVal} (h : Holds .date x o) :
    ∃ t, (o = none ∧ x = (.i t, true)) ∨ (o = some (.date t) ∧ x = (.i t, false)) := by
  obtain ⟨v, n⟩ := x
  obtain ⟨h1, t, h2, h3⟩ := h
  refine ⟨t, ?_⟩
  simp only at h1 h2
  subst h2
  cases o with
  | none => left; exact ⟨rfl, by simpa using h1⟩
  | some w => right; exact ⟨by rw [h3 w rfl], by simpa using h1⟩

theorem Holds.num_cases {d : Bool} {s : Nat} {x : Slot} {o : Option SVal} (h : Holds (.num d s) x o) :
    ∃ t : ℤ, (o = none ∧ x = (.i t, true)) ∨ (o = some (.num (t / 10 ^ s)) ∧ x = (.i t, false)) := by
  obtain ⟨v, n⟩ := x
  obtain ⟨h1, t, h2, h3⟩ := h
  refine ⟨t, ?_⟩
  simp only at h1 h2
  subst h2
  cases o with
  | none => left; exact ⟨rfl, by simpa using h1⟩
  | some w => right; exact ⟨by rw [h3 w rfl], by simpa using h1⟩

theorem andB_post (S : List Slot) {x y : Slot} {a b : Option SVal} (hx : Holds .bool x a) (hy : Holds .bool y b) :
    Post B (fun z => Holds .bool z (ofK3 ((k3 a).and (k3 b)))) S (step M .andB (y :: x :: S)) := by
  rcases hx.bool_cases with ⟨rfl, v, rfl⟩ | ⟨p, rfl, rfl⟩ <;> rcases hy.bool_cases with ⟨rfl, w, rfl⟩ | ⟨q, rfl, rfl⟩
  · refine ⟨_, rfl, ?_⟩
    refine ⟨by simp [k3, ofK3, SQL.K3.and], by intro v hv; simp [k3, ofK3, SQL.K3.and] at hv⟩
  · refine ⟨_, rfl, ?_⟩
    cases q <;> cases h : asB M v <;> simp [k3, ofK3, SQL.K3.and, Holds, asB]
  · refine ⟨_, rfl, ?_⟩
    cases p <;> cases h : asB M w <;> simp [k3, ofK3, SQL.K3.and, Holds, asB]
  · refine ⟨_, rfl, ?_⟩
    cases p <;> cases q <;> simp [k3, ofK3, SQL.K3.and, Holds, asB]

theorem orB_post (S : List Slot) {x y : Slot} {a b : Option SVal} (hx : Holds .bool x a) (hy : Holds .bool y b) :
    Post B (fun z => Holds .bool z (ofK3 ((k3 a).or (k3 b)))) S (step M .orB (y :: x :: S)) := by
  rcases hx.bool_cases with ⟨rfl, v, rfl⟩ | ⟨p, rfl, rfl⟩ <;> rcases hy.bool_cases with ⟨rfl, w, rfl⟩ | ⟨q, rfl, rfl⟩
  · refine ⟨_, rfl, ?_⟩
    refine ⟨by simp [k3, ofK3, SQL.K3.or], by intro v hv; simp [k3, ofK3, SQL.K3.or] at hv⟩
  · refine ⟨_, rfl, ?_⟩
    cases q <;> cases h : asB M v <;> simp [k3, ofK3, SQL.K3.or, Holds, asB]
  · refine ⟨_, rfl, ?_⟩
    cases p <;> cases h : asB M w <;> simp [k3, ofK3, SQL.K3.or, Holds, asB]
  · refine ⟨_, rfl, ?_⟩
    cases p <;> cases q <;> simp [k3, ofK3, SQL.K3.or, Holds, asB]

open Classical in
theorem den_post (hre : M.re = M.like) (e : E) (hwt : WT e) (hg : Good M env B e) : Sound M env B e := by
  induction e with
  | attr t i ty =>
    intro S
    obtain ⟨h1, h2, h3⟩ := hg.attr _ (self_mem_subs _)
    simp only [den, step, sem, E.ty, Nat.mod_eq_of_lt h1, Nat.mod_eq_of_lt h2]
    exact ⟨_, rfl, h3⟩
  | const v ty =>
    intro S
    refine ⟨_, rfl, ?_⟩
    cases ty <;> cases v <;> simp only [WT] at hwt <;> simp only [sem, E.ty, Holds]
    · exact ⟨rfl, _, rfl, by rintro v ⟨⟩; rfl⟩
    · exact ⟨rfl, by rintro v ⟨⟩; exact ⟨_, rfl, rfl⟩⟩
    · exact ⟨rfl, _, rfl, by rintro v ⟨⟩; rfl⟩
    · exact ⟨rfl, _, rfl, by rintro v ⟨⟩; rfl⟩
  | null => intro S; exact ⟨_, rfl, rfl, rfl⟩
  | isNull e ih =>
    intro S
    refine Post.seq1 (ih hwt (hg.mono (by simp [subs]; tauto)) S) (fun x hx => ?_)
    refine ⟨_, rfl, rfl, ?_⟩
    intro v hv
    simp only [sem, Option.some.injEq] at hv
    exact ⟨_, rfl, by rw [← hv, hx.1]⟩
  | castInt e ih =>
    intro S
    have ih := ih hwt.1 (hg.mono (by simp [subs]; tauto))
    simp only [den, E.ty]
    by_cases hb : e.ty = .bool
    · rw [if_pos hb]
      refine Post.seq1 (ih S) (fun x hx => ?_)
      rw [hb] at hx
      simp only [sem]
      rcases hx.bool_cases with ⟨ho, v, rfl⟩ | ⟨b, ho, rfl⟩
      · rw [ho]; exact ⟨_, rfl, rfl, _, rfl, by simp⟩
      · rw [ho]
        refine ⟨_, rfl, rfl, _, rfl, ?_⟩
        rintro v ⟨⟩
        cases b <;> simp [asB]
    · rw [if_neg hb]
      have hn : e.ty = .num false 0 := by rcases hwt.2 with h | h; exact absurd h hb; exact h
      refine (ih S).mono (fun x hx => ?_)
      rw [hn] at hx
      simp only [sem]
      obtain ⟨t, ⟨ho, rfl⟩ | ⟨ho, rfl⟩⟩ := hx.num_cases
      · rw [ho]; exact ⟨rfl, _, rfl, by simp⟩
      · rw [ho]; exact ⟨rfl, _, rfl, by rintro v ⟨⟩; rfl⟩
  | un op e ih =>
    intro S
    have ih := ih hwt.1 (hg.mono (by simp [subs]; tauto))
    have hw := hwt.2
    cases op with
    | plus => exact ih S
    | minus =>
      obtain ⟨d, s, ht⟩ := hw
      refine Post.seq1 (ih S) (fun x hx => ?_)
      simp only [E.ty, sem]
      rw [ht] at hx ⊢
      obtain ⟨t, h⟩ := hx.num_cases
      have key : ∀ n, Post B (fun y => ∃ n', n' = n ∧ y = (.i (-t), n')) S (step M .minusI ((.i t, n) :: S)) := by
        intro n
        simp only [step, unI, asI, bind, Except.bind, pure, Except.pure]
        rcases chk_cases (-t) with hc | hc
        · rw [hc]; exact ⟨_, rfl, _, rfl, rfl⟩
        · rw [hc]; exact Or.inl rfl
      rcases h with ⟨ho, rfl⟩ | ⟨ho, rfl⟩
      · refine (key true).mono ?_
        rintro y ⟨n', rfl, rfl⟩
        rw [ho]; exact ⟨rfl, _, rfl, by simp⟩
      · refine (key false).mono ?_
        rintro y ⟨n', rfl, rfl⟩
        rw [ho]
        refine ⟨rfl, _, rfl, ?_⟩
        rintro v ⟨⟩
        push_cast; rw [neg_div]
    | tilde =>
      obtain ⟨d, ht⟩ := hw
      simp only [den]
      rw [if_neg (by rw [ht]; simp)]
      refine Post.seq1 (ih S) (fun x hx => ?_)
      simp only [E.ty, sem]
      rw [ht] at hx ⊢
      obtain ⟨t, ⟨ho, rfl⟩ | ⟨ho, rfl⟩⟩ := hx.num_cases
      · rw [ho]; exact ⟨_, rfl, rfl, _, rfl, by simp⟩
      · rw [ho]
        refine ⟨_, rfl, rfl, _, rfl, ?_⟩
        rintro v ⟨⟩
        push_cast; simp
    | not =>
      refine Post.seq1 (ih S) (fun x hx => ?_)
      simp only [E.ty, sem]
      rw [show e.ty = .bool from hw] at hx ⊢
      rcases hx.bool_cases with ⟨ho, v, rfl⟩ | ⟨b, ho, rfl⟩
      · rw [ho]; exact ⟨_, rfl, rfl, by intro v hv; cases hv⟩
      · rw [ho]
        refine ⟨_, rfl, ?_⟩
        cases b
        · exact ⟨rfl, by rintro v ⟨⟩; exact ⟨_, rfl, rfl⟩⟩
        · exact ⟨rfl, by rintro v ⟨⟩; exact ⟨_, rfl, rfl⟩⟩
  | ar op l r ihl ihr =>
    intro S
    obtain ⟨w1, w2, ⟨d, s, hl⟩, ⟨d', s', hr⟩⟩ := hwt
    have ihl := ihl w1 (hg.mono (by simp [subs]; tauto))
    have ihr := ihr w2 (hg.mono (by simp [subs]; tauto))
    have hsc := hg.scale _ (self_mem_subs _)
    have hdiv := hg.div _ (self_mem_subs _)
    have tyE : (E.ar op l r).ty = .num (d || d') (max s s') := by simp [E.ty, hl, hr, join]
    rw [tyE]
    have semE : sem M.like env (.ar op l r) = arithVal op (max s s') (sem M.like env l) (sem M.like env r) := by simp only [sem, hl, hr, join, ETy.scale]
    rw [semE]
    cases op with
    | add =>
      simp only [ScaleOK, hl, hr, join, ETy.scale] at hsc
      refine scaled_post hl hr hsc.1 hsc.2 ihl ihr ?_ S
      intro S x y hx hy
      refine binI_post hx hy S (fun a b e _ h => Or.inl (chk_bind_err h)) ?_
      intro a b w _ _ h h3 h4
      rw [chk_bind_ok h]
      refine Holds.num.2 (arith_holds hx hy h3 h4 ?_)
      intro _ _; simp only [arith]; push_cast; rw [add_div]
    | sub =>
      simp only [ScaleOK, hl, hr, join, ETy.scale] at hsc
      refine scaled_post hl hr hsc.1 hsc.2 ihl ihr ?_ S
      intro S x y hx hy
      refine binI_post hx hy S (fun a b e _ h => Or.inl (chk_bind_err h)) ?_
      intro a b w _ _ h h3 h4
      rw [chk_bind_ok h]
      refine Holds.num.2 (arith_holds hx hy h3 h4 ?_)
      intro _ _; simp only [arith]; push_cast; rw [sub_div]
    | mul =>
      simp only [ScaleOK, hl, hr, join, ETy.scale] at hsc
      have hk : s + s' - max s s' ≤ 18 := hsc
      have ke : s + s' = max s s' + (s + s' - max s s') := by omega
      simp only [den, hl, hr, join, ETy.scale]
      have first : ∀ (P : Slot → Prop), (∀ a b : ℤ, ∀ x y, HoldsN s x (sem M.like env l) → HoldsN s' y (sem M.like env r) →
          (∀ v, sem M.like env l = some v → v = .num (a / 10 ^ s)) →
          (∀ v, sem M.like env r = some v → v = .num (b / 10 ^ s')) →
          P (.i (a * b), (sem M.like env l).isNone || (sem M.like env r).isNone)) →
          Post B P S (((den M l).seq (den M r)).seq (step M .mulI) S) := by
        intro P hP
        refine Post.seq2 (ihl S) ihr ?_
        intro x y hx hy
        rw [hl] at hx; rw [hr] at hy
        refine binI_post hx hy S (fun a b e _ h => Or.inl (chk_bind_err h)) ?_
        intro a b w _ _ h h3 h4
        rw [chk_bind_ok h]
        exact hP a b x y hx hy h3 h4
      by_cases h0 : s + s' - max s s' = 0
      · rw [if_neg (by simpa using h0)]
        refine first _ ?_
        intro a b x y hx hy h3 h4
        refine Holds.num.2 (arith_holds hx hy h3 h4 ?_)
        intro _ _
        rw [arith, mul_repr ke, h0]; simp
      · rw [if_pos (by simpa using h0)]
        have assoc : ((((((den M l).seq (den M r)).seq (step M .mulI)).seq (ldD (factor (s + s' - max s s'))))).seq
            (step M .divI)) S = ((((den M l).seq (den M r)).seq (step M .mulI)).seq
            ((ldD (factor (s + s' - max s s'))).seq (step M .divI))) S := by
          simp only [Den.seq]
          generalize (((den M l S).bind (den M r)).bind (step M .mulI)) = q
          cases q <;> rfl
        rw [assoc]
        refine Post.seq1 (first (fun z => ∃ q : ℤ, ∃ n, z = (.i q, n) ∧ Holds (.num (d || d') (max s s'))
          (.i (q.tdiv (10 ^ (s + s' - max s s'))), n) (arithVal .mul (max s s') (sem M.like env l) (sem M.like env r)))
          ?_) ?_
        · intro a b x y hx hy h3 h4
          refine ⟨_, _, rfl, Holds.num.2 (arith_holds (op := .mul) hx hy h3 h4 ?_)⟩
          intro _ _
          rw [arith, mul_repr ke]
        · rintro x ⟨q, n, rfl, hh⟩
          generalize s + s' - max s s' = k at hk hh ⊢
          refine divF_post hk S rfl ?_
          exact hh
    | div =>
      simp only [ScaleOK, hl, hr, join, ETy.scale] at hsc
      have hm : max s s' + s' - s ≤ 18 := hsc
      simp only [den, hl, hr, join, ETy.scale]
      rw [if_neg (show ¬ ((s : ℤ) - s' > ((max s s' : ℕ) : ℤ)) by omega)]
      have main : ∀ f : Den, ∀ m : ℕ, m + s = max s s' + s' →
          (∀ S, Post B (fun x => HoldsN (s + m) x (sem M.like env l)) S (f S)) →
          Post B (fun x => Holds (.num (d || d') (max s s')) x
            (arithVal .div (max s s') (sem M.like env l) (sem M.like env r))) S ((f.seq (den M r)).seq (step M .divI) S) := by
        intro f m hms hf
        refine Post.seq2 (hf S) ihr ?_
        intro x y hx hy
        rw [hr] at hy
        refine binI_post hx hy S ?_ ?_
        · intro a b e hyb h
          by_cases hb : b = 0
          · rw [if_pos hb] at h
            injection h with h
            refine Or.inr ⟨h.symm, hdiv ?_⟩
            show _ ∨ _
            rcases (Holds.num.1 hy).split.2 with h' | ⟨z, hz, h'⟩
            · exact Or.inl h'
            · right
              rw [hyb] at hz
              injection hz with h1 _; injection h1 with h1; subst h1
              rw [h', hb]; simp
          · rw [if_neg hb] at h; exact Or.inl (chk_bind_err h)
        · intro a b w hxa hyb h h3 h4
          by_cases hb : b = 0
          · rw [if_pos hb] at h; cases h
          · rw [if_neg hb] at h
            rw [chk_bind_ok h]
            refine Holds.num.2 (arith_holds hx hy h3 h4 ?_)
            intro _ _
            rw [arith, div_repr (m := 0) (by omega) hb]
            simp
      by_cases h0 : (s : ℤ) - s' < ((max s s' : ℕ) : ℤ)
      · rw [if_pos h0]
        have hmm : ((((max s s' : ℕ) : ℤ) - ((s : ℤ) - s')).toNat) = max s s' + s' - s := by omega
        rw [hmm]
        refine main _ (max s s' + s' - s) (by omega) ?_
        intro S
        have assoc : (((den M l).seq (ldD (factor (max s s' + s' - s)))).seq (step M .mulI)) S =
            ((den M l).seq ((ldD (factor (max s s' + s' - s))).seq (step M .mulI))) S := by
          simp only [Den.seq]
          generalize den M l S = q
          cases q <;> rfl
        rw [assoc]
        refine Post.seq1 (ihl S) (fun x hx => ?_)
        rw [hl] at hx
        exact mulF_post M hm (Holds.num.1 hx) S
      · rw [if_neg h0]
        refine main _ 0 (by omega) ?_
        intro S
        have := ihl S
        rw [hl] at this
        exact this
    | mod =>
      simp only [ScaleOK, hl, hr, join, ETy.scale] at hsc
      have hm : s = 0 ∧ s' = 0 := hsc
      obtain ⟨rfl, rfl⟩ := hm
      refine Post.seq2 (ihl S) ihr ?_
      intro x y hx hy
      rw [hl] at hx; rw [hr] at hy
      refine binI_post hx hy S ?_ ?_
      · intro a b e hyb h
        by_cases hb : b = 0
        · rw [if_pos hb] at h
          injection h with h
          refine Or.inr ⟨h.symm, hdiv ?_⟩
          show _ ∨ _
          rcases (Holds.num.1 hy).split.2 with h' | ⟨z, hz, h'⟩
          · exact Or.inl h'
          · right
            rw [hyb] at hz
            injection hz with h1 _; injection h1 with h1; subst h1
            rw [h', hb]; simp
        · rw [if_neg hb] at h
          left
          rcases chk_cases (a.tdiv b) with hc | hc
          · rw [hc] at h; cases h
          · rw [hc] at h; cases h; rfl
      · intro a b w hxa hyb h h3 h4
        by_cases hb : b = 0
        · rw [if_pos hb] at h; cases h
        · rw [if_neg hb] at h
          have hw : w = .i (a.tmod b) := by
            rcases chk_cases (a.tdiv b) with hc | hc
            · rw [hc] at h; cases h; rfl
            · rw [hc] at h; cases h
          rw [hw]
          refine Holds.num.2 (arith_holds hx hy h3 h4 ?_)
          intro _ _
          have := mod_repr a b
          simp only [arith]
          simpa using this
  | cat l r ihl ihr =>
    intro S
    obtain ⟨w1, w2, hl, hr⟩ := hwt
    have ihl := ihl w1 (hg.mono (by simp [subs]; tauto))
    have ihr := ihr w2 (hg.mono (by simp [subs]; tauto))
    obtain ⟨c1, c2⟩ := hg.cat _ (self_mem_subs _)
    refine Post.seq2 (ihl S) ihr ?_
    intro x y hx hy
    rw [hl] at hx; rw [hr] at hy
    obtain ⟨t, ⟨ho, rfl⟩ | ⟨ho, rfl⟩⟩ := hx.str_cases
    · exact absurd ho c1
    obtain ⟨u, ⟨ho', rfl⟩ | ⟨ho', rfl⟩⟩ := hy.str_cases
    · exact absurd ho' c2
    refine ⟨_, rfl, ?_⟩
    simp only [sem, E.ty]
    rw [ho, ho']
    exact ⟨rfl, _, rfl, by rintro v ⟨⟩; rfl⟩
  | cmp c l r ihl ihr =>
    intro S
    obtain ⟨w1, w2, hc⟩ := hwt
    have ihl := ihl w1 (hg.mono (by simp [subs]; tauto))
    have ihr := ihr w2 (hg.mono (by simp [subs]; tauto))
    have hsc := hg.scale _ (self_mem_subs _)
    have tyE : (E.cmp c l r).ty = .bool := rfl
    rw [tyE]
    simp only [sem]
    rcases hc with ⟨⟨d, s, hl⟩, ⟨d', s', hr⟩⟩ | ⟨hl, hr, hc⟩ | ⟨hl, hr⟩ | ⟨hl, hr⟩
    · simp only [ScaleOK, hl, hr, join, ETy.scale] at hsc
      have denE : den M (.cmp c l r) = ((((den M l).seq (scaleD M l.ty (join l.ty r.ty))).seq (den M r)).seq
          (scaleD M r.ty (join l.ty r.ty))).seq (step M (.cmpI c)) := by
        simp only [den]; rw [hl]
      rw [denE]
      refine scaled_post hl hr hsc.1 hsc.2 ihl ihr ?_ S
      intro S x y hx hy
      obtain ⟨t, ⟨ho, rfl⟩ | ⟨ho, rfl⟩⟩ := (Holds.num (d := d).2 hx).num_cases
      · obtain ⟨u, ⟨ho', rfl⟩ | ⟨ho', rfl⟩⟩ := (Holds.num (d := d).2 hy).num_cases <;>
          (rw [ho, ho']; exact ⟨_, rfl, rfl, by intro v hv; cases hv⟩)
      · obtain ⟨u, ⟨ho', rfl⟩ | ⟨ho', rfl⟩⟩ := (Holds.num (d := d).2 hy).num_cases
        · rw [ho, ho']; exact ⟨_, rfl, rfl, by intro v hv; cases hv⟩
        · rw [ho, ho']
          refine ⟨_, rfl, rfl, ?_⟩
          rintro v ⟨⟩
          refine ⟨_, rfl, ?_⟩
          rw [cmpInt_spec]
          congr 1
          exact decide_eq_decide.2 (cmpSpec_scale c t u _)
    · have denE : den M (.cmp c l r) = ((den M l).seq (den M r)).seq (step M (.cmpB c)) := by
        simp only [den]; rw [hl]
      rw [denE]
      refine Post.seq2 (ihl S) ihr ?_
      intro x y hx hy
      rw [hl] at hx; rw [hr] at hy
      rcases hx.bool_cases with ⟨ho, v, rfl⟩ | ⟨b, ho, rfl⟩ <;>
        rcases hy.bool_cases with ⟨ho', v', rfl⟩ | ⟨b', ho', rfl⟩
      · rw [ho, ho']; exact ⟨_, rfl, rfl, by intro v hv; cases hv⟩
      · rw [ho, ho']; exact ⟨_, rfl, rfl, by intro v hv; cases hv⟩
      · rw [ho, ho']; exact ⟨_, rfl, rfl, by intro v hv; cases hv⟩
      · rw [ho, ho']
        refine ⟨_, rfl, rfl, ?_⟩
        rintro v ⟨⟩
        refine ⟨_, rfl, ?_⟩
        congr 1
        exact (cmpBool_spec hc b b').symm
    · have denE : den M (.cmp c l r) = ((den M l).seq (den M r)).seq (step M (.cmpS c)) := by
        simp only [den]; rw [hl]
      rw [denE]
      refine Post.seq2 (ihl S) ihr ?_
      intro x y hx hy
      rw [hl] at hx; rw [hr] at hy
      obtain ⟨t, ⟨ho, rfl⟩ | ⟨ho, rfl⟩⟩ := hx.str_cases <;> obtain ⟨u, ⟨ho', rfl⟩ | ⟨ho', rfl⟩⟩ := hy.str_cases
      · rw [ho, ho']; exact ⟨_, rfl, rfl, by intro v hv; cases hv⟩
      · rw [ho, ho']; exact ⟨_, rfl, rfl, by intro v hv; cases hv⟩
      · rw [ho, ho']; exact ⟨_, rfl, rfl, by intro v hv; cases hv⟩
      · rw [ho, ho']
        refine ⟨_, rfl, rfl, ?_⟩
        rintro v ⟨⟩
        exact ⟨_, rfl, by rw [cmpStr_spec]⟩
    · have denE : den M (.cmp c l r) = ((den M l).seq (den M r)).seq (step M (.cmpI c)) := by
        simp only [den]; rw [hl]
      rw [denE]
      refine Post.seq2 (ihl S) ihr ?_
      intro x y hx hy
      rw [hl] at hx; rw [hr] at hy
      obtain ⟨t, ⟨ho, rfl⟩ | ⟨ho, rfl⟩⟩ := hx.date_cases <;> obtain ⟨u, ⟨ho', rfl⟩ | ⟨ho', rfl⟩⟩ := hy.date_cases
      · rw [ho, ho']; exact ⟨_, rfl, rfl, by intro v hv; cases hv⟩
      · rw [ho, ho']; exact ⟨_, rfl, rfl, by intro v hv; cases hv⟩
      · rw [ho, ho']; exact ⟨_, rfl, rfl, by intro v hv; cases hv⟩
      · rw [ho, ho']
        refine ⟨_, rfl, rfl, ?_⟩
        rintro v ⟨⟩
        exact ⟨_, rfl, by rw [cmpInt_spec]⟩
  | likeC l p ih =>
    intro S
    obtain ⟨w1, hl⟩ := hwt
    have ih := ih w1 (hg.mono (by simp [subs]; tauto))
    have assoc : den M (.likeC l p) S = ((den M l).seq ((ldD (.s p)).seq (step M .likeConst))) S := by
      simp only [den, Den.seq]
      generalize den M l S = q
      cases q <;> rfl
    rw [assoc]
    refine Post.seq1 (ih S) (fun x hx => ?_)
    rw [hl] at hx
    simp only [sem, E.ty]
    obtain ⟨t, ⟨ho, rfl⟩ | ⟨ho, rfl⟩⟩ := hx.str_cases
    · rw [ho]; exact ⟨_, rfl, rfl, by intro v hv; cases hv⟩
    · rw [ho]
      refine ⟨_, rfl, rfl, ?_⟩
      rintro v ⟨⟩
      exact ⟨_, rfl, by rw [hre]⟩
  | like l r ihl ihr =>
    intro S
    obtain ⟨w1, w2, hl, hr⟩ := hwt
    have ihl := ihl w1 (hg.mono (by simp [subs]; tauto))
    have ihr := ihr w2 (hg.mono (by simp [subs]; tauto))
    refine Post.seq2 (ihl S) ihr ?_
    intro x y hx hy
    rw [hl] at hx; rw [hr] at hy
    simp only [sem, E.ty]
    obtain ⟨t, ⟨ho, rfl⟩ | ⟨ho, rfl⟩⟩ := hx.str_cases <;> obtain ⟨u, ⟨ho', rfl⟩ | ⟨ho', rfl⟩⟩ := hy.str_cases
    · rw [ho, ho']; exact ⟨_, rfl, rfl, by intro v hv; cases hv⟩
    · rw [ho, ho']; exact ⟨_, rfl, rfl, by intro v hv; cases hv⟩
    · rw [ho, ho']; exact ⟨_, rfl, rfl, by intro v hv; cases hv⟩
    · rw [ho, ho']; exact ⟨_, rfl, rfl, by rintro v ⟨⟩; exact ⟨_, rfl, rfl⟩⟩
  | and l r ihl ihr =>
    intro S
    obtain ⟨w1, w2, hl, hr⟩ := hwt
    have ihl := ihl w1 (hg.mono (by simp [subs]; tauto))
    have ihr := ihr w2 (hg.mono (by simp [subs]; tauto))
    refine Post.seq2 (ihl S) ihr ?_
    intro x y hx hy
    rw [hl] at hx; rw [hr] at hy
    exact andB_post S hx hy
  | or l r ihl ihr =>
    intro S
    obtain ⟨w1, w2, hl, hr⟩ := hwt
    have ihl := ihl w1 (hg.mono (by simp [subs]; tauto))
    have ihr := ihr w2 (hg.mono (by simp [subs]; tauto))
    refine Post.seq2 (ihl S) ihr ?_
    intro x y hx hy
    rw [hl] at hx; rw [hr] at hy
    exact orB_post S hx hy

end Mutable.SM
