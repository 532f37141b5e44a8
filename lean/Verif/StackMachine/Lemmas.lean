import Verif.StackMachine.Spec

namespace Mutable.SM

/-! ### Arithmetic -/

theorem tr_neg (q : ℚ) : tr (-q) = - tr q := by
  unfold tr
  rcases lt_trichotomy q 0 with h | h | h
  · rw [if_pos (by linarith), if_neg (by linarith), Int.floor_neg]
  · subst h; simp
  · rw [if_neg (by linarith), if_pos h.le, Int.ceil_neg]

theorem tr_nat (m n : ℕ) : tr ((m : ℚ) / n) = ((m / n : ℕ) : ℤ) := by
  unfold tr
  rw [if_pos (by positivity)]
  have := Rat.floor_intCast_div_natCast (m : ℤ) n
  rw [Int.cast_natCast] at this
  rw [this]; simp

theorem tr_div (n d : ℤ) : tr ((n : ℚ) / d) = n.tdiv d := by
  rcases Int.eq_nat_or_neg n with ⟨a, rfl | rfl⟩ <;> rcases Int.eq_nat_or_neg d with ⟨b, rfl | rfl⟩
  · rw [Int.cast_natCast, Int.cast_natCast, tr_nat]; rfl
  · rw [Int.cast_neg, Int.cast_natCast, Int.cast_natCast, div_neg, tr_neg, tr_nat, Int.tdiv_neg]; rfl
  · rw [Int.cast_neg, Int.cast_natCast, Int.cast_natCast, neg_div, tr_neg, tr_nat, Int.neg_tdiv]; rfl
  · rw [Int.cast_neg, Int.cast_neg, Int.cast_natCast, Int.cast_natCast, neg_div_neg_eq, tr_nat, Int.neg_tdiv,
      Int.tdiv_neg, neg_neg]; rfl

theorem wrap64_pow {k : Nat} (h : k ≤ 18) : wrap64 (10 ^ k) = 10 ^ k := by
  unfold wrap64
  have h1 : (10 : ℤ) ^ k ≤ 10 ^ 18 := by exact_mod_cast Nat.pow_le_pow_right (by omega) h
  have h2 : (0 : ℤ) < 10 ^ k := by positivity
  rw [Int.emod_eq_of_lt] <;> omega

theorem mul_repr {a b : ℤ} {sa sb s k : Nat} (h : sa + sb = s + k) :
    truncTo s ((a : ℚ) / 10 ^ sa * ((b : ℚ) / 10 ^ sb)) = ((a * b).tdiv (10 ^ k) : ℤ) / 10 ^ s := by
  unfold truncTo
  have e : (a : ℚ) / 10 ^ sa * ((b : ℚ) / 10 ^ sb) * 10 ^ s = ((a * b : ℤ) : ℚ) / ((10 ^ k : ℤ) : ℚ) := by
    have h10 : (10 : ℚ) ^ sa * 10 ^ sb = 10 ^ s * 10 ^ k := by rw [← pow_add, ← pow_add, h]
    push_cast
    have p1 : (10 : ℚ) ^ sa ≠ 0 := by positivity
    have p2 : (10 : ℚ) ^ sb ≠ 0 := by positivity
    have p3 : (10 : ℚ) ^ k ≠ 0 := by positivity
    rw [div_mul_div_comm, div_mul_eq_mul_div, div_eq_div_iff (mul_ne_zero p1 p2) p3, h10]; ring
  rw [e, tr_div]

theorem div_repr {a b : ℤ} {sa sb s m : Nat} (h : m + sa = s + sb) (hb : b ≠ 0) :
    truncTo s ((a : ℚ) / 10 ^ sa / ((b : ℚ) / 10 ^ sb)) = ((a * 10 ^ m).tdiv b : ℤ) / 10 ^ s := by
  unfold truncTo
  have e : (a : ℚ) / 10 ^ sa / ((b : ℚ) / 10 ^ sb) * 10 ^ s = ((a * 10 ^ m : ℤ) : ℚ) / (b : ℚ) := by
    have h10 : (10 : ℚ) ^ m * 10 ^ sa = 10 ^ s * 10 ^ sb := by rw [← pow_add, ← pow_add, h]
    push_cast
    have p1 : (10 : ℚ) ^ sa ≠ 0 := by positivity
    have p2 : (10 : ℚ) ^ sb ≠ 0 := by positivity
    have p3 : (b : ℚ) ≠ 0 := by exact_mod_cast hb
    rw [div_div_div_eq, div_mul_eq_mul_div, div_eq_div_iff (mul_ne_zero p1 p3) p3]
    calc (a : ℚ) * 10 ^ sb * 10 ^ s * b = a * (10 ^ s * 10 ^ sb) * b := by ring
      _ = a * (10 ^ m * 10 ^ sa) * b := by rw [h10]
      _ = _ := by ring
  rw [e, tr_div]

theorem mod_repr (a b : ℤ) : (a : ℚ) - b * tr ((a : ℚ) / b) = (a.tmod b : ℤ) := by
  rw [tr_div, Int.tmod_def]; push_cast; ring

/-! ### Comparison -/

theorem strLt_cons (x y : Nat) (xs ys : Str) : strLt (x :: xs) (y :: ys) ↔ x < y ∨ (x = y ∧ strLt xs ys) := by
  unfold strLt
  constructor
  · intro h
    cases h with
    | cons h => exact Or.inr ⟨rfl, h⟩
    | rel h => exact Or.inl h
  · rintro (h | ⟨rfl, h⟩)
    · exact List.Lex.rel h
    · exact List.Lex.cons h

theorem strLt_nil_cons (y : Nat) (ys : Str) : strLt [] (y :: ys) := List.Lex.nil
theorem not_strLt_nil (a : Str) : ¬ strLt a [] := by
  unfold strLt; intro h; cases h

theorem strcmp_spec (a b : Str) :
    (strcmp a b < 0 ↔ strLt a b) ∧ (strcmp a b > 0 ↔ strLt b a) ∧ (strcmp a b = 0 ↔ a = b) := by
  induction a generalizing b with
  | nil =>
    cases b with
    | nil => simp [strcmp, not_strLt_nil]
    | cons y ys => simp [strcmp, not_strLt_nil, strLt_nil_cons]
  | cons x xs ih =>
    cases b with
    | nil => simp [strcmp, not_strLt_nil, strLt_nil_cons]
    | cons y ys =>
      unfold strcmp
      obtain ⟨i1, i2, i3⟩ := ih ys
      rw [strLt_cons, strLt_cons, List.cons.injEq]
      rcases Nat.lt_trichotomy x y with h | h | h
      · rw [if_pos h]
        have : x ≠ y := by omega
        have : y ≠ x := by omega
        have : ¬ y < x := by omega
        simp_all
      · subst h
        simp only [Nat.lt_irrefl, if_false, true_and, false_or]
        exact ⟨i1, i2, i3⟩
      · rw [if_neg (by omega), if_pos h]
        have : x ≠ y := by omega
        have : y ≠ x := by omega
        have : ¬ x < y := by omega
        simp_all

open Classical in
theorem cmpStr_spec (c : Cmp) (a b : Str) : cmpStr c a b = decide (cmpSpec strLt c a b) := by
  obtain ⟨h1, h2, h3⟩ := strcmp_spec a b
  cases c <;> unfold cmpStr cmpSpec <;> simp only
  · exact decide_eq_decide.2 h1
  · exact decide_eq_decide.2 h2
  · rw [decide_eq_decide, ← h2]; omega
  · rw [decide_eq_decide, ← h1]; omega
  · exact decide_eq_decide.2 h3
  · rw [← decide_not, decide_eq_decide]; simp [h3]

open Classical in
theorem cmpInt_spec (c : Cmp) (a b : ℤ) : cmpInt c a b = decide (cmpSpec (· < ·) c a b) := by
  cases c <;> unfold cmpInt cmpSpec <;> simp only [decide_eq_decide] <;> omega

open Classical in
theorem cmpBool_spec {c : Cmp} (h : c = .eq ∨ c = .ne) (a b : Bool) :
    cmpBool c a b = decide (cmpSpec (fun x y => x = false ∧ y = true) c a b) := by
  rcases h with rfl | rfl <;> cases a <;> cases b <;> simp [cmpBool, cmpSpec]

theorem cmpSpec_scale (c : Cmp) (a b : ℤ) (s : Nat) :
    cmpSpec (· < ·) c ((a : ℚ) / 10 ^ s) ((b : ℚ) / 10 ^ s) ↔ cmpSpec (· < ·) c a b := by
  have p : (0 : ℚ) < 10 ^ s := by positivity
  have hl : ∀ x y : ℤ, (x : ℚ) / 10 ^ s < (y : ℚ) / 10 ^ s ↔ x < y := by
    intro x y; rw [div_lt_div_iff_of_pos_right p]; exact Int.cast_lt
  have he : (a : ℚ) / 10 ^ s = (b : ℚ) / 10 ^ s ↔ a = b := by
    rw [div_left_inj' p.ne']; exact Int.cast_inj
  cases c <;> simp only [cmpSpec, hl, he, ne_eq]

/-! ### Running code -/

theorem run_append (M : Mach) (a b : List Op) (S : List Slot) :
    run M (a ++ b) S = (run M a S).bind (run M b) := by
  induction a generalizing S with
  | nil => rfl
  | cons o os ih =>
    simp only [List.cons_append, run]
    cases h : step M o S with
    | error e => rfl
    | ok S' => exact ih S'

abbrev Den := List Slot → Except Err (List Slot)

def Den.seq (f g : Den) : Den := fun S => (f S).bind g

/-- Loading a constant. -/
def ldD (v : RVal) : Den := fun S => .ok ((v, false) :: S)

def scaleD (M : Mach) (f t : ETy) : Den :=
  if f.scale < t.scale then (ldD (factor (t.scale - f.scale))).seq (step M .mulI)
  else if f.scale > t.scale then (ldD (factor (f.scale - t.scale))).seq (step M .divI)
  else fun S => .ok S

/-- Denotation of compiled expressions: the compiled code without the context. -/
def den (M : Mach) : E → Den
  | .attr t i _ => step M (.ldTup t i)
  | .const v _ => ldD v
  | .null => step M .pushNull
  | .isNull e => (den M e).seq (step M .isNull)
  | .castInt e => if e.ty = .bool then (den M e).seq (step M .castIB) else den M e
  | .un op e =>
    match op with
    | .plus => den M e
    | .minus => (den M e).seq (step M .minusI)
    | .tilde => if e.ty = .bool then (den M e).seq (step M .notB) else (den M e).seq (step M .negI)
    | .not => (den M e).seq (step M .notB)
  | .ar op l r =>
    let ty := join l.ty r.ty
    match op with
    | .add => ((((den M l).seq (scaleD M l.ty ty)).seq (den M r)).seq (scaleD M r.ty ty)).seq (step M .addI)
    | .sub => ((((den M l).seq (scaleD M l.ty ty)).seq (den M r)).seq (scaleD M r.ty ty)).seq (step M .subI)
    | .mul =>
      let f := ((den M l).seq (den M r)).seq (step M .mulI)
      let k := l.ty.scale + r.ty.scale - ty.scale
      if k ≠ 0 then (f.seq (ldD (factor k))).seq (step M .divI) else f
    | .div =>
      let the : Int := (l.ty.scale : Int) - r.ty.scale
      let f := if the < ty.scale then ((den M l).seq (ldD (factor ((ty.scale - the).toNat)))).seq (step M .mulI)
        else den M l
      let g := (f.seq (den M r)).seq (step M .divI)
      if the > ty.scale then (g.seq (ldD (factor ((the - ty.scale).toNat)))).seq (step M .divI) else g
    | .mod => ((den M l).seq (den M r)).seq (step M .modI)
  | .cat l r => ((den M l).seq (den M r)).seq (step M .catS)
  | .cmp op l r =>
    match l.ty with
    | .num _ _ =>
      let ty := join l.ty r.ty
      ((((den M l).seq (scaleD M l.ty ty)).seq (den M r)).seq (scaleD M r.ty ty)).seq (step M (.cmpI op))
    | .bool => ((den M l).seq (den M r)).seq (step M (.cmpB op))
    | .str => ((den M l).seq (den M r)).seq (step M (.cmpS op))
    | _ => ((den M l).seq (den M r)).seq (step M (.cmpI op))
  | .likeC l p => ((den M l).seq (ldD (.s p))).seq (step M .likeConst)
  | .like l r => ((den M l).seq (den M r)).seq (step M .likeExpr)
  | .and l r => ((den M l).seq (den M r)).seq (step M .andB)
  | .or l r => ((den M l).seq (den M r)).seq (step M .orB)

/-- `c'` extends `c` by code that behaves as `f`, whenever the machine's context extends that of `c'`. -/
def Ext (M : Mach) (c c' : CS) (f : Den) : Prop :=
  ∃ code, c'.ops = c.ops ++ code ∧ c.ctx <+: c'.ctx ∧
    (c'.ctx <+: M.ctx → M.ctx.length ≤ 256 → ∀ S, run M code S = f S)

theorem Ext.refl (M : Mach) (c : CS) : Ext M c c (fun S => .ok S) :=
  ⟨[], by simp, List.prefix_rfl, fun _ _ _ => rfl⟩

theorem Ext.trans {M : Mach} {a b c : CS} {f g : Den} (h1 : Ext M a b f) (h2 : Ext M b c g) :
    Ext M a c (f.seq g) := by
  obtain ⟨x, e1, p1, r1⟩ := h1
  obtain ⟨y, e2, p2, r2⟩ := h2
  refine ⟨x ++ y, by rw [e2, e1, List.append_assoc], p1.trans p2, fun hp hl S => ?_⟩
  rw [run_append, r1 (p2.trans hp) hl S]
  unfold Den.seq
  congr 1
  funext S'
  exact r2 hp hl S'

theorem Ext.emit (M : Mach) (c : CS) (o : Op) : Ext M c (c.emit o) (step M o) := by
  refine ⟨[o], rfl, List.prefix_rfl, fun _ _ S => ?_⟩
  simp only [run]
  cases step M o S <;> rfl

theorem Ext.load (M : Mach) (c : CS) (v : RVal) : Ext M c (c.load v) (ldD v) := by
  refine ⟨[.ldCtx c.ctx.length], rfl, List.prefix_append _ _, fun hp hl S => ?_⟩
  obtain ⟨t, ht⟩ := hp
  have hlt : c.ctx.length < 256 := by
    have := congrArg List.length ht
    simp only [CS.load, List.length_append, List.length_singleton] at this
    omega
  have hg : M.ctx[c.ctx.length % 256]? = some v := by
    rw [Nat.mod_eq_of_lt hlt, ← ht]
    simp [CS.load]
  simp only [run, step, hg, ldD]
  rfl

theorem Ext.scale (M : Mach) (c : CS) (f t : ETy) : Ext M c (c.scale f t) (scaleD M f t) := by
  unfold CS.scale scaleD
  split
  · exact (Ext.load M c _).trans (Ext.emit M _ _)
  · split
    · exact (Ext.load M c _).trans (Ext.emit M _ _)
    · exact Ext.refl M c

theorem compile_ext (M : Mach) (e : E) : ∀ c, Ext M c (compile e c) (den M e) := by
  induction e with
  | attr t i ty => intro c; exact Ext.emit M c _
  | const v ty => intro c; exact Ext.load M c v
  | null => intro c; exact Ext.emit M c _
  | isNull e ih => intro c; exact (ih c).trans (Ext.emit M _ _)
  | castInt e ih =>
    intro c
    simp only [compile, den]
    split
    · exact (ih c).trans (Ext.emit M _ _)
    · exact ih c
  | un op e ih =>
    intro c
    cases op with
    | plus => exact ih c
    | minus => exact (ih c).trans (Ext.emit M _ _)
    | tilde =>
      simp only [compile, den]
      split
      · exact (ih c).trans (Ext.emit M _ _)
      · exact (ih c).trans (Ext.emit M _ _)
    | not => exact (ih c).trans (Ext.emit M _ _)
  | ar op l r ihl ihr =>
    intro c
    cases op with
    | add => exact ((((ihl c).trans (Ext.scale M _ _ _)).trans (ihr _)).trans (Ext.scale M _ _ _)).trans (Ext.emit M _ _)
    | sub => exact ((((ihl c).trans (Ext.scale M _ _ _)).trans (ihr _)).trans (Ext.scale M _ _ _)).trans (Ext.emit M _ _)
    | mul =>
      simp only [compile, den]
      split
      · exact ((((ihl c).trans (ihr _)).trans (Ext.emit M _ _)).trans (Ext.load M _ _)).trans (Ext.emit M _ _)
      · exact ((ihl c).trans (ihr _)).trans (Ext.emit M _ _)
    | div =>
      simp only [compile, den]
      split
      · split
        · exact (((((((ihl c).trans (Ext.load M _ _)).trans (Ext.emit M _ _)).trans (ihr _)).trans
            (Ext.emit M _ _)).trans (Ext.load M _ _)).trans (Ext.emit M _ _))
        · exact ((((ihl c).trans (ihr _)).trans (Ext.emit M _ _)).trans (Ext.load M _ _)).trans (Ext.emit M _ _)
      · split
        · exact ((((ihl c).trans (Ext.load M _ _)).trans (Ext.emit M _ _)).trans (ihr _)).trans (Ext.emit M _ _)
        · exact ((ihl c).trans (ihr _)).trans (Ext.emit M _ _)
    | mod => exact ((ihl c).trans (ihr _)).trans (Ext.emit M _ _)
  | cat l r ihl ihr => intro c; exact ((ihl c).trans (ihr _)).trans (Ext.emit M _ _)
  | cmp op l r ihl ihr =>
    intro c
    simp only [compile, den]
    cases l.ty with
    | num d s =>
      exact ((((ihl c).trans (Ext.scale M _ _ _)).trans (ihr _)).trans (Ext.scale M _ _ _)).trans (Ext.emit M _ _)
    | bool => exact ((ihl c).trans (ihr _)).trans (Ext.emit M _ _)
    | str => exact ((ihl c).trans (ihr _)).trans (Ext.emit M _ _)
    | date => exact ((ihl c).trans (ihr _)).trans (Ext.emit M _ _)
    | none => exact ((ihl c).trans (ihr _)).trans (Ext.emit M _ _)
  | likeC l p ih => intro c; exact ((ih c).trans (Ext.load M _ _)).trans (Ext.emit M _ _)
  | like l r ihl ihr => intro c; exact ((ihl c).trans (ihr _)).trans (Ext.emit M _ _)
  | and l r ihl ihr => intro c; exact ((ihl c).trans (ihr _)).trans (Ext.emit M _ _)
  | or l r ihl ihr => intro c; exact ((ihl c).trans (ihr _)).trans (Ext.emit M _ _)

/-! ### Correctness of the denotation -/

/-- Either an arithmetic trap, or exactly one more slot, satisfying `P`; `B` tells whether a division by zero is
allowed to happen. -/
def Post (B : Prop) (P : Slot → Prop) (S : List Slot) : Except Err (List Slot) → Prop
  | .error e => e = .overflow ∨ (e = .divZero ∧ B)
  | .ok st => ∃ x, st = x :: S ∧ P x

theorem Post.seq1 {B : Prop} {P Q : Slot → Prop} {f g : Den} {S : List Slot} (hf : Post B P S (f S))
    (hg : ∀ x, P x → Post B Q S (g (x :: S))) : Post B Q S (f.seq g S) := by
  unfold Den.seq
  cases h : f S with
  | error e => rw [h] at hf; exact hf
  | ok st =>
    rw [h] at hf
    obtain ⟨x, rfl, hx⟩ := hf
    exact hg x hx

theorem Post.seq2 {B : Prop} {P Q R : Slot → Prop} {f g h : Den} {S : List Slot} (hf : Post B P S (f S))
    (hg : ∀ T, Post B Q T (g T)) (hh : ∀ x y, P x → Q y → Post B R S (h (y :: x :: S))) :
    Post B R S (((f.seq g).seq h) S) := by
  unfold Den.seq
  cases e : f S with
  | error e' => rw [e] at hf; exact hf
  | ok st =>
    rw [e] at hf
    obtain ⟨x, rfl, hx⟩ := hf
    simp only [Except.bind]
    have := hg (x :: S)
    cases e2 : g (x :: S) with
    | error e' => rw [e2] at this; exact this
    | ok st =>
      rw [e2] at this
      obtain ⟨y, rfl, hy⟩ := this
      exact hh x y hx hy

theorem chk_cases (v : Int) : chk v = .ok v ∨ chk v = .error .overflow := by
  unfold chk; split <;> simp

/-- The slot holds a number of scale `s`. -/
def HoldsN (s : Nat) (x : Slot) (o : Option SVal) : Prop :=
  x.2 = o.isNone ∧ ∃ z, x.1 = .i z ∧ ∀ v, o = some v → v = .num (z / 10 ^ s)

theorem Holds.num {d : Bool} {s : Nat} {x : Slot} {o : Option SVal} :
    Holds (.num d s) x o ↔ HoldsN s x o := Iff.rfl

theorem HoldsN.split {s : Nat} {x : Slot} {o : Option SVal} (h : HoldsN s x o) :
    (∃ n z, x = (.i z, n)) ∧ (o = none ∨ ∃ z, x = (.i z, false) ∧ o = some (.num (z / 10 ^ s))) := by
  obtain ⟨v, n⟩ := x
  obtain ⟨h1, z, h2, h3⟩ := h
  simp only at h1 h2
  subst h2
  refine ⟨⟨n, z, rfl⟩, ?_⟩
  cases o with
  | none => exact Or.inl rfl
  | some v =>
    right
    simp at h1
    subst h1
    exact ⟨z, rfl, by rw [h3 v rfl]⟩

/-- What binary integer operations do. -/
theorem binI_post {B : Prop} {P : Slot → Prop} {f : Int → Int → Except Err RVal} {sa sb : Nat} {oa ob : Option SVal}
    {x y : Slot} (hx : HoldsN sa x oa) (hy : HoldsN sb y ob) (S : List Slot)
    (herr : ∀ a b e, y = (.i b, ob.isNone) → f a b = .error e → e = .overflow ∨ (e = .divZero ∧ B))
    (hok : ∀ a b w, x = (.i a, oa.isNone) → y = (.i b, ob.isNone) → f a b = .ok w →
      (∀ v, oa = some v → v = .num (a / 10 ^ sa)) → (∀ v, ob = some v → v = .num (b / 10 ^ sb)) →
      P (w, oa.isNone || ob.isNone)) :
    Post B P S (binI f (y :: x :: S)) := by
  obtain ⟨v, n⟩ := x
  obtain ⟨w, m⟩ := y
  obtain ⟨h1, a, h2, h3⟩ := hx
  obtain ⟨h1', b, h2', h3'⟩ := hy
  simp only at h1 h2 h1' h2'
  subst h1 h2 h1' h2'
  simp only [binI, asI, bind, Except.bind, pure, Except.pure]
  cases h : f a b with
  | error e => exact herr a b e rfl h
  | ok w => exact ⟨_, rfl, hok a b w rfl rfl h h3 h3'⟩

theorem HoldsN.lit (z : Int) (s : Nat) : HoldsN s (.i z, false) (some (.num (z / 10 ^ s))) :=
  ⟨rfl, z, rfl, by rintro v ⟨⟩; rfl⟩

theorem factor_holds {k : Nat} (h : k ≤ 18) : HoldsN 0 (factor k, false) (some (.num (10 ^ k))) := by
  have := HoldsN.lit (10 ^ k) 0
  rw [factor, wrap64_pow h]
  push_cast at this
  rw [pow_zero, div_one] at this
  exact this

theorem chk_bind_ok {v : Int} {w : RVal} (h : (do let v ← chk v; pure (RVal.i v) : Except Err RVal) = .ok w) :
    w = .i v := by
  rcases chk_cases v with hc | hc
  · rw [hc] at h; cases h; rfl
  · rw [hc] at h; cases h

theorem chk_bind_err {v : Int} {e : Err} (h : (do let v ← chk v; pure (RVal.i v) : Except Err RVal) = .error e) :
    e = .overflow := by
  rcases chk_cases v with hc | hc
  · rw [hc] at h; cases h
  · rw [hc] at h; cases h; rfl

theorem pow_split {s s' : Nat} (hle : s ≤ s') (z : ℤ) :
    (z : ℚ) / 10 ^ s = ((z * 10 ^ (s' - s) : ℤ) : ℚ) / 10 ^ s' := by
  have e : (10 : ℚ) ^ s' = 10 ^ (s' - s) * 10 ^ s := by rw [← pow_add]; congr 1; omega
  have p1 : (10 : ℚ) ^ s ≠ 0 := by positivity
  have p2 : (10 : ℚ) ^ (s' - s) ≠ 0 := by positivity
  rw [div_eq_div_iff p1 (by rw [e]; exact mul_ne_zero p2 p1), e]
  push_cast
  ring

theorem seq_ld (v : RVal) (g : Den) (S : List Slot) : (ldD v).seq g S = g ((v, false) :: S) := rfl

/-- Multiplication by a power of ten. -/
theorem mulF_post {B : Prop} (M : Mach) {s k : Nat} {o : Option SVal} (h18 : k ≤ 18) {x : Slot} (hx : HoldsN s x o)
    (S : List Slot) : Post B (fun y => HoldsN (s + k) y o) S (((ldD (factor k)).seq (step M .mulI)) (x :: S)) := by
  rw [seq_ld, step]
  refine binI_post hx (factor_holds h18) S ?_ ?_
  · intro a b e _ h; exact Or.inl (chk_bind_err h)
  · intro a b w hxa hyb h h3 _
    have hb : b = 10 ^ k := by
      rw [factor, wrap64_pow h18] at hyb
      injection hyb with h1 _; injection h1 with h1; exact h1.symm
    subst hb
    rw [chk_bind_ok h]
    refine ⟨by simp, _, rfl, ?_⟩
    intro v hv
    rw [h3 v hv]
    have := pow_split (s := s) (s' := s + k) (by omega) a
    rw [Nat.add_sub_cancel_left] at this
    rw [this]

/-- Scaling. -/
theorem scaleD_post {B : Prop} (M : Mach) {d d' : Bool} {s s' : Nat} {o : Option SVal} (hle : s ≤ s')
    (h18 : s' - s ≤ 18) {x : Slot} (hx : HoldsN s x o) (S : List Slot) :
    Post B (fun y => HoldsN s' y o) S (scaleD M (.num d s) (.num d' s') (x :: S)) := by
  unfold scaleD
  by_cases h : (ETy.num d s).scale < (ETy.num d' s').scale
  · rw [if_pos h]
    simp only [ETy.scale] at h ⊢
    have := mulF_post (B := B) M h18 hx S
    rw [show s + (s' - s) = s' by omega] at this
    exact this
  · rw [if_neg h]
    simp only [ETy.scale] at h
    have : s = s' := by omega
    subst this
    rw [if_neg (show ¬ (ETy.num d s).scale > (ETy.num d' s).scale from Nat.lt_irrefl s)]
    exact ⟨x, rfl, hx⟩

end Mutable.SM
