import Verif.WasmExpr.Arith

/-! Correctness of the generated code, by induction over expressions. -/
namespace Mutable.WX
open SQL
variable {P : FP}

/-- The expression evaluates to a word with property `Q`, or traps, and then `H` holds. -/
def Ev (H : Prop) (σ : Locals P) {t : WTy} (a : W P t) (Q : P.Word t → Prop) : Prop :=
  match eval σ a with
  | some w => Q w
  | none => H

theorem Ev.imp {H H' : Prop} {σ : Locals P} {t : WTy} {a : W P t} {Q Q' : P.Word t → Prop} (h : Ev H σ a Q)
    (hH : H → H') (hQ : ∀ w, Q w → Q' w) : Ev H' σ a Q' := by
  unfold Ev at *
  cases he : eval σ a with
  | none => rw [he] at h; exact hH h
  | some w => rw [he] at h; exact hQ w h

theorem Ev.un {H : Prop} {σ : Locals P} {s t : WTy} {op : Un s t} {a : W P s} {Q : P.Word s → Prop}
    {R : P.Word t → Prop} (h : Ev H σ a Q) (hR : ∀ w, Q w → R (evalUn P op w)) : Ev H σ (.un op a) R := by
  unfold Ev at *
  simp only [eval]
  cases he : eval σ a with
  | none => rw [he] at h; exact h
  | some w => rw [he] at h; exact hR w h

theorem Ev.bin {H : Prop} {σ : Locals P} {s t : WTy} {op : Bin s t} {a b : W P s} {Q Q' : P.Word s → Prop}
    {R : P.Word t → Prop} (h : Ev H σ a Q) (h' : Ev H σ b Q')
    (hR : ∀ x y, Q x → Q' y → match evalBin P op x y with | some w => R w | none => H) : Ev H σ (.bin op a b) R := by
  unfold Ev at *
  simp only [eval]
  cases he : eval σ a with
  | none => rw [he] at h; exact h
  | some x =>
    rw [he] at h
    cases he' : eval σ b with
    | none => rw [he'] at h'; exact h'
    | some y =>
      rw [he'] at h'
      exact hR x y h h'

/-- What the generated code for a value must satisfy. -/
def Good (H : Prop) (σ : Locals P) (c : Code P) (v : V P) : Prop :=
  Ev H σ c.val (fun w => Rep c.t w v) ∧
  match c.null with
  | none => v ≠ .null
  | some n => Ev H σ n (fun b => b = nullBit v)

theorem Good.imp {H H' : Prop} {σ : Locals P} {c : Code P} {v : V P} (h : Good H σ c v) (hH : H → H') :
    Good H' σ c v := by
  refine ⟨h.1.imp hH fun _ h => h, ?_⟩
  have := h.2
  cases hc : c.null with
  | none => rw [hc] at this; exact this
  | some n => rw [hc] at this; exact Ev.imp this hH fun _ h => h

/-! ### Booleans -/

theorem b2w_inj {a b : Bool} : b2w a = b2w b ↔ a = b := by cases a <;> cases b <;> decide
theorem b2w_and (a b : Bool) : b2w a &&& b2w b = b2w (a && b) := by cases a <;> cases b <;> decide
theorem b2w_or (a b : Bool) : b2w a ||| b2w b = b2w (a || b) := by cases a <;> cases b <;> decide
theorem b2w_eqz (a : Bool) : b2w (b2w a == 0) = b2w (!a) := by cases a <;> decide

/-- A generated boolean with the (runtime) value and NULL bits `x` and `n`. -/
def GoodB (H : Prop) (σ : Locals P) (c : BCode P) (x n : Bool) : Prop :=
  Ev H σ c.val (fun w => w = b2w x) ∧
  match c.null with
  | none => n = false
  | some m => Ev H σ m (fun w => w = b2w n)

theorem Ev.lnot {H : Prop} {σ : Locals P} {a : W P .i32} {x : Bool} (h : Ev H σ a (fun w => w = b2w x)) :
    Ev H σ (BCode.lnot a) (fun w => w = b2w (!x)) := by
  refine Ev.un h ?_
  rintro w rfl
  exact b2w_eqz x

theorem Ev.land {H : Prop} {σ : Locals P} {a b : W P .i32} {x y : Bool} (h : Ev H σ a (fun w => w = b2w x))
    (h' : Ev H σ b (fun w => w = b2w y)) : Ev H σ (BCode.land a b) (fun w => w = b2w (x && y)) := by
  refine Ev.bin h h' ?_
  rintro w w' rfl rfl
  exact b2w_and x y

theorem Ev.lor {H : Prop} {σ : Locals P} {a b : W P .i32} {x y : Bool} (h : Ev H σ a (fun w => w = b2w x))
    (h' : Ev H σ b (fun w => w = b2w y)) : Ev H σ (BCode.lor a b) (fun w => w = b2w (x || y)) := by
  refine Ev.bin h h' ?_
  rintro w w' rfl rfl
  exact b2w_or x y

/-- The truth value given by a value bit and a NULL bit. -/
def k3of (x n : Bool) : K3 := if n then .N else if x then .T else .F

/-- A generated boolean holds a truth value: there are some value and NULL bits. -/
def GoodK (H : Prop) (σ : Locals P) (c : BCode P) (k : K3) : Prop :=
  ∃ x n, GoodB H σ c x n ∧ k3of x n = k

theorem GoodK.imp {H H' : Prop} {σ : Locals P} {c : BCode P} {k : K3} (h : GoodK H σ c k) (hH : H → H') :
    GoodK H' σ c k := by
  obtain ⟨x, n, h, hk⟩ := h
  refine ⟨x, n, ⟨h.1.imp hH fun _ h => h, ?_⟩, hk⟩
  have := h.2
  cases hc : c.null with
  | none => rw [hc] at this; exact this
  | some n => rw [hc] at this; exact Ev.imp this hH fun _ h => h

theorem GoodK.not {H : Prop} {σ : Locals P} {c : BCode P} {k : K3} (h : GoodK H σ c k) :
    GoodK H σ c.not k.not := by
  obtain ⟨x, n, h, rfl⟩ := h
  exact ⟨!x, n, ⟨h.1.lnot, h.2⟩, by cases x <;> cases n <;> rfl⟩

theorem GoodK.and {H : Prop} {σ : Locals P} {a b : BCode P} {k l : K3} (h : GoodK H σ a k) (h' : GoodK H σ b l) :
    GoodK H σ (a.and b) (k.and l) := by
  obtain ⟨x, n, ⟨h1, h2⟩, rfl⟩ := h
  obtain ⟨y, m, ⟨h3, h4⟩, rfl⟩ := h'
  obtain ⟨av, an⟩ := a
  obtain ⟨bv, bn⟩ := b
  cases an with
  | none =>
    cases bn with
    | none =>
      refine ⟨x && y, false, ⟨h1.land h3, rfl⟩, ?_⟩
      simp only at h2 h4; subst h2; subst h4
      cases x <;> cases y <;> rfl
    | some b' =>
      simp only at h2 h4; subst h2
      refine ⟨x && y, m && x, ⟨h1.land h3, Ev.land h4 h1⟩, ?_⟩
      cases x <;> cases y <;> cases m <;> rfl
  | some a' =>
    cases bn with
    | none =>
      simp only at h2 h4; subst h4
      refine ⟨x && y, n && y, ⟨h1.land h3, Ev.land h2 h3⟩, ?_⟩
      cases x <;> cases y <;> cases n <;> rfl
    | some b' =>
      refine ⟨x && y, (n || m) && (x || n) && (y || m),
        ⟨h1.land h3, ((Ev.lor h2 h4).land (h1.lor h2)).land (h3.lor h4)⟩, ?_⟩
      cases x <;> cases y <;> cases n <;> cases m <;> rfl

theorem GoodK.or {H : Prop} {σ : Locals P} {a b : BCode P} {k l : K3} (h : GoodK H σ a k) (h' : GoodK H σ b l) :
    GoodK H σ (a.or b) (k.or l) := by
  obtain ⟨x, n, ⟨h1, h2⟩, rfl⟩ := h
  obtain ⟨y, m, ⟨h3, h4⟩, rfl⟩ := h'
  obtain ⟨av, an⟩ := a
  obtain ⟨bv, bn⟩ := b
  cases an with
  | none =>
    cases bn with
    | none =>
      refine ⟨x || y, false, ⟨h1.lor h3, rfl⟩, ?_⟩
      simp only at h2 h4; subst h2; subst h4
      cases x <;> cases y <;> rfl
    | some b' =>
      simp only at h2 h4; subst h2
      refine ⟨x || y, m && !x, ⟨h1.lor h3, Ev.land h4 h1.lnot⟩, ?_⟩
      cases x <;> cases y <;> cases m <;> rfl
  | some a' =>
    cases bn with
    | none =>
      simp only at h2 h4; subst h4
      refine ⟨x || y, n && !y, ⟨h1.lor h3, Ev.land h2 h3.lnot⟩, ?_⟩
      cases x <;> cases y <;> cases n <;> rfl
    | some b' =>
      refine ⟨x || y, (n || m) && (!x || n) && (!y || m),
        ⟨h1.lor h3, ((Ev.lor h2 h4).land (h1.lnot.lor h2)).land (h3.lnot.lor h4)⟩, ?_⟩
      cases x <;> cases y <;> cases n <;> cases m <;> rfl

theorem GoodK.isTrue {H : Prop} {σ : Locals P} {c : BCode P} {k : K3} (h : GoodK H σ c k) :
    Ev H σ c.isTrue (fun w => w = b2w (decide (k = .T))) := by
  obtain ⟨x, n, ⟨h1, h2⟩, rfl⟩ := h
  obtain ⟨av, an⟩ := c
  cases an with
  | none =>
    simp only at h2; subst h2
    refine h1.imp id ?_
    rintro w rfl; cases x <;> rfl
  | some m =>
    refine (h1.land (Ev.lnot h2)).imp id ?_
    rintro w rfl; cases x <;> cases n <;> rfl

theorem GoodK.isFalse {H : Prop} {σ : Locals P} {c : BCode P} {k : K3} (h : GoodK H σ c k) :
    Ev H σ c.isFalse (fun w => w = b2w (decide (k = .F))) := by
  obtain ⟨x, n, ⟨h1, h2⟩, rfl⟩ := h
  obtain ⟨av, an⟩ := c
  cases an with
  | none =>
    simp only at h2; subst h2
    refine h1.lnot.imp id ?_
    rintro w rfl; cases x <;> rfl
  | some m =>
    refine (h1.lnot.land (Ev.lnot h2)).imp id ?_
    rintro w rfl; cases x <;> cases n <;> rfl

/-- Dropping the NULL bit of a boolean that is not NULL. -/
theorem GoodK.notNull {H : Prop} {σ : Locals P} {c : BCode P} {k : K3} (h : GoodK H σ c k) (hk : k ≠ .N) :
    GoodK H σ ⟨c.val, none⟩ k := by
  obtain ⟨x, n, ⟨h1, _⟩, rfl⟩ := h
  refine ⟨x, false, ⟨h1, rfl⟩, ?_⟩
  cases n with
  | true => exact absurd rfl hk
  | false => rfl

/-- Between values of type boolean and truth values. -/
theorem goodK_of_good {H : Prop} {σ : Locals P} {c : BCode P} {v : V P} {k : K3} (hk : v.k3 = some k)
    (h : Good H σ c.toCode v) : GoodK H σ c k := by
  obtain ⟨h1, h2⟩ := h
  obtain ⟨cv, cn⟩ := c
  have key : ∃ x, Ev H σ cv (fun w => w = b2w x) ∧ k3of x v.isNull = k := by
    unfold Ev at *
    simp only [BCode.toCode] at h1
    cases he : eval σ cv with
    | none =>
      rw [he] at h1
      refine ⟨match k with | .T => true | _ => false, h1, ?_⟩
      cases v with
      | bool b => cases b <;> simp only [V.k3, Option.some.injEq] at hk <;> subst hk <;> rfl
      | null => simp only [V.k3, Option.some.injEq] at hk; subst hk; rfl
      | int _ => cases hk
      | date _ => cases hk
      | float _ => cases hk
      | double _ => cases hk
    | some w =>
      rw [he] at h1
      cases v with
      | bool b => exact ⟨b, h1, by cases b <;> simp only [V.k3, Option.some.injEq] at hk <;> subst hk <;> rfl⟩
      | null =>
        obtain ⟨b, hb⟩ := h1
        exact ⟨b, hb, by simp only [V.k3, Option.some.injEq] at hk; subst hk; rfl⟩
      | int _ => cases hk
      | date _ => cases hk
      | float _ => cases hk
      | double _ => cases hk
  obtain ⟨x, hx, hk⟩ := key
  refine ⟨x, v.isNull, ⟨hx, ?_⟩, hk⟩
  cases cn with
  | none =>
    simp only [BCode.toCode] at h2
    cases v <;> first | rfl | exact absurd rfl h2
  | some m => exact h2

theorem good_of_goodK {H : Prop} {σ : Locals P} {c : BCode P} {k : K3} (h : GoodK H σ c k) :
    Good H σ c.toCode (ofK3 k) := by
  obtain ⟨x, n, ⟨h1, h2⟩, rfl⟩ := h
  obtain ⟨cv, cn⟩ := c
  refine ⟨h1.imp id ?_, ?_⟩
  · rintro w rfl
    show Rep .bool _ _
    cases x <;> cases n <;> first | rfl | exact ⟨_, rfl⟩
  · cases cn with
    | none =>
      simp only at h2; subst h2
      simp only [BCode.toCode]
      cases x <;> simp [k3of, ofK3]
    | some m =>
      simp only [BCode.toCode]
      refine Ev.imp h2 id ?_
      rintro w rfl
      cases x <;> cases n <;> rfl

/-! ### Conversion to the common type -/

/-- The types that `arithmetic_join` converts between. -/
def canConv : Ty → Ty → Bool
  | .int v, .int w => decide (v.bits ≤ w.bits)
  | .int v, .float => decide (v.bits ≤ 32)
  | .int _, .double => true
  | .float, .float => true
  | .float, .double => true
  | .double, .double => true
  | .bool, .bool => true
  | .date, .date => true
  | .datetime, .datetime => true
  | _, _ => false

theorem join_conv {a b t : Ty} (h : join a b = some t) : canConv a t = true ∧ canConv b t = true ∧ t.numeric = true := by
  cases a with
  | none => simp [join] at h
  | bool => simp [join] at h
  | date => simp [join] at h
  | datetime => simp [join] at h
  | int v =>
    cases b with
    | none => simp [join] at h
    | bool => simp [join] at h
    | date => simp [join] at h
    | datetime => simp [join] at h
    | int w => simp only [join, Option.some.injEq] at h; subst h; cases v <;> cases w <;> decide
    | float => simp only [join, Option.some.injEq] at h; subst h; cases v <;> decide
    | double => simp only [join, Option.some.injEq] at h; subst h; cases v <;> decide
  | float =>
    cases b with
    | none => simp [join] at h
    | bool => simp [join] at h
    | date => simp [join] at h
    | datetime => simp [join] at h
    | int w => simp only [join, Option.some.injEq] at h; subst h; cases w <;> decide
    | float => simp only [join, Option.some.injEq] at h; subst h; decide
    | double => simp only [join, Option.some.injEq] at h; subst h; decide
  | double =>
    cases b with
    | none => simp [join] at h
    | bool => simp [join] at h
    | date => simp [join] at h
    | datetime => simp [join] at h
    | int w => simp only [join, Option.some.injEq] at h; subst h; cases w <;> decide
    | float => simp only [join, Option.some.injEq] at h; subst h; decide
    | double => simp only [join, Option.some.injEq] at h; subst h; decide

/-- A value converted to a type. -/
def castV : Ty → V P → V P
  | .float, .int z => .float (P.s.ofInt z)
  | .double, .int z => .double (P.d.ofInt z)
  | .double, .float x => .double (P.promote x)
  | _, v => v

theorem repI_extend {x : BitVec 32} {v : V P} (h : Rep.RepI x v) : Rep.RepI (BitVec.signExtend 64 x) v := by
  have : (BitVec.signExtend 64 x).toInt = x.toInt := BitVec.toInt_signExtend_of_le (by decide)
  cases v <;> first | exact h | (show _ = _; rw [this]; exact h)

theorem convert_ok {a t : Ty} (h : canConv a t = true) (c : W P a.d.rep) :
    ∃ b, convert a.d t.d c = some b ∧ ∀ (H : Prop) σ (v : V P), v.Has a → Ev H σ c (fun w => Rep a.d w v) →
      Ev H σ b (fun w => Rep t.d w (castV t v)) := by
  cases a with
  | none => simp [canConv] at h
  | bool =>
    cases t with
    | bool => exact ⟨c, rfl, fun H σ v hv he => by cases v <;> exact he⟩
    | none => simp [canConv] at h
    | int _ => simp [canConv] at h
    | float => simp [canConv] at h
    | double => simp [canConv] at h
    | date => simp [canConv] at h
    | datetime => simp [canConv] at h
  | date =>
    cases t with
    | date => exact ⟨c, rfl, fun H σ v hv he => by cases v <;> exact he⟩
    | none => simp [canConv] at h
    | int _ => simp [canConv] at h
    | float => simp [canConv] at h
    | double => simp [canConv] at h
    | bool => simp [canConv] at h
    | datetime => simp [canConv] at h
  | datetime =>
    cases t with
    | datetime => exact ⟨c, rfl, fun H σ v hv he => by cases v <;> exact he⟩
    | none => simp [canConv] at h
    | int _ => simp [canConv] at h
    | float => simp [canConv] at h
    | double => simp [canConv] at h
    | bool => simp [canConv] at h
    | date => simp [canConv] at h
  | float =>
    cases t with
    | float => exact ⟨c, rfl, fun H σ v hv he => by cases v <;> first | exact he | exact False.elim hv⟩
    | double =>
      refine ⟨_, rfl, fun H σ v hv he => ?_⟩
      refine Ev.un he ?_
      intro w hw
      cases v with
      | float x => exact congrArg P.promote hw
      | null => trivial
      | bool _ => exact hv
      | int _ => exact False.elim hv
      | date _ => exact hv
      | double _ => exact False.elim hv
    | none => simp [canConv] at h
    | int _ => simp [canConv] at h
    | datetime => simp [canConv] at h
    | bool => simp [canConv] at h
    | date => simp [canConv] at h
  | double =>
    cases t with
    | double => exact ⟨c, rfl, fun H σ v hv he => by cases v <;> first | exact he | exact False.elim hv⟩
    | none => simp [canConv] at h
    | int _ => simp [canConv] at h
    | float => simp [canConv] at h
    | datetime => simp [canConv] at h
    | bool => simp [canConv] at h
    | date => simp [canConv] at h
  | int v =>
    cases t with
    | none => simp [canConv] at h
    | bool => simp [canConv] at h
    | date => simp [canConv] at h
    | datetime => simp [canConv] at h
    | int w =>
      cases v <;> cases w <;> first
        | exact absurd h (by decide)
        | exact ⟨c, rfl, fun H σ v hv he => by cases v <;> exact he⟩
        | exact ⟨_, rfl, fun H σ v hv he => Ev.un he fun w hw => by
            have := repI_extend (P := P) (x := w) (v := v) hw
            cases v <;> exact this⟩
    | float =>
      cases v <;> first
        | exact absurd h (by decide)
        | (refine ⟨_, rfl, fun H σ v hv he => Ev.un he fun w hw => ?_⟩
           cases v <;> first | exact False.elim hv | trivial | exact congrArg P.s.ofInt hw)
    | double =>
      cases v <;>
         (refine ⟨_, rfl, fun H σ v hv he => Ev.un he fun w hw => ?_⟩
          cases v <;> first | exact False.elim hv | trivial | exact congrArg P.d.ofInt hw)

/-! ### Arithmetic and comparisons -/

/-- Why integer arithmetic with a NULL operand may trap. -/
def Hz (op : Arith) (a b : V P) : Prop :=
  (op = .div ∧ (b = .null ∨ (a = .null ∧ (b = .int 0 ∨ b = .int (-1))))) ∨
    (op = .mod ∧ (b = .null ∨ (a = .null ∧ b = .int 0)))

theorem strict_int {op : Arith} {w : IW} {a b v : V P} (h : strict (arithIn op (.int w)) a b = some v) :
    (v = .null ∧ a = .null ∧ b ≠ .null) ∨ (v = .null ∧ b = .null) ∨
      ∃ x y z, a = .int x ∧ b = .int y ∧ v = .int z ∧ intArith op x y = some z ∧ Fits w.bits z := by
  cases a with
  | null =>
    simp only [strict, Option.some.injEq] at h
    by_cases hb : b = .null
    · exact .inr (.inl ⟨h.symm, hb⟩)
    · exact .inl ⟨h.symm, rfl, hb⟩
  | int x =>
    cases b with
    | null => simp only [strict, Option.some.injEq] at h; exact .inr (.inl ⟨h.symm, rfl⟩)
    | int y =>
      simp only [strict, arithIn] at h
      cases hz : intArith op x y with
      | none => rw [hz] at h; cases h
      | some z =>
        rw [hz] at h
        simp only [Option.bind_eq_bind, Option.bind_some] at h
        split at h
        · rename_i hf; cases h; exact .inr (.inr ⟨x, y, z, rfl, rfl, rfl, hz, hf⟩)
        · cases h
    | bool _ => cases h
    | date _ => cases h
    | float _ => cases h
    | double _ => cases h
  | bool _ => cases b <;> first | (simp only [strict, Option.some.injEq] at h; exact .inr (.inl ⟨h.symm, rfl⟩)) | cases h
  | date _ => cases b <;> first | (simp only [strict, Option.some.injEq] at h; exact .inr (.inl ⟨h.symm, rfl⟩)) | cases h
  | float _ => cases b <;> first | (simp only [strict, Option.some.injEq] at h; exact .inr (.inl ⟨h.symm, rfl⟩)) | cases h
  | double _ => cases b <;> first | (simp only [strict, Option.some.injEq] at h; exact .inr (.inl ⟨h.symm, rfl⟩)) | cases h

theorem int_step {n : Nat} (hn : 1 < n) {op : Arith} {w : IW} (hw : w.bits ≤ n) {x y : BitVec n} {a b v : V P}
    (hx : Rep.RepI x a) (hy : Rep.RepI y b) (hb : ∀ z, b ≠ .date z) (h : strict (arithIn op (.int w)) a b = some v) :
    match evalI (arithOp.iop op) x y with
    | some u => Rep.RepI u v
    | none => Hz op a b := by
  rcases strict_int h with ⟨rfl, rfl, hbn⟩ | ⟨rfl, rfl⟩ | ⟨p, q, z, rfl, rfl, rfl, hz, hf⟩
  · cases he : evalI (arithOp.iop op) x y with
    | some u => trivial
    | none =>
      have hbi : ∃ q, b = .int q := by
        cases b with
        | null => exact absurd rfl hbn
        | int q => exact ⟨q, rfl⟩
        | date z => exact absurd rfl (hb z)
        | bool _ => exact False.elim hy
        | float _ => exact False.elim hy
        | double _ => exact False.elim hy
      obtain ⟨q, rfl⟩ := hbi
      have hy : y.toInt = q := hy
      rcases evalI_trap hn he with ⟨rfl, h1⟩ | ⟨rfl, h1⟩
      · rcases h1 with h1 | h1
        · exact .inl ⟨rfl, .inr ⟨rfl, .inl (by rw [← hy, h1])⟩⟩
        · exact .inl ⟨rfl, .inr ⟨rfl, .inr (by rw [← hy, h1])⟩⟩
      · exact .inr ⟨rfl, .inr ⟨rfl, by rw [← hy, h1]⟩⟩
  · cases he : evalI (arithOp.iop op) x y with
    | some u => trivial
    | none =>
      rcases evalI_trap hn he with ⟨rfl, h1⟩ | ⟨rfl, h1⟩
      · exact .inl ⟨rfl, .inl rfl⟩
      · exact .inr ⟨rfl, .inl rfl⟩
  · have hx : x.toInt = p := hx
    have hy : y.toInt = q := hy
    subst hx; subst hy
    obtain ⟨u, hu, hz'⟩ := evalI_ok hn hz (hf.mono hw)
    rw [hu]
    exact hz'

theorem flArith_step (F : Fl) {op : Arith} {o : FOp} (ho : arithOp.fop op = some o) (x y : F.F) :
    flArith F op x y = some (evalF F o x y) := by
  cases op <;> simp only [arithOp.fop, Option.some.injEq, reduceCtorEq] at ho <;> subst ho <;> rfl

/-- The value of an arithmetic operation on operands converted to the common type. -/
theorem arith_step {t : Ty} (ht : t.numeric = true) {op : Arith} {o : Bin t.d.rep t.d.rep}
    (ho : arithOp t.d op = some o) {x y : P.Word t.d.rep} {a b v : V P} (ha : Rep t.d x (castV t a))
    (hb : Rep t.d y (castV t b)) (hd : ∀ z, b ≠ .date z) (h : strict (arithIn op t) a b = some v) :
    match evalBin P o x y with
    | some w => Rep t.d w v
    | none => (∃ w, t = .int w) ∧ Hz op a b := by
  cases t with
  | none => cases ht
  | bool => cases ht
  | date => cases ht
  | datetime => cases ht
  | int w =>
    have ea : castV (.int w) a = a := by cases a <;> rfl
    have eb : castV (.int w) b = b := by cases b <;> rfl
    rw [ea] at ha; rw [eb] at hb
    cases w with
    | w1 =>
      cases ho
      have := int_step (n := 32) (by decide) (w := .w1) (by decide) (x := x) (y := y) ha hb hd h
      have heq : evalBin P (Bin.i32 (arithOp.iop op)) x y = evalI (arithOp.iop op) (x : BitVec 32) y := rfl
      cases he : evalI (arithOp.iop op) (x : BitVec 32) y with
      | some u => rw [he] at this heq; erw [heq]; exact this
      | none => rw [he] at this heq; erw [heq]; exact ⟨⟨_, rfl⟩, this⟩
    | w2 =>
      cases ho
      have := int_step (n := 32) (by decide) (w := .w2) (by decide) (x := x) (y := y) ha hb hd h
      have heq : evalBin P (Bin.i32 (arithOp.iop op)) x y = evalI (arithOp.iop op) (x : BitVec 32) y := rfl
      cases he : evalI (arithOp.iop op) (x : BitVec 32) y with
      | some u => rw [he] at this heq; erw [heq]; exact this
      | none => rw [he] at this heq; erw [heq]; exact ⟨⟨_, rfl⟩, this⟩
    | w4 =>
      cases ho
      have := int_step (n := 32) (by decide) (w := .w4) (by decide) (x := x) (y := y) ha hb hd h
      have heq : evalBin P (Bin.i32 (arithOp.iop op)) x y = evalI (arithOp.iop op) (x : BitVec 32) y := rfl
      cases he : evalI (arithOp.iop op) (x : BitVec 32) y with
      | some u => rw [he] at this heq; erw [heq]; exact this
      | none => rw [he] at this heq; erw [heq]; exact ⟨⟨_, rfl⟩, this⟩
    | w8 =>
      cases ho
      have := int_step (n := 64) (by decide) (w := .w8) (by decide) (x := x) (y := y) ha hb hd h
      have heq : evalBin P (Bin.i64 (arithOp.iop op)) x y = evalI (arithOp.iop op) (x : BitVec 64) y := rfl
      cases he : evalI (arithOp.iop op) (x : BitVec 64) y with
      | some u => rw [he] at this heq; erw [heq]; exact this
      | none => rw [he] at this heq; erw [heq]; exact ⟨⟨_, rfl⟩, this⟩
  | float =>
    have ho : (arithOp.fop op).map Bin.f32 = some o := ho
    cases hf : arithOp.fop op with
    | none => rw [hf] at ho; cases ho
    | some f =>
      rw [hf] at ho
      cases ho
      show Rep .f32 (evalF P.s f x y) v
      by_cases hn : a = .null ∨ b = .null
      · have : v = .null := by
          rcases hn with rfl | rfl
          · simpa [strict] using h.symm
          · cases a <;> simpa [strict] using h.symm
        subst this; trivial
      · push Not at hn
        have h' : arithIn op .float a b = some v := by
          cases a <;> cases b <;> first | exact h | exact absurd rfl hn.1 | exact absurd rfl hn.2
        simp only [arithIn] at h'
        have hx : ∀ p, a.toFloat = some p → x = p := by
          intro p hp
          cases a <;> simp only [V.toFloat, Option.some.injEq, reduceCtorEq] at hp <;> subst hp <;> exact ha
        have hy : ∀ p, b.toFloat = some p → y = p := by
          intro p hp
          cases b <;> simp only [V.toFloat, Option.some.injEq, reduceCtorEq] at hp <;> subst hp <;> exact hb
        cases hp : a.toFloat with
        | none => rw [hp] at h'; cases h'
        | some p =>
          cases hq : b.toFloat with
          | none => rw [hp, hq] at h'; cases h'
          | some q =>
            rw [hp, hq] at h'
            rw [hx p hp, hy q hq]
            simp only [Option.bind_eq_bind, Option.bind_some, flArith_step P.s hf] at h'
            cases h'
            rfl
  | double =>
    have ho : (arithOp.fop op).map Bin.f64 = some o := ho
    cases hf : arithOp.fop op with
    | none => rw [hf] at ho; cases ho
    | some f =>
      rw [hf] at ho
      cases ho
      show Rep .f64 (evalF P.d f x y) v
      by_cases hn : a = .null ∨ b = .null
      · have : v = .null := by
          rcases hn with rfl | rfl
          · simpa [strict] using h.symm
          · cases a <;> simpa [strict] using h.symm
        subst this; trivial
      · push Not at hn
        have h' : arithIn op .double a b = some v := by
          cases a <;> cases b <;> first | exact h | exact absurd rfl hn.1 | exact absurd rfl hn.2
        simp only [arithIn] at h'
        have hx : ∀ p, a.toDouble = some p → x = p := by
          intro p hp
          cases a <;> simp only [V.toDouble, Option.some.injEq, reduceCtorEq] at hp <;> subst hp <;> exact ha
        have hy : ∀ p, b.toDouble = some p → y = p := by
          intro p hp
          cases b <;> simp only [V.toDouble, Option.some.injEq, reduceCtorEq] at hp <;> subst hp <;> exact hb
        cases hp : a.toDouble with
        | none => rw [hp] at h'; cases h'
        | some p =>
          cases hq : b.toDouble with
          | none => rw [hp, hq] at h'; cases h'
          | some q =>
            rw [hp, hq] at h'
            rw [hx p hp, hy q hq]
            simp only [Option.bind_eq_bind, Option.bind_some, flArith_step P.d hf] at h'
            cases h'
            rfl

end Mutable.WX
