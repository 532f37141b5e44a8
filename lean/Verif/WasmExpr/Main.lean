import Verif.WasmExpr.Correct

/-! The main induction over expressions. -/
namespace Mutable.WX
open SQL
variable {P : FP}

theorem Ev.const {H : Prop} {σ : Locals P} {t : WTy} {v : P.Word t} : Ev H σ (.const v) (fun u => u = v) := rfl

theorem strict_cases {f : V P → V P → Option (V P)} {a b v : V P} (h : strict f a b = some v) :
    ((a = .null ∨ b = .null) ∧ v = .null) ∨ (a ≠ .null ∧ b ≠ .null ∧ f a b = some v) := by
  by_cases ha : a = .null
  · subst ha; simp only [strict, Option.some.injEq] at h; exact .inl ⟨.inl rfl, h.symm⟩
  · by_cases hb : b = .null
    · subst hb
      refine .inl ⟨.inr rfl, ?_⟩
      cases a <;> simpa [strict] using h.symm
    · refine .inr ⟨ha, hb, ?_⟩
      cases a <;> cases b <;> first | exact h | exact absurd rfl ha | exact absurd rfl hb

theorem cmp_int {n : Nat} {c : Cmp} {x y : BitVec n} {a b : V P} {p q : Int} (hx : Rep.RepI x a) (hy : Rep.RepI y b)
    (ha : a = .int p ∨ a = .date p) (hb : b = .int q ∨ b = .date q) : cmpBV c x y = intCmp c p q := by
  have h1 : x.toInt = p := by rcases ha with rfl | rfl <;> exact hx
  have h2 : y.toInt = q := by rcases hb with rfl | rfl <;> exact hy
  rw [cmpBV_ok, h1, h2]

theorem cmpIn_int {c : Cmp} {w : IW} {a b : V P} {r : Bool} (h : cmpIn c (.int w) a b = some r) :
    ∃ p q, a = .int p ∧ b = .int q ∧ intCmp c p q = r := by
  cases a <;> cases b <;> simp only [cmpIn, Option.some.injEq, reduceCtorEq] at h
  exact ⟨_, _, rfl, rfl, h⟩

/-- The value of a comparison of operands converted to the common type. -/
theorem cmp_step {c : Cmp} {t : Ty} {o : Bin t.d.rep .i32} (ho : cmpOp t.d c = some o) {x y : P.Word t.d.rep}
    {a b v : V P} (ha : Rep t.d x (castV t a)) (hb : Rep t.d y (castV t b))
    (h : strict (fun a b => (cmpIn c t a b).map .bool) a b = some v) :
    ∃ r : Bool, evalBin P o x y = some (b2w r) ∧ Rep .bool (b2w r) v := by
  have hex : ∃ r : Bool, evalBin P o x y = some (b2w r) ∧ ∀ s, cmpIn c t a b = some s → r = s := by
    cases t with
    | none => cases ho; exact ⟨_, rfl, fun s hs => by cases a <;> cases b <;> cases hs⟩
    | bool =>
      cases c with
      | eq =>
        cases ho
        refine ⟨_, rfl, fun s hs => ?_⟩
        cases a <;> cases b <;> simp only [cmpIn, Option.some.injEq, reduceCtorEq] at hs
        rename_i p q
        have h1 : x = b2w p := ha
        have h2 : y = b2w q := hb
        subst h1; subst h2; subst hs
        cases p <;> cases q <;> rfl
      | ne =>
        cases ho
        refine ⟨_, rfl, fun s hs => ?_⟩
        cases a <;> cases b <;> simp only [cmpIn, Option.some.injEq, reduceCtorEq] at hs
        rename_i p q
        have h1 : x = b2w p := ha
        have h2 : y = b2w q := hb
        subst h1; subst h2; subst hs
        cases p <;> cases q <;> rfl
      | lt => cases ho
      | gt => cases ho
      | le => cases ho
      | ge => cases ho
    | int w =>
      have ea : castV (.int w) a = a := by cases a <;> rfl
      have eb : castV (.int w) b = b := by cases b <;> rfl
      rw [ea] at ha; rw [eb] at hb
      cases w <;> cases ho <;> refine ⟨_, rfl, fun s hs => ?_⟩ <;>
        (obtain ⟨p, q, e1, e2, e3⟩ := cmpIn_int hs
         exact (cmp_int (P := P) ha hb (.inl e1) (.inl e2)).trans e3)
    | date =>
      cases ho
      refine ⟨_, rfl, fun s hs => ?_⟩
      cases a <;> cases b <;> simp only [cmpIn, Option.some.injEq, reduceCtorEq] at hs
      exact (cmp_int (P := P) (n := 32) (x := x) (y := y) (a := .date _) (b := .date _) ha hb (.inr rfl) (.inr rfl)).trans hs
    | datetime =>
      cases ho
      refine ⟨_, rfl, fun s hs => ?_⟩
      cases a <;> cases b <;> simp only [cmpIn, Option.some.injEq, reduceCtorEq] at hs
      exact (cmp_int (P := P) (n := 64) (x := x) (y := y) (a := .date _) (b := .date _) ha hb (.inr rfl) (.inr rfl)).trans hs
    | float =>
      cases ho
      refine ⟨_, rfl, fun s hs => ?_⟩
      have hx : ∀ p, a.toFloat = some p → x = p := by
        intro p hp
        cases a <;> simp only [V.toFloat, Option.some.injEq, reduceCtorEq] at hp <;> subst hp <;> exact ha
      have hy : ∀ p, b.toFloat = some p → y = p := by
        intro p hp
        cases b <;> simp only [V.toFloat, Option.some.injEq, reduceCtorEq] at hp <;> subst hp <;> exact hb
      simp only [cmpIn] at hs
      cases hp : a.toFloat with
      | none => rw [hp] at hs; cases hs
      | some p =>
        cases hq : b.toFloat with
        | none => rw [hp, hq] at hs; cases hs
        | some q =>
          rw [hp, hq] at hs
          rw [hx p hp, hy q hq]
          simpa using hs
    | double =>
      cases ho
      refine ⟨_, rfl, fun s hs => ?_⟩
      have hx : ∀ p, a.toDouble = some p → x = p := by
        intro p hp
        cases a <;> simp only [V.toDouble, Option.some.injEq, reduceCtorEq] at hp <;> subst hp <;> exact ha
      have hy : ∀ p, b.toDouble = some p → y = p := by
        intro p hp
        cases b <;> simp only [V.toDouble, Option.some.injEq, reduceCtorEq] at hp <;> subst hp <;> exact hb
      simp only [cmpIn] at hs
      cases hp : a.toDouble with
      | none => rw [hp] at hs; cases hs
      | some p =>
        cases hq : b.toDouble with
        | none => rw [hp, hq] at hs; cases hs
        | some q =>
          rw [hp, hq] at hs
          rw [hx p hp, hy q hq]
          simpa using hs
  obtain ⟨r, hr, hs⟩ := hex
  refine ⟨r, hr, ?_⟩
  rcases strict_cases h with ⟨-, rfl⟩ | ⟨-, -, h⟩
  · exact ⟨r, rfl⟩
  · cases hc : cmpIn c t a b with
    | none => rw [hc] at h; cases h
    | some s =>
      rw [hc] at h
      cases h
      rw [hs s hc]; rfl

/-! ### NULL bits -/

def NullOK (H : Prop) (σ : Locals P) (n : Option (W P .i32)) (v : V P) : Prop :=
  match n with
  | none => v ≠ .null
  | some n => Ev H σ n (fun b => b = nullBit v)

theorem ne_null_iff (v : V P) : v ≠ .null ↔ v.isNull = false := by cases v <;> simp [V.isNull]

theorem nullOr_ok {H : Prop} {σ : Locals P} {n m : Option (W P .i32)} {a b v : V P} (h1 : NullOK H σ n a)
    (h2 : NullOK H σ m b) (hv : v.isNull = (a.isNull || b.isNull)) : NullOK H σ (nullOr n m) v := by
  cases n with
  | none =>
    have h1 : a.isNull = false := (ne_null_iff a).mp h1
    cases m with
    | none =>
      have h2 : b.isNull = false := (ne_null_iff b).mp h2
      exact (ne_null_iff v).mpr (by rw [hv, h1, h2]; rfl)
    | some m => exact Ev.imp h2 id fun w hw => by rw [hw, nullBit, nullBit, hv, h1]; rfl
  | some n =>
    cases m with
    | none =>
      have h2 : b.isNull = false := (ne_null_iff b).mp h2
      exact Ev.imp h1 id fun w hw => by rw [hw, nullBit, nullBit, hv, h2, Bool.or_false]
    | some m =>
      have := Ev.lor (P := P) (x := a.isNull) (y := b.isNull) h1 h2
      exact Ev.imp this id fun w hw => by rw [hw, nullBit, hv]

theorem strict_null {f : V P → V P → Option (V P)} (hf : ∀ a b, f a b ≠ some .null) {a b v : V P}
    (h : strict f a b = some v) : v.isNull = (a.isNull || b.isNull) := by
  rcases strict_cases h with ⟨h' | h', rfl⟩ | ⟨h1, h2, h3⟩
  · subst h'; rfl
  · subst h'; cases a <;> rfl
  · rw [(ne_null_iff a).mp h1, (ne_null_iff b).mp h2]
    exact (ne_null_iff v).mp fun e => hf a b (e ▸ h3)

theorem arithIn_ne_null (op : Arith) (t : Ty) (a b : V P) : arithIn op t a b ≠ some .null := by
  intro h
  cases t with
  | none => simp [arithIn] at h
  | bool => simp [arithIn] at h
  | date => simp [arithIn] at h
  | datetime => simp [arithIn] at h
  | int w =>
    cases a <;> cases b <;> simp only [arithIn, reduceCtorEq] at h
    rename_i x y
    cases hz : intArith op x y with
    | none => rw [hz] at h; cases h
    | some z =>
      rw [hz] at h
      simp only [Option.bind_eq_bind, Option.bind_some] at h
      split at h <;> cases h
  | float =>
    simp only [arithIn] at h
    cases hp : a.toFloat with
    | none => rw [hp] at h; cases h
    | some p =>
      cases hq : b.toFloat with
      | none => rw [hp, hq] at h; cases h
      | some q =>
        rw [hp, hq] at h
        simp only [Option.bind_eq_bind, Option.bind_some] at h
        cases hz : flArith P.s op p q with
        | none => rw [hz] at h; cases h
        | some z => rw [hz] at h; cases h
  | double =>
    simp only [arithIn] at h
    cases hp : a.toDouble with
    | none => rw [hp] at h; cases h
    | some p =>
      cases hq : b.toDouble with
      | none => rw [hp, hq] at h; cases h
      | some q =>
        rw [hp, hq] at h
        simp only [Option.bind_eq_bind, Option.bind_some] at h
        cases hz : flArith P.d op p q with
        | none => rw [hz] at h; cases h
        | some z => rw [hz] at h; cases h

theorem cmpIn_ne_null (c : Cmp) (t : Ty) (a b : V P) : (cmpIn c t a b).map (V.bool (P := P)) ≠ some .null := by
  cases cmpIn c t a b <;> simp

theorem arithIn_has {op : Arith} {t : Ty} {a b v : V P} (h : arithIn op t a b = some v) : v.Has t := by
  cases t with
  | none => simp [arithIn] at h
  | bool => simp [arithIn] at h
  | date => simp [arithIn] at h
  | datetime => simp [arithIn] at h
  | int w =>
    cases a <;> cases b <;> simp only [arithIn, reduceCtorEq] at h
    rename_i x y
    cases hz : intArith op x y with
    | none => rw [hz] at h; cases h
    | some z =>
      rw [hz] at h
      simp only [Option.bind_eq_bind, Option.bind_some] at h
      split at h
      · cases h; assumption
      · cases h
  | float =>
    simp only [arithIn] at h
    cases hp : a.toFloat with
    | none => rw [hp] at h; cases h
    | some p =>
      cases hq : b.toFloat with
      | none => rw [hp, hq] at h; cases h
      | some q =>
        rw [hp, hq] at h
        simp only [Option.bind_eq_bind, Option.bind_some] at h
        cases hz : flArith P.s op p q with
        | none => rw [hz] at h; cases h
        | some z => rw [hz] at h; cases h; trivial
  | double =>
    simp only [arithIn] at h
    cases hp : a.toDouble with
    | none => rw [hp] at h; cases h
    | some p =>
      cases hq : b.toDouble with
      | none => rw [hp, hq] at h; cases h
      | some q =>
        rw [hp, hq] at h
        simp only [Option.bind_eq_bind, Option.bind_some] at h
        cases hz : flArith P.d op p q with
        | none => rw [hz] at h; cases h
        | some z => rw [hz] at h; cases h; trivial

theorem has_null (t : Ty) : (V.null : V P).Has t := by cases t <;> trivial

theorem fits_not {n : Nat} {z : Int} (h : Fits n z) : Fits n (-z - 1) := by
  obtain ⟨h1, h2⟩ := h
  constructor <;> omega

/-! ### Unary operators -/

def unTyped (op : UnOp) (t : Ty) : Prop :=
  match op with
  | .not => t = .bool
  | _ => t.numeric = true

theorem nullOK_congr {H : Prop} {σ : Locals P} {n : Option (W P .i32)} {v v' : V P} (e : v'.isNull = v.isNull)
    (h : NullOK H σ n v) : NullOK H σ n v' := by
  cases n with
  | none => exact (ne_null_iff v').mpr (by rw [e]; exact (ne_null_iff v).mp h)
  | some m => exact Ev.imp h id fun b hb => by rw [hb, nullBit, nullBit, e]

theorem un_minus {w : IW} (v v' : V P) (hv : v.Has (.int w)) (h : semUn .minus (.int w) v = some v') :
    v'.Has (.int w) ∧ v'.isNull = v.isNull ∧
      ∀ m, 1 < m → w.bits ≤ m → ∀ y : BitVec m, Rep.RepI y v → Rep.RepI (0 - y) v' := by
  cases v with
  | null => cases h; exact ⟨trivial, rfl, fun _ _ _ _ _ => trivial⟩
  | int z =>
    simp only [semUn] at h
    split at h
    · rename_i hf
      cases h
      refine ⟨hf, rfl, fun m hm hw y hy => ?_⟩
      have hy : y.toInt = z := hy
      subst hy
      exact zero_sub_ok hm y (hf.mono hw)
    · cases h
  | bool _ => exact False.elim hv
  | date _ => exact False.elim hv
  | float _ => exact False.elim hv
  | double _ => exact False.elim hv

theorem un_tilde {w : IW} (v v' : V P) (hv : v.Has (.int w)) (h : semUn .tilde (.int w) v = some v') :
    v'.Has (.int w) ∧ v'.isNull = v.isNull ∧
      ∀ m, 1 < m → ∀ y : BitVec m, Rep.RepI y v → Rep.RepI (-1 ^^^ y) v' := by
  cases v with
  | null => cases h; exact ⟨trivial, rfl, fun _ _ _ _ => trivial⟩
  | int z =>
    cases h
    refine ⟨fits_not hv, rfl, fun m hm y hy => ?_⟩
    have hy : y.toInt = z := hy
    subst hy
    exact xor_neg_one hm y
  | bool _ => exact False.elim hv
  | date _ => exact False.elim hv
  | float _ => exact False.elim hv
  | double _ => exact False.elim hv

theorem unary_ok {op : UnOp} {t : Ty} (ht : unTyped op t) (hs : op = .tilde → ∃ w, t = .int w) (x : W P t.d.rep)
    (n : Option (W P .i32)) :
    ∃ c', unary op ⟨t.d, x, n⟩ = some c' ∧ c'.t = t.d ∧ ∀ (H : Prop) σ (v v' : V P), v.Has t →
      Good H σ ⟨t.d, x, n⟩ v → semUn op t v = some v' → v'.Has t ∧ Good H σ c' v' := by
  cases op with
  | not =>
    have ht : t = .bool := ht
    subst ht
    refine ⟨_, rfl, rfl, fun H σ v v' hv hg h => ?_⟩
    have hk : ∃ k, v.k3 = some k := by
      cases v with
      | null => exact ⟨_, rfl⟩
      | bool b => cases b <;> exact ⟨_, rfl⟩
      | int _ => exact False.elim hv
      | date _ => exact False.elim hv
      | float _ => exact False.elim hv
      | double _ => exact False.elim hv
    obtain ⟨k, hk⟩ := hk
    have hg' := goodK_of_good (c := ⟨x, n⟩) hk hg
    have h : v' = ofK3 k.not := by simp [semUn, hk] at h; exact h.symm
    subst h
    exact ⟨by cases k <;> trivial, good_of_goodK hg'.not⟩
  | plus =>
    have ht : t.numeric = true := ht
    have hu : unary .plus ⟨t.d, x, n⟩ = some ⟨t.d, x, n⟩ := by
      cases t with
      | int w => cases w <;> rfl
      | float => rfl
      | double => rfl
      | none => cases ht
      | bool => cases ht
      | date => cases ht
      | datetime => cases ht
    refine ⟨_, hu, rfl, fun H σ v v' hv hg h => ?_⟩
    have : v' = v := by cases v <;> simp [semUn] at h <;> exact h.symm
    subst this
    exact ⟨hv, hg⟩
  | minus =>
    have ht : t.numeric = true := ht
    cases t with
    | none => cases ht
    | bool => cases ht
    | date => cases ht
    | datetime => cases ht
    | float =>
      refine ⟨_, rfl, rfl, fun H σ v v' hv hg h => ?_⟩
      cases v with
      | null => cases h; exact ⟨trivial, Ev.un hg.1 fun w _ => trivial, hg.2⟩
      | float z =>
        cases h
        refine ⟨trivial, Ev.un hg.1 fun w hw => congrArg P.s.neg hw, ?_⟩
        have := hg.2
        cases n with
        | none => simp
        | some m => exact this
      | bool _ => exact False.elim hv
      | int _ => exact False.elim hv
      | date _ => exact False.elim hv
      | double _ => exact False.elim hv
    | double =>
      refine ⟨_, rfl, rfl, fun H σ v v' hv hg h => ?_⟩
      cases v with
      | null => cases h; exact ⟨trivial, Ev.un hg.1 fun w _ => trivial, hg.2⟩
      | double z =>
        cases h
        refine ⟨trivial, Ev.un hg.1 fun w hw => congrArg P.d.neg hw, ?_⟩
        have := hg.2
        cases n with
        | none => simp
        | some m => exact this
      | bool _ => exact False.elim hv
      | int _ => exact False.elim hv
      | date _ => exact False.elim hv
      | float _ => exact False.elim hv
    | int w =>
      cases w with
      | w1 =>
        refine ⟨_, rfl, rfl, fun H σ v v' hv hg h => ?_⟩
        obtain ⟨h1, h2, h3⟩ := un_minus v v' hv h
        exact ⟨h1, Ev.bin Ev.const hg.1 (by
          rintro u y rfl hy; exact h3 32 (by decide) (by decide) y hy), nullOK_congr h2 hg.2⟩
      | w2 =>
        refine ⟨_, rfl, rfl, fun H σ v v' hv hg h => ?_⟩
        obtain ⟨h1, h2, h3⟩ := un_minus v v' hv h
        exact ⟨h1, Ev.bin Ev.const hg.1 (by
          rintro u y rfl hy; exact h3 32 (by decide) (by decide) y hy), nullOK_congr h2 hg.2⟩
      | w4 =>
        refine ⟨_, rfl, rfl, fun H σ v v' hv hg h => ?_⟩
        obtain ⟨h1, h2, h3⟩ := un_minus v v' hv h
        exact ⟨h1, Ev.bin Ev.const hg.1 (by
          rintro u y rfl hy; exact h3 32 (by decide) (by decide) y hy), nullOK_congr h2 hg.2⟩
      | w8 =>
        refine ⟨_, rfl, rfl, fun H σ v v' hv hg h => ?_⟩
        obtain ⟨h1, h2, h3⟩ := un_minus v v' hv h
        exact ⟨h1, Ev.bin Ev.const hg.1 (by
          rintro u y rfl hy; exact h3 64 (by decide) (by decide) y hy), nullOK_congr h2 hg.2⟩
  | tilde =>
    obtain ⟨w, rfl⟩ := hs rfl
    cases w with
      | w1 =>
        refine ⟨_, rfl, rfl, fun H σ v v' hv hg h => ?_⟩
        obtain ⟨h1, h2, h3⟩ := un_tilde v v' hv h
        exact ⟨h1, Ev.bin Ev.const hg.1 (by
          rintro u y rfl hy; exact h3 32 (by decide) y hy), nullOK_congr h2 hg.2⟩
      | w2 =>
        refine ⟨_, rfl, rfl, fun H σ v v' hv hg h => ?_⟩
        obtain ⟨h1, h2, h3⟩ := un_tilde v v' hv h
        exact ⟨h1, Ev.bin Ev.const hg.1 (by
          rintro u y rfl hy; exact h3 32 (by decide) y hy), nullOK_congr h2 hg.2⟩
      | w4 =>
        refine ⟨_, rfl, rfl, fun H σ v v' hv hg h => ?_⟩
        obtain ⟨h1, h2, h3⟩ := un_tilde v v' hv h
        exact ⟨h1, Ev.bin Ev.const hg.1 (by
          rintro u y rfl hy; exact h3 32 (by decide) y hy), nullOK_congr h2 hg.2⟩
      | w8 =>
        refine ⟨_, rfl, rfl, fun H σ v v' hv hg h => ?_⟩
        obtain ⟨h1, h2, h3⟩ := un_tilde v v' hv h
        exact ⟨h1, Ev.bin Ev.const hg.1 (by
          rintro u y rfl hy; exact h3 64 (by decide) y hy), nullOK_congr h2 hg.2⟩

/-! ### The induction -/

theorem good_subs_mono {ρ : Nat → V P} {e e' : X P} (h : ∀ x ∈ subs e, x ∈ subs e') :
    (∃ x ∈ subs e, NullDivision ρ x) → ∃ x ∈ subs e', NullDivision ρ x := fun ⟨x, hx, hn⟩ => ⟨x, h x hx, hn⟩

theorem rep_ofInt {n : Nat} (hn : 0 < n) {z : Int} (h : Fits n z) : (BitVec.ofInt n z).toInt = z :=
  toInt_ofInt_fits hn h

theorem has_k3 {v : V P} (h : v.Has .bool) : ∃ k, v.k3 = some k := by
  cases v with
  | null => exact ⟨_, rfl⟩
  | bool b => cases b <;> exact ⟨_, rfl⟩
  | int _ => exact False.elim h
  | date _ => exact False.elim h
  | float _ => exact False.elim h
  | double _ => exact False.elim h

theorem ofK3_has (k : K3) : (ofK3 k : V P).Has .bool := by cases k <;> trivial

/-- The operation exists for the common type of the operands. -/
theorem arithOp_some {t : Ty} (ht : t.numeric = true) {op : Arith} (h : op = .mod → ∃ w, t = .int w) :
    ∃ o, arithOp t.d op = some o := by
  cases t with
  | none => cases ht
  | bool => cases ht
  | date => cases ht
  | datetime => cases ht
  | int w => cases w <;> exact ⟨_, rfl⟩
  | float => cases op <;> first | exact ⟨_, rfl⟩ | (obtain ⟨w, hw⟩ := h rfl; cases hw)
  | double => cases op <;> first | exact ⟨_, rfl⟩ | (obtain ⟨w, hw⟩ := h rfl; cases hw)

theorem comparable_common {c : Cmp} {a b : Ty} (h : comparable c a b = true) :
    canConv a ((join a b).getD a) = true ∧ canConv b ((join a b).getD a) = true ∧
      ∃ o, cmpOp ((join a b).getD a).d c = some o := by
  cases a with
  | none => cases b <;> simp [comparable, Ty.numeric] at h
  | bool =>
    cases b <;> simp [comparable, Ty.numeric] at h
    rcases h with rfl | rfl <;> exact ⟨rfl, rfl, _, rfl⟩
  | date =>
    cases b <;> simp [comparable, Ty.numeric] at h
    exact ⟨rfl, rfl, _, rfl⟩
  | datetime =>
    cases b <;> simp [comparable, Ty.numeric] at h
    exact ⟨rfl, rfl, _, rfl⟩
  | int v =>
    cases b with
    | none => simp [comparable, Ty.numeric] at h
    | bool => simp [comparable, Ty.numeric] at h
    | date => simp [comparable, Ty.numeric] at h
    | datetime => simp [comparable, Ty.numeric] at h
    | int w => cases v <;> cases w <;> exact ⟨rfl, rfl, _, rfl⟩
    | float => cases v <;> exact ⟨rfl, rfl, _, rfl⟩
    | double => exact ⟨rfl, rfl, _, rfl⟩
  | float =>
    cases b with
    | none => simp [comparable, Ty.numeric] at h
    | bool => simp [comparable, Ty.numeric] at h
    | date => simp [comparable, Ty.numeric] at h
    | datetime => simp [comparable, Ty.numeric] at h
    | int w => cases w <;> exact ⟨rfl, rfl, _, rfl⟩
    | float => exact ⟨rfl, rfl, _, rfl⟩
    | double => exact ⟨rfl, rfl, _, rfl⟩
  | double =>
    cases b with
    | none => simp [comparable, Ty.numeric] at h
    | bool => simp [comparable, Ty.numeric] at h
    | date => simp [comparable, Ty.numeric] at h
    | datetime => simp [comparable, Ty.numeric] at h
    | int w => exact ⟨rfl, rfl, _, rfl⟩
    | float => exact ⟨rfl, rfl, _, rfl⟩
    | double => exact ⟨rfl, rfl, _, rfl⟩

/-- The statement proved for every expression. -/
def OK (e : X P) (τ : Ty) (c : Code P) : Prop :=
  compile e = some c ∧ c.t = τ.d ∧ ∀ σ (ρ : Nat → V P) v, Holds σ ρ e → sem ρ e = some v →
    v.Has τ ∧ Good (∃ x ∈ subs e, NullDivision ρ x) σ c v

theorem bind_some_iff {α β : Type} {o : Option α} {f : α → Option β} {b : β} (h : (o >>= f) = some b) :
    ∃ a, o = some a ∧ f a = some b := by
  cases o with
  | none => cases h
  | some a => exact ⟨a, rfl, h⟩

theorem compile_ok : ∀ (e : X P) (τ : Ty), e.ty = some τ → Supported e → LitOK e → ∃ c, OK e τ c
  | .attr i t n, τ, ht, _, _ => by
    simp only [X.ty] at ht
    split at ht
    · cases ht
    · cases ht
      refine ⟨_, rfl, rfl, fun σ ρ v hh hs => ?_⟩
      cases hs
      obtain ⟨h1, h2, h3⟩ := hh
      refine ⟨h1, h2, ?_⟩
      cases n with
      | false => exact h3
      | true => exact h3
  | .null, τ, ht, _, _ => by
    cases ht
    refine ⟨_, rfl, rfl, fun σ ρ v hh hs => ?_⟩
    cases hs
    exact ⟨trivial, trivial, rfl⟩
  | .boolC b, τ, ht, _, _ => by
    cases ht
    refine ⟨_, rfl, rfl, fun σ ρ v hh hs => ?_⟩
    cases hs
    exact ⟨trivial, rfl, by simp⟩
  | .intC w z, τ, ht, _, hl => by
    cases ht
    have hl : Fits w.bits z := hl
    cases w with
    | w1 =>
      refine ⟨_, rfl, rfl, fun σ ρ v hh hs => ?_⟩
      cases hs
      exact ⟨hl, rep_ofInt (n := 32) (by decide) (hl.mono (by decide)), by simp⟩
    | w2 =>
      refine ⟨_, rfl, rfl, fun σ ρ v hh hs => ?_⟩
      cases hs
      exact ⟨hl, rep_ofInt (n := 32) (by decide) (hl.mono (by decide)), by simp⟩
    | w4 =>
      refine ⟨_, rfl, rfl, fun σ ρ v hh hs => ?_⟩
      cases hs
      exact ⟨hl, rep_ofInt (n := 32) (by decide) (hl.mono (by decide)), by simp⟩
    | w8 =>
      refine ⟨_, rfl, rfl, fun σ ρ v hh hs => ?_⟩
      cases hs
      exact ⟨hl, rep_ofInt (n := 64) (by decide) (hl.mono (by decide)), by simp⟩
  | .floatC x, τ, ht, _, _ => by
    cases ht
    refine ⟨_, rfl, rfl, fun σ ρ v hh hs => ?_⟩
    cases hs
    exact ⟨trivial, rfl, by simp⟩
  | .doubleC x, τ, ht, _, _ => by
    cases ht
    refine ⟨_, rfl, rfl, fun σ ρ v hh hs => ?_⟩
    cases hs
    exact ⟨trivial, rfl, by simp⟩
  | .dateC z, τ, ht, _, hl => by
    cases ht
    refine ⟨_, rfl, rfl, fun σ ρ v hh hs => ?_⟩
    cases hs
    exact ⟨hl, rep_ofInt (n := 32) (by decide) hl, by simp⟩
  | .datetimeC z, τ, ht, _, hl => by
    cases ht
    refine ⟨_, rfl, rfl, fun σ ρ v hh hs => ?_⟩
    cases hs
    exact ⟨hl, rep_ofInt (n := 64) (by decide) hl, by simp⟩
  | .un op e, τ, ht, hs, hl => by
    have ht : (do
      let t ← e.ty
      match op with
      | .not => if t = .bool then some t else Option.none
      | _ => if t.numeric then some t else Option.none) = some τ := ht
    obtain ⟨t, he, ht⟩ := bind_some_iff ht
    have hu : unTyped op t ∧ τ = t := by
      cases op <;> simp only at ht <;> split at ht <;> first | (cases ht; exact ⟨by assumption, rfl⟩) | cases ht
    obtain ⟨hu, rfl⟩ := hu
    obtain ⟨⟨ct, cv, cn⟩, hc, hct, hg⟩ := compile_ok e τ he hs.1 hl
    have hct : ct = τ.d := hct
    subst hct
    obtain ⟨c', h1, h2, h3⟩ := unary_ok hu (fun h => by
      obtain ⟨w, hw⟩ := hs.2 h; rw [he] at hw; cases hw; exact ⟨w, rfl⟩) cv cn
    refine ⟨c', by simp only [compile, hc]; exact h1, h2, fun σ ρ v hh hv => ?_⟩
    simp only [sem] at hv
    obtain ⟨a, ha, hv⟩ := bind_some_iff hv
    rw [he] at hv
    obtain ⟨hA, hG⟩ := hg σ ρ a hh ha
    have := h3 _ σ a v hA hG hv
    exact ⟨this.1, this.2.imp (good_subs_mono fun x hx => List.mem_cons_of_mem _ hx)⟩
  | .ar op l r, τ, ht, hs, hl => by
    simp only [X.ty] at ht
    obtain ⟨tl, htl, ht⟩ := bind_some_iff ht
    obtain ⟨tr, htr, ht⟩ := bind_some_iff ht
    obtain ⟨⟨lt, lv, ln⟩, hlc, hlt, hlg⟩ := compile_ok l tl htl hs.1 hl.1
    obtain ⟨⟨rt, rv, rn⟩, hrc, hrt, hrg⟩ := compile_ok r tr htr hs.2.1 hl.2
    have hlt : lt = tl.d := hlt
    have hrt : rt = tr.d := hrt
    subst hlt; subst hrt
    obtain ⟨hcl, hcr, hnum⟩ := join_conv ht
    obtain ⟨x, hx, hxe⟩ := convert_ok hcl lv
    obtain ⟨y, hy, hye⟩ := convert_ok hcr rv
    have hcom : commonTy l r = some τ := by simp [commonTy, htl, htr, ht]
    obtain ⟨o, ho⟩ := arithOp_some hnum (op := op) (by
      intro hm
      obtain ⟨⟨w, hw⟩, w', hw'⟩ := hs.2.2 hm
      rw [htl] at hw; rw [htr] at hw'
      cases hw; cases hw'
      simp only [join, Option.some.injEq] at ht
      exact ⟨_, ht.symm⟩)
    refine ⟨⟨τ.d, .bin o x y, nullOr ln rn⟩, ?_, rfl, fun σ ρ v hh hv => ?_⟩
    · simp [compile, hlc, hrc, htl, htr, ht, binArith, hx, hy, ho]
    · simp only [sem] at hv
      obtain ⟨a, ha, hv⟩ := bind_some_iff hv
      obtain ⟨b, hb, hv⟩ := bind_some_iff hv
      rw [hcom] at hv
      have hv : strict (arithIn op τ) a b = some v := hv
      obtain ⟨hA, hGa⟩ := hlg σ ρ a hh.1 ha
      obtain ⟨hB, hGb⟩ := hrg σ ρ b hh.2 hb
      have mL : (∃ x ∈ subs l, NullDivision ρ x) → ∃ x ∈ subs (.ar op l r), NullDivision ρ x :=
        good_subs_mono fun x hx => List.mem_cons_of_mem _ (List.mem_append_left _ hx)
      have mR : (∃ x ∈ subs r, NullDivision ρ x) → ∃ x ∈ subs (.ar op l r), NullDivision ρ x :=
        good_subs_mono fun x hx => List.mem_cons_of_mem _ (List.mem_append_right _ hx)
      have hGa := hGa.imp mL
      have hGb := hGb.imp mR
      refine ⟨?_, ?_, ?_⟩
      · rcases strict_cases hv with ⟨-, rfl⟩ | ⟨-, -, h⟩
        · exact has_null τ
        · exact arithIn_has h
      · refine Ev.bin (hxe _ σ a hA hGa.1) (hye _ σ b hB hGb.1) ?_
        intro p q hp hq
        have hdate : ∀ z, b ≠ .date z := by
          intro z hz
          subst hz
          cases tr with
          | date => cases τ <;> simp [canConv, Ty.numeric] at hcr hnum
          | datetime => cases τ <;> simp [canConv, Ty.numeric] at hcr hnum
          | none => exact hB
          | bool => exact hB
          | int _ => exact hB
          | float => exact hB
          | double => exact hB
        have := arith_step hnum ho hp hq hdate hv
        cases he : evalBin P o p q with
        | some w => rw [he] at this; exact this
        | none =>
          rw [he] at this
          obtain ⟨⟨w, hw⟩, hz⟩ := this
          refine ⟨.ar op l r, List.mem_cons_self, ?_⟩
          subst hw
          rcases hz with ⟨rfl, hz⟩ | ⟨rfl, hz⟩
          · refine ⟨⟨w, hcom⟩, ?_⟩
            rcases hz with rfl | ⟨rfl, rfl | rfl⟩
            · exact .inl hb
            · exact .inr ⟨ha, .inl hb⟩
            · exact .inr ⟨ha, .inr hb⟩
          · refine ⟨⟨w, hcom⟩, ?_⟩
            rcases hz with rfl | ⟨rfl, rfl⟩
            · exact .inl hb
            · exact .inr ⟨ha, hb⟩
      · exact nullOr_ok hGa.2 hGb.2 (strict_null (arithIn_ne_null op τ) hv)
  | .cmp c l r, τ, ht, hs, hl => by
    simp only [X.ty] at ht
    obtain ⟨tl, htl, ht⟩ := bind_some_iff ht
    obtain ⟨tr, htr, ht⟩ := bind_some_iff ht
    split at ht
    swap
    · cases ht
    rename_i hcomp
    cases ht
    obtain ⟨⟨lt, lv, ln⟩, hlc, hlt, hlg⟩ := compile_ok l tl htl hs.1 hl.1
    obtain ⟨⟨rt, rv, rn⟩, hrc, hrt, hrg⟩ := compile_ok r tr htr hs.2 hl.2
    have hlt : lt = tl.d := hlt
    have hrt : rt = tr.d := hrt
    subst hlt; subst hrt
    obtain ⟨hcl, hcr, o, ho⟩ := comparable_common hcomp
    obtain ⟨x, hx, hxe⟩ := convert_ok hcl lv
    obtain ⟨y, hy, hye⟩ := convert_ok hcr rv
    have hcom : commonTy l r = some ((join tl tr).getD tl) := by simp [commonTy, htl, htr]
    refine ⟨⟨.bool, .bin o x y, nullOr ln rn⟩, ?_, rfl, fun σ ρ v hh hv => ?_⟩
    · simp [compile, hlc, hrc, htl, htr, binCmp, hx, hy, ho]
    · simp only [sem] at hv
      obtain ⟨a, ha, hv⟩ := bind_some_iff hv
      obtain ⟨b, hb, hv⟩ := bind_some_iff hv
      rw [hcom] at hv
      have hv : strict (fun a b => (cmpIn c ((join tl tr).getD tl) a b).map .bool) a b = some v := hv
      obtain ⟨hA, hGa⟩ := hlg σ ρ a hh.1 ha
      obtain ⟨hB, hGb⟩ := hrg σ ρ b hh.2 hb
      have mL : (∃ x ∈ subs l, NullDivision ρ x) → ∃ x ∈ subs (.cmp c l r), NullDivision ρ x :=
        good_subs_mono fun x hx => List.mem_cons_of_mem _ (List.mem_append_left _ hx)
      have mR : (∃ x ∈ subs r, NullDivision ρ x) → ∃ x ∈ subs (.cmp c l r), NullDivision ρ x :=
        good_subs_mono fun x hx => List.mem_cons_of_mem _ (List.mem_append_right _ hx)
      have hGa := hGa.imp mL
      have hGb := hGb.imp mR
      refine ⟨?_, ?_, ?_⟩
      · rcases strict_cases hv with ⟨-, rfl⟩ | ⟨-, -, h⟩
        · trivial
        · cases hcc : cmpIn c ((join tl tr).getD tl) a b with
          | none => rw [hcc] at h; cases h
          | some s => rw [hcc] at h; cases h; trivial
      · refine Ev.bin (hxe _ σ a hA hGa.1) (hye _ σ b hB hGb.1) ?_
        intro p q hp hq
        obtain ⟨s, h1, h2⟩ := cmp_step ho hp hq hv
        rw [h1]
        exact h2
      · exact nullOr_ok hGa.2 hGb.2 (strict_null (cmpIn_ne_null c _) hv)
  | .and l r, τ, ht, hs, hl => by
    simp only [X.ty] at ht
    obtain ⟨tl, htl, ht⟩ := bind_some_iff ht
    obtain ⟨tr, htr, ht⟩ := bind_some_iff ht
    split at ht
    swap
    · cases ht
    rename_i hb
    cases ht
    obtain ⟨rfl, rfl⟩ := hb
    obtain ⟨⟨lt, lv, ln⟩, hlc, hlt, hlg⟩ := compile_ok l _ htl hs.1 hl.1
    obtain ⟨⟨rt, rv, rn⟩, hrc, hrt, hrg⟩ := compile_ok r _ htr hs.2 hl.2
    have hlt : lt = .bool := hlt
    have hrt : rt = .bool := hrt
    subst hlt; subst hrt
    refine ⟨(BCode.and ⟨lv, ln⟩ ⟨rv, rn⟩).toCode, by simp [compile, hlc, hrc, Code.asBool], rfl, fun σ ρ v hh hv => ?_⟩
    simp only [sem] at hv
    obtain ⟨a, ha, hv⟩ := bind_some_iff hv
    obtain ⟨b, hb, hv⟩ := bind_some_iff hv
    obtain ⟨k, hk, hv⟩ := bind_some_iff hv
    obtain ⟨m, hm, hv⟩ := bind_some_iff hv
    cases hv
    obtain ⟨hA, hGa⟩ := hlg σ ρ a hh.1 ha
    obtain ⟨hB, hGb⟩ := hrg σ ρ b hh.2 hb
    have mL : (∃ x ∈ subs l, NullDivision ρ x) → ∃ x ∈ subs (.and l r), NullDivision ρ x :=
      good_subs_mono fun x hx => List.mem_cons_of_mem _ (List.mem_append_left _ hx)
    have mR : (∃ x ∈ subs r, NullDivision ρ x) → ∃ x ∈ subs (.and l r), NullDivision ρ x :=
      good_subs_mono fun x hx => List.mem_cons_of_mem _ (List.mem_append_right _ hx)
    exact ⟨ofK3_has _, good_of_goodK
      ((goodK_of_good (c := ⟨lv, ln⟩) hk (hGa.imp mL)).and (goodK_of_good (c := ⟨rv, rn⟩) hm (hGb.imp mR)))⟩
  | .or l r, τ, ht, hs, hl => by
    simp only [X.ty] at ht
    obtain ⟨tl, htl, ht⟩ := bind_some_iff ht
    obtain ⟨tr, htr, ht⟩ := bind_some_iff ht
    split at ht
    swap
    · cases ht
    rename_i hb
    cases ht
    obtain ⟨rfl, rfl⟩ := hb
    obtain ⟨⟨lt, lv, ln⟩, hlc, hlt, hlg⟩ := compile_ok l _ htl hs.1 hl.1
    obtain ⟨⟨rt, rv, rn⟩, hrc, hrt, hrg⟩ := compile_ok r _ htr hs.2 hl.2
    have hlt : lt = .bool := hlt
    have hrt : rt = .bool := hrt
    subst hlt; subst hrt
    refine ⟨(BCode.or ⟨lv, ln⟩ ⟨rv, rn⟩).toCode, by simp [compile, hlc, hrc, Code.asBool], rfl, fun σ ρ v hh hv => ?_⟩
    simp only [sem] at hv
    obtain ⟨a, ha, hv⟩ := bind_some_iff hv
    obtain ⟨b, hb, hv⟩ := bind_some_iff hv
    obtain ⟨k, hk, hv⟩ := bind_some_iff hv
    obtain ⟨m, hm, hv⟩ := bind_some_iff hv
    cases hv
    obtain ⟨hA, hGa⟩ := hlg σ ρ a hh.1 ha
    obtain ⟨hB, hGb⟩ := hrg σ ρ b hh.2 hb
    have mL : (∃ x ∈ subs l, NullDivision ρ x) → ∃ x ∈ subs (.or l r), NullDivision ρ x :=
      good_subs_mono fun x hx => List.mem_cons_of_mem _ (List.mem_append_left _ hx)
    have mR : (∃ x ∈ subs r, NullDivision ρ x) → ∃ x ∈ subs (.or l r), NullDivision ρ x :=
      good_subs_mono fun x hx => List.mem_cons_of_mem _ (List.mem_append_right _ hx)
    exact ⟨ofK3_has _, good_of_goodK
      ((goodK_of_good (c := ⟨lv, ln⟩) hk (hGa.imp mL)).or (goodK_of_good (c := ⟨rv, rn⟩) hm (hGb.imp mR)))⟩
  | .isNull e, τ, ht, hs, hl => by
    simp only [X.ty] at ht
    obtain ⟨t, he, ht⟩ := bind_some_iff ht
    cases ht
    obtain ⟨⟨ct, cv, cn⟩, hc, hct, hg⟩ := compile_ok e t he hs hl
    refine ⟨⟨.bool, cn.getD (.const 0), none⟩, by simp [compile, hc], rfl, fun σ ρ v hh hv => ?_⟩
    simp only [sem] at hv
    obtain ⟨a, ha, hv⟩ := bind_some_iff hv
    have hv : v = .bool a.isNull := by cases a <;> cases hv <;> rfl
    subst hv
    obtain ⟨hA, hG⟩ := hg σ ρ a hh ha
    have hG := hG.imp (good_subs_mono (e' := .isNull e) fun x hx => List.mem_cons_of_mem _ hx)
    refine ⟨trivial, ?_, by simp⟩
    have h2 := hG.2
    cases cn with
    | none =>
      have h2 : a.isNull = false := (ne_null_iff a).mp h2
      show b2w false = b2w a.isNull
      rw [h2]
    | some m => exact Ev.imp h2 id fun w hw => hw

end Mutable.WX
