import Verif.IndexScan.Spec
import Verif.Index.Props

namespace Mutable.IScan

open Index

/-! ### Bounds -/

/-- The value of a bound. -/
def Bound.val (b : Bound) : Option ℚ := b.lit.val.map fun q => if b.neg then -q else q

theorem bound_sem {x : Operand} {b : Bound} (h : x.bound = some b) (env : Nat → Option ℚ) : x.sem env = b.val := by
  cases x with
  | lit l =>
    cases h
    simp only [Operand.sem, Bound.val]
    cases l.val <;> rfl
  | sign n l => cases h; rfl
  | attr a => cases h
  | other r f => cases h

def SatLo (x : Bound) (inc : Bool) (q : ℚ) : Prop := ∃ v, x.val = some v ∧ if inc then v ≤ q else v < q
def SatHi (x : Bound) (inc : Bool) (q : ℚ) : Prop := ∃ v, x.val = some v ∧ if inc then q ≤ v else q < v

/-- The value satisfies the bounds. -/
def Sat (b : Bounds) (q : ℚ) : Prop :=
  (∀ x, b.lo = some x → SatLo x b.incLo q) ∧ (∀ x, b.hi = some x → SatHi x b.incHi q)

theorem sat_lo {b : Bounds} (h : b.lo = none) (c : Bound) (i : Bool) (q : ℚ) :
    Sat { b with lo := some c, incLo := i } q ↔ Sat b q ∧ SatLo c i q := by
  unfold Sat
  simp only [h, Option.some.injEq]
  constructor
  · rintro ⟨h1, h2⟩; exact ⟨⟨by simp, h2⟩, h1 c rfl⟩
  · rintro ⟨⟨_, h2⟩, h3⟩; exact ⟨by rintro x rfl; exact h3, h2⟩

theorem sat_hi {b : Bounds} (h : b.hi = none) (c : Bound) (i : Bool) (q : ℚ) :
    Sat { b with hi := some c, incHi := i } q ↔ Sat b q ∧ SatHi c i q := by
  unfold Sat
  simp only [h, Option.some.injEq]
  constructor
  · rintro ⟨h1, h2⟩; exact ⟨⟨h1, by simp⟩, h2 c rfl⟩
  · rintro ⟨⟨h1, _⟩, h3⟩; exact ⟨h1, by rintro x rfl; exact h3⟩

/-- A comparison with the attribute on the left. -/
theorem cmp_left {env : Nat → Option ℚ} {a : Nat} {y : Operand} {c : Bound} (hc : y.bound = some c) {q : ℚ} (hq : env a = some q)
    (r : Rel) : (Pred.cmp r (.attr a) y).sem env = some true ↔ ∃ v, c.val = some v ∧ r.holds q v = true := by
  have e : (Operand.attr a).sem env = some q := hq
  simp only [Pred.sem]
  rw [e, bound_sem hc]
  cases c.val <;> simp

theorem cmp_right {env : Nat → Option ℚ} {a : Nat} {x : Operand} {c : Bound} (hc : x.bound = some c) {q : ℚ} (hq : env a = some q)
    (r : Rel) : (Pred.cmp r x (.attr a)).sem env = some true ↔ ∃ v, c.val = some v ∧ r.holds v q = true := by
  have e : (Operand.attr a).sem env = some q := hq
  simp only [Pred.sem]
  rw [e, bound_sem hc]
  cases c.val <;> simp

/-- The bounds still missing that a comparison needs. -/
def Need (b : Bounds) : Rel → Bool → Prop
  | .eq, _ => b.lo = none ∧ b.hi = none
  | .gt, true | .ge, true | .lt, false | .le, false => b.lo = none
  | .lt, true | .le, true | .gt, false | .ge, false => b.hi = none
  | .ne, _ => False

/-- What the check does after a clause. -/
def Next (cnf : Cnf) (lo hi : Bool) : Rel → Bool → Prop
  | .eq, _ => lo = false ∧ hi = false ∧ check cnf true true = true
  | .gt, true | .ge, true | .lt, false | .le, false => lo = false ∧ check cnf true hi = true
  | .lt, true | .le, true | .gt, false | .ge, false => hi = false ∧ check cnf lo true = true
  | .ne, _ => False

/-- What a successful check says about a clause and the remaining ones. -/
inductive Clause1 (a : Nat) : List (Bool × Pred) → Rel → Bool → Bound → Prop where
  | left {r y c} (h : y.bound = some c) : Clause1 a [(false, .cmp r (.attr a) y)] r true c
  | right {r x c} (h : x.bound = some c) (hx : x.isAttr = false) : Clause1 a [(false, .cmp r x (.attr a))] r false c

theorem isBound_iff {x : Operand} (h : x.isBound = true) : (∃ c, x.bound = some c) ∧ x.isAttr = false := by
  cases x <;> simp_all [Operand.isBound, Operand.bound, Operand.isAttr]

theorem bound_isBound {x : Operand} {c} (h : x.bound = some c) : x.isBound = true ∧ x.isAttr = false := by
  cases x <;> simp_all [Operand.isBound, Operand.bound, Operand.isAttr]

theorem isAttr_iff {x : Operand} (h : x.isAttr = true) : ∃ a, x = .attr a := by
  cases x <;> simp_all [Operand.isAttr]

theorem check_clause {a : Nat} {C : List (Bool × Pred)} {cnf : Cnf} {lo hi : Bool} (h : check (C :: cnf) lo hi = true)
    (ho : OnlyAttr a (C :: cnf)) : ∃ r l c, Clause1 a C r l c ∧ Next cnf lo hi r l := by
  have ho' := ho C (by simp)
  rcases C with _ | ⟨⟨neg, p⟩, _ | ⟨d, D⟩⟩
  · cases h
  · rw [check.eq_def] at h
    simp only at h
    split at h
    · cases h
    · rename_i hneg
      have hneg : neg = false := by simpa using hneg
      subst hneg
      cases p with
      | other _ _ => cases h
      | cmp r lhs rhs =>
        simp only at h
        have ho' := ho' (false, .cmp r lhs rhs) (by simp)
        simp only [Pred.req] at ho'
        cases hl : lhs.isAttr with
        | true =>
          obtain ⟨a', rfl⟩ := isAttr_iff hl
          simp only [hl, Bool.not_true, Bool.false_eq_true, if_false, if_true, Bool.true_and, Bool.false_and] at h
          cases hb : rhs.isBound with
          | false => rw [hb] at h; cases h
          | true =>
            obtain ⟨⟨c, hc⟩, _⟩ := isBound_iff hb
            have : a' = a := ho' a' (by simp [Operand.req])
            subst this
            simp only [hb, Bool.not_true, Bool.false_eq_true, if_false] at h
            refine ⟨r, true, c, .left hc, ?_⟩
            cases r <;> cases lo <;> cases hi <;> first | (simp at h; done) | (simp at h; simp [Next, h]; done)
        | false =>
          simp only [hl, Bool.not_false, Bool.false_eq_true, if_false, if_true, Bool.true_and, Bool.false_and] at h
          cases hr : rhs.isAttr with
          | false => rw [hr] at h; cases h
          | true =>
            obtain ⟨a', rfl⟩ := isAttr_iff hr
            cases hb : lhs.isBound with
            | false => rw [hr, hb] at h; cases h
            | true =>
              obtain ⟨⟨c, hc⟩, _⟩ := isBound_iff hb
              have : a' = a := ho' a' (by simp [Operand.req])
              subst this
              simp only [hr, hb, Bool.not_true, Bool.false_eq_true, if_false] at h
              refine ⟨r, false, c, .right hc hl, ?_⟩
              cases r <;> cases lo <;> cases hi <;> first | (simp at h; done) | (simp at h; simp [Next, h]; done)
  · cases h

theorem clause_sem {a : Nat} {C : List (Bool × Pred)} {r : Rel} {l : Bool} {c : Bound} (h : Clause1 a C r l c)
    {env : Nat → Option ℚ} {q : ℚ} (hq : env a = some q) :
    (C.any fun p => p.2.sem env == some (!p.1)) = true ↔ ∃ v, c.val = some v ∧ (if l then r.holds q v else r.holds v q) = true := by
  cases h with
  | left h => simp only [List.any_cons, List.any_nil, Bool.or_false, Bool.not_false, beq_iff_eq, if_true]; exact cmp_left h hq r
  | right h hx => simp only [List.any_cons, List.any_nil, Bool.or_false, Bool.not_false, beq_iff_eq, Bool.false_eq_true, if_false]; exact cmp_right h hq r

theorem clause_null {a : Nat} {C : List (Bool × Pred)} {r : Rel} {l : Bool} {c : Bound} (h : Clause1 a C r l c)
    {env : Nat → Option ℚ} (hq : env a = none) : (C.any fun p => p.2.sem env == some (!p.1)) = false := by
  cases h with
  | left h =>
    have e : (Operand.attr a).sem env = none := hq
    simp only [List.any_cons, List.any_nil, Bool.or_false, Bool.not_false, Pred.sem]
    rw [e]; rfl
  | @right r x c h hx =>
    have e : (Operand.attr a).sem env = none := hq
    simp only [List.any_cons, List.any_nil, Bool.or_false, Bool.not_false, Pred.sem]
    rw [e]
    cases x.sem env <;> rfl

theorem insist_true (dbg : Bool) : insist dbg true = some () := by simp [insist]

/-- One step of the extraction. -/
def Bounds.upd (b : Bounds) (r : Rel) (l : Bool) (c : Bound) : Bounds :=
  match r, l with
  | .eq, _ => { b with lo := some c, hi := some c, incLo := true, incHi := true }
  | .gt, true | .lt, false => { b with lo := some c, incLo := false }
  | .ge, true | .le, false => { b with lo := some c, incLo := true }
  | .lt, true | .gt, false => { b with hi := some c, incHi := false }
  | .le, true | .ge, false => { b with hi := some c, incHi := true }
  | .ne, _ => b

theorem extract_step {dbg : Bool} {a : Nat} {C : List (Bool × Pred)} {r : Rel} {l : Bool} {c : Bound} (h : Clause1 a C r l c)
    (cnf : Cnf) (b : Bounds)
    (hb : Need b r l) :
    extractLoop dbg (C :: cnf) b = extractLoop dbg cnf (b.upd r l c) := by
  cases h with
  | left h =>
    obtain ⟨h1, h2⟩ := bound_isBound h
    cases r <;> simp_all [extractLoop, Operand.isAttr, insist, Bounds.upd, Need]
  | right h hx =>
    obtain ⟨h1, h2⟩ := bound_isBound h
    cases r <;> simp_all [extractLoop, Operand.isAttr, insist, Bounds.upd, Need]

/-- Where bounds come from. -/
def FromCnf (cnf : Cnf) (c : Bound) : Prop :=
  ∃ C ∈ cnf, ∃ p ∈ C, ∃ r x y, p.2 = Pred.cmp r x y ∧ (x.bound = some c ∨ y.bound = some c)

theorem clause_from {a : Nat} {C : List (Bool × Pred)} {r : Rel} {l : Bool} {c : Bound} (h : Clause1 a C r l c) (cnf : Cnf) :
    FromCnf (C :: cnf) c := by
  cases h with
  | @left r y c h => exact ⟨[(false, .cmp r (.attr a) y)], by simp, (false, .cmp r (.attr a) y), by simp, r, _, _, rfl, Or.inr h⟩
  | @right r x c h hx => exact ⟨[(false, .cmp r x (.attr a))], by simp, (false, .cmp r x (.attr a)), by simp, r, _, _, rfl, Or.inl h⟩

theorem FromCnf.cons {cnf : Cnf} {c : Bound} (h : FromCnf cnf c) (C) : FromCnf (C :: cnf) c := by
  obtain ⟨D, hD, r⟩ := h
  exact ⟨D, by simp [hD], r⟩

theorem extractLoop_ok {dbg : Bool} {a : Nat} : ∀ (cnf : Cnf) (b : Bounds), OnlyAttr a cnf → check cnf b.lo.isSome b.hi.isSome = true →
    ∃ b', extractLoop dbg cnf b = some b' ∧ b'.attr = b.attr ∧
      (∀ env q, env a = some q → (Sat b' q ↔ Sat b q ∧ passes env cnf = true)) ∧
      (∀ env, env a = none → cnf ≠ [] → passes env cnf = false) ∧
      (∀ x, b'.lo = some x → b.lo = some x ∨ FromCnf cnf x) ∧ (∀ x, b'.hi = some x → b.hi = some x ∨ FromCnf cnf x) ∧
      ((b.lo.isSome = true ∨ b.hi.isSome = true ∨ cnf ≠ []) → b'.lo.isSome = true ∨ b'.hi.isSome = true) := by
  intro cnf
  induction cnf with
  | nil => intro b _ _; exact ⟨b, rfl, rfl, by simp [passes], by simp, fun x h => Or.inl h, fun x h => Or.inl h, by simp⟩
  | cons C cnf ih =>
    intro b ho hc
    obtain ⟨r, l, c, hcl, hm⟩ := check_clause hc ho
    have ho' : OnlyAttr a cnf := fun D hD => ho D (by simp [hD])
    have hb : Need b r l := by
      cases r <;> cases l <;> simp_all [Next, Need]
    have hchk : check cnf (b.upd r l c).lo.isSome (b.upd r l c).hi.isSome = true := by
      cases r <;> cases l <;> simp_all [Bounds.upd, Next]
    have hattr : (b.upd r l c).attr = b.attr := by cases r <;> cases l <;> rfl
    have hsat : ∀ q, Sat (b.upd r l c) q ↔ Sat b q ∧ ∃ v, c.val = some v ∧ (if l then r.holds q v else r.holds v q) = true := by
      intro q
      cases r <;> cases l <;> simp only [Bounds.upd, Bool.false_eq_true, if_false, if_true, Rel.holds, decide_eq_true_eq]
      case eq.false | eq.true =>
        obtain ⟨h1, h2⟩ := hb
        have e : ({ b with lo := some c, hi := some c, incLo := true, incHi := true } : Bounds) =
            { ({ b with lo := some c, incLo := true } : Bounds) with hi := some c, incHi := true } := rfl
        rw [e, sat_hi (by exact h2), sat_lo h1, and_assoc]
        apply and_congr_right
        intro _
        unfold SatLo SatHi
        constructor
        · rintro ⟨⟨v, h1, h2⟩, w, h3, h4⟩
          rw [h1] at h3; cases h3
          simp only [if_true] at h2 h4
          exact ⟨v, h1, by first | exact le_antisymm h2 h4 | exact le_antisymm h4 h2⟩
        · rintro ⟨v, h1, rfl⟩
          exact ⟨⟨_, h1, by simp⟩, _, h1, by simp⟩
      case lt.false => rw [sat_lo hb]; simp [SatLo]
      case le.false => rw [sat_lo hb]; simp [SatLo]
      case gt.true => rw [sat_lo hb]; simp [SatLo]
      case ge.true => rw [sat_lo hb]; simp [SatLo]
      case lt.true => rw [sat_hi hb]; simp [SatHi]
      case le.true => rw [sat_hi hb]; simp [SatHi]
      case gt.false => rw [sat_hi hb]; simp [SatHi]
      case ge.false => rw [sat_hi hb]; simp [SatHi]
      all_goals exact hb.elim
    have hlo : ∀ x, (b.upd r l c).lo = some x → b.lo = some x ∨ x = c := by
      intro x hx
      cases r <;> cases l <;> simp_all [Bounds.upd]
    have hhi : ∀ x, (b.upd r l c).hi = some x → b.hi = some x ∨ x = c := by
      intro x hx
      cases r <;> cases l <;> simp_all [Bounds.upd]
    have hsome : (b.upd r l c).lo.isSome = true ∨ (b.upd r l c).hi.isSome = true := by
      cases r <;> cases l <;> first | exact hb.elim | simp [Bounds.upd]
    obtain ⟨b', e1, e2, e3, e4, e5, e6, e7⟩ := ih (b.upd r l c) ho' hchk
    refine ⟨b', by rw [extract_step hcl cnf b hb, e1], by rw [e2, hattr], ?_, ?_, ?_, ?_, ?_⟩
    · intro env q hq
      rw [e3 env q hq, hsat, and_assoc]
      apply and_congr_right
      intro _
      rw [← clause_sem hcl hq]
      simp [passes]
    · intro env hq _
      have := clause_null hcl hq
      simp only [passes, List.all_cons, this, Bool.false_and]
    · intro x hx
      rcases e5 x hx with h | h
      · rcases hlo x h with h | rfl
        · exact Or.inl h
        · exact Or.inr (clause_from hcl cnf)
      · exact Or.inr (h.cons C)
    · intro x hx
      rcases e6 x hx with h | h
      · rcases hhi x h with h | rfl
        · exact Or.inl h
        · exact Or.inr (clause_from hcl cnf)
      · exact Or.inr (h.cons C)
    · intro _
      exact e7 (by rcases hsome with h | h <;> simp [h])

/-! ### Keys -/

theorem wrap_id {n : Nat} {z : Int} (hn : 0 < n) (h1 : -2 ^ (n - 1) ≤ z) (h2 : z < 2 ^ (n - 1)) : wrap n z = z := by
  unfold wrap
  obtain ⟨m, rfl⟩ : ∃ m, n = m + 1 := ⟨n - 1, by omega⟩
  simp only [Nat.add_sub_cancel] at h1 h2
  have e : (2 : Int) ^ (m + 1) = 2 * 2 ^ m := by rw [pow_succ]; ring
  have e2 : (2 : Nat) ^ (m + 1) = 2 * 2 ^ m := by rw [pow_succ]; ring
  have c : ((2 ^ m : Nat) : Int) = 2 ^ m := by push_cast; rfl
  apply Int.bmod_eq_of_le
  · rw [e2]; omega
  · rw [e2]; omega

theorem key_ok (cfg : Cfg) {ty : KTy} (hv : ty.Valid) {b : Bound} (h : BoundOK ty b) :
    ty.scale = 0 ∧ ∃ k, keyOf cfg ty b = some k ∧ b.val = some (k : ℚ) := by
  have num : ∀ n, (n = 1 ∨ n = 2 ∨ n = 4 ∨ n = 8) → ∀ z neg, 0 ≤ z → z < 2 ^ (8 * n - 1) → ∀ ty : KTy, ty ≠ .bool → ty.bits = 8 * n →
      ∃ k, keyOf cfg ty ⟨.int z, neg⟩ = some k ∧ (Bound.mk (.int z) neg).val = some (k : ℚ) := by
    intro n hn z neg h1 h2 ty hb hbits
    have hpos : 0 < 8 * n := by omega
    have hp : (0 : Int) < 2 ^ (8 * n - 1) := by positivity
    refine ⟨if neg then -z else z, ?_, ?_⟩
    · have w1 : wrap (8 * n) z = z := wrap_id hpos (by omega) h2
      have w2 : wrap (8 * n) (-z) = -z := wrap_id hpos (by omega) (by omega)
      have hd : decide (-2 ^ (8 * n - 1) ≤ z ∧ z < 2 ^ (8 * n - 1)) = true := by
        rw [decide_eq_true_eq]; exact ⟨by omega, h2⟩
      unfold keyOf
      cases ty <;> first | exact absurd rfl hb | (simp only [hbits, Option.bind_eq_bind, Option.bind_some, hd, insist_true, w1, w2]; rfl)
    · simp only [Bound.val, Lit.val, Option.map_some]
      cases neg <;> simp
  cases ty with
  | bool =>
    obtain ⟨x, rfl⟩ := h
    refine ⟨rfl, if x then 1 else 0, ?_, ?_⟩
    · simp [keyOf, insist]
    · cases x <;> simp [Bound.val, Lit.val]
  | int n =>
    obtain ⟨z, neg, rfl, h1, h2⟩ := h
    exact ⟨rfl, num n hv z neg h1 h2 _ (by simp) rfl⟩
  | decimal n s =>
    obtain ⟨rfl, z, neg, rfl, h1, h2⟩ := h
    exact ⟨rfl, num n hv z neg h1 h2 _ (by simp) rfl⟩
  | date =>
    obtain ⟨d, rfl, h1, h2⟩ := h
    refine ⟨rfl, d, ?_, by simp [Bound.val, Lit.val]⟩
    have w : wrap KTy.date.bits d = d := wrap_id (by decide) h1 h2
    have hd : decide (-2 ^ (KTy.date.bits - 1) ≤ d ∧ d < 2 ^ (KTy.date.bits - 1)) = true := by rw [decide_eq_true_eq]; exact ⟨h1, h2⟩
    simp only [keyOf, Option.bind_eq_bind, Option.bind_some, hd, insist_true, w]; rfl
  | datetime =>
    obtain ⟨d, rfl, h1, h2⟩ := h
    refine ⟨rfl, d, ?_, by simp [Bound.val, Lit.val]⟩
    have w : wrap KTy.datetime.bits d = d := wrap_id (by decide) h1 h2
    have hd : decide (-2 ^ (KTy.datetime.bits - 1) ≤ d ∧ d < 2 ^ (KTy.datetime.bits - 1)) = true := by rw [decide_eq_true_eq]; exact ⟨h1, h2⟩
    simp only [keyOf, Option.bind_eq_bind, Option.bind_some, hd, insist_true, w]; rfl

end Mutable.IScan
