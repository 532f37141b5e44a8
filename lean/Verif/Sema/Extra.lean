import Verif.Sema.Claims
import Mathlib.Data.Int.Order.Basic
import Mathlib.Tactic.Ring
import Mathlib.Algebra.Order.Ring.Int

namespace Mutable.Sema

variable {V : Type}

/-! ## More enclosing queries -/

theorem findUnqualified_append {a : Label} {more : List (Ctx V)} : ∀ {cs : List (Ctx V)} {n d : Nat} {s : Name} {c : Col},
    findUnqualified a cs n = .found d s c → findUnqualified a (cs ++ more) n = .found d s c
  | [], _, _, _, _, h => by simp [findUnqualified] at h
  | k :: cs, n, d, s, c, h => by
    simp only [findUnqualified, List.cons_append] at h ⊢
    split at h
    · cases h
    · exact h
    · exact findUnqualified_append h

theorem findSource_append {t : Name} {more : List (Ctx V)} : ∀ {cs : List (Ctx V)} {n : Nat} {p : Nat × Src},
    findSource t cs n = some p → findSource t (cs ++ more) n = some p
  | [], _, _, h => by simp [findSource] at h
  | k :: cs, n, p, h => by
    simp only [findSource, List.cons_append] at h ⊢
    split at h
    · exact h
    · exact findSource_append h

/-- the last step of `analyzeColumn` -/
def colCore (cs : List (Ctx V)) (a : Label) : Found → Out V
  | .notFound => .fail
  | .ambiguous => .fail
  | .found d s c =>
    if c.ty.isPrim then
      if (cs.take (d + 1)).any (fun x => decide (x.stage = .from_)) then .fail
      else ⟨c.ty.withCat .vector, false, false, .attr d s a c.con⟩
    else .crashed

theorem analyzeColumn_eq (cs : List (Ctx V)) (t : Option Name) (a : Label) : analyzeColumn cs t a =
    colCore cs a (t.elim (findUnqualified a cs 0) (fun t => findQualified cs t a)) := by
  unfold analyzeColumn
  cases t <;> rfl

theorem analyzeColumn_append {cs more : List (Ctx V)} {t : Option Name} {a : Label} (h : (analyzeColumn cs t a).err = false) :
    analyzeColumn (cs ++ more) t a = analyzeColumn cs t a := by
  rw [analyzeColumn_eq] at h ⊢
  rw [analyzeColumn_eq]
  have key : ∀ d s c, (t.elim (findUnqualified a cs 0) (fun t => findQualified cs t a)) = .found d s c →
      (t.elim (findUnqualified a (cs ++ more) 0) (fun t => findQualified (cs ++ more) t a)) = .found d s c ∧ d < cs.length := by
    intro d s c hf
    cases t with
    | none =>
      refine ⟨findUnqualified_append hf, ?_⟩
      obtain ⟨_, x, hx, _⟩ := findUnqualified_at hf
      by_contra hge
      rw [List.getElem?_eq_none (by omega)] at hx
      cases hx
    | some t =>
      simp only [Option.elim, findQualified] at hf ⊢
      cases hs : findSource t cs 0 with
      | none => rw [hs] at hf; cases hf
      | some p =>
        rw [findSource_append hs]; rw [hs] at hf; refine ⟨hf, ?_⟩
        obtain ⟨_, x, hx, _⟩ := findSource_at (d := p.1) (s := p.2) hs
        have : p.1 = d := by
          dsimp only at hf
          split at hf
          · cases hf
          · injection hf
          · cases hf
        by_contra hge
        rw [List.getElem?_eq_none (by omega)] at hx
        cases hx
  cases hf : (t.elim (findUnqualified a cs 0) (fun t => findQualified cs t a)) with
  | notFound => rw [hf] at h; simp [colCore, Out.fail] at h
  | ambiguous => rw [hf] at h; simp [colCore, Out.fail] at h
  | found d s c =>
    obtain ⟨h1, h2⟩ := key d s c hf
    rw [h1]
    simp only [colCore]
    rw [List.take_append_of_le_length (by omega)]

theorem analyzeDes_append {c : Ctx V} {cs more : List (Ctx V)} {t : Option Name} {a : Label}
    (h : (analyzeDes (c :: cs) t a).err = false) : analyzeDes (c :: (cs ++ more)) t a = analyzeDes (c :: cs) t a := by
  unfold analyzeDes at h ⊢
  dsimp only at h ⊢
  split at h
  · rfl
  · rfl
  · split at h
    · rfl
    · rfl
    · exact analyzeColumn_append (cs := c :: cs) h

theorem analyze_append {c : Ctx V} {cs more : List (Ctx V)} : ∀ (e : Expr V), Extensible more e → (analyze (c :: cs) e).err = false →
    analyze (c :: (cs ++ more)) e = analyze (c :: cs) e
  | .des t a, _, h => analyzeDes_append h
  | .const _ _, _, _ => rfl
  | .call0 _, _, _ => rfl
  | .call1 k a, hx, h => by
    simp only [analyze, stageOf] at h ⊢
    rw [analyze_append a hx (analyzeCall1_ok h).1]
  | .call2 k a b, hx, h => by
    simp only [analyze, analyzeCall2] at h
    split at h <;> simp [Out.fail, Out.crashed] at h
  | .un op e, hx, h => by
    have ih := analyze_append (c := c) (cs := cs) e hx
    simp only [analyze] at h ⊢
    split at h
    · simp [Out.fail] at h
    · rename_i ht; rw [ih h, ht]
  | .bin op l r, hx, h => by
    have i1 := analyze_append (c := c) (cs := cs) l hx.1
    have i2 := analyze_append (c := c) (cs := cs) r hx.2
    simp only [analyze] at h ⊢
    split at h
    · simp [Out.fail] at h
    · simp only [Bool.or_eq_false_iff] at h
      rename_i ht; rw [i1 h.1, i2 h.2, ht]
  | .query q, hx, h => by
    simp only [analyze, stageOf] at h ⊢
    obtain ⟨_, hq, _⟩ := analyzeQuery_ok h
    have := hx (c :: cs) hq
    rw [List.cons_append] at this
    rw [this]

/-! ## Numbers -/

theorem bits_roundtrip (p : Nat) : bits .decimal p * 1000000000000000 / 3321928094887362 = p := by
  simp only [bits]
  omega

theorem bits_mono {k : NumKind} {p p' : Nat} (h : p ≤ p') : bits k p ≤ bits k p' := by
  cases k <;> simp only [bits] <;> omega

theorem nat_max_eq {k : NumKind} {p p' : Nat} : Nat.max (bits k p) (bits k p') = bits k (Nat.max p p') := by
  rcases Nat.le_total p p' with h | h
  · have := bits_mono (k := k) h
    rw [show Nat.max p p' = p' from Nat.max_eq_right h, show Nat.max (bits k p) (bits k p') = bits k p' from Nat.max_eq_right this]
  · have := bits_mono (k := k) h
    rw [show Nat.max p p' = p from Nat.max_eq_left h, show Nat.max (bits k p) (bits k p') = bits k p from Nat.max_eq_left this]

theorem join_int (c : Cat) (p p' s s' : Nat) : arithJoin c .int .int p p' s s' = .num c .int (Nat.max p p') 0 := by
  simp only [arithJoin, NumKind.max, nat_max_eq]
  simp [bits]

theorem join_decimal (c : Cat) (p p' s s' : Nat) :
    arithJoin c .decimal .decimal p p' s s' = .num c .decimal (Nat.max p p') (Nat.max s s') := by
  simp only [arithJoin, NumKind.max, nat_max_eq]
  rw [bits_roundtrip]

theorem fits_int_mono {c c' : Cat} {p p' s s' : Nat} (h : p ≤ p') {m : Int} {d : Nat} (hf : Fits (.num c .int p s) m d) :
    Fits (.num c' .int p' s') m d := by
  obtain ⟨n, h1, h2, h3⟩ := hf
  have hp : (2 : Int) ^ (8 * p - 1) ≤ 2 ^ (8 * p' - 1) := by
    have : (2 : Nat) ^ (8 * p - 1) ≤ 2 ^ (8 * p' - 1) := Nat.pow_le_pow_right (by omega) (by omega)
    exact_mod_cast this
  exact ⟨n, h1, by omega, by omega⟩

theorem fits_decimal_mono {c c' : Cat} {p p' s : Nat} (h : p ≤ p') {m : Int} {d : Nat} (hf : Fits (.num c .decimal p s) m d) :
    Fits (.num c' .decimal p' s) m d := by
  obtain ⟨n, h1, h2⟩ := hf
  exact ⟨n, h1, Nat.lt_of_lt_of_le h2 (Nat.pow_le_pow_right (by omega) h)⟩

/-! ## Names -/

theorem noFrom_iff {cs : List (Ctx V)} {d : Nat} :
    ((cs.take (d + 1)).any (fun x => decide (x.stage = .from_))) = false ↔ NoFrom cs d := by
  rw [List.any_eq_false]
  constructor
  · intro h i x hi hx hst
    refine h x ?_ (by simpa using hst)
    rw [List.mem_iff_getElem?]
    exact ⟨i, by rw [List.getElem?_take_of_lt (by omega)]; exact hx⟩
  · intro h x hx
    rw [List.mem_iff_getElem?] at hx
    obtain ⟨i, hi⟩ := hx
    by_cases hlt : i < d + 1
    · rw [List.getElem?_take_of_lt hlt] at hi
      simpa using h i x (by omega) hi
    · rw [List.getElem?_take_eq_none (by omega)] at hi; cases hi

theorem colCore_ok {cs : List (Ctx V)} {a : Label} {F : Found} : (colCore cs a F).err = false ↔
    ∃ d s c, F = .found d s c ∧ c.ty.isPrim = true ∧ NoFrom cs d ∧
      colCore cs a F = ⟨c.ty.withCat .vector, false, false, .attr d s a c.con⟩ := by
  constructor
  · intro h
    cases F with
    | notFound => simp [colCore, Out.fail] at h
    | ambiguous => simp [colCore, Out.fail] at h
    | found d s c =>
      simp only [colCore] at h ⊢
      split at h
      · rename_i hp
        split at h
        · simp [Out.fail] at h
        · rename_i hn
          refine ⟨d, s, c, rfl, hp, noFrom_iff.mp (by simpa using hn), ?_⟩
          rw [if_pos hp, if_neg hn]
      · simp [Out.crashed] at h
  · rintro ⟨d, s, c, _, _, _, h⟩
    rw [h]

theorem analyzeDes_column {c : Ctx V} {cs : List (Ctx V)} {t : Option Name} {a : Label} (h : t = none → NotLocal c a) :
    analyzeDes (c :: cs) t a = analyzeColumn (c :: cs) t a := by
  unfold analyzeDes
  cases t with
  | some t => simp
  | none =>
    obtain ⟨h1, h2⟩ := h rfl
    have e1 : (if ((none : Option Name).isNone && c.stage.afterSelect) = true then c.results.filter (fun r => decide (r.label = a)) else []) = [] := by
      split
      · rename_i hs
        rw [List.filter_eq_nil_iff]
        intro r hr
        have := h1 (by cases hc : c.stage <;> rw [hc] at hs <;> simp [Stage.afterSelect] at hs ⊢) r hr
        simpa using this
      · rfl
    have e2 : (if ((none : Option Name).isNone && c.stage.afterGroupBy) = true then c.keys.filter (fun r => decide (r.label = a)) else []) = [] := by
      split
      · rename_i hs
        rw [List.filter_eq_nil_iff]
        intro r hr
        have := h2 (by cases hc : c.stage <;> rw [hc] at hs <;> simp [Stage.afterGroupBy] at hs ⊢) r hr
        simpa using this
      · rfl
    dsimp only
    rw [e1]
    dsimp only
    rw [e2]

end Mutable.Sema
