import Verif.Lexer.Spec
import Verif.Lexer.Refine
/-! The list level functions of the lexer against the grammar of tokens: numbers. -/
namespace Mutable.Lex
open Spec

theorem takeWhile_stop {p : Char → Bool} {a b : List Char} (ha : ∀ c ∈ a, p c = true) (hb : ∀ x ∈ b.head?, p x = false) :
    (a ++ b).takeWhile p = a ∧ (a ++ b).dropWhile p = b := by
  induction a with
  | nil =>
    cases b with
    | nil => simp
    | cons x b => have := hb x (by simp); simp [this]
  | cons y a ih =>
    have hy := ha y (by simp)
    have := ih (fun c hc => ha c (by simp [hc]))
    simp [hy, this.1, this.2]

theorem mem_takeWhile {p : Char → Bool} {l : List Char} : ∀ c ∈ l.takeWhile p, p c = true := by
  intro c hc
  induction l with
  | nil => simp at hc
  | cons x l ih =>
    by_cases hx : p x = true
    · simp only [List.takeWhile_cons, hx, if_true, List.mem_cons] at hc
      rcases hc with rfl | hc
      · exact hx
      · exact ih hc
    · simp [List.takeWhile_cons, hx] at hc

theorem isHex_alnum {c : Char} (h : isHex c = true) : isAlnum c = true := by
  simp only [isHex, isAlnum, isAlpha, isLower, isUpper, Bool.or_eq_true, decide_eq_true_eq] at h ⊢
  rcases h with (h | h) | h
  · exact Or.inl h
  · exact Or.inr (Or.inl ⟨h.1, Char.le_trans h.2 (by decide : 'f' ≤ 'z')⟩)
  · exact Or.inr (Or.inr ⟨h.1, Char.le_trans h.2 (by decide : 'F' ≤ 'Z')⟩)

theorem isDec_hex {c : Char} (h : isDec c = true) : isHex c = true := by simp [isHex, h]

theorem isDec_alnum {c : Char} (h : isDec c = true) : isAlnum c = true := isHex_alnum (isDec_hex h)

theorem isOct_alnum {c : Char} (h : isOct c = true) : isAlnum c = true := isDec_alnum (isOct_isDec h)

theorem digitOf_alnum {b : Base} {c : Char} (h : digitOf b c = true) : isAlnum c = true := by
  unfold digitOf at h
  split at h
  · exact isHex_alnum h
  · exact isDec_alnum h

theorem isExp_alnum {b : Base} {c : Char} (h : isExp b c = true) : isAlnum c = true := by
  unfold isExp at h
  split at h <;> simp only [Bool.or_eq_true, beq_iff_eq] at h <;> rcases h with rfl | rfl <;> decide

theorem isDec_ne {x c : Char} (h : isDec x = true) (hc : isDec c = false) : x ≠ c := by
  rintro rfl; rw [h] at hc; simp at hc

/-! ### Soundness -/

theorem dotA_spec (n : NumA) : ∃ F, (dotA n).txt = n.txt ++ F ∧ Frac (digitOf n.is) F ∧
    ((F = [] ∧ dotA n = n) ∨ (F ≠ [] ∧ n.l.head? = some '.' ∧ (dotA n).is = noOct n.is ∧ (dotA n).has = noOct n.has ∧ (dotA n).isFloat = true ∧
      (dotA n).empty = (n.empty && decide (F.length < 2)))) := by
  unfold dotA
  split
  · rename_i r heq
    refine ⟨'.' :: r.takeWhile (digitOf n.is), rfl, Or.inr ⟨_, rfl, mem_takeWhile⟩, Or.inr ⟨by simp, by rw [heq]; rfl, rfl, rfl, rfl, ?_⟩⟩
    cases r.takeWhile (digitOf n.is) <;> simp
  · exact ⟨[], by simp, Or.inl rfl, Or.inl ⟨rfl, rfl⟩⟩

theorem signA_spec (l : List Char) : ((signA l).1 = [] ∨ (signA l).1 = ['-'] ∨ (signA l).1 = ['+']) := by
  unfold signA; split <;> simp

def expo (b : Base) (X : List Char) : Prop := if b = .hex then Exponent 'p' 'P' X else Exponent 'e' 'E' X

theorem expA_spec (n : NumA) (he : (expA n).empty = false) : ∃ X, (expA n).txt = n.txt ++ X ∧ expo n.is X ∧
    ((X = [] ∧ expA n = n) ∨ (X ≠ [] ∧ (expA n).is = noOct n.is ∧ (expA n).has = noOct n.has ∧ (expA n).isFloat = true)) := by
  unfold expA at he ⊢
  cases hl : n.l with
  | nil => exact ⟨[], by simp, by unfold expo Exponent; split <;> simp, Or.inl ⟨rfl, rfl⟩⟩
  | cons c r =>
    simp only [hl] at he ⊢
    by_cases hx : isExp n.is c = true
    · rw [if_pos hx] at he ⊢
      refine ⟨c :: ((signA r).1 ++ (signA r).2.takeWhile isDec), rfl, ?_, Or.inr ⟨by simp, rfl, rfl, rfl⟩⟩
      have hne : (signA r).2.takeWhile isDec ≠ [] := by
        intro h; simp [h] at he
      have : ∀ e E : Char, (c = e ∨ c = E) → Exponent e E (c :: ((signA r).1 ++ (signA r).2.takeWhile isDec)) := fun e E hce =>
        Or.inr ⟨c, (signA r).1, (signA r).2.takeWhile isDec, rfl, hce, signA_spec r, hne, mem_takeWhile⟩
      unfold isExp at hx
      unfold expo
      by_cases hb : n.is = .hex
      · rw [if_pos hb] at hx ⊢
        exact this _ _ (by simpa using hx)
      · rw [if_neg hb] at hx ⊢
        exact this _ _ (by simpa using hx)
    · rw [if_neg hx]
      exact ⟨[], by simp, by unfold expo Exponent; split <;> simp, Or.inl ⟨rfl, rfl⟩⟩

/-- The lexer's grammar of numbers: like `Valid`, but a hexadecimal number with an exponent needs no digit before the
exponent. -/
inductive NumOK : TT → List Char → Prop
  | valid {ty w} : Valid ty w → NumOK ty w
  | hexExp {x X} : (x = 'x' ∨ x = 'X') → Exponent 'p' 'P' X → X ≠ [] → NumOK .hexFloat ('0' :: x :: X)
  | hexDotExp {x X} : (x = 'x' ∨ x = 'X') → Exponent 'p' 'P' X → X ≠ [] → NumOK .hexFloat ('0' :: x :: '.' :: X)

theorem typeA_ne {n : NumA} (h : typeA n ≠ .error) : n.empty = false ∧ n.is = n.has := by
  unfold typeA at h
  split at h
  · exact absurd rfl h
  · rename_i hh; push Not at hh; exact ⟨by simpa using hh.1, hh.2⟩

theorem numA_sound {x : Char} {l : List Char} (hx : isDec x = true ∨ (x = '.' ∧ ∃ y ∈ l.head?, isDec y = true))
    (ht : typeA (numA (x :: l)) ≠ .error) : NumOK (typeA (numA (x :: l))) (numA (x :: l)).txt := by
  obtain ⟨hem, hih⟩ := typeA_ne ht
  have hxx : x ≠ 'x' ∧ x ≠ 'X' := by
    rcases hx with h | ⟨rfl, -⟩
    · exact ⟨isDec_ne h (by decide), isDec_ne h (by decide)⟩
    · decide
  -- shape of the prefix
  have hpre : (∃ c r, x :: l = '0' :: c :: r ∧ (c = 'x' ∨ c = 'X') ∧ prefixA (x :: l) = ⟨.hex, .hex, false, true, ['0', c], r⟩) ∨
      (∃ r, x :: l = '0' :: r ∧ prefixA (x :: l) = ⟨.oct, .oct, false, false, ['0'], r⟩) ∨
      (x ≠ '0' ∧ prefixA (x :: l) = ⟨.dec, .dec, false, true, [], x :: l⟩) := by
    by_cases h0 : x = '0'
    · subst h0
      cases l with
      | nil => exact Or.inr (Or.inl ⟨[], rfl, rfl⟩)
      | cons c r =>
        by_cases hc : c = 'x' ∨ c = 'X'
        · refine Or.inl ⟨c, r, rfl, hc, ?_⟩
          simp [prefixA, zeroA, hc]
        · refine Or.inr (Or.inl ⟨c :: r, rfl, ?_⟩)
          simp [prefixA, zeroA, hc]
    · refine Or.inr (Or.inr ⟨h0, ?_⟩)
      have hz : zeroA (x :: l) = ⟨.dec, .dec, false, true, [], x :: l⟩ := by
        unfold zeroA
        split
        · rename_i heq; simp only [List.cons.injEq] at heq; exact absurd heq.1 h0
        · rfl
      simp [prefixA, hz, hxx]
  unfold numA at hem hih ht ⊢
  rcases hpre with ⟨c, r, -, hc, hp⟩ | ⟨r, -, hp⟩ | ⟨h0, hp⟩
  · -- hexadecimal
    rw [hp] at hem hih ht ⊢
    set d := digitsA ⟨.hex, .hex, false, true, ['0', c], r⟩ with hd
    have hdis : d.is = .hex := rfl
    have hdhas : d.has = .hex := by simp [hd, digitsA]
    obtain ⟨F, f1, f2, f3⟩ := dotA_spec d
    obtain ⟨X, x1, x2, x3⟩ := expA_spec (dotA d) hem
    have htxt : (expA (dotA d)).txt = '0' :: c :: (r.takeWhile isHex ++ F ++ X) := by
      rw [x1, f1]; simp [hd, digitsA, digitOf]
    have hdot : (dotA d).is = .hex := by
      rcases f3 with ⟨-, h⟩ | ⟨-, -, h, -⟩
      · rw [h, hdis]
      · rw [h, hdis]; rfl
    have hF : Frac isHex F := by simpa [hdis, digitOf] using f2
    have hX : Exponent 'p' 'P' X := by simpa [hdot, expo] using x2
    have hI : ∀ c ∈ r.takeWhile isHex, isHex c = true := mem_takeWhile
    have hE : d.empty = (r.takeWhile isHex).isEmpty := by simp [hd, digitsA, digitOf]
    rw [htxt]
    unfold typeA at ht ⊢
    rw [if_neg (by simp [hem, hih])]
    rcases x3 with ⟨hX0, hXe⟩ | ⟨hX0, hXi, hXh, hXf⟩
    · rw [hXe] at hem
      rw [hXe, hdot, hX0]
      simp only [List.append_nil]
      rcases f3 with ⟨hF0, hFe⟩ | ⟨hF0, -, hFi, hFh, hFf, hFem⟩
      · rw [hFe, hF0]
        rw [hFe, hE] at hem
        simp only [List.append_nil]
        have : d.isFloat = false := rfl
        rw [this]
        exact .valid (.hexInt hc (by rintro h; simp [h] at hem) hI)
      · rw [hFf]
        refine .valid ?_
        have := Valid.hexFloat (X := []) hc hI hF (Or.inl rfl) ?_ (Or.inl hF0)
        · simpa using this
        · rw [hFem, hE] at hem
          by_cases h : r.takeWhile isHex = []
          · right
            simp only [h, List.isEmpty_nil, Bool.true_and, decide_eq_false_iff_not] at hem
            omega
          · exact Or.inl h
    · rw [hXi, hdot, hXf]
      by_cases hI0 : r.takeWhile isHex ≠ [] ∨ 2 ≤ F.length
      · exact .valid (.hexFloat hc hI hF hX hI0 (Or.inr hX0))
      · push Not at hI0
        rw [hI0.1]
        rcases hF with h | ⟨D, h, -⟩
        · rw [h]; exact .hexExp hc hX hX0
        · have hD : D = [] := by
            have := hI0.2; rw [h] at this; simp at this
            exact List.length_eq_zero_iff.1 (by omega)
          rw [h, hD]
          exact .hexDotExp hc hX hX0
  · -- octal, or decimal with a leading zero
    rw [hp] at hem hih ht ⊢
    set d := digitsA ⟨.oct, .oct, false, false, ['0'], r⟩ with hd
    have hdis : d.is = .oct := rfl
    have hdhas : d.has = if (r.takeWhile isDec).any (fun c => !isOct c) then .dec else .oct := by simp [hd, digitsA, digitOf]
    obtain ⟨F, f1, f2, f3⟩ := dotA_spec d
    obtain ⟨X, x1, x2, x3⟩ := expA_spec (dotA d) hem
    have htxt : (expA (dotA d)).txt = ('0' :: r.takeWhile isDec) ++ F ++ X := by
      rw [x1, f1]; simp [hd, digitsA, digitOf]
    have hF : Frac isDec F := by simpa [hdis, digitOf] using f2
    have hdot : (dotA d).is ≠ .hex := by
      rcases f3 with ⟨-, h⟩ | ⟨-, -, h, -⟩
      · rw [h, hdis]; decide
      · rw [h, hdis]; decide
    have hX : Exponent 'e' 'E' X := by simpa [hdot, expo] using x2
    have hI : ∀ c ∈ '0' :: r.takeWhile isDec, isDec c = true := by
      intro c hc
      rcases List.mem_cons.1 hc with rfl | hc
      · decide
      · exact mem_takeWhile c hc
    rw [htxt]
    have hfloat : (F ≠ [] ∨ X ≠ []) → (expA (dotA d)).is = .dec ∧ (expA (dotA d)).isFloat = true := by
      intro hne
      rcases x3 with ⟨hX0, hXe⟩ | ⟨hX0, hXi, hXh, hXf⟩
      · rw [hXe]
        rcases f3 with ⟨hF0, hFe⟩ | ⟨hF0, -, hFi, hFh, hFf, hFem⟩
        · simp [hF0, hX0] at hne
        · exact ⟨by rw [hFi, hdis]; rfl, hFf⟩
      · refine ⟨?_, hXf⟩
        rw [hXi]
        rcases f3 with ⟨hF0, hFe⟩ | ⟨hF0, -, hFi, hFh, hFf, hFem⟩
        · rw [hFe, hdis]; rfl
        · rw [hFi, hdis]; rfl
    unfold typeA at ht ⊢
    rw [if_neg (by simp [hem, hih])]
    by_cases hne : F ≠ [] ∨ X ≠ []
    · rw [(hfloat hne).1, (hfloat hne).2]
      exact .valid (.decFloat hI hF hX (Or.inl (by simp)) hne)
    · push Not at hne
      rcases x3 with ⟨hX0, hXe⟩ | ⟨hX0, -⟩
      swap
      · exact absurd hne.2 hX0
      rcases f3 with ⟨hF0, hFe⟩ | ⟨hF0, -⟩
      swap
      · exact absurd hne.1 hF0
      rw [hXe, hFe] at hih
      rw [hXe, hFe, hdis, hX0, hF0]
      simp only [List.append_nil]
      refine .valid (.octInt ?_)
      rw [hdis, hdhas] at hih
      intro c hc
      by_contra hco
      rw [if_pos] at hih
      · simp at hih
      · rw [List.any_eq_true]; exact ⟨c, hc, by simpa using hco⟩
  · -- decimal
    rw [hp] at hem hih ht ⊢
    set d := digitsA ⟨.dec, .dec, false, true, [], x :: l⟩ with hd
    have hdis : d.is = .dec := rfl
    obtain ⟨F, f1, f2, f3⟩ := dotA_spec d
    obtain ⟨X, x1, x2, x3⟩ := expA_spec (dotA d) hem
    have htxt : (expA (dotA d)).txt = (x :: l).takeWhile isDec ++ F ++ X := by
      rw [x1, f1]; simp [hd, digitsA, digitOf]
    have hF : Frac isDec F := by simpa [hdis, digitOf] using f2
    have hdot : (dotA d).is = .dec := by
      rcases f3 with ⟨-, h⟩ | ⟨-, -, h, -⟩
      · rw [h, hdis]
      · rw [h, hdis]; rfl
    have hX : Exponent 'e' 'E' X := by simpa [hdot, expo] using x2
    have hI : ∀ c ∈ (x :: l).takeWhile isDec, isDec c = true := mem_takeWhile
    have hmant : (x :: l).takeWhile isDec ≠ [] ∨ 2 ≤ F.length := by
      rcases hx with h | ⟨rfl, y, hy, hyd⟩
      · left; simp [List.takeWhile_cons, h]
      · right
        have hdl : d.l = '.' :: l := by
          simp [hd, digitsA, digitOf, List.dropWhile_cons, (by decide : isDec '.' = false)]
        have htd : d.txt = [] := by
          simp [hd, digitsA, digitOf, List.takeWhile_cons, (by decide : isDec '.' = false)]
        have hFF : F = '.' :: l.takeWhile isDec := by
          have : (dotA d).txt = '.' :: l.takeWhile isDec := by
            unfold dotA; rw [hdl]; simp [htd, hdis, digitOf]
          rw [f1, htd] at this; simpa using this
        rw [hFF]
        cases l with
        | nil => simp at hy
        | cons z l =>
          simp at hy; subst hy
          simp [List.takeWhile_cons, hyd]
    rw [htxt]
    unfold typeA at ht ⊢
    rw [if_neg (by simp [hem, hih])]
    have his : (expA (dotA d)).is = .dec := by
      rcases x3 with ⟨hX0, hXe⟩ | ⟨hX0, hXi, -⟩
      · rw [hXe, hdot]
      · rw [hXi, hdot]; rfl
    rw [his]
    by_cases hne : F ≠ [] ∨ X ≠ []
    · have : (expA (dotA d)).isFloat = true := by
        rcases x3 with ⟨hX0, hXe⟩ | ⟨hX0, hXi, hXh, hXf⟩
        · rw [hXe]
          rcases f3 with ⟨hF0, hFe⟩ | ⟨hF0, -, hFi, hFh, hFf, hFem⟩
          · simp [hF0, hX0] at hne
          · exact hFf
        · exact hXf
      rw [this]
      exact .valid (.decFloat hI hF hX hmant hne)
    · push Not at hne
      rcases x3 with ⟨hX0, hXe⟩ | ⟨hX0, -⟩
      swap
      · exact absurd hne.2 hX0
      rcases f3 with ⟨hF0, hFe⟩ | ⟨hF0, -⟩
      swap
      · exact absurd hne.1 hF0
      rw [hXe, hFe, hX0, hF0]
      have : d.isFloat = false := rfl
      rw [this]
      simp only [List.append_nil]
      have hxd : isDec x = true := by
        rcases hmant with h | h
        · by_contra hh
          simp [List.takeWhile_cons, hh] at h
        · rw [hF0] at h; simp at h
      simp only [List.takeWhile_cons, hxd, if_true]
      exact .valid (.decInt hxd h0 mem_takeWhile)

/-! ### Completeness -/

theorem digitsA_eq {b h : Base} {f e : Bool} {t I r : List Char} (hI : ∀ c ∈ I, digitOf b c = true)
    (hr : ∀ x ∈ r.head?, digitOf b x = false) :
    digitsA ⟨b, h, f, e, t, I ++ r⟩ =
      ⟨b, if b = .oct ∧ I.any (fun c => !isOct c) then .dec else h, f, e && I.isEmpty, t ++ I, r⟩ := by
  obtain ⟨h1, h2⟩ := takeWhile_stop hI hr
  simp [digitsA, h1, h2]

theorem dotA_eq {b h : Base} {f e : Bool} {t F r : List Char} (hF : Frac (digitOf b) F)
    (hr : ∀ x ∈ r.head?, x ≠ '.' ∧ digitOf b x = false) :
    dotA ⟨b, h, f, e, t, F ++ r⟩ =
      if F = [] then ⟨b, h, f, e, t, r⟩ else ⟨noOct b, noOct h, true, e && decide (F.length < 2), t ++ F, r⟩ := by
  rcases hF with rfl | ⟨D, rfl, hD⟩
  · simp only [List.nil_append, if_true]
    unfold dotA
    simp only
    split
    · exact absurd rfl (hr '.' (by simp)).1
    · rfl
  · obtain ⟨h1, h2⟩ := takeWhile_stop hD (fun x hx => (hr x hx).2)
    simp only [List.cons_append, reduceCtorEq, if_false]
    simp only [dotA, h1, h2]
    cases D <;> simp

theorem signA_eq {sgn D r : List Char} (hs : sgn = [] ∨ sgn = ['-'] ∨ sgn = ['+']) (hD : D ≠ []) (hd : ∀ c ∈ D, isDec c = true) :
    signA (sgn ++ D ++ r) = (sgn, D ++ r) := by
  rcases hs with rfl | rfl | rfl
  · cases D with
    | nil => exact absurd rfl hD
    | cons y D =>
      have hy := hd y (by simp)
      simp only [List.nil_append, List.cons_append]
      unfold signA
      split
      · rename_i heq; simp only [List.cons.injEq] at heq; rw [heq.1] at hy; simp [isDec] at hy
      · rename_i heq; simp only [List.cons.injEq] at heq; rw [heq.1] at hy; simp [isDec] at hy
      · rfl
  · rfl
  · rfl

theorem expA_eq {b h : Base} {f e : Bool} {t X r : List Char} (hX : expo b X) (hr : ∀ x ∈ r.head?, isAlnum x = false) :
    expA ⟨b, h, f, e, t, X ++ r⟩ =
      if X = [] then ⟨b, h, f, e, t, r⟩ else ⟨noOct b, noOct h, true, false, t ++ X, r⟩ := by
  have hX' : X = [] ∨ ∃ x sgn D, X = x :: (sgn ++ D) ∧ isExp b x = true ∧ (sgn = [] ∨ sgn = ['-'] ∨ sgn = ['+']) ∧ D ≠ [] ∧
      ∀ c ∈ D, isDec c = true := by
    unfold expo at hX
    unfold isExp
    by_cases hb : b = .hex
    · rw [if_pos hb] at hX
      rcases hX with h | ⟨x, sgn, D, h1, h2, h3⟩
      · exact Or.inl h
      · exact Or.inr ⟨x, sgn, D, h1, by simpa [hb] using h2, h3⟩
    · rw [if_neg hb] at hX
      rcases hX with h | ⟨x, sgn, D, h1, h2, h3⟩
      · exact Or.inl h
      · exact Or.inr ⟨x, sgn, D, h1, by simpa [hb] using h2, h3⟩
  rcases hX' with rfl | ⟨x, sgn, D, rfl, hx, hs, hD, hd⟩
  · simp only [List.nil_append, if_true]
    unfold expA
    cases r with
    | nil => rfl
    | cons y r =>
      have := hr y (by simp)
      simp only
      rw [if_neg]
      intro h
      rw [isExp_alnum h] at this; simp at this
  · rw [if_neg (by simp)]
    have h1 := signA_eq (r := r) hs hD hd
    obtain ⟨h2, h3⟩ := takeWhile_stop (b := r) hd (fun x hx => by
      have := hr x hx
      cases hdx : isDec x
      · rfl
      · rw [isDec_alnum hdx] at this; simp at this)
    have hne : (D.isEmpty) = false := by simpa using hD
    simp only [expA, List.cons_append, hx, if_true, h1, h2, h3, hne]

theorem head_append {α : Type} {a b : List α} {x : α} (h : x ∈ (a ++ b).head?) :
    (∃ l, a = x :: l) ∨ (a = [] ∧ x ∈ b.head?) := by
  cases a with
  | nil => exact Or.inr ⟨rfl, h⟩
  | cons y a => left; simp at h; exact ⟨a, by rw [h]⟩

theorem frac_head {p F x} (hF : Frac p F) {l} (h : F = x :: l) : x = '.' := by
  rcases hF with rfl | ⟨D, rfl, -⟩
  · simp at h
  · simp at h; exact h.1.symm

theorem expo_head {b X x} (hX : expo b X) {l} (h : X = x :: l) : isExp b x = true := by
  unfold expo at hX
  unfold isExp
  by_cases hb : b = .hex
  · rw [if_pos hb] at hX ⊢
    rcases hX with rfl | ⟨y, s, D, rfl, hy, -⟩
    · simp at h
    · simp at h; rw [← h.1]; simpa using hy
  · rw [if_neg hb] at hX ⊢
    rcases hX with rfl | ⟨y, s, D, rfl, hy, -⟩
    · simp at h
    · simp at h; rw [← h.1]; simpa using hy

theorem digitOf_exp_dec {b : Base} (hb : b ≠ .hex) {x} (h : isExp b x = true) : digitOf b x = false := by
  unfold isExp at h; unfold digitOf
  rw [if_neg hb] at h ⊢
  simp at h; rcases h with rfl | rfl <;> decide

theorem digitOf_exp_hex {x} (h : isExp .hex x = true) : digitOf .hex x = false := by
  unfold isExp at h; unfold digitOf
  simp at h; rcases h with rfl | rfl <;> decide

theorem digitOf_exp {b : Base} {x} (h : isExp b x = true) : digitOf b x = false := by
  by_cases hb : b = .hex
  · subst hb; exact digitOf_exp_hex h
  · exact digitOf_exp_dec hb h

/-- The parts behind the prefix. -/
theorem body_eq {b : Base} {e : Bool} {t I F X r : List Char} (hI : ∀ c ∈ I, digitOf b c = true)
    (hF : Frac (digitOf b) F) (hX : expo b X) (hr : ∀ x ∈ r.head?, x ≠ '.' ∧ isAlnum x = false) :
    ∃ a, expA (dotA (digitsA ⟨b, b, false, e, t, I ++ F ++ X ++ r⟩)) = a ∧ a.txt = t ++ I ++ F ++ X ∧ a.l = r ∧
      a.is = (if F ≠ [] ∨ X ≠ [] then noOct b else b) ∧
      (a.has = if b = .oct ∧ F = [] ∧ X = [] ∧ I.any (fun c => !isOct c) then .dec else a.is) ∧
      a.isFloat = decide (F ≠ [] ∨ X ≠ []) ∧
      a.empty = (if X ≠ [] then false else e && I.isEmpty && decide (F.length < 2)) := by
  have hexpo : expo (noOct b) X := by
    unfold expo noOct at *
    cases b <;> simpa using hX
  have hF' : F = [] ∨ F ≠ [] := by by_cases h : F = [] <;> simp [h]
  have hdigit : digitOf (noOct b) = digitOf b := by cases b <;> rfl
  have h1 := digitsA_eq (b := b) (h := b) (f := false) (e := e) (t := t) (I := I) (r := F ++ X ++ r) hI (by
    intro x hx
    rw [List.append_assoc] at hx
    rcases head_append hx with ⟨l, hl⟩ | ⟨-, hx⟩
    · have := frac_head hF hl; subst this
      cases b <;> decide
    · rcases head_append hx with ⟨l, hl⟩ | ⟨-, hx⟩
      · exact digitOf_exp (expo_head hX hl)
      · have := (hr x hx).2
        cases hd : digitOf b x
        · rfl
        · rw [digitOf_alnum hd] at this; simp at this)
  have h2 : ∀ h e' t', dotA ⟨b, h, false, e', t', F ++ X ++ r⟩ =
      if F = [] then ⟨b, h, false, e', t', X ++ r⟩ else ⟨noOct b, noOct h, true, e' && decide (F.length < 2), t' ++ F, X ++ r⟩ := by
    intro h e' t'
    rw [List.append_assoc]
    refine dotA_eq hF ?_
    intro x hx
    rcases head_append hx with ⟨l, hl⟩ | ⟨-, hx⟩
    · have hxe := expo_head hX hl
      refine ⟨?_, digitOf_exp hxe⟩
      rintro rfl
      exact absurd hxe (by cases b <;> decide)
    · refine ⟨(hr x hx).1, ?_⟩
      have := (hr x hx).2
      cases hd : digitOf b x
      · rfl
      · rw [digitOf_alnum hd] at this; simp at this
  refine ⟨_, rfl, ?_⟩
  have h0 : I ++ F ++ X ++ r = I ++ (F ++ X ++ r) := by simp
  rw [h0, h1, h2]
  by_cases hF0 : F = []
  · rw [if_pos hF0, expA_eq hX (fun x hx => (hr x hx).2)]
    by_cases hX0 : X = []
    · rw [if_pos hX0]
      refine ⟨by simp [hF0, hX0], rfl, by simp [hF0, hX0], ?_, by simp [hF0, hX0], ?_⟩
      · simp [hF0, hX0]
      · simp [hF0, hX0]
    · rw [if_neg hX0]
      refine ⟨by simp [hF0], rfl, by simp [hX0], ?_, by simp [hX0], by simp [hX0]⟩
      simp only [hX0, false_and, and_false, if_false]
      cases b <;> simp [noOct]
  · rw [if_neg hF0, expA_eq hexpo (fun x hx => (hr x hx).2)]
    by_cases hX0 : X = []
    · rw [if_pos hX0]
      refine ⟨by simp [hX0], rfl, by simp [hF0], ?_, by simp [hF0], by simp [hX0]⟩
      simp only [hF0, false_and, and_false, if_false]
      cases b <;> simp [noOct]
    · rw [if_neg hX0]
      refine ⟨by simp, rfl, by cases b <;> simp [noOct, hF0], ?_, by simp [hX0], by simp [hX0]⟩
      simp only [hF0, false_and, and_false, if_false]
      cases b <;> simp [noOct]

theorem prefixA_hex {c r} (hc : c = 'x' ∨ c = 'X') : prefixA ('0' :: c :: r) = ⟨.hex, .hex, false, true, ['0', c], r⟩ := by
  simp [prefixA, zeroA, hc]

theorem prefixA_oct {r : List Char} (h : ∀ x ∈ r.head?, x ≠ 'x' ∧ x ≠ 'X') :
    prefixA ('0' :: r) = ⟨.oct, .oct, false, false, ['0'], r⟩ := by
  cases r with
  | nil => rfl
  | cons c r =>
    have := h c (by simp)
    simp [prefixA, zeroA, this]

theorem prefixA_dec {l : List Char} (h : ∀ x ∈ l.head?, x ≠ '0' ∧ x ≠ 'x' ∧ x ≠ 'X') :
    prefixA l = ⟨.dec, .dec, false, true, [], l⟩ := by
  cases l with
  | nil => rfl
  | cons x l =>
    have hx := h x (by simp)
    have hz : zeroA (x :: l) = ⟨.dec, .dec, false, true, [], x :: l⟩ := by
      unfold zeroA
      split
      · rename_i heq; simp only [List.cons.injEq] at heq; exact absurd heq.1 hx.1
      · rfl
    simp [prefixA, hz, hx]

/-- Every valid number is read as a whole. -/
theorem numA_complete {ty : TT} {w post : List Char} (hw : Valid ty w)
    (hty : ty = .octInt ∨ ty = .decInt ∨ ty = .hexInt ∨ ty = .decFloat ∨ ty = .hexFloat)
    (hp : ∀ x ∈ post.head?, x ≠ '.' ∧ isAlnum x = false) :
    (numA (w ++ post)).txt = w ∧ typeA (numA (w ++ post)) = ty := by
  have nox : ∀ x ∈ post.head?, x ≠ 'x' ∧ x ≠ 'X' := by
    intro x hx
    have := (hp x hx).2
    constructor <;> (rintro rfl; revert this; decide)
  unfold numA
  cases hw with
  | octInt hD =>
    rename_i D
    rw [List.cons_append, prefixA_oct]
    · obtain ⟨a, h0, h1, h2, h3, h4, h5, h6⟩ := body_eq (b := .oct) (e := false) (t := ['0']) (I := D) (F := []) (X := []) (r := post)
        (fun c hc => isOct_isDec (hD c hc)) (Or.inl rfl) (Or.inl rfl) hp
      simp only [List.append_nil] at h0 h1
      rw [h0]
      have hany : D.any (fun c => !isOct c) = false := by
        rw [List.any_eq_false]; intro c hc; simp [hD c hc]
      simp [hany] at h4 h3 h5 h6
      refine ⟨by rw [h1]; simp, ?_⟩
      unfold typeA
      rw [h6, h4, h3]; rfl
    · intro x hx
      rcases head_append hx with ⟨l, hl⟩ | ⟨-, hx⟩
      · have := isOct_isDec (hD x (by rw [hl]; simp))
        exact ⟨isDec_ne this (by decide), isDec_ne this (by decide)⟩
      · exact nox x hx
  | decInt hx h0 hD =>
    rename_i x D
    have hI : ∀ c ∈ x :: D, isDec c = true := by
      intro c hc; rcases List.mem_cons.1 hc with rfl | hc
      · exact hx
      · exact hD c hc
    rw [prefixA_dec]
    · obtain ⟨a, h0', h1, h2, h3, h4, h5, h6⟩ := body_eq (b := .dec) (e := true) (t := []) (I := x :: D) (F := []) (X := []) (r := post)
        hI (Or.inl rfl) (Or.inl rfl) hp
      simp only [List.append_nil] at h0' h1
      rw [h0']
      simp at h4 h3 h5 h6
      refine ⟨by rw [h1]; simp, ?_⟩
      unfold typeA
      rw [h6, h4, h3, h5]; simp
    · intro y hy
      simp at hy; subst hy
      exact ⟨h0, isDec_ne hx (by decide), isDec_ne hx (by decide)⟩
  | hexInt hx hne hD =>
    rename_i x D
    rw [List.cons_append, List.cons_append, prefixA_hex hx]
    obtain ⟨a, h0', h1, h2, h3, h4, h5, h6⟩ := body_eq (b := .hex) (e := true) (t := ['0', x]) (I := D) (F := []) (X := []) (r := post)
      hD (Or.inl rfl) (Or.inl rfl) hp
    simp only [List.append_nil] at h0' h1
    rw [h0']
    simp at h4 h3 h5 h6
    have : D.isEmpty = false := by simpa using hne
    refine ⟨by rw [h1]; simp, ?_⟩
    unfold typeA
    rw [h6, h4, h3, h5]; simp [this]
  | decFloat hI hF hX hm hne =>
    rename_i I F X
    have hFd : ∀ b : Base, b ≠ .hex → Frac (digitOf b) F := by
      intro b hb; simpa [digitOf, hb] using hF
    have hXd : ∀ b : Base, b ≠ .hex → expo b X := by
      intro b hb; simpa [expo, hb] using hX
    -- a leading zero is consumed as prefix
    by_cases hz : ∃ I', I = '0' :: I'
    · obtain ⟨I', rfl⟩ := hz
      have hI' : ∀ c ∈ I', isDec c = true := fun c hc => hI c (by simp [hc])
      have hl : '0' :: I' ++ F ++ X ++ post = '0' :: (I' ++ F ++ X ++ post) := by simp
      rw [hl, prefixA_oct]
      · obtain ⟨a, h0', h1, h2, h3, h4, h5, h6⟩ := body_eq (b := .oct) (e := false) (t := ['0']) (I := I') (F := F) (X := X) (r := post)
          hI' (hFd _ (by decide)) (hXd _ (by decide)) hp
        rw [h0']
        have h4' : a.has = a.is := by
          rw [h4, if_neg]
          rintro ⟨-, h1, h2, -⟩; simp [h1, h2] at hne
        have h6' : a.empty = false := by rw [h6]; split <;> simp
        refine ⟨by rw [h1]; simp, ?_⟩
        unfold typeA
        rw [h6', h4', h3, h5, if_pos hne]; simp [noOct, hne]
      · intro x hx
        rw [List.append_assoc, List.append_assoc] at hx
        rcases head_append hx with ⟨l, hl⟩ | ⟨-, hx⟩
        · have := hI' x (by rw [hl]; simp)
          exact ⟨isDec_ne this (by decide), isDec_ne this (by decide)⟩
        · rcases head_append hx with ⟨l, hl⟩ | ⟨-, hx⟩
          · have := frac_head hF hl; subst this; decide
          · rcases head_append hx with ⟨l, hl⟩ | ⟨-, hx⟩
            · have := expo_head (hXd .dec (by decide)) hl
              constructor <;> (rintro rfl; revert this; decide)
            · exact nox x hx
    · rw [prefixA_dec]
      · obtain ⟨a, h0', h1, h2, h3, h4, h5, h6⟩ := body_eq (b := .dec) (e := true) (t := []) (I := I) (F := F) (X := X) (r := post)
          hI (hFd _ (by decide)) (hXd _ (by decide)) hp
        rw [h0']
        have h4' : a.has = a.is := by
          rw [h4, if_neg]
          simp
        have h6' : a.empty = false := by
          rw [h6]; split
          · rfl
          · rcases hm with hm | hm
            · have : I.isEmpty = false := by simpa using hm
              simp [this]
            · have : decide (F.length < 2) = false := by simpa using hm
              simp [this]
        refine ⟨by rw [h1]; simp, ?_⟩
        unfold typeA
        rw [h6', h4', h3, h5, if_pos hne]; simp [noOct, hne]
      · intro x hx
        have hx' : x ∈ (I ++ (F ++ (X ++ post))).head? := by simpa using hx
        rcases head_append hx' with ⟨l, hl⟩ | ⟨hI0, hx⟩
        · have := hI x (by rw [hl]; simp)
          exact ⟨fun h => hz ⟨l, by rw [hl, h]⟩, isDec_ne this (by decide), isDec_ne this (by decide)⟩
        · rcases head_append hx with ⟨l, hl⟩ | ⟨hF0, hx⟩
          · have := frac_head hF hl; subst this; decide
          · exfalso; rcases hm with hm | hm
            · exact hm hI0
            · rw [hF0] at hm; simp at hm
  | hexFloat hx hI hF hX hm hne =>
    rename_i x I F X
    rw [List.cons_append, List.cons_append, prefixA_hex hx]
    obtain ⟨a, h0', h1, h2, h3, h4, h5, h6⟩ := body_eq (b := .hex) (e := true) (t := ['0', x]) (I := I) (F := F) (X := X) (r := post)
      hI hF hX hp
    rw [h0']
    have h4' : a.has = a.is := by rw [h4, if_neg]; simp
    have h6' : a.empty = false := by
      rw [h6]; split
      · rfl
      · rcases hm with hm | hm
        · have : I.isEmpty = false := by simpa using hm
          simp [this]
        · have : decide (F.length < 2) = false := by simpa using hm
          simp [this]
    refine ⟨by rw [h1]; simp, ?_⟩
    unfold typeA
    rw [h6', h4', h3, h5, if_pos hne]; simp [noOct, hne]
  | _ => simp at hty

end Mutable.Lex
