import Verif.Lexer.Numbers
/-!
# The texts and types of single tokens
-/
namespace Mutable.Lex
open Spec

/-! ### Strings -/

theorem strA_sound (l : List Char) (h : (strA l).1 = false) : StrBody (strA l).2.1 := by
  fun_induction strA l with
  | case1 => exact .nil
  | case2 => exact .nil
  | case3 => simp at h
  | case4 => rename_i ih; simp only [Bool.or_eq_false_iff, Bool.not_eq_false', decide_eq_true_eq] at h; exact .esc h.1 (ih h.2)
  | case5 => rename_i h1 h2 _ ih; exact .char h1 h2 (ih h)

theorem strA_complete {b : List Char} (hb : StrBody b) (r : List Char) : strA (b ++ '"' :: r) = (false, b, '"' :: r) := by
  induction hb with
  | nil => simp only [List.nil_append]; rw [strA.eq_def]; simp
  | @char c b h1 h2 _ ih => simp only [List.cons_append]; rw [strA.eq_def]; simp [h1, h2, ih]
  | @esc c b h _ ih => simp only [List.cons_append]; rw [strA.eq_def]; simp [ih, h]

/-! ### Dates -/

theorem digitsD_eq : ∀ (k : Nat) {b : Bool} {w D l : List Char}, NDigits k D → digitsD k (b, w, D ++ l) = (b, w ++ D, l) := by
  intro k
  induction k with
  | zero => intro b w D l h; have : D = [] := List.eq_nil_of_length_eq_zero h.1; simp [digitsD, this]
  | succ k ih =>
    intro b w D l h
    cases D with
    | nil => exact absurd h.1 (by simp)
    | cons c D =>
      have hc := h.2 c (by simp)
      simp only [digitsD, List.cons_append, hc, if_true]
      rw [ih ⟨by simpa using h.1, fun x hx => h.2 x (by simp [hx])⟩]
      simp

theorem andAcceptD_eq {c : Char} {b : Bool} {w l : List Char} : andAcceptD c (b, w, c :: l) = (b, w ++ [c], l) := by
  simp [andAcceptD, acceptD]

theorem accept_sign {sgn y l : List Char} (hs : sgn = [] ∨ sgn = ['-']) (hy : NDigits 4 y) :
    (acceptD '-' ([], sgn ++ y ++ l)).2 = (sgn, y ++ l) := by
  rcases hs with rfl | rfl
  · cases y with
    | nil => exact absurd hy.1 (by simp)
    | cons c y =>
      have hc := hy.2 c (by simp)
      have hne : c ≠ '-' := isDec_ne hc (by decide)
      simp [acceptD, hne]
  · simp [acceptD]

theorem date_body {w l : List Char} (h : DateText w) : ymdD (false, (acceptD '-' ([], w ++ l)).2) = (false, w, l) := by
  obtain ⟨sgn, y, m, d, rfl, hs, hy, hm, hd⟩ := h
  have e : sgn ++ y ++ '-' :: m ++ '-' :: d ++ l = sgn ++ y ++ ('-' :: (m ++ ('-' :: (d ++ l)))) := by simp
  rw [e, accept_sign hs hy]
  unfold ymdD
  rw [digitsD_eq 4 hy, andAcceptD_eq, digitsD_eq 2 hm, andAcceptD_eq, digitsD_eq 2 hd]
  simp

theorem date_complete {w l : List Char} (h : DateText w) : dateA (w ++ '\'' :: l) = ('d' :: '\'' :: w ++ ['\''], .date) := by
  unfold dateA dateBodyA
  simp only [date_body h]
  simp [acceptD]

theorem dateTime_complete {w t l : List Char} (h : DateText w) (ht : TimeText t) :
    dateA ((w ++ ' ' :: t) ++ '\'' :: l) = ('d' :: '\'' :: (w ++ ' ' :: t) ++ ['\''], .dateTime) := by
  obtain ⟨hh, m, s, rfl, h1, h2, h3⟩ := ht
  have e : (w ++ ' ' :: (hh ++ ':' :: m ++ ':' :: s)) ++ '\'' :: l = w ++ (' ' :: (hh ++ (':' :: (m ++ (':' :: (s ++ ('\'' :: l))))))) := by simp
  unfold dateA dateBodyA
  rw [e]
  simp only [date_body h]
  have ha : ∀ l', acceptD ' ' (w, ' ' :: l') = (true, w ++ [' '], l') := fun l' => by simp [acceptD]
  simp only [ha, if_true]
  unfold hmsD
  rw [digitsD_eq 2 h1, andAcceptD_eq, digitsD_eq 2 h2, andAcceptD_eq, digitsD_eq 2 h3]
  simp

/-- Every token with a date type starts with `d'` and ends with a quote. -/
theorem dateA_shape (l : List Char) (h : (dateA l).2 ≠ .error) :
    ∃ w, (dateA l).1 = 'd' :: '\'' :: w ++ ['\''] ∧ ((dateA l).2 = .date ∨ (dateA l).2 = .dateTime) := by
  revert h
  generalize hr : dateA l = r
  intro h
  unfold dateA at hr
  simp only at hr
  split at hr
  · subst hr; exact absurd rfl h
  · split at hr
    · subst hr
      refine ⟨_, rfl, ?_⟩
      simp only at h ⊢
      split
      · rename_i h'; simp [h'] at h
      · split <;> simp
    · subst hr; exact absurd rfl h

/-! ### Identifiers -/

theorem idChar_iff {c : Char} : idChar c = true ↔ (c = '_' ∨ isAlnum c = true) := by simp [idChar]

theorem alpha_idChar {x : Char} (h : x = '_' ∨ isAlpha x = true) : idChar x = true := by
  rw [idChar_iff]; rcases h with h | h
  · exact Or.inl h
  · right; simp [isAlnum, h]

theorem ident_sound {x : Char} {l : List Char} (h : x = '_' ∨ isAlpha x = true) :
    Valid (identType ((x :: l).takeWhile idChar)) ((x :: l).takeWhile idChar) := by
  unfold identType
  split
  · rename_i hk; exact .kw ((reserved_iff _).2 hk)
  · rename_i hk
    rw [List.takeWhile_cons, if_pos (alpha_idChar h)] at hk ⊢
    exact .identifier h (fun c hc => idChar_iff.1 (mem_takeWhile c hc)) (fun h => hk ((reserved_iff _).1 h))

theorem keywords_alpha : ∀ w ∈ keywords, w ≠ [] ∧ ∀ c ∈ w, isAlpha c = true := by decide +kernel

theorem valid_ident {ty : TT} {w : List Char} (h : Valid ty w) (ht : ty = .identifier ∨ ∃ k, ty = .kw k) :
    ty = identType w ∧ (∀ c ∈ w, idChar c = true) ∧ ∃ x r, w = x :: r ∧ (x = '_' ∨ isAlpha x = true) := by
  cases h with
  | @identifier x r h1 h2 h3 =>
    rw [reserved_iff] at h3
    refine ⟨by simp [identType, h3], ?_, x, r, rfl, h1⟩
    intro c hc
    rcases List.mem_cons.1 hc with rfl | hc
    · exact alpha_idChar h1
    · exact idChar_iff.2 (h2 c hc)
  | kw hk =>
    rw [reserved_iff] at hk
    obtain ⟨hne, ha⟩ := keywords_alpha w hk
    refine ⟨by simp [identType, hk], fun c hc => alpha_idChar (Or.inr (ha c hc)), ?_⟩
    cases w with
    | nil => exact absurd rfl hne
    | cons x r => exact ⟨x, r, rfl, Or.inr (ha x (by simp))⟩
  | _ => rcases ht with ht | ⟨k, ht⟩ <;> exact absurd ht (by simp)

/-! ### Nonempty texts -/

theorem digitsA_txt (n : NumA) : ∃ t, (digitsA n).txt = n.txt ++ t := ⟨_, rfl⟩
theorem dotA_txt (n : NumA) : ∃ t, (dotA n).txt = n.txt ++ t := by
  obtain ⟨F, h, -⟩ := dotA_spec n; exact ⟨F, h⟩
theorem expA_txt (n : NumA) : ∃ t, (expA n).txt = n.txt ++ t := by
  unfold expA
  split
  · split
    · exact ⟨_, rfl⟩
    · exact ⟨[], by simp⟩
  · exact ⟨[], by simp⟩

theorem numA_ne_nil {x : Char} {l : List Char} (hx : isDec x = true ∨ x = '.') : (numA (x :: l)).txt ≠ [] := by
  intro h
  unfold numA at h
  obtain ⟨t1, h1⟩ := expA_txt (dotA (digitsA (prefixA (x :: l))))
  obtain ⟨t2, h2⟩ := dotA_txt (digitsA (prefixA (x :: l)))
  obtain ⟨t3, h3⟩ := digitsA_txt (prefixA (x :: l))
  rw [h1] at h
  have hdot : (dotA (digitsA (prefixA (x :: l)))).txt = [] := (List.append_eq_nil_iff.1 h).1
  have hdig : (digitsA (prefixA (x :: l))).txt = [] := (List.append_eq_nil_iff.1 (h2 ▸ hdot)).1
  have hpre : (prefixA (x :: l)).txt = [] := (List.append_eq_nil_iff.1 (h3 ▸ hdig)).1
  by_cases h0 : x = '0'
  · subst h0
    have : (prefixA ('0' :: l)).txt ≠ [] := by
      simp only [prefixA, zeroA]
      split
      · split <;> simp
      · simp
    exact this hpre
  · have hp : prefixA (x :: l) = ⟨.dec, .dec, false, true, [], x :: l⟩ := by
      apply prefixA_dec
      intro y hy
      simp at hy; subst hy
      refine ⟨h0, ?_⟩
      rcases hx with h | rfl
      · exact ⟨isDec_ne h (by decide), isDec_ne h (by decide)⟩
      · exact ⟨by decide, by decide⟩
    rw [hp] at hdig hdot
    rcases hx with hx | rfl
    · simp [digitsA, digitOf, List.takeWhile_cons, hx] at hdig
    · simp [digitsA, digitOf, dotA, List.takeWhile_cons, List.dropWhile_cons, show isDec '.' = false from by decide] at hdot

theorem typeA_ne_eof (n : NumA) : typeA n ≠ .eof := by
  unfold typeA
  split
  · simp
  · split
    · simp
    · split <;> simp
    · split <;> simp

theorem identType_ne_eof (w : List Char) : identType w ≠ .eof := by unfold identType; split <;> simp

theorem single_ne_eof {x : Char} {tt} (h : single x = some tt) : tt ≠ .eof ∧ Valid tt [x] := by
  unfold single at h
  split at h <;> first | (cases h; exact ⟨by simp, by constructor⟩) | exact absurd h (by simp)

/-- Every text is nonempty, and no token is taken for the end of the input. -/
theorem scan_ne (x : Char) (l : List Char) : (scan x l).1 ≠ [] ∧ (scan x l).2 ≠ .eof := by
  unfold scan
  split
  · rename_i h; exact ⟨numA_ne_nil (Or.inl h), typeA_ne_eof _⟩
  split
  · unfold stringA
    simp only
    split
    · simp
    · refine ⟨by simp, ?_⟩
      simp only; split <;> simp
  split
  · rename_i hd
    subst hd
    have hi : (List.takeWhile idChar ('d' :: l)) ≠ [] := by simp [List.takeWhile_cons, show idChar 'd' = true from by decide]
    split
    · rename_i r
      unfold dateA
      simp only
      split
      · simp
      · split
        · refine ⟨by simp, ?_⟩
          simp only; split
          · simp
          · split <;> simp
        · simp
    · exact ⟨hi, identType_ne_eof (List.takeWhile idChar ('d' :: l))⟩
  split
  · split <;> simp
  split
  · split <;> simp
  split
  · split <;> simp
  split
  · rename_i hdot
    split
    · simp
    · split
      · exact ⟨numA_ne_nil (Or.inr hdot), typeA_ne_eof _⟩
      · simp
  split
  · simp
  split
  · rename_i tt htt
    exact ⟨by simp, (single_ne_eof htt).1⟩
  · split
    · rename_i h
      refine ⟨?_, identType_ne_eof _⟩
      simp [List.takeWhile_cons, alpha_idChar h]
    · simp

/-- A token without an error has a valid text (dates and hexadecimal floats without digits: see the counterexamples). -/
theorem scan_sound (x : Char) (l : List Char) (h1 : (scan x l).2 ≠ .error) (h2 : (scan x l).2 ≠ .date) (h3 : (scan x l).2 ≠ .dateTime) :
    NumOK (scan x l).2 (scan x l).1 := by
  revert h1 h2 h3
  generalize hr : scan x l = r
  intro h1 h2 h3
  unfold scan at hr
  split at hr
  · rename_i h
    subst hr
    exact numA_sound (Or.inl h) h1
  split at hr
  · unfold stringA at hr
    simp only at hr
    split at hr
    · subst hr; exact absurd rfl h1
    · subst hr
      by_cases hb : (strA l).1 = true
      · simp only [hb, if_true] at h1; exact absurd rfl h1
      · simp only [hb, if_false]
        exact .valid (.stringLiteral (strA_sound l (by simpa using hb)))
  split at hr
  · rename_i hd
    subst hd
    split at hr
    · rename_i r'
      obtain ⟨w, -, h⟩ := dateA_shape r' (by rw [hr]; exact h1)
      rw [hr] at h
      rcases h with h | h
      · exact absurd h h2
      · exact absurd h h3
    · subst hr; exact .valid (ident_sound (x := 'd') (Or.inr (by decide)))
  split at hr
  · split at hr
    · subst hr; exact .valid .bangEqual
    · subst hr; exact absurd rfl h1
  split at hr
  · split at hr
    · subst hr; exact .valid .lessEqual
    · subst hr; exact .valid .less
  split at hr
  · split at hr
    · subst hr; exact .valid .greaterEqual
    · subst hr; exact .valid .greater
  split at hr
  · rename_i hdot
    subst hdot
    split at hr
    · subst hr; exact .valid .dotdot
    · split at hr
      · rename_i h
        subst hr
        refine numA_sound (Or.inr ⟨rfl, ?_⟩) h1
        cases hh : l.head? with
        | none => simp [hh] at h
        | some y => exact ⟨y, rfl, by simpa [hh] using h⟩
      · subst hr; exact .valid .dot
  split at hr
  · subst hr
    refine .valid (.instruction ?_)
    intro hm
    have := mem_takeWhile _ hm
    simp at this
  split at hr
  · rename_i tt htt
    subst hr
    exact .valid (single_ne_eof htt).2
  · split at hr
    · rename_i ha
      subst hr
      exact .valid (ident_sound ha)
    · subst hr; exact absurd rfl h1

/-- A valid text that is followed by nothing that continues it is recognised. -/
theorem scan_complete {ty : TT} {x : Char} {w post : List Char} (hw : Valid ty (x :: w)) (hg : NoGlue ty (x :: w) post) :
    scan x (w ++ post) = (x :: w, ty) := by
  have hnum : ∀ (_ : ty = .octInt ∨ ty = .decInt ∨ ty = .hexInt ∨ ty = .decFloat ∨ ty = .hexFloat)
      (_ : isDec x = true ∨ (x = '.' ∧ ∃ y r, w = y :: r ∧ isDec y = true)), scan x (w ++ post) = (x :: w, ty) := by
    intro hty hx
    have hp : ∀ x ∈ post.head?, x ≠ '.' ∧ isAlnum x = false := by
      intro y hy
      have := hg y hy
      rcases hty with rfl | rfl | rfl | rfl | rfl <;> exact this
    obtain ⟨g1, g2⟩ := numA_complete hw hty hp
    unfold scan
    rcases hx with hx | ⟨rfl, y, r, rfl, hy⟩
    · rw [if_pos hx]
      exact Prod.ext g1 g2
    · have hne : y ≠ '.' := isDec_ne hy (by decide)
      simp only [show isDec '.' = false from by decide, Bool.false_eq_true, if_false, show ('.' = '"') = False from by decide, show ('.' = 'd') = False from by decide, show ('.' = '!') = False from by decide, show ('.' = '<') = False from by decide, show ('.' = '>') = False from by decide, if_true, List.cons_append, List.head?_cons, Option.some.injEq, hne, Option.elim_some, hy]
      exact Prod.ext g1 g2
  have hident : ∀ (_ : ty = .identifier ∨ ∃ k, ty = .kw k), scan x (w ++ post) = (x :: w, ty) := by
    intro hty
    obtain ⟨rfl, hid, x', r', he, hx⟩ := valid_ident hw hty
    simp only [List.cons.injEq] at he
    obtain ⟨rfl, rfl⟩ := he
    have hp : ∀ y ∈ post.head?, y ≠ '_' ∧ isAlnum y = false ∧ ¬ (x :: w = ['d'] ∧ y = '\'') := by
      intro y hy
      have := hg y hy
      unfold identType at this
      by_cases hk : x :: w ∈ keywords
      · rw [if_pos hk] at this; exact this
      · rw [if_neg hk] at this; exact this
    have ht : (x :: (w ++ post)).takeWhile idChar = x :: w := by
      have := (takeWhile_stop (p := idChar) (a := x :: w) (b := post) hid (fun y hy => by
        have := hp y hy
        simp [idChar, this.1, this.2.1])).1
      simpa using this
    unfold scan
    have hnd : isDec x = false := by
      rcases hx with rfl | hx
      · decide
      · simp only [isAlpha, isLower, isUpper, Bool.or_eq_true, decide_eq_true_eq] at hx
        simp only [isDec, decide_eq_false_iff_not]
        intro h
        rcases hx with hx | hx
        · exact absurd (Char.le_trans hx.1 h.2) (by decide)
        · exact absurd (Char.le_trans hx.1 h.2) (by decide)
    have hcl : ∀ c : Char, idChar c = false → x ≠ c := by
      rintro c hc rfl
      rw [alpha_idChar hx] at hc; exact absurd hc (by simp)
    rw [if_neg (by simp [hnd]), if_neg (hcl '"' (by decide))]
    by_cases hd : x = 'd'
    · subst hd
      rw [if_pos rfl]
      split
      · rename_i r heq
        exfalso
        cases w with
        | nil =>
          have := hp '\'' (by simp only [List.nil_append] at heq; rw [heq]; simp)
          exact this.2.2 ⟨rfl, rfl⟩
        | cons y w =>
          simp only [List.cons_append, List.cons.injEq] at heq
          have := hid y (by simp)
          rw [heq.1] at this
          exact absurd this (by decide)
      · rw [ht]
    · rw [if_neg hd, if_neg (hcl '!' (by decide)), if_neg (hcl '<' (by decide)), if_neg (hcl '>' (by decide)),
        if_neg (hcl '.' (by decide)), if_neg (hcl '\\' (by decide))]
      have hs : single x = none := by
        unfold single
        split <;> first | rfl | (exact absurd rfl (hcl _ (by decide)))
      rw [hs]
      simp only [hx, if_true, ht]
  have hdate : ∀ r, scan 'd' ('\'' :: r) = dateA r := fun r => by simp [scan, show isDec 'd' = false from by decide]
  generalize hxw : x :: w = v at hw hg hnum hident ⊢
  cases hw with
  | identifier => exact hident (Or.inl rfl)
  | kw => exact hident (Or.inr ⟨_, rfl⟩)
  | octInt => cases hxw; exact hnum (by simp) (Or.inl (by decide))
  | decInt h => cases hxw; exact hnum (by simp) (Or.inl h)
  | hexInt => cases hxw; exact hnum (by simp) (Or.inl (by decide))
  | hexFloat => cases hxw; exact hnum (by simp) (Or.inl (by decide))
  | @decFloat I F X hI hF hX h1 h2 =>
    refine hnum (by simp) ?_
    cases I with
    | cons c I => cases hxw; exact Or.inl (hI x (by simp))
    | nil =>
      rcases h1 with h1 | h1
      · exact absurd rfl h1
      · rcases hF with rfl | ⟨D, rfl, hD⟩
        · exact absurd h1 (by simp)
        · cases D with
          | nil => exact absurd h1 (by simp)
          | cons y D =>
            cases hxw
            exact Or.inr ⟨rfl, y, D ++ X, rfl, hD y (by simp)⟩
  | @stringLiteral b hb =>
    cases hxw
    have e : b ++ ['"'] ++ post = b ++ '"' :: post := by simp
    simp only [scan, show isDec '"' = false from by decide, Bool.false_eq_true, if_false, if_true, stringA]
    rw [show b.append ['"'] ++ post = b ++ '"' :: post from e, strA_complete hb]
    rfl
  | @date w' h =>
    cases hxw
    have e : '\'' :: (w' ++ ['\'']) ++ post = '\'' :: (w' ++ '\'' :: post) := by simp
    rw [show ('\'' :: w').append ['\''] = '\'' :: (w' ++ ['\'']) from rfl, e, hdate, date_complete h]
  | @dateTime w' t h ht =>
    cases hxw
    rw [show ('\'' :: (w' ++ ' ' :: t)).append ['\''] = '\'' :: ((w' ++ ' ' :: t) ++ ['\'']) from rfl,
      show '\'' :: ((w' ++ ' ' :: t) ++ ['\'']) ++ post = '\'' :: ((w' ++ ' ' :: t) ++ '\'' :: post) from by simp, hdate, dateTime_complete h ht]
  | @instruction w' h =>
    cases hxw
    have ht : (w ++ post).takeWhile (· ≠ ';') = w := (takeWhile_stop (fun c hc => by
      simpa using fun e : c = ';' => h (e ▸ hc)) (fun y hy => by simpa using hg y hy)).1
    simp only [scan, show isDec '\\' = false from by decide, Bool.false_eq_true, if_false, show ('\\' = '"') = False from by decide, show ('\\' = 'd') = False from by decide, show ('\\' = '!') = False from by decide, show ('\\' = '<') = False from by decide, show ('\\' = '>') = False from by decide, show ('\\' = '.') = False from by decide, if_true]
    rw [ht]
  | dotdot => cases hxw; simp [scan, isDec]
  | bangEqual => cases hxw; simp [scan, isDec]
  | lessEqual => cases hxw; simp [scan, isDec]
  | greaterEqual => cases hxw; simp [scan, isDec]
  | less =>
    cases hxw
    have : post.head? ≠ some '=' := fun h => hg '=' h rfl
    simp [scan, isDec, this]
  | greater =>
    cases hxw
    have : post.head? ≠ some '=' := fun h => hg '=' h rfl
    simp [scan, isDec, this]
  | dot =>
    cases hxw
    have h1 : post.head? ≠ some '.' := fun h => (hg '.' h).1 rfl
    have h2 : post.head?.elim false isDec = false := by
      cases hh : post.head? with
      | none => rfl
      | some y => exact (hg y hh).2
    simp [scan, isDec, h1, h2]
  | _ => cases hxw; simp [scan, isDec, single]

end Mutable.Lex
