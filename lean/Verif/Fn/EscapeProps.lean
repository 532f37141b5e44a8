import Verif.Fn.Escape
/-!
# C30: escaping round-trips
-/
namespace Mutable.Fn

/-! ### Specification -/

/-- Reading a quoted literal the way a lexer does: characters up to the first quote that is not escaped; returns the raw
text and the rest behind the closing quote. -/
def readQuoted (esc q : Char) : List Char → Option (List Char × List Char)
  | [] => none
  | c :: t =>
    if c = esc then
      match t with
      | [] => none
      | d :: t' => (readQuoted esc q t').map fun r => (c :: d :: r.1, r.2)
    else if c = q then some ([], t)
    else (readQuoted esc q t).map fun r => (c :: r.1, r.2)

/-! ### The property -/

theorem unescape_esc (esc q d : Char) (t : List Char) : unescape esc q (esc :: d :: t) =
    if d = esc ∨ d = q then (unescape esc q t).map (d :: ·)
    else if d = 'n' then (unescape esc q t).map ('\n' :: ·) else (unescape esc q t).map (esc :: d :: ·) := by
  simp [unescape]

theorem unescape_plain (esc q c : Char) (t : List Char) (h : c ≠ esc) : unescape esc q (c :: t) = (unescape esc q t).map (c :: ·) := by
  cases t <;> simp [unescape, h]

theorem readQuoted_esc (esc q d : Char) (t : List Char) : readQuoted esc q (esc :: d :: t) =
    (readQuoted esc q t).map fun r => (esc :: d :: r.1, r.2) := by
  simp [readQuoted]

theorem readQuoted_plain (esc q c : Char) (t : List Char) (h : c ≠ esc) : readQuoted esc q (c :: t) =
    if c = q then some ([], t) else (readQuoted esc q t).map fun r => (c :: r.1, r.2) := by
  cases t <;> simp [readQuoted, h]

/-- Unescaping an escaped string returns the string, for every escape and quote character other than the letter n. -/
theorem C30_unescape_escape (esc q : Char) (he : esc ≠ 'n') (hq : q ≠ 'n') (s : List Char) :
    unescape esc q (escape esc q s) = some s := by
  induction s with
  | nil => rfl
  | cons c t ih =>
    unfold escape
    by_cases h1 : c = esc ∨ c = q
    · rw [if_pos h1, unescape_esc, if_pos h1, ih]; rfl
    · rw [if_neg h1]
      by_cases h2 : c = '\n'
      · have : ¬ ('n' = esc ∨ 'n' = q) := by
          rintro (h | h)
          · exact he h.symm
          · exact hq h.symm
        rw [if_pos h2, unescape_esc, if_neg this, if_pos rfl, ih, h2]; rfl
      · rw [if_neg h2, unescape_plain _ _ _ _ (fun h => h1 (Or.inl h)), ih]; rfl

/-- Interpreting the quoted escaped string returns the string. -/
theorem C30_interpret_quote_escape (esc : Char) (he : esc ≠ 'n') (s : List Char) :
    interpret esc '"' (quote (escape esc '"' s)) = some s := by
  have : unquote '"' (quote (escape esc '"' s)) = some (escape esc '"' s) := by
    unfold unquote quote
    rw [if_neg (by simp), if_neg (by simp), if_neg (by simp [List.getLast?_cons])]
    simp
  rw [interpret, this]
  exact C30_unescape_escape esc '"' he (by decide) s

/-- Different strings have different escaped forms. -/
theorem C30_escape_injective (esc q : Char) (he : esc ≠ 'n') (hq : q ≠ 'n') {s t : List Char}
    (h : escape esc q s = escape esc q t) : s = t := by
  have h1 := C30_unescape_escape esc q he hq s
  rw [h, C30_unescape_escape esc q he hq t] at h1
  simpa using h1.symm

/-- The quoted form is self-delimiting: a reader that stops at the first quote that is not escaped reads exactly the
escaped string, whatever follows. -/
theorem C30_self_delimiting (esc q : Char) (hne : esc ≠ q) (s rest : List Char) :
    readQuoted esc q (escape esc q s ++ q :: rest) = some (escape esc q s, rest) := by
  induction s with
  | nil => simp [escape, readQuoted_plain _ _ _ _ (Ne.symm hne)]
  | cons c t ih =>
    unfold escape
    by_cases h1 : c = esc ∨ c = q
    · rw [if_pos h1, List.cons_append, List.cons_append, readQuoted_esc, ih]; rfl
    · rw [if_neg h1]
      by_cases h2 : c = '\n'
      · rw [if_pos h2, List.cons_append, List.cons_append, readQuoted_esc, ih]; rfl
      · rw [if_neg h2, List.cons_append, readQuoted_plain _ _ _ _ (fun h => h1 (Or.inl h)), if_neg (fun h => h1 (Or.inr h)), ih]; rfl

/-- The escaped form is a single line. -/
theorem C30_no_newline (esc q : Char) (he : esc ≠ '\n') (hq : q ≠ '\n') (s : List Char) : '\n' ∉ escape esc q s := by
  induction s with
  | nil => simp [escape]
  | cons c t ih =>
    unfold escape
    split
    · next h => rcases h with rfl | rfl <;> simp [ih, he.symm, hq.symm]
    · split
      · simp [ih, he.symm]
      · next h => simp [ih, Ne.symm h]

/-- The letter n as the escape or quote character does not round-trip. -/
theorem C30_letter_n_breaks : unescape 'n' '"' (escape 'n' '"' ['\n']) = some ['n'] ∧
    unescape '\\' 'n' (escape '\\' 'n' ['\n']) = some ['n'] := by decide

/-- `unescape` of a string that ends with the escape character reads behind the end of the string. -/
theorem C30_trailing_escape (esc q : Char) : unescape esc q [esc] = none := by simp [unescape]

/-! ### Witness -/
example : escape '\\' '"' ['a', '"', '\\', '\n', 'b'] = ['a', '\\', '"', '\\', '\\', '\\', 'n', 'b'] := by decide
example : interpret '\\' '"' ['"', 'a', '\\', '"', '\\', 'n', '"'] = some ['a', '"', '\n'] := by decide

end Mutable.Fn
