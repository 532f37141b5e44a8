import Verif.WasmStr.Like
/-!
# C44 and C45: strings in compiled queries

C44: comparison and concatenation.  C45: LIKE.
-/
namespace Mutable.WStr

/-! ### C44: comparison -/

/-- What the comparison operators mean for strings: equality, and the lexicographic order of the bytes. -/
def CmpOp.holds : CmpOp → List Byte → List Byte → Prop
  | .eq, a, b => a = b
  | .ne, a, b => a ≠ b
  | .lt, a, b => a < b
  | .le, a, b => ¬ b < a
  | .gt, a, b => b < a
  | .ge, a, b => ¬ a < b

/-- Characters of the 7-bit ASCII set, without NUL. -/
def Ascii (a : List Byte) : Prop := ∀ x ∈ a, 0 < x ∧ x ≤ 127

theorem test_holds {a b : List Byte} {r : Int} (h : IsCmp a b r) (op : CmpOp) : op.test r = true ↔ op.holds a b := by
  have irr : ∀ a : List Byte, ¬ a < a := fun a => List.lt_irrefl a
  have asym : ∀ {a b : List Byte}, a < b → ¬ b < a := fun h h' => List.lt_irrefl _ (List.lt_trans h h')
  rcases h with ⟨rfl, h⟩ | ⟨rfl, h⟩ | ⟨rfl, h⟩
  · have h1 := asym h
    have h2 : a ≠ b := by rintro rfl; exact irr _ h
    cases op <;> simp [CmpOp.test, CmpOp.holds, h, h1, h2]
  · subst h
    have h1 := irr a
    cases op <;> simp [CmpOp.test, CmpOp.holds, h1]
  · have h1 := asym h
    have h2 : a ≠ b := by rintro rfl; exact irr _ h
    cases op <;> simp [CmpOp.test, CmpOp.holds, h, h1, h2]

theorem test_holds_nul {a b : List Byte} {r : Int} (h : IsCmp (a ++ [0]) (b ++ [0]) r) (op : CmpOp)
    (hop : (op = .eq ∨ op = .ne) ∨ (Ascii a ∧ Ascii b)) : op.test r = true ↔ op.holds a b := by
  rcases hop with hop | ⟨ha, hb⟩
  · rw [test_holds h]
    rcases hop with rfl | rfl <;> simp [CmpOp.holds]
  · exact test_holds ((isCmp_nul (fun x hx => (ha x hx).1) (fun x hx => (hb x hx).1)).1 h) op

/-- **C44, comparison.**  The comparison of two strings ends and yields what the operator means, if they are not both `VARCHAR` or
their types have the same length; for an order comparison the strings must be ASCII.  Missing for the full property: `VARCHAR`s of
different length (`C44_varchar_lengths`, `C44_varchar_literal`), other characters (`C44_order_bytes`, `C44_nonascii`), and queries in
which a comparison from the end was compiled before (`C44_cached_direction`). -/
theorem C44_compare_partial (cache : Cache) (hc : cache ≠ some true) (l r : NChar) (op : CmpOp)
    (hty : l.varying = false ∨ r.varying = false ∨ l.length = r.length)
    (hop : (op = .eq ∨ op = .ne) ∨ (Ascii l.val ∧ Ascii r.val)) :
    ∃ b, (∀ fuel, l.length + r.length + 2 ≤ fuel → strcmpSQL fuel cache op (some l) (some r) = some (some b)) ∧ (b = true ↔ op.holds l.val r.val) := by
  obtain ⟨x, x1, x2⟩ := strcmp_spec cache hc l r
  have x3 : IsCmp (l.val ++ [0]) (r.val ++ [0]) x := by
    rcases x2 with ⟨a, b, c, -⟩ | ⟨a, b, c, -⟩ | ⟨-, -, h⟩
    · rcases hty with h | h | h
      · rw [a] at h; cases h
      · rw [b] at h; cases h
      · omega
    · rcases hty with h | h | h
      · rw [a] at h; cases h
      · rw [b] at h; cases h
      · omega
    · exact h
  refine ⟨op.test x, fun fuel hf => ?_, test_holds_nul x3 op hop⟩
  unfold strcmpSQL
  simp only
  rw [x1 fuel hf]
  rfl

/-- A comparison with NULL is NULL. -/
theorem C44_null (fuel : Nat) (cache : Cache) (op : CmpOp) (l r : Option NChar) (h : l = none ∨ r = none) :
    strcmpSQL fuel cache op l r = some none := by
  unfold strcmpSQL
  rcases h with rfl | rfl
  · rfl
  · cases l <;> rfl

/-- **C44, comparison of bytes.**  For arbitrary characters the order is that of the signed bytes *followed by NUL*. -/
theorem C44_order_bytes (cache : Cache) (hc : cache ≠ some true) (l r : NChar) (op : CmpOp)
    (hty : l.varying = false ∨ r.varying = false ∨ l.length = r.length) :
    ∃ b, (∀ fuel, l.length + r.length + 2 ≤ fuel → strcmpSQL fuel cache op (some l) (some r) = some (some b)) ∧
      (b = true ↔ op.holds (l.val ++ [0]) (r.val ++ [0])) := by
  obtain ⟨x, x1, x2⟩ := strcmp_spec cache hc l r
  have x3 : IsCmp (l.val ++ [0]) (r.val ++ [0]) x := by
    rcases x2 with ⟨a, b, c, -⟩ | ⟨a, b, c, -⟩ | ⟨-, -, h⟩
    · rcases hty with h | h | h
      · rw [a] at h; cases h
      · rw [b] at h; cases h
      · omega
    · rcases hty with h | h | h
      · rw [a] at h; cases h
      · rw [b] at h; cases h
      · omega
    · exact h
  refine ⟨op.test x, fun fuel hf => ?_, test_holds x3 op⟩
  unfold strcmpSQL
  simp only
  rw [x1 fuel hf]
  rfl

/-- **C44, VARCHARs of different length.**  If the string of the shorter type fills it and is a prefix of the other string, it is
always the smaller one, even if the strings are equal; otherwise the comparison is right. -/
theorem C44_varchar_lengths (cache : Cache) (hc : cache ≠ some true) (l r : NChar) (op : CmpOp) (hl : l.varying = true) (hr : r.varying = true)
    (hlt : l.length < r.length) (hop : (op = .eq ∨ op = .ne) ∨ (Ascii l.val ∧ Ascii r.val)) :
    ∃ b, (∀ fuel, l.length + r.length + 2 ≤ fuel → strcmpSQL fuel cache op (some l) (some r) = some (some b)) ∧
      (l.val.length = l.length ∧ l.val <+: r.val → b = op.test (-1)) ∧
      (¬ (l.val.length = l.length ∧ l.val <+: r.val) → (b = true ↔ op.holds l.val r.val)) := by
  obtain ⟨x, x1, x2⟩ := strcmp_spec cache hc l r
  refine ⟨op.test x, fun fuel hf => ?_, fun h => ?_, fun h => ?_⟩
  · unfold strcmpSQL
    simp only
    rw [x1 fuel hf]
    rfl
  · rcases x2 with ⟨-, -, -, -, -, rfl⟩ | ⟨-, -, hgt, -⟩ | ⟨hn, -, -⟩
    · rfl
    · omega
    · exact absurd ⟨hl, hr, hlt, h⟩ hn
  · rcases x2 with ⟨-, -, -, h1, h2, -⟩ | ⟨-, -, hgt, -⟩ | ⟨-, -, hx⟩
    · exact absurd ⟨h1, h2⟩ h
    · omega
    · exact test_holds_nul hx op hop

/-- **C44 is false for a VARCHAR column and a literal.**  A value that fills a column of type `VARCHAR(n)` is never equal to a literal,
not even to the literal of the same characters. -/
theorem C44_varchar_literal (cache : Cache) (hc : cache ≠ some true) (s : NChar) (hv : s.varying = true) (hfull : s.val.length = s.length)
    (fuel : Nat) (hf : 2 * s.length + 3 ≤ fuel) :
    strcmpSQL fuel cache .eq (some s) (some (literal s.val)) = some (some false) := by
  have hl : (literal s.val).length = s.length + 1 := by show s.val.length + 1 = _; omega
  have hval : (literal s.val).val = s.val := by
    refine val_unique _ _ (val_noNul s) (by rw [hl]; omega) (fun i h => ?_) (Or.inr ?_)
    · show s.val.getD i 0 = _
      rw [List.getD_eq_getElem?_getD, List.getElem?_eq_getElem h]; rfl
    · show s.val.getD s.val.length 0 = 0
      rw [List.getD_eq_getElem?_getD, List.getElem?_eq_none le_rfl]; rfl
  obtain ⟨b, b1, b2, -⟩ := C44_varchar_lengths cache hc s (literal s.val) .eq hv rfl (by omega) (Or.inl (Or.inl rfl))
  rw [b1 fuel (by omega), b2 ⟨hfull, by rw [hval]; exact List.prefix_refl _⟩]
  rfl

/-- `VARCHAR(3)` with the value "abc", and a row of it exists. -/
def abc : NChar := ofList [97, 98, 99]

example : abc.WF := fun _ => ⟨3, le_rfl, rfl⟩
example : abc.val = [97, 98, 99] ∧ abc.val.length = abc.length := by decide +kernel
example : strcmpSQL 20 none .eq (some abc) (some (literal [97, 98, 99])) = some (some false) := by decide +kernel
example : strcmpSQL 20 none .lt (some abc) (some (literal [97, 98, 99])) = some (some true) := by decide +kernel
example : strcmpSQL 20 none .eq (some abc) (some abc) = some (some true) := by decide +kernel

/-- A `CHAR(n)` with the characters `l`. -/
def char (l : List Byte) (n : Nat) : NChar := ⟨fun i => l.getD i 0, n, false⟩

-- a case of `C44_compare_partial`: `CHAR(5)` "ab" and `VARCHAR` "abc"
example : Ascii (char [97, 98] 5).val ∧ Ascii abc.val := by
  have h1 : (char [97, 98] 5).val = [97, 98] := by decide +kernel
  have h2 : abc.val = [97, 98, 99] := by decide +kernel
  rw [h1, h2]
  constructor <;> intro x hx <;> simp at hx <;> omega
example : strcmpSQL 20 none .lt (some (char [97, 98] 5)) (some abc) = some (some true) := by decide +kernel

/-- **C44 is false for the order of characters beyond ASCII**: 'a' is greater than its extension 'aé' (bytes 97, -61, -87). -/
theorem C44_nonascii : strcmpSQL 20 none .gt (some (char [97] 4)) (some (char [97, -61, -87] 4)) = some (some true) ∧
    ¬ CmpOp.gt.holds (char [97] 4).val (char [97, -61, -87] 4).val := by
  refine ⟨by decide +kernel, ?_⟩
  have h1 : (char [97] 4).val = [97] := by decide +kernel
  have h2 : (char [97, -61, -87] 4).val = [97, -61, -87] := by decide +kernel
  rw [h1, h2]
  show ¬ ([97, -61, -87] : List Int) < [97]
  decide +kernel

/-- **C44 is false after a suffix LIKE**: once the comparison from the end was compiled, `CHAR` strings are compared from the end:
"ab" < "ba" is false. -/
theorem C44_cached_direction : (strncmp 20 none (char [97, 98] 3) (ofList [98]) 3 true).2 = some true ∧
    strcmpSQL 20 (some true) .lt (some (char [97, 98] 3)) (some (char [98, 97] 3)) = some (some false) ∧
    CmpOp.lt.holds (char [97, 98] 3).val (char [98, 97] 3).val := by
  refine ⟨by decide +kernel, by decide +kernel, ?_⟩
  have h1 : (char [97, 98] 3).val = [97, 98] := by decide +kernel
  have h2 : (char [98, 97] 3).val = [98, 97] := by decide +kernel
  rw [h1, h2]
  show ([97, 98] : List Int) < [98, 97]
  decide +kernel

/-! ### C44: concatenation -/

/-- **C44, concatenation.**  If the right operand is a `VARCHAR`, the value of `l .. r` is the concatenation of the values, and the
result is a well-formed `VARCHAR` that is long enough.  Missing for the full property: a right operand of type `CHAR`
(`C44_concat_char`). -/
theorem C44_concat_partial (fresh : Nat → Byte) (l r : NChar) (hr : r.WF) (hv : r.varying = true) (fuel : Nat) (hf : l.length + r.length + 3 ≤ fuel) :
    ∃ c, concat fuel fresh l r = some c ∧ c.val = l.val ++ r.val ∧ c.varying = true ∧ c.WF ∧ c.val.length < c.length := by
  obtain ⟨c, h1, h2, h3, h4, h5⟩ := concat_spec fresh l r hr fuel hf
  rw [if_pos hv] at h5
  refine ⟨c, h1, h5, h2, h3, ?_⟩
  have := val_len l
  have := val_len r
  rw [h5, h4, List.length_append]; omega

/-- **C44 is false for a right operand of type CHAR**: it is lost, the value of `l .. r` is that of `l`. -/
theorem C44_concat_char (fresh : Nat → Byte) (l r : NChar) (hv : r.varying = false) (fuel : Nat) (hf : l.length + r.length + 3 ≤ fuel) :
    ∃ c, concat fuel fresh l r = some c ∧ c.val = l.val := by
  obtain ⟨c, h1, h2, h3, h4, h5⟩ := concat_spec fresh l r (fun h => by rw [hv] at h; cases h) fuel hf
  exact ⟨c, h1, by simpa [hv] using h5⟩

example : (concat 20 (fun _ => 55) (char [97] 3) abc).map (·.val) = some [97, 97, 98, 99] := by decide +kernel
example : (concat 20 (fun _ => 55) (char [97] 3) (char [98] 2)).map (·.val) = some [97] := by decide +kernel

/-! ### C45: LIKE -/

/-- `v LIKE pattern` with the given escape character. -/
def IsLike (esc : Byte) (pattern v : List Byte) : Prop := ∃ its, readPattern esc pattern = some its ∧ Matches its v

/-- The pattern has an escape character not followed by `_`, `%` or the escape character. -/
def Malformed (esc : Byte) (pattern : List Byte) : Prop := readPattern esc pattern = none

/-- **C45, general pattern.**  The comparison ends; it throws exactly if the pattern is malformed, and otherwise decides LIKE, for
every string, every non-empty pattern and every content of memory.  (For the empty pattern see `C45_empty_pattern`.) -/
theorem C45_like_general_partial (garbage : Nat → Bool) (s p : NChar) (esc : Byte) (he0 : esc ≠ 0) (he1 : esc ≠ 37) (he2 : esc ≠ 95) (hp : p.val ≠ []) :
    (Malformed esc p.val ∧ ∀ fuel, s.length + p.length + 2 ≤ fuel → like fuel garbage s p esc = some none) ∨
    (¬ Malformed esc p.val ∧ ∃ b, (∀ fuel, s.length + p.length + 2 ≤ fuel → like fuel garbage s p esc = some (some b)) ∧
      (b = true ↔ IsLike esc p.val s.val)) := by
  have h := like_spec garbage s p esc he0 he1 he2 hp
  unfold Malformed IsLike
  revert h
  cases readPattern esc p.val with
  | none => intro h; exact Or.inl ⟨rfl, h⟩
  | some its =>
    rintro ⟨b, h1, h2⟩
    exact Or.inr ⟨by simp, b, h1, by simp [h2]⟩

/-- Ordinary characters are read as themselves. -/
theorem readPattern_ordinary {l : List Byte} (h : ∀ c ∈ l, ordinary c = true) (t : List Byte) :
    readPattern backslash (l ++ t) = (readPattern backslash t).map (l.map Item.lit ++ ·) := by
  induction l with
  | nil => simp
  | cons c l ih =>
    have hc : ordinary c = true := h c (by simp)
    simp only [ordinary, Bool.and_eq_true, bne_iff_ne, ne_eq, underscore, percent] at hc
    rw [List.cons_append, readPattern_ne _ hc.2, ih fun d hd => h d (by simp [hd])]
    have : plain c = .lit c := by unfold plain; rw [if_neg hc.1.2, if_neg hc.1.1]
    rw [this, Option.map_map]
    rfl

theorem matches_lits {l v : List Byte} {its : List Item} : Matches (l.map Item.lit ++ its) v ↔ ∃ w, v = l ++ w ∧ Matches its w := by
  induction l generalizing v with
  | nil => simp
  | cons c l ih =>
    constructor
    · intro h
      cases h with
      | lit h =>
        obtain ⟨w, rfl, h'⟩ := ih.1 h
        exact ⟨w, rfl, h'⟩
    · rintro ⟨w, rfl, h⟩
      exact Matches.lit (ih.2 ⟨w, rfl, h⟩)

theorem matches_any {its : List Item} {v : List Byte} : Matches (.any :: its) v ↔ ∃ a w, v = a ++ w ∧ Matches its w := by
  constructor
  · intro h
    cases h with
    | any w h => exact ⟨w, _, rfl, h⟩
  · rintro ⟨a, w, rfl, h⟩
    exact Matches.any a h

theorem readPattern_percent (t : List Byte) : readPattern backslash (percent :: t) = (readPattern backslash t).map (Item.any :: ·) := by
  rw [readPattern_ne t (by decide)]
  rfl

theorem isLike_prefix {l v : List Byte} (h : ∀ c ∈ l, ordinary c = true) : IsLike backslash (l ++ [percent]) v ↔ l <+: v := by
  unfold IsLike
  rw [readPattern_ordinary h, readPattern_percent]
  simp only [readPattern, Option.map_some, Option.some.injEq, exists_eq_left', matches_lits, matches_any, matches_nil]
  constructor
  · rintro ⟨w, rfl, -⟩; exact List.prefix_append _ _
  · rintro ⟨w, rfl⟩; exact ⟨w, rfl, w, [], by simp, rfl⟩

theorem isLike_suffix {l v : List Byte} (h : ∀ c ∈ l, ordinary c = true) : IsLike backslash (percent :: l) v ↔ l <:+ v := by
  unfold IsLike
  have := readPattern_ordinary h []
  rw [List.append_nil] at this
  rw [readPattern_percent, this]
  simp only [readPattern, Option.map_some, Option.some.injEq, exists_eq_left', matches_any, matches_lits, matches_nil]
  constructor
  · rintro ⟨a, w, rfl, w', rfl, rfl⟩; exact ⟨a, by simp⟩
  · rintro ⟨a, rfl⟩; exact ⟨a, l, rfl, [], by simp, rfl⟩

theorem isLike_contains {l v : List Byte} (h : ∀ c ∈ l, ordinary c = true) : IsLike backslash (percent :: (l ++ [percent])) v ↔ l <:+: v := by
  unfold IsLike
  rw [readPattern_percent, readPattern_ordinary h, readPattern_percent]
  simp only [readPattern, Option.map_some, Option.some.injEq, exists_eq_left', matches_any, matches_lits, matches_nil]
  constructor
  · rintro ⟨a, w, rfl, w', rfl, -⟩; exact ⟨a, w', by simp⟩
  · rintro ⟨a, b, rfl⟩; exact ⟨a, l ++ b, by simp, b, rfl, b, [], by simp, rfl⟩

/-- **C45, `%text%`.**  The compiled search decides LIKE. -/
theorem C45_contains (s : NChar) (text : List Byte) (hne : text ≠ []) (h : ∀ c ∈ text, ordinary c = true) :
    ∃ b, (∀ fuel, s.length + text.length + 2 ≤ fuel → likeContains fuel s text = some b) ∧
      (b = true ↔ IsLike backslash (percent :: (text ++ [percent])) s.val) := by
  rw [isLike_contains h]
  exact likeContains_spec s text hne

/-- **C45, `text%`.**  The compiled comparison with two bounds decides LIKE, if the last character of the text is not 127 (nor the byte
255), no comparison from the end was compiled before, and the string is a `VARCHAR` or ASCII.  Without these: `C45_prefix_127`,
`C45_prefix_char`. -/
theorem C45_prefix_partial (cache : Cache) (hc : cache ≠ some true) (s : NChar) (text : List Byte) (last : Byte)
    (h : ∀ c ∈ text ++ [last], ordinary c = true ∧ c ≠ 0) (h127 : last ≠ 127) (h255 : last ≠ -1) (hs : s.varying = true ∨ Ascii s.val) :
    ∃ b, (∀ fuel, s.length + text.length + 3 ≤ fuel → likePrefix fuel cache s (text ++ [last]) = some b) ∧
      (b = true ↔ IsLike backslash (text ++ [last] ++ [percent]) s.val) := by
  rw [isLike_prefix fun c hc => (h c hc).1]
  refine likePrefix_spec cache hc s text last (fun c hc => (h c hc).2) h127 h255 (hs.imp id fun ha y hy => ?_)
  exact (ha y (List.mem_of_getElem? hy)).1

/-- **C45, `%text`.**  The compiled comparison from the end with two bounds decides LIKE, if the first character of the text is not 127
(nor the byte 255), no other comparison of strings from the start was compiled before, and the string is ASCII.  Without these:
`C45_suffix_127`, `C45_suffix_direction`, `C45_suffix_nonascii`. -/
theorem C45_suffix_partial (cache : Cache) (hc : cache ≠ some false) (s : NChar) (text : List Byte) (first : Byte)
    (h : ∀ c ∈ first :: text, ordinary c = true ∧ c ≠ 0) (h127 : first ≠ 127) (h255 : first ≠ -1) (hs : Ascii s.val) :
    ∃ b, (∀ fuel, s.length + text.length + 3 ≤ fuel → likeSuffix fuel cache s (first :: text) = some b) ∧
      (b = true ↔ IsLike backslash (percent :: first :: text) s.val) := by
  rw [isLike_suffix fun c hc => (h c hc).1]
  refine likeSuffix_spec cache hc s text first (fun c hc => (h c hc).2) h127 h255 (fun y hy => ?_)
  exact (hs y (List.mem_reverse.1 (List.mem_of_getElem? hy))).1

theorem ordinaries_iff {l : List Byte} : ordinaries l = true ↔ l ≠ [] ∧ ∀ c ∈ l, ordinary c = true := by
  unfold ordinaries
  simp

theorem literal_val {l : List Byte} (h : NoNul l) : (literal l).val = l := by
  refine val_unique _ _ h (Nat.le_succ _) (fun i hi => ?_) (Or.inr ?_)
  · show l.getD i 0 = _
    rw [List.getD_eq_getElem?_getD, List.getElem?_eq_getElem hi]; rfl
  · show l.getD l.length 0 = 0
    rw [List.getD_eq_getElem?_getD, List.getElem?_eq_none le_rfl]; rfl

/-- **C45, constant pattern.**  Whichever algorithm is chosen: for an ASCII string and a non-empty ASCII pattern without the character
127 in a query with no other string comparison, LIKE throws exactly if the pattern is malformed, and otherwise yields the truth. -/
theorem C45_like_constant_partial (garbage : Nat → Bool) (s : NChar) (hs : Ascii s.val) (pattern : List Byte) (hp : pattern ≠ [])
    (ha : ∀ c ∈ pattern, 0 < c ∧ c < 127) :
    (Malformed backslash pattern ∧ ∀ fuel, s.length + pattern.length + 3 ≤ fuel → likeConst fuel none garbage s pattern = some none) ∨
    (¬ Malformed backslash pattern ∧ ∃ b, (∀ fuel, s.length + pattern.length + 3 ≤ fuel → likeConst fuel none garbage s pattern = some (some b)) ∧
      (b = true ↔ IsLike backslash pattern s.val)) := by
  have wf : ∀ v, IsLike backslash pattern v → ¬ Malformed backslash pattern := by
    rintro v ⟨its, h, -⟩ h'
    unfold Malformed at h'
    rw [h'] at h; cases h
  by_cases c1 : pattern.head? = some percent ∧ pattern.tail.getLast? = some percent ∧ ordinaries pattern.tail.dropLast = true
  · obtain ⟨h1, h2, h3⟩ := c1
    obtain ⟨hne, hord⟩ := ordinaries_iff.1 h3
    obtain ⟨mid, hmid⟩ : ∃ m, m = pattern.tail.dropLast := ⟨_, rfl⟩
    have hpat : pattern = percent :: (mid ++ [percent]) := by
      cases pattern with
      | nil => exact absurd rfl hp
      | cons c t =>
        simp only [List.head?_cons, Option.some.injEq] at h1
        simp only [List.tail_cons] at h2 hmid
        rw [h1, hmid]
        congr 1
        exact (List.dropLast_append_getLast? _ h2).symm
    rw [← hmid] at hne hord
    obtain ⟨b, b1, b2⟩ := C45_contains s mid hne hord
    have hlen : pattern.length = mid.length + 2 := by rw [hpat]; simp
    refine Or.inr ⟨wf mid ?_, b, fun fuel hf => ?_, by rw [hpat]; exact b2⟩
    · rw [hpat, isLike_contains hord]; exact List.infix_refl _
    · unfold likeConst
      rw [if_pos ⟨h1, h2, h3⟩, ← hmid, b1 fuel (by omega)]
      rfl
  by_cases c2 : pattern.getLast? = some percent ∧ ordinaries pattern.dropLast = true
  · obtain ⟨h2, h3⟩ := c2
    obtain ⟨hne, hord⟩ := ordinaries_iff.1 h3
    have hpat : pattern = pattern.dropLast ++ [percent] := (List.dropLast_append_getLast? _ h2).symm
    obtain ⟨text, last, htl⟩ : ∃ t l, pattern.dropLast = t ++ [l] := by
      rcases List.eq_nil_or_concat pattern.dropLast with h | ⟨t, l, h⟩
      · exact absurd h hne
      · exact ⟨t, l, by rw [h, List.concat_eq_append]⟩
    have hrange : ∀ c ∈ text ++ [last], 0 < c ∧ c < 127 := fun c hc => ha c (by rw [hpat, htl]; simp at hc ⊢; tauto)
    have hl := hrange last (by simp)
    obtain ⟨b, b1, b2⟩ := C45_prefix_partial none (by simp) s text last
      (fun c hc => ⟨hord c (by rw [htl]; exact hc), by have := hrange c hc; omega⟩) (by omega) (by omega) (Or.inr hs)
    have hlen : pattern.length = text.length + 2 := by rw [hpat, htl]; simp
    rw [htl] at hpat
    refine Or.inr ⟨wf (text ++ [last]) ?_, b, fun fuel hf => ?_, by rw [hpat]; exact b2⟩
    · rw [hpat, isLike_prefix (fun c hc => hord c (by rw [htl]; exact hc))]; exact List.prefix_refl _
    · unfold likeConst
      rw [if_neg c1, if_pos ⟨h2, h3⟩, htl, b1 fuel (by omega)]
      rfl
  by_cases c3 : pattern.head? = some percent ∧ ordinaries pattern.tail = true
  · obtain ⟨h1, h3⟩ := c3
    obtain ⟨hne, hord⟩ := ordinaries_iff.1 h3
    obtain ⟨first, text, hft⟩ : ∃ f t, pattern.tail = f :: t := by
      cases h : pattern.tail with
      | nil => exact absurd h hne
      | cons f t => exact ⟨f, t, rfl⟩
    have hpat : pattern = percent :: first :: text := by
      cases pattern with
      | nil => exact absurd rfl hp
      | cons c t =>
        simp only [List.head?_cons, Option.some.injEq] at h1
        simp only [List.tail_cons] at hft
        rw [h1, hft]
    have hrange : ∀ c ∈ first :: text, 0 < c ∧ c < 127 := fun c hc => ha c (by rw [hpat]; exact List.mem_cons_of_mem _ hc)
    have hl := hrange first (by simp)
    obtain ⟨b, b1, b2⟩ := C45_suffix_partial none (by simp) s text first
      (fun c hc => ⟨hord c (by rw [hft]; exact hc), by have := hrange c hc; omega⟩) (by omega) (by omega) hs
    have hlen : pattern.length = text.length + 2 := by rw [hpat]; simp
    refine Or.inr ⟨wf (first :: text) ?_, b, fun fuel hf => ?_, by rw [hpat]; exact b2⟩
    · rw [hpat, isLike_suffix (fun c hc => hord c (by rw [hft]; exact hc))]; exact List.suffix_refl _
    · unfold likeConst
      rw [if_neg c1, if_neg c2, if_pos ⟨h1, h3⟩, hft, b1 fuel (by omega)]
      rfl
  · have hnn : NoNul pattern := fun c hc => by have := ha c hc; omega
    have hlv := literal_val hnn
    have hll : (literal pattern).length = pattern.length + 1 := rfl
    have := C45_like_general_partial garbage s (literal pattern) backslash (by decide) (by decide) (by decide) (by rw [hlv]; exact hp)
    rw [hlv, hll] at this
    have hred : ∀ fuel, likeConst fuel none garbage s pattern = like fuel garbage s (literal pattern) backslash := by
      intro fuel
      unfold likeConst
      rw [if_neg c1, if_neg c2, if_neg c3]
    rcases this with ⟨h1, h2⟩ | ⟨h1, b, h2, h3⟩
    · exact Or.inl ⟨h1, fun fuel hf => by rw [hred]; exact h2 fuel (by omega)⟩
    · exact Or.inr ⟨h1, b, fun fuel hf => by rw [hred]; exact h2 fuel (by omega), h3⟩

-- cases: `a_c%`, `%bc%`, `ab%`, `%bc`, `a\%`, `a\b` on "abc"
example : likeConst 40 none (fun _ => true) abc [97, 95, 99, 37] = some (some true) := by decide +kernel
example : likeConst 40 none (fun _ => true) abc [37, 98, 99, 37] = some (some true) := by decide +kernel
example : likeConst 40 none (fun _ => true) abc [97, 98, 37] = some (some true) := by decide +kernel
example : likeConst 40 none (fun _ => true) abc [37, 98, 99] = some (some true) := by decide +kernel
example : likeConst 40 none (fun _ => true) abc [97, 92, 37] = some (some false) := by decide +kernel
example : likeConst 40 none (fun _ => true) abc [97, 92, 98] = some none := by decide +kernel

/-- **C45 is false for the empty pattern**: every string matches it. -/
theorem C45_empty_pattern (garbage : Nat → Bool) (s p : NChar) (esc : Byte) (hp : p.val = []) (fuel : Nat) (hf : p.length + 2 ≤ fuel) :
    like fuel garbage s p esc = some (some true) := by
  unfold like
  split
  · rfl
  · unfold likeFn
    obtain ⟨t1, e1, a1, -⟩ := initCol_spec s.length p (fun i => if i < (s.length + 1) * (p.length + 1) then false else garbage i)
    simp only
    rw [e1 fuel hf]
    simp only
    have hz : load p.mem p.length 0 = 0 := by rw [load_lt p (Nat.zero_le _), hp]; rfl
    obtain ⟨fuel, rfl⟩ : ∃ m, fuel = m + 1 := ⟨fuel - 1, by omega⟩
    rw [likeLoop, if_pos hz]
    have := a1 0 (Nat.zero_le _)
    simpa using this

example : (literal []).val = [] ∧ ¬ IsLike backslash (literal []).val abc.val := by
  have h2 : abc.val = [97, 98, 99] := by decide +kernel
  refine ⟨by decide +kernel, ?_⟩
  rw [h2]
  rintro ⟨its, h, hm⟩
  have h3 : (literal []).val = [] := by decide +kernel
  rw [h3] at h
  simp only [readPattern, Option.some.injEq] at h
  subst h
  have := matches_nil.1 hm
  simp at this

/-- **C45 is false if the text of `text%` ends in the character 127.** -/
theorem C45_prefix_127 : likePrefix 20 none (char [97, 127] 4) [97, 127] = some false ∧ IsLike backslash [97, 127, 37] (char [97, 127] 4).val := by
  refine ⟨by decide +kernel, ?_⟩
  have h1 : (char [97, 127] 4).val = [97, 127] := by decide +kernel
  rw [h1]
  exact (isLike_prefix (l := [97, 127]) (by decide)).2 (List.prefix_refl _)

/-- **C45 is false for `CHAR` strings with characters beyond ASCII**: 'aé' LIKE 'a%' is false and 'bé' LIKE 'a%' is true. -/
theorem C45_prefix_char : (likePrefix 20 none (char [97, -61, -87] 4) [97] = some false ∧ IsLike backslash [97, 37] (char [97, -61, -87] 4).val) ∧
    (likePrefix 20 none (char [98, -61, -87] 4) [97] = some true ∧ ¬ IsLike backslash [97, 37] (char [98, -61, -87] 4).val) := by
  have h1 : (char [97, -61, -87] 4).val = [97, -61, -87] := by decide +kernel
  have h2 : (char [98, -61, -87] 4).val = [98, -61, -87] := by decide +kernel
  refine ⟨⟨by decide +kernel, ?_⟩, by decide +kernel, ?_⟩
  · rw [h1]
    exact (isLike_prefix (l := [97]) (by decide)).2 ⟨[-61, -87], rfl⟩
  · rw [h2]
    intro h
    have := (isLike_prefix (l := [97]) (by decide)).1 h
    revert this
    decide +kernel

/-- **C45 is false if the text of `%text` starts with the character 127.** -/
theorem C45_suffix_127 : likeSuffix 20 none (char [97, 127] 4) [127] = some false ∧ IsLike backslash [37, 127] (char [97, 127] 4).val := by
  refine ⟨by decide +kernel, ?_⟩
  have h1 : (char [97, 127] 4).val = [97, 127] := by decide +kernel
  rw [h1]
  exact (isLike_suffix (l := [127]) (by decide)).2 ⟨[97], rfl⟩

/-- **C45 is false for `%text` and characters beyond ASCII**, also for `VARCHAR`: 'éa' LIKE '%a' is false. -/
theorem C45_suffix_nonascii : likeSuffix 20 none (ofList [-61, -87, 97]) [97] = some false ∧ IsLike backslash [37, 97] (ofList [-61, -87, 97]).val := by
  refine ⟨by decide +kernel, ?_⟩
  have h1 : (ofList [-61, -87, 97]).val = [-61, -87, 97] := by decide +kernel
  rw [h1]
  exact (isLike_suffix (l := [97]) (by decide)).2 ⟨[-61, -87], rfl⟩

/-- **C45 is false in a query that also compares `CHAR` strings from the start**: after such a comparison 'ab' LIKE '%b' is false, and
'ba' LIKE '%b' is true. -/
theorem C45_suffix_direction : (strcmp 20 none (char [97, 98] 3) (char [97] 1) false).2 = some false ∧
    likeSuffix 20 (some false) (char [97, 98] 3) [98] = some false ∧ IsLike backslash [37, 98] (char [97, 98] 3).val ∧
    likeSuffix 20 (some false) (char [98, 97] 3) [98] = some true ∧ ¬ IsLike backslash [37, 98] (char [98, 97] 3).val := by
  have h1 : (char [97, 98] 3).val = [97, 98] := by decide +kernel
  have h2 : (char [98, 97] 3).val = [98, 97] := by decide +kernel
  refine ⟨by decide +kernel, by decide +kernel, ?_, by decide +kernel, ?_⟩
  · rw [h1]
    exact (isLike_suffix (l := [98]) (by decide)).2 ⟨[97], rfl⟩
  · rw [h2]
    intro h
    have := (isLike_suffix (l := [98]) (by decide)).1 h
    revert this
    decide +kernel

end Mutable.WStr
