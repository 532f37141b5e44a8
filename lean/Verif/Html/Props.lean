import Verif.Html.Model
import Verif.G2S.Model
import Mathlib.Tactic.SplitIfs
import Mathlib.Tactic.Linarith
/-!
# C77: replacing text, and escaping text for HTML
-/
namespace Mutable.Html

/-- `r` is `s`, read from left to right, with every occurrence of `f` replaced by `t`; neither overlapping occurrences nor those that only the replacement creates. -/
inductive Replaced (f t : Str) : Str → Str → Prop
  | done : Replaced f t [] []
  | hit {s r} : Replaced f t s r → Replaced f t (f ++ s) (t ++ r)
  | skip {c s r} : ¬ f <+: c :: s → Replaced f t s r → Replaced f t (c :: s) (c :: r)

/-! ## The loop -/

theorem find_some {s f : Str} {pos p : Nat} (h : find s f pos = some p) :
    pos ≤ p ∧ p ≤ s.length ∧ f <+: s.drop p ∧ ∀ i, pos ≤ i → i < p → ¬ f <+: s.drop i := by
  unfold find at h
  rw [List.find?_range'_eq_some] at h
  obtain ⟨h1, h2, h3⟩ := h
  simp only [List.mem_range'_1] at h2
  refine ⟨h2.1, by omega, List.isPrefixOf_iff_prefix.1 h1, fun i hi hp hf => ?_⟩
  have := h3 i hi hp
  rw [List.isPrefixOf_iff_prefix.2 hf] at this
  cases this

theorem find_none {s f : Str} {pos : Nat} (h : find s f pos = none) : ∀ i, pos ≤ i → i ≤ s.length → ¬ f <+: s.drop i := by
  unfold find at h
  rw [List.find?_eq_none] at h
  intro i hi hl hf
  exact h i (by rw [List.mem_range'_1]; omega) (List.isPrefixOf_iff_prefix.2 hf)

theorem replaced_none {f t : Str} : ∀ s : Str, (∀ i, i ≤ s.length → ¬ f <+: s.drop i) → Replaced f t s s
  | [], _ => .done
  | c :: s, h => .skip (h 0 (by simp)) (replaced_none s fun i hi => h (i + 1) (by simpa using hi))

theorem replaced_append {f t : Str} : ∀ {a s r : Str}, (∀ i, i < a.length → ¬ f <+: (a ++ s).drop i) → Replaced f t s r → Replaced f t (a ++ s) (a ++ r)
  | [], _, _, _, h => h
  | c :: a, s, r, ha, h => .skip (ha 0 (by simp)) (replaced_append (fun i hi => ha (i + 1) (by simpa using hi)) h)

theorem loop_spec {f t : Str} (hf : f ≠ []) : ∀ (n : Nat) (a s : Str), s.length < n →
    ∃ r, loop f t n (a ++ s) a.length = some (a ++ r) ∧ Replaced f t s r
  | 0, _, _, h => absurd h (by omega)
  | n + 1, a, s, h => by
    unfold loop
    cases hfi : find (a ++ s) f a.length with
    | none =>
      refine ⟨s, rfl, replaced_none s fun i hi => ?_⟩
      have := find_none hfi (a.length + i) (by omega) (by simp; omega)
      simpa using this
    | some p =>
      obtain ⟨h1, h2, ⟨s', h3⟩, h4⟩ := find_some hfi
      obtain ⟨k, rfl⟩ := Nat.exists_eq_add_of_le h1
      simp only [List.length_append] at h2
      have hk : k ≤ s.length := by omega
      rw [List.drop_length_add_append] at h3
      have hs : s = s.take k ++ (f ++ s') := by rw [h3, List.take_append_drop]
      have hlen : (s.take k).length = k := by simp [hk]
      generalize s.take k = b at hs hlen
      subst hs
      subst hlen
      have hfl : 0 < f.length := List.length_pos_iff.2 hf
      obtain ⟨r, e, hr⟩ := loop_spec hf n (a ++ b ++ t) s' (by simp only [List.length_append] at h; omega)
      refine ⟨b ++ (t ++ r), ?_, replaced_append (fun i hi => ?_) (.hit hr)⟩
      · have e1 : replace (a ++ (b ++ (f ++ s'))) (a.length + b.length) f.length t = a ++ b ++ t ++ s' := by
          unfold replace
          rw [← List.append_assoc, ← List.length_append, List.take_left', List.drop_length_add_append, List.drop_left] <;> simp
        simp only [e1]
        rw [show a.length + b.length + t.length = (a ++ b ++ t).length by simp [Nat.add_assoc], e]
        simp
      · have := h4 (a.length + i) (by omega) (by omega)
        rwa [List.drop_length_add_append] at this

/-- Replacing terminates for every text that is not empty, also if the replacement contains it, and yields the text in which its occurrences are replaced. -/
theorem C77_replace_all (s t : Str) {f : Str} (hf : f ≠ []) {n : Nat} (hn : s.length < n) : ∃ r, replaceAll n s f t = some r ∧ Replaced f t s r := by
  obtain ⟨r, h1, h2⟩ := loop_spec (t := t) hf n [] s hn
  exact ⟨r, h1, h2⟩

/-- There is only one such text. -/
theorem C77_unique {f t s r r' : Str} (hf : f ≠ []) (h : Replaced f t s r) (h' : Replaced f t s r') : r = r' := by
  induction h generalizing r' with
  | done =>
    generalize he : ([] : Str) = s at h'
    cases h' with
    | done => rfl
    | hit h => exact absurd (List.append_eq_nil_iff.1 he.symm).1 hf
    | skip => cases he
  | @hit s r h ih =>
    generalize he : f ++ s = x at h'
    cases h' with
    | done => exact absurd (List.append_eq_nil_iff.1 he).1 hf
    | hit h'' => rw [List.append_cancel_left he] at ih; rw [ih h'']
    | skip h1 _ => exact absurd ⟨s, he⟩ h1
  | @skip c s r h1 h ih =>
    generalize he : c :: s = x at h'
    cases h' with
    | done => cases he
    | @hit s' r' h'' => exact absurd ⟨s', he.symm⟩ h1
    | skip _ h'' => cases he; rw [ih h'']

/-! ## Single characters -/

theorem replaced_char {c : Char} {t s r : Str} (h : Replaced [c] t s r) : r = s.flatMap fun d => if d = c then t else [d] := by
  induction h with
  | done => rfl
  | hit _ ih => simp [ih]
  | @skip d s r h1 _ ih =>
    have : d ≠ c := by rintro rfl; exact h1 ⟨s, rfl⟩
    simp [ih, this]

theorem replaceAll_char (s t : Str) (c : Char) {n : Nat} (hn : s.length < n) :
    replaceAll n s [c] t = some (s.flatMap fun d => if d = c then t else [d]) := by
  obtain ⟨r, h1, h2⟩ := C77_replace_all s t (f := [c]) (by simp) hn
  rw [h1, replaced_char h2]

/-- Replacing a character by a character: the function the names of SQL texts (C75) are made with. -/
theorem C77_char (s : Str) (a b : Char) {n : Nat} (hn : s.length < n) : replaceAll n s [a] [b] = some (G2S.replaceAll a b s) := by
  rw [replaceAll_char s [b] a hn]
  congr 1
  induction s with
  | nil => rfl
  | cons c s ih =>
    rw [List.flatMap_cons, ih (by simp only [List.length_cons] at hn; omega)]
    unfold G2S.replaceAll
    rw [List.map_cons]
    split_ifs <;> rfl

/-! ## HTML -/

/-- The text of a character in HTML. -/
def entity (c : Char) : Str := if c = '&' then "&amp;".toList else if c = '<' then "&lt;".toList else if c = '>' then "&gt;".toList else [c]

theorem length_flatMap {g : Char → Str} (h : ∀ c, (g c).length ≤ 5) (s : Str) : (s.flatMap g).length ≤ 5 * s.length := by
  induction s with
  | nil => simp
  | cons c s ih => have := h c; simp only [List.flatMap_cons, List.length_append, List.length_cons]; omega

/-- Each character is escaped by itself; the entities are not escaped again. -/
theorem C77_html (s : Str) {n : Nat} (hn : 25 * s.length < n) : htmlEscape n s = some (s.flatMap entity) := by
  unfold htmlEscape
  have e1 : "&".toList = ['&'] := rfl
  have e2 : "<".toList = ['<'] := rfl
  have e3 : ">".toList = ['>'] := rfl
  rw [e1, replaceAll_char s _ '&' (by omega)]
  simp only
  have l1 := length_flatMap (g := fun d => if d = '&' then "&amp;".toList else [d]) (by intro c; split_ifs <;> simp) s
  rw [e2, replaceAll_char _ _ '<' (by omega)]
  simp only
  have l2 := length_flatMap (g := fun d => if d = '<' then "&lt;".toList else [d]) (by intro c; split_ifs <;> simp)
    (s.flatMap fun d => if d = '&' then "&amp;".toList else [d])
  rw [e3, replaceAll_char _ _ '>' (by omega)]
  congr 1
  rw [List.flatMap_assoc, List.flatMap_assoc]
  congr 1
  funext c
  unfold entity
  by_cases h1 : c = '&'
  · subst h1; decide
  by_cases h2 : c = '<'
  · subst h2; decide
  by_cases h3 : c = '>'
  · subst h3; decide
  simp [h1, h2, h3]

/-- The escaped text has no character that starts or ends a tag. -/
theorem C77_no_tags (s : Str) : '<' ∉ s.flatMap entity ∧ '>' ∉ s.flatMap entity := by
  have : ∀ c, '<' ∉ entity c ∧ '>' ∉ entity c := by
    intro c
    unfold entity
    split_ifs with h1 h2 h3
    · decide
    · decide
    · decide
    · simp only [List.mem_singleton]; exact ⟨fun h => h2 h.symm, fun h => h3 h.symm⟩
  constructor
  · intro h; obtain ⟨c, _, hc⟩ := List.mem_flatMap.1 h; exact (this c).1 hc
  · intro h; obtain ⟨c, _, hc⟩ := List.mem_flatMap.1 h; exact (this c).2 hc

/-- What a reader of HTML sees: the three entities stand for their characters. -/
def shown : Str → Str
  | '&' :: 'a' :: 'm' :: 'p' :: ';' :: r => '&' :: shown r
  | '&' :: 'l' :: 't' :: ';' :: r => '<' :: shown r
  | '&' :: 'g' :: 't' :: ';' :: r => '>' :: shown r
  | c :: r => c :: shown r
  | [] => []

/-- A reader sees the text that was escaped. -/
theorem C77_shown (s : Str) : shown (s.flatMap entity) = s := by
  induction s with
  | nil => rfl
  | cons c s ih =>
    rw [List.flatMap_cons]
    generalize s.flatMap entity = r at ih ⊢
    unfold entity
    split_ifs with h1 h2 h3
    · subst h1; show '&' :: shown r = _; rw [ih]
    · subst h2; show '<' :: shown r = _; rw [ih]
    · subst h3; show '>' :: shown r = _; rw [ih]
    · rw [List.singleton_append, shown.eq_4 _ _ (fun _ h _ => h1 h) (fun _ h _ => h1 h) (fun _ h _ => h1 h), ih]

/-- Different texts are escaped differently. -/
theorem C77_injective {s s' : Str} {n : Nat} (hn : 25 * s.length < n) (hn' : 25 * s'.length < n) (h : htmlEscape n s = htmlEscape n s') : s = s' := by
  rw [C77_html s hn, C77_html s' hn', Option.some_inj] at h
  rw [← C77_shown s, h, C77_shown]

/-! ## Defects and witnesses -/

/-- Replacing the empty text never ends: the text grows in every round (or, without a replacement, the search stays where it is). -/
theorem C77_bug_empty (s t : Str) (n : Nat) : replaceAll n s [] t = none := by
  have : ∀ (n : Nat) (a s : Str), loop [] t n (a ++ s) a.length = none := by
    intro n
    induction n with
    | zero => intro a s; rfl
    | succ n ih =>
      intro a s
      unfold loop
      have e : find (a ++ s) [] a.length = some a.length := by
        unfold find
        rw [show (a ++ s).length + 1 - a.length = s.length + 1 by simp; omega, List.range'_succ]
        simp
      rw [e]
      have e1 : replace (a ++ s) a.length ([] : Str).length t = (a ++ t) ++ s := by simp [replace]
      simp only [e1]
      rw [← List.length_append]
      exact ih (a ++ t) s
  exact this n [] s

example : replaceAll 9 "aaaa".toList "aa".toList "aab".toList = some "aabaab".toList := by decide +kernel
example : htmlEscape 300 "a<b && b>\"c\"".toList = some "a&lt;b &amp;&amp; b&gt;\"c\"".toList := by decide +kernel
example : Replaced "aa".toList "b".toList "aaa".toList "ba".toList := .hit (.skip (by decide) .done)

end Mutable.Html
