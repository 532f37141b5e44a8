import Verif.Lexer.Model
/-!
# Specification of SQL tokens

Uses only the token types and the classes of digits and letters of the model.
-/
namespace Mutable.Lex.Spec
open Mutable.Lex

/-- Line and column of the character that follows `pre`: lines and columns are counted from 1. -/
def posOf (pre : List Char) : Pos :=
  ⟨1 + pre.count '\n', 1 + (pre.reverse.takeWhile (· ≠ '\n')).length⟩

/-- The reserved words, by what they are used for. -/
def reserved : List (List Char) :=
  ["SELECT", "AS", "FROM", "WHERE", "GROUP", "BY", "HAVING", "ORDER", "ASC", "DESC", "LIMIT", "OFFSET", -- queries
   "AND", "OR", "NOT", "LIKE", "EXISTS", "TRUE", "FALSE", "NULL", -- expressions
   "BOOL", "CHAR", "VARCHAR", "DATE", "DATETIME", "INT", "DECIMAL", "FLOAT", "DOUBLE", -- types
   "CREATE", "DROP", "USE", "DATABASE", "TABLE", "INDEX", "IF", "ON", "USING", "PRIMARY", "KEY", "UNIQUE", "CHECK",
   "REFERENCES", "DEFAULT", "CASCADE", "RESTRICT", -- definition of data
   "INSERT", "INTO", "VALUES", "UPDATE", "SET", "DELETE", -- manipulation of data
   "IMPORT", "DSV", "ROWS", "DELIMITER", "ESCAPE", "QUOTE", "HAS", "HEADER", "SKIP" -- import
  ].map String.toList

/-- Blank, horizontal and vertical tab, form feed, newline and carriage return. -/
def White (c : Char) : Prop := c ∈ [' ', Char.ofNat 9, Char.ofNat 11, Char.ofNat 12, Char.ofNat 10, Char.ofNat 13]

/-- What separates tokens: white space and comments that end with a newline. -/
inductive Gap : List Char → Prop
  | nil : Gap []
  | space {c g} : White c → Gap g → Gap (c :: g)
  | comment {w g} : '\n' ∉ w → Gap g → Gap ('-' :: '-' :: w ++ '\n' :: g)

/-- At the end of the input a comment needs no newline. -/
def FinalGap (l : List Char) : Prop := Gap l ∨ ∃ g w, l = g ++ '-' :: '-' :: w ∧ Gap g ∧ '\n' ∉ w

/-- The fractional part of a number. -/
def Frac (digit : Char → Bool) (F : List Char) : Prop := F = [] ∨ ∃ D, F = '.' :: D ∧ ∀ c ∈ D, digit c = true

/-- An optional exponent, introduced by `e` or `E`. -/
def Exponent (e E : Char) (X : List Char) : Prop :=
  X = [] ∨ ∃ x sgn D, X = x :: (sgn ++ D) ∧ (x = e ∨ x = E) ∧ (sgn = [] ∨ sgn = ['-'] ∨ sgn = ['+']) ∧ D ≠ [] ∧
    ∀ c ∈ D, isDec c = true

/-- The inside of a string literal. -/
inductive StrBody : List Char → Prop
  | nil : StrBody []
  | char {c r} : c ≠ '"' → c ≠ '\\' → StrBody r → StrBody (c :: r)
  | esc {c r} : (c = '"' ∨ c = '\\' ∨ c = 'n' ∨ c = 't') → StrBody r → StrBody ('\\' :: c :: r)

/-- Exactly `n` decimal digits. -/
def NDigits (n : Nat) (w : List Char) : Prop := w.length = n ∧ ∀ c ∈ w, isDec c = true

/-- `[-]YYYY-MM-DD` -/
def DateText (w : List Char) : Prop :=
  ∃ sgn y m d, w = sgn ++ y ++ '-' :: m ++ '-' :: d ∧ (sgn = [] ∨ sgn = ['-']) ∧ NDigits 4 y ∧ NDigits 2 m ∧ NDigits 2 d

/-- `hh:mm:ss` -/
def TimeText (w : List Char) : Prop :=
  ∃ h m s, w = h ++ ':' :: m ++ ':' :: s ∧ NDigits 2 h ∧ NDigits 2 m ∧ NDigits 2 s

/-- The valid texts of each type of token. -/
inductive Valid : TT → List Char → Prop
  | identifier {x r} : (x = '_' ∨ isAlpha x = true) → (∀ c ∈ r, c = '_' ∨ isAlnum c = true) → x :: r ∉ reserved →
      Valid .identifier (x :: r)
  | kw {w} : w ∈ reserved → Valid (.kw w) w
  | octInt {D} : (∀ c ∈ D, isOct c = true) → Valid .octInt ('0' :: D)
  | decInt {x D} : isDec x = true → x ≠ '0' → (∀ c ∈ D, isDec c = true) → Valid .decInt (x :: D)
  | hexInt {x D} : (x = 'x' ∨ x = 'X') → D ≠ [] → (∀ c ∈ D, isHex c = true) → Valid .hexInt ('0' :: x :: D)
  | decFloat {I F X} : (∀ c ∈ I, isDec c = true) → Frac isDec F → Exponent 'e' 'E' X → (I ≠ [] ∨ 2 ≤ F.length) →
      (F ≠ [] ∨ X ≠ []) → Valid .decFloat (I ++ F ++ X)
  | hexFloat {x I F X} : (x = 'x' ∨ x = 'X') → (∀ c ∈ I, isHex c = true) → Frac isHex F → Exponent 'p' 'P' X →
      (I ≠ [] ∨ 2 ≤ F.length) → (F ≠ [] ∨ X ≠ []) → Valid .hexFloat ('0' :: x :: (I ++ F ++ X))
  | stringLiteral {b} : StrBody b → Valid .stringLiteral ('"' :: b ++ ['"'])
  | date {w} : DateText w → Valid .date ('d' :: '\'' :: w ++ ['\''])
  | dateTime {w t} : DateText w → TimeText t → Valid .dateTime ('d' :: '\'' :: (w ++ ' ' :: t) ++ ['\''])
  | instruction {w} : ';' ∉ w → Valid .instruction ('\\' :: w)
  | lpar : Valid .lpar ['('] | rpar : Valid .rpar [')'] | tilde : Valid .tilde ['~'] | plus : Valid .plus ['+']
  | minus : Valid .minus ['-'] | asterisk : Valid .asterisk ['*'] | slash : Valid .slash ['/']
  | percent : Valid .percent ['%'] | dotdot : Valid .dotdot ['.', '.'] | equal : Valid .equal ['=']
  | bangEqual : Valid .bangEqual ['!', '='] | less : Valid .less ['<'] | greater : Valid .greater ['>']
  | lessEqual : Valid .lessEqual ['<', '='] | greaterEqual : Valid .greaterEqual ['>', '=']
  | comma : Valid .comma [','] | dot : Valid .dot ['.'] | semicol : Valid .semicol [';']

/-- The next character `x` cannot be mistaken for a continuation of the token (longest match). -/
def NoGlue (ty : TT) (w : List Char) (post : List Char) : Prop :=
  ∀ x ∈ post.head?,
    match ty with
    | .identifier | .kw _ => x ≠ '_' ∧ isAlnum x = false ∧ ¬ (w = ['d'] ∧ x = '\'')
    | .octInt | .decInt | .hexInt | .decFloat | .hexFloat => x ≠ '.' ∧ isAlnum x = false
    | .instruction => x = ';'
    | .minus => x ≠ '-'
    | .less | .greater => x ≠ '='
    | .dot => x ≠ '.' ∧ isDec x = false
    | _ => True

/-- `l`, which comes behind `pre`, consists of gaps and the given tokens, which have the right positions. -/
inductive Tiled : List Char → List Char → List Token → Prop
  | eof {pre l} : FinalGap l → Tiled pre l [⟨posOf (pre ++ l), ['E', 'O', 'F'], .eof⟩]
  | token {pre g w l ty ts} : Gap g → w ≠ [] → ty ≠ .eof → Tiled (pre ++ g ++ w) l ts →
      Tiled pre (g ++ w ++ l) (⟨posOf (pre ++ g), w, ty⟩ :: ts)

end Mutable.Lex.Spec

namespace Mutable.Lex

theorem white_iff (c : Char) : Spec.White c ↔ isSpace c = true := by
  simp only [Spec.White, List.mem_cons, List.not_mem_nil, or_false, isSpace, Bool.or_eq_true, beq_iff_eq]
  have e9 : Char.ofNat 9 = '\t' := rfl
  have e10 : Char.ofNat 10 = '\n' := rfl
  have e13 : Char.ofNat 13 = '\r' := rfl
  rw [e9, e10, e13]
  constructor
  · rintro (h | h | h | h | h | h) <;> simp [h]
  · rintro (((((h | h) | h) | h) | h) | h) <;> simp [h]

theorem keywords_sub : (∀ w ∈ keywords, w ∈ Spec.reserved) ∧ ∀ w ∈ Spec.reserved, w ∈ keywords := by decide +kernel

theorem reserved_iff (w : List Char) : w ∈ Spec.reserved ↔ w ∈ keywords := ⟨keywords_sub.2 w, keywords_sub.1 w⟩

end Mutable.Lex
