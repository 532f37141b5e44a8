import Verif.DSV.Model
import Mathlib.Tactic.Ring
import Mathlib.Tactic.Linarith
/-!
# Specification of C38: what a conforming writer writes

`Writes cfg isNum ty v t`: the text `t` is a conforming cell for value `v` of a column of type `ty`.
-/
namespace Mutable.DSV

/-- A sensible dialect. -/
structure Valid (cfg : Config) : Prop where
  dq : cfg.delimiter ≠ cfg.quote
  dn : cfg.delimiter ≠ NL
  de : cfg.delimiter ≠ EOF
  qn : cfg.quote ≠ NL
  qe : cfg.quote ≠ EOF
  dd : ¬ (48 ≤ cfg.delimiter ∧ cfg.delimiter ≤ 57) -- not a digit
  dp : cfg.delimiter ≠ 46 -- not the decimal point

/-- No byte of the text is a newline, the delimiter or 255. -/
def Plain (cfg : Config) (t : Str) : Prop := ∀ c ∈ t, c ≠ NL ∧ c ≠ cfg.delimiter ∧ c ≠ EOF

/-- The number that a digit string denotes. -/
def value (ds : Str) : Nat := ds.foldl (fun n c => 10 * n + (c - 48)) 0

def Digits (ds : Str) : Prop := ∀ c ∈ ds, 48 ≤ c ∧ c ≤ 57

/-- Sign characters. -/
inductive Sign : Str → Int → Prop where
  | none : Sign [] 1
  | plus : Sign [43] 1
  | minus : Sign [45] (-1)

/-- RFC 4180: quotes are doubled. -/
def rfcBody (q : Nat) (s : Str) : Str := s.flatMap fun c => if c = q then [q, q] else [c]

/-- Quotes and escape characters are escaped. -/
def escBody (q e : Nat) (s : Str) : Str := s.flatMap fun c => if c = q ∨ c = e then [e, c] else [c]

/-- The text has the given form: `d` (100) stands for a digit, every other character for itself. -/
def Looks (form t : Str) : Prop := List.Forall₂ (fun f c => if f = 100 then 48 ≤ c ∧ c ≤ 57 else c = f) form t

/-- `dddd-dd-dd` -/
def dateForm : Str := [100, 100, 100, 100, 45, 100, 100, 45, 100, 100]

/-- `dddd-dd-dd dd:dd:dd` -/
def datetimeForm : Str := [100, 100, 100, 100, 45, 100, 100, 45, 100, 100, 32, 100, 100, 58, 100, 100, 58, 100, 100]

/-- The conforming cells. -/
inductive Writes (cfg : Config) (isNum : Str → Bool) : Ty → Val → Str → Prop where
  | null (ty) : Writes cfg isNum ty .null []
  | btrue : Plain cfg [84, 82, 85, 69] → Writes cfg isNum .bool (.bool true) [84, 82, 85, 69]
  | bfalse : Plain cfg [70, 65, 76, 83, 69] → Writes cfg isNum .bool (.bool false) [70, 65, 76, 83, 69]
  | int {sg k ds} : Sign sg k → ds ≠ [] → Digits ds → Plain cfg (sg ++ ds) →
      Writes cfg isNum .int (.int (BitVec.ofInt 64 (k * value ds))) (sg ++ ds)
  | decimal {n sg k ds} : Sign sg k → ds ≠ [] → Digits ds → Plain cfg (sg ++ ds) → n ≤ 9 →
      Writes cfg isNum (.decimal n) (.int (BitVec.ofInt 64 (k * (value ds * 10 ^ n : Nat)))) (sg ++ ds)
  | decimalDot {n sg k ds ps} : Sign sg k → ds ≠ [] → Digits ds → Digits ps → Plain cfg (sg ++ ds ++ 46 :: ps) → n ≤ 9 →
      value ds * 10 ^ n < 2 ^ 63 →
      Writes cfg isNum (.decimal n) (.int (BitVec.ofInt 64 (k * (value ds * 10 ^ n + value (ps.take n) * 10 ^ (n - ps.length) : Nat)))) (sg ++ ds ++ 46 :: ps)
  | str {s} : s ≠ [] → Plain cfg s → cfg.quote ∉ s → 0 ∉ s → Writes cfg isNum .char (.str s) s
  | rfc {s} : cfg.escape = cfg.quote → 0 ∉ s → EOF ∉ s → Writes cfg isNum .char (.str s) (cfg.quote :: (rfcBody cfg.quote s ++ [cfg.quote]))
  | esc {s} : cfg.escape ≠ cfg.quote → cfg.escape ≠ EOF → 0 ∉ s → EOF ∉ s →
      Writes cfg isNum .char (.str s) (cfg.quote :: (escBody cfg.quote cfg.escape s ++ [cfg.quote]))
  | date {sg t} : sg = [] ∨ sg = [45] → Looks dateForm t → Plain cfg (sg ++ t) → cfg.quote ∉ (sg ++ t) → Writes cfg isNum .date (.text (sg ++ t)) (sg ++ t)
  | dateQ {sg t} : sg = [] ∨ sg = [45] → Looks dateForm t → Writes cfg isNum .date (.text (sg ++ t)) (cfg.quote :: (sg ++ t ++ [cfg.quote]))
  | datetime {sg t} : sg = [] ∨ sg = [45] → Looks datetimeForm t → Plain cfg (sg ++ t) → cfg.quote ∉ (sg ++ t) →
      Writes cfg isNum .datetime (.text (sg ++ t)) (sg ++ t)
  | datetimeQ {sg t} : sg = [] ∨ sg = [45] → Looks datetimeForm t → Writes cfg isNum .datetime (.text (sg ++ t)) (cfg.quote :: (sg ++ t ++ [cfg.quote]))
  | float {t} : t ≠ [] → isNum t = true → Plain cfg t → Writes cfg isNum .float (.text t) t

/-- Cells of columns that the table does not have: plain texts and quoted texts without quotes and newlines. -/
inductive Ignorable (cfg : Config) : Str → Prop where
  | plain {t} : Plain cfg t → t.head? ≠ some cfg.quote → Ignorable cfg t
  | quoted {t} : (∀ c ∈ t, c ≠ NL ∧ c ≠ cfg.quote ∧ c ≠ EOF) → Ignorable cfg (cfg.quote :: (t ++ [cfg.quote]))

/-- A cell of a column. -/
def WritesCol (cfg : Config) (isNum : Str → Bool) (col : Option (Nat × Ty)) (c : Val × Str) : Prop :=
  match col with
  | some (_, ty) => Writes cfg isNum ty c.1 c.2
  | none => Ignorable cfg c.2

/-- The text of a row: the cells separated by the delimiter. -/
def rowText (cfg : Config) : List Str → Str
  | [] => []
  | [t] => t
  | t :: ts => t ++ cfg.delimiter :: rowText cfg ts

/-- The text of the rows, each ended by a newline. -/
def fileText (cfg : Config) (rows : List (List (Val × Str))) : Str := rows.flatMap fun r => rowText cfg (r.map Prod.snd) ++ [NL]

end Mutable.DSV
