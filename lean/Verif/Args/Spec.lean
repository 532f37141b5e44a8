import Verif.Args.Model
/-!
# What a command line means

Independent of the maps and loops of the code: a list of options with their names, and a grammar of command lines.
-/
namespace Mutable.Args.Spec
open Mutable.Args (Str Ty Value Opt)

/-- The names of an option. -/
def names (o : Opt) : List Str := o.short.toList ++ o.long.toList

/-- `a` is a name of the option `o`. -/
def Named (os : List Opt) (a : Str) (o : Opt) : Prop := o ∈ os ∧ a ∈ names o

/-- The text starts with the number: white space, a sign, digits. -/
inductive Number : Str → Int → Prop
  | pos {ws sg ds rest : Str} : (∀ c ∈ ws, isSpace c = true) → sg = [] ∨ sg = ['+'] → ds ≠ [] → (∀ c ∈ ds, c.isDigit = true) →
      (∀ c ∈ rest.head?, c.isDigit = false) → Number (ws ++ (sg ++ (ds ++ rest))) (Nat.ofDigitChars 10 ds 0)
  | neg {ws ds rest : Str} : (∀ c ∈ ws, isSpace c = true) → ds ≠ [] → (∀ c ∈ ds, c.isDigit = true) →
      (∀ c ∈ rest.head?, c.isDigit = false) → Number (ws ++ ('-' :: (ds ++ rest))) (-(Nat.ofDigitChars 10 ds 0 : Int))

/-- The range of an integral type. -/
def InRange : Ty → Int → Prop
  | .int, i => -2 ^ 31 ≤ i ∧ i < 2 ^ 31
  | .long, i => -2 ^ 63 ≤ i ∧ i < 2 ^ 63
  | .unsigned, i => 0 ≤ i ∧ i < 2 ^ 32
  | .ulong, i => 0 ≤ i ∧ i < 2 ^ 64
  | _, _ => False

/-- A row of the help: the names in columns of the given widths, and the description. -/
def row (short long : Nat) (o : Opt) : Str :=
  "    ".toList ++ (o.short.getD []).rightpad short ' ' ++ "  ".toList ++ (o.long.getD []).rightpad long ' ' ++ "    -    ".toList ++ o.descr ++ ['\n']

/-- A command line, the calls of callbacks, the positional arguments and the arguments that are ignored, in order.  `e`: the options were ended by `--`. -/
inductive Line (os : List Opt) (e : Bool) : List Str → List (Nat × Value) → List Str → List Str → Prop
  /-- Nothing. -/
  | done : e = false → Line os e [] [] [] []
  /-- Everything behind `--` is positional. -/
  | rest {as} : e = true → Line os e ("--".toList :: as) [] as []
  /-- An option without an argument. -/
  | flag {a o as c q w} : a ≠ "--".toList → Named os a o → o.ty = .bool → Line os e as c q w → Line os e (a :: as) ((o.id, .bool true) :: c) q w
  /-- An option and its argument, whatever it looks like. -/
  | option {a b o v as c q w} : a ≠ "--".toList → Named os a o → o.ty ≠ .bool → parseValue o.ty b = .ok v → Line os e as c q w →
      Line os e (a :: b :: as) ((o.id, v) :: c) q w
  /-- An unknown option. -/
  | unknown {t as c q w} : t ≠ [] → (∀ o ∈ os, "--".toList ++ t ∉ names o) → Line os e as c q w →
      Line os e (("--".toList ++ t) :: as) c q (("--".toList ++ t) :: w)
  /-- A positional argument. -/
  | positional {a as c q w} : (∀ o ∈ os, a ∉ names o) → (∀ t, a ≠ "--".toList ++ t) → Line os e as c q w → Line os e (a :: as) c (a :: q) w

end Mutable.Args.Spec
