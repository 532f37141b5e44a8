import Verif.Common
/-!
# Model of `replace_all` (`include/mutable/util/fn.hpp`) and `html_escape` (`src/util/fn.cpp`)

The loop has a number of rounds as fuel; `none`: it is still running after so many rounds.
-/
namespace Mutable.Html

abbrev Str := List Char

/-- `str.find(from, pos)`: the first position from `pos` on where `from` occurs; called in `include/mutable/util/fn.hpp:38`. -/
def find (str from_ : Str) (pos : Nat) : Option Nat :=
  (List.range' pos (str.length + 1 - pos)).find? fun i => from_.isPrefixOf (str.drop i)

/-- `str.replace(pos, len, to)`: called in `include/mutable/util/fn.hpp:39`. -/
def replace (str : Str) (pos len : Nat) (to_ : Str) : Str := str.take pos ++ to_ ++ str.drop (pos + len)

/-- The loop of `replace_all`: `include/mutable/util/fn.hpp:38-41`. -/
def loop (from_ to_ : Str) : Nat → Str → Nat → Option Str
  | 0, _, _ => none
  | n + 1, str, pos =>
    match find str from_ pos with
    | none => some str
    | some p => loop from_ to_ n (replace str p from_.length to_) (p + to_.length)

/-- `replace_all`: `include/mutable/util/fn.hpp:35-43`. -/
def replaceAll (n : Nat) (str from_ to_ : Str) : Option Str := loop from_ to_ n str 0

/-- `html_escape`: `src/util/fn.cpp:62-68`. -/
def htmlEscape (n : Nat) (str : Str) : Option Str :=
  match replaceAll n str "&".toList "&amp;".toList with
  | none => none
  | some str =>
    match replaceAll n str "<".toList "&lt;".toList with
    | none => none
    | some str => replaceAll n str ">".toList "&gt;".toList

end Mutable.Html
