/-!
# Model of string escaping (src/util/fn.cpp:17-60, include/mutable/util/fn.hpp:290-322)

Strings are lists of characters.  `none` stands for an exception (`unquote`) or for reading behind the end of the
string (`unescape` of a string that ends with the escape character dereferences `str.end()`).
-/
namespace Mutable.Fn

/-- `escape(const std::string&, char, char)` (fn.cpp:17-35). -/
def escape (esc quote : Char) : List Char → List Char
  | [] => []
  | c :: t =>
    if c = esc ∨ c = quote then esc :: c :: escape esc quote t
    else if c = '\n' then esc :: 'n' :: escape esc quote t
    else c :: escape esc quote t

/-- `unescape` (fn.cpp:37-60); an invalid escape sequence is kept: the escape character is copied and the next character
is looked at again; as it is not the escape character it is copied, too. -/
def unescape (esc quote : Char) : List Char → Option (List Char)
  | [] => some []
  | c :: t =>
    if c = esc then
      match t with
      | [] => none
      | d :: t' =>
        if d = esc ∨ d = quote then (unescape esc quote t').map (d :: ·)
        else if d = 'n' then (unescape esc quote t').map ('\n' :: ·)
        else (unescape esc quote t').map (esc :: d :: ·)
    else (unescape esc quote t).map (c :: ·)

/-- `quote` (fn.hpp:305): always with double quotes. -/
def quote (s : List Char) : List Char := '"' :: (s ++ ['"'])

/-- `unquote` (fn.hpp:307-316). -/
def unquote (q : Char) (s : List Char) : Option (List Char) :=
  if s.length < 2 then none
  else if s.head? ≠ some q then some s
  else if s.getLast? ≠ some q then none
  else some (s.tail.dropLast)

/-- `interpret` (fn.hpp:318-321). -/
def interpret (esc q : Char) (s : List Char) : Option (List Char) := (unquote q s).bind (unescape esc q)

end Mutable.Fn
