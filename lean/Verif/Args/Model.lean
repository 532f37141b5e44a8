import Verif.Common
/-!
# Model of the parser of command lines: `include/mutable/util/ArgParser.hpp`, `src/util/ArgParser.cpp`

A callback is identified by the number of its option; a run is the sequence of the calls, of the positional arguments and of the warnings.
Floating-point options, the pool of strings and the output of error messages are not modelled.
-/
namespace Mutable.Args

abbrev Str := List Char

/-- The types of options: `src/util/ArgParser.cpp:100-151`. `long` and `long long` are both signed types of 64 bits. -/
inductive Ty | bool | int | long | unsigned | ulong | str | list
  deriving DecidableEq, Repr

/-- What a callback is given. -/
inductive Value | bool (b : Bool) | int (i : Int) | str (s : Str) | list (l : List Str)
  deriving DecidableEq, Repr

/-- Why the process exits: `src/util/ArgParser.cpp:18-24`, `:55-62`. -/
inductive Err | missing | invalid | range
  deriving DecidableEq, Repr

/-- `Option`, `OptionImpl`: `include/mutable/util/ArgParser.hpp:22-51`; `group`: the group it is added to. -/
structure Opt where
  id : Nat
  group : Option Str
  short : Option Str
  long : Option Str
  descr : Str
  ty : Ty
  deriving DecidableEq, Repr

/-! ## Numbers (the library functions `stoi`, `stol`, `stoul` called in `src/util/ArgParser.cpp:33-53`) -/

/-- `isspace`, called by the functions in `src/util/ArgParser.cpp:35-52`. -/
def isSpace (c : Char) : Bool := c = ' ' || c = '\t' || c = '\n' || c = '\r' || c = Char.ofNat 11 || c = Char.ofNat 12

/-- The value of digits, as computed by the functions in `src/util/ArgParser.cpp:35-52`. -/
def digits (t : Str) : Nat := t.foldl (fun n c => 10 * n + (c.toNat - '0'.toNat)) 0

/-- The sign and what follows, as read by the functions in `src/util/ArgParser.cpp:35-52`. -/
def sign : Str → Bool × Str
  | [] => (false, [])
  | c :: v => if c = '-' then (true, v) else if c = '+' then (false, v) else (false, c :: v)

/-- The number at the beginning of a text: white space, a sign, digits; what follows is ignored.  `none`: no digits (`std::invalid_argument`).
`src/util/ArgParser.cpp:35-52`. -/
def number (t : Str) : Option (Bool × Nat) :=
  let s := sign (t.dropWhile isSpace)
  let ds := s.2.takeWhile Char.isDigit
  if ds = [] then none else some (s.1, digits ds)

/-- Signed numbers of `n` bits: `src/util/ArgParser.cpp:35-41`. -/
def parseSigned (n : Nat) (t : Str) : Except Err Value :=
  match number t with
  | none => .error .invalid
  | some (neg, m) =>
    if neg then if m ≤ 2 ^ (n - 1) then .ok (.int (-(m : Int))) else .error .range
    else if m < 2 ^ (n - 1) then .ok (.int m) else .error .range

/-- Unsigned numbers of 64 bits; a negative number is negated modulo 2^64 by the library.  `src/util/ArgParser.cpp:49-52`. -/
def parseUnsigned64 (t : Str) : Except Err Nat :=
  match number t with
  | none => .error .invalid
  | some (neg, m) => if m < 2 ^ 64 then .ok (if neg then (2 ^ 64 - m) % 2 ^ 64 else m) else .error .range

/-- Unsigned numbers of 32 bits: `src/util/ArgParser.cpp:43-48`. -/
def parseUnsigned32 (t : Str) : Except Err Nat :=
  match parseUnsigned64 t with
  | .error e => .error e
  | .ok v => if v > 2 ^ 32 - 1 then .error .range else .ok v

/-! ## Lists -/

/-- The loop of the list of strings; `cur` is `sv.substr(begin, …)` up to now.  `src/util/ArgParser.cpp:141-148`. -/
def splitLoop (cur : Str) : Str → List Str
  | [] => [cur]
  | c :: t => if c = ',' then cur :: splitLoop [] t else splitLoop (cur ++ [c]) t

/-- A list of strings: `src/util/ArgParser.cpp:128-151`. -/
def parseList (t : Str) : List Str := if t = [] then [] else splitLoop [] t

/-- The value of the argument of an option: `src/util/ArgParser.cpp:104-151`. -/
def parseValue : Ty → Str → Except Err Value
  | .bool, _ => .ok (.bool true)
  | .int, t => parseSigned 32 t
  | .long, t => parseSigned 64 t
  | .unsigned, t => (parseUnsigned32 t).map fun v => .int v
  | .ulong, t => (parseUnsigned64 t).map fun v => .int v
  | .str, t => .ok (.str t)
  | .list, t => .ok (.list (parseList t))

/-! ## The parser -/

/-- The fields of the parser but the arguments: `include/mutable/util/ArgParser.hpp:53-69`.  Maps are lists of pairs. -/
structure Parser where
  general : List Opt := []
  grouped : List (Str × List Opt) := []
  keys : List (Str × Opt) := []
  shortLen : Nat := 0
  longLen : Nat := 0

/-- `key_map_.find`: `src/util/ArgParser.cpp:190`. -/
def find (keys : List (Str × Opt)) (a : Str) : Option Opt := (keys.find? fun k => k.1 = a).map (·.2)

/-- `emplace` and the assertion behind it: `include/mutable/util/ArgParser.hpp:99-100`, `:105-106`. -/
def emplace (keys : List (Str × Opt)) (a : Str) (o : Opt) : Option (List (Str × Opt)) :=
  match find keys a with
  | some _ => none
  | none => some ((a, o) :: keys)

/-- `grouped_options_[name].push_back`: `include/mutable/util/ArgParser.hpp:92-95`. -/
def pushGroup (g : Str) (o : Opt) : List (Str × List Opt) → List (Str × List Opt)
  | [] => [(g, [o])]
  | (h, os) :: r => if h = g then (h, os ++ [o]) :: r else (h, os) :: pushGroup g o r

/-- `add`; `none`: a failed assertion.  `include/mutable/util/ArgParser.hpp:83-109`. -/
def add (p : Parser) (o : Opt) : Option Parser :=
  let p := match o.group with
    | some g => { p with grouped := pushGroup g o p.grouped }
    | none => { p with general := p.general ++ [o] }
  let p? := match o.short with
    | none => some p
    | some s => (emplace p.keys s o).map fun ks => { p with keys := ks, shortLen := max p.shortLen s.length }
  match p? with
  | none => none
  | some p =>
    match o.long with
    | none => some p
    | some l => (emplace p.keys l o).map fun ks => { p with keys := ks, longLen := max p.longLen l.length }

/-- Adding several options one after the other: calls of `add`, `include/mutable/util/ArgParser.hpp:83-109`. -/
def addAll (p : Parser) : List Opt → Option Parser
  | [] => some p
  | o :: os =>
    match add p o with
    | none => none
    | some p => addAll p os

/-- The effects of `parse_args`: the calls of callbacks, `args_`, and the warnings; `src/util/ArgParser.cpp:186-206`. -/
structure Out where
  calls : List (Nat × Value) := []
  pos : List Str := []
  warn : List Str := []
  deriving DecidableEq, Repr

/-- `parse_args`, with the error that makes the process exit; `src/util/ArgParser.cpp:186-206`, `:18-24`. -/
def parseArgs (keys : List (Str × Opt)) (r : Out) : List Str → Out × Option Err
  | [] => (r, none)
  | a :: as =>
    if a = "--".toList then ({ r with pos := r.pos ++ as }, none)
    else
      match find keys a with
      | some o =>
        if o.ty = .bool then parseArgs keys { r with calls := r.calls ++ [(o.id, .bool true)] } as
        else
          match as with
          | [] => (r, some .missing)
          | b :: bs =>
            match parseValue o.ty b with
            | .error e => (r, some e)
            | .ok v => parseArgs keys { r with calls := r.calls ++ [(o.id, v)] } bs
      | none =>
        if a.take 2 = "--".toList then parseArgs keys { r with warn := r.warn ++ [a] } as
        else parseArgs keys { r with pos := r.pos ++ [a] } as

/-! ## The help -/

/-- `std::setw(n) << ""`; a negative width has no effect: `src/util/ArgParser.cpp:162-164`. -/
def pad (n : Int) : Str := List.replicate n.toNat ' '

/-- The line of an option: `src/util/ArgParser.cpp:160-168`, `:172-174`. -/
def line (p : Parser) (o : Opt) : Str :=
  let s := o.short.getD []
  let l := o.long.getD []
  "    ".toList ++ s ++ pad (p.shortLen - s.length) ++ "  ".toList ++ l ++ pad (p.longLen - l.length) ++ "    -    ".toList ++ o.descr ++ ['\n']

/-- `print_args`; the order of the groups, a hash table, is given: `src/util/ArgParser.cpp:158-183`. -/
def printArgs (p : Parser) (groups : List (Str × List Opt)) : Str :=
  "General:\n".toList ++ (p.general.map (line p)).flatten ++ (groups.map fun g => g.1 ++ ":\n".toList ++ (g.2.map (line p)).flatten).flatten

end Mutable.Args
