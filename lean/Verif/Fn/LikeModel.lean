/-!
# Model of `m::like` (src/util/fn.cpp:70-123)

Characters are `Char` (the code uses bytes; only equality of characters matters).  The DP table is a variable length
array and thus starts with arbitrary contents: `g` below.  A thrown exception is `none`.
-/
namespace Mutable.Fn

/-- The DP table `dp[i][j]` (fn.cpp:74). -/
abbrev Table := Nat → Nat → Bool

/-- `dp[i][j] = b`. -/
def Table.put (t : Table) (i j : Nat) (b : Bool) : Table := fun i' j' => if i' = i ∧ j' = j then b else t i' j'

/-- `for (i = lo; i < lo + n; ++i) body`. -/
def loop {σ : Type} (body : Nat → σ → σ) : Nat → Nat → σ → σ
  | _, 0, s => s
  | lo, n + 1, s => loop body (lo + 1) n (body lo s)

/-- `pattern[k]`, for valid positions. -/
def at' (l : List Char) (k : Nat) : Char := l.getD k '\x00'

/-- Body of the first loop over the pattern (fn.cpp:81-90). State: table, `escaped_row`, thrown. -/
def likeBody1 (pattern : List Char) (esc : Char) (i : Nat) (s : Table × Nat × Bool) : Table × Nat × Bool :=
  let c := at' pattern (i - 1)
  let escaped := decide (i = s.2.1)
  if s.2.2 then s else
  if escaped && decide ('_' ≠ c) && decide ('%' ≠ c) && decide (esc ≠ c) then (s.1, s.2.1, true) else
  (s.1.put i 0 (if !escaped && decide ('%' = c) then s.1 (i - 1) 0 else false),
   if !escaped && decide (esc = c) then i + 1 else s.2.1, false)

/-- Body of the inner loop of the second loop (fn.cpp:107-118). -/
def likeCell (str : List Char) (escaped : Bool) (c : Char) (i j : Nat) (t : Table) : Table :=
  if !escaped && decide ('%' = c) then t.put i j (t i (j - 1) || t (i - 1) j)
  else if (!escaped && decide ('_' = c)) || decide (at' str (j - 1) = c) then t.put i j (t (i - 1) (j - 1))
  else t.put i j false

/-- Body of the second loop (fn.cpp:97-119). -/
def likeBody2 (str pattern : List Char) (esc : Char) (i : Nat) (s : Table × Nat) : Table × Nat :=
  let c := at' pattern (i - 1)
  let escaped := decide (i = s.2)
  if !escaped && decide (esc = c) then
    (loop (fun j t => Table.put t i j (t (i - 1) j)) 0 (str.length + 1) s.1, i + 1)
  else (loop (likeCell str escaped c i) 1 str.length s.1, s.2)

/-- `like` (fn.cpp:70-123); `g` is the uninitialised table. -/
def like (g : Table) (str pattern : List Char) (esc : Char := '\\') : Option Bool :=
  let t := g.put 0 0 true
  let t := loop (fun j t => Table.put t 0 j false) 1 str.length t
  let r := loop (likeBody1 pattern esc) 1 pattern.length (t, 0, false)
  if r.2.2 || decide (pattern.length + 1 = r.2.1) then none else
  let r2 := loop (likeBody2 str pattern esc) 1 pattern.length (r.1, 0)
  some (r2.1 pattern.length str.length)

end Mutable.Fn
