import Mathlib.Data.Fintype.BigOperators
import Mathlib.Algebra.BigOperators.Ring.Finset
/-!
# Model of `unsharable_shared_ptr`: `include/mutable/util/unsharable_shared_ptr.hpp`

A program has the variables `ι` of type `unsharable_shared_ptr<T>` and the variables `κ` of type `std::unique_ptr<T>`.  A control block of a
`std::shared_ptr` holds the object, the counter and the deleter (`armed`: `default_deleter`, which destroys the object; not armed:
`noop_deleter`).  The reference counting of `std::shared_ptr`, from which the class inherits, is modelled as the standard library
implements it, with the counter as a stored number that the operations increment and decrement.  Pointers to base classes and weak pointers
are not modelled; the class is documented as not to be used by several threads.
-/
namespace Mutable.Unshare

/-- A control block; the deleter: `include/mutable/util/unsharable_shared_ptr.hpp:36-38`. -/
structure Block where
  obj : Option ℕ
  count : ℕ
  armed : Bool

/-- The store of the program: the variables, the control blocks, how often each object was destroyed, and how many objects and blocks were
created so far (`include/mutable/util/unsharable_shared_ptr.hpp:23`). -/
structure St (ι κ : Type) where
  sh : ι → Option ℕ
  un : κ → Option ℕ
  blk : ℕ → Option Block
  del : ℕ → ℕ
  nobj : ℕ
  nblk : ℕ

variable {ι κ : Type} [DecidableEq ι] [DecidableEq κ]

/-- Nothing was created, all variables are null: `include/mutable/util/unsharable_shared_ptr.hpp:44`. -/
def init : St ι κ := ⟨fun _ => none, fun _ => none, fun _ => none, fun _ => 0, 0, 0⟩

/-- `delete ptr`; deleting the null pointer does nothing: `include/mutable/util/unsharable_shared_ptr.hpp:37`. -/
def destroy (s : St ι κ) : Option ℕ → St ι κ
  | none => s
  | some o => { s with del := Function.update s.del o (s.del o + 1) }

/-- A new control block for `o`, with `default_deleter`, counted once: `include/mutable/util/unsharable_shared_ptr.hpp:42`. -/
def newBlock (s : St ι κ) (o : Option ℕ) : St ι κ :=
  { s with blk := Function.update s.blk s.nblk (some ⟨o, 1, true⟩), nblk := s.nblk + 1 }

/-- One more reference: the copy of a `std::shared_ptr`, `include/mutable/util/unsharable_shared_ptr.hpp:47`. -/
def inc (s : St ι κ) : Option ℕ → St ι κ
  | none => s
  | some b => match s.blk b with
    | none => s
    | some B => { s with blk := Function.update s.blk b (some { B with count := B.count + 1 }) }

/-- One reference less; the last one runs the deleter and frees the control block: `include/mutable/util/unsharable_shared_ptr.hpp:37-38`. -/
def dec (s : St ι κ) : Option ℕ → St ι κ
  | none => s
  | some b => match s.blk b with
    | none => s
    | some B =>
      if B.count = 1 then destroy { s with blk := Function.update s.blk b none } (if B.armed then B.obj else none)
      else { s with blk := Function.update s.blk b (some { B with count := B.count - 1 }) }

/-- The variable `h` takes over a reference to `b` that was counted before, and gives up its own: the assignments,
`include/mutable/util/unsharable_shared_ptr.hpp:64-65`. -/
def takeOver (s : St ι κ) (h : ι) (b : Option ℕ) : St ι κ := dec { s with sh := Function.update s.sh h b } (s.sh h)

/-- `use_count()`: `include/mutable/util/unsharable_shared_ptr.hpp:85-86`. -/
def useCount (s : St ι κ) (h : ι) : ℕ :=
  match s.sh h with
  | none => 0
  | some b => match s.blk b with
    | none => 0
    | some B => B.count

/-- `get()`: `include/mutable/util/unsharable_shared_ptr.hpp:88`. -/
def get (s : St ι κ) (h : ι) : Option ℕ :=
  match s.sh h with
  | none => none
  | some b => match s.blk b with
    | none => none
    | some B => B.obj

/-- `h = make_unsharable_shared<T>()`: `include/mutable/util/unsharable_shared_ptr.hpp:95-99`. -/
def make (s : St ι κ) (h : ι) : St ι κ :=
  takeOver (newBlock { s with nobj := s.nobj + 1 } (some s.nobj)) h (some s.nblk)

/-- `d = x` of `unsharable_shared_ptr`: `include/mutable/util/unsharable_shared_ptr.hpp:64`. -/
def copy (s : St ι κ) (d x : ι) : St ι κ := takeOver (inc s (s.sh x)) d (s.sh x)

/-- `d = std::move(x)`: `x` is null afterwards, unless it is `d`: `include/mutable/util/unsharable_shared_ptr.hpp:65`. -/
def move (s : St ι κ) (d x : ι) : St ι κ := takeOver { s with sh := Function.update s.sh x none } d (s.sh x)

/-- `h.reset()`, or the end of the life of `h`: `include/mutable/util/unsharable_shared_ptr.hpp:89`. -/
def reset (s : St ι κ) (h : ι) : St ι κ := takeOver s h none

/-- `u = std::unique_ptr<T>(o)`: the old object is destroyed. -/
def assignUn (s : St ι κ) (u : κ) (o : Option ℕ) : St ι κ := destroy { s with un := Function.update s.un u o } (s.un u)

/-- `d = std::move(x)` of `std::unique_ptr`. -/
def moveUn (s : St ι κ) (d x : κ) : St ι κ := assignUn { s with un := Function.update s.un x none } d (s.un x)

/-- `h = unsharable_shared_ptr<T>(u.release())`: `include/mutable/util/unsharable_shared_ptr.hpp:42`. -/
def adopt (s : St ι κ) (h : ι) (u : κ) : St ι κ :=
  takeOver (newBlock { s with un := Function.update s.un u none } (s.un u)) h (some s.nblk)

/-- Replaces the deleter by `noop_deleter`: `include/mutable/util/unsharable_shared_ptr.hpp:87`. -/
def disarm (s : St ι κ) : Option ℕ → St ι κ
  | none => s
  | some b => match s.blk b with
    | none => s
    | some B => { s with blk := Function.update s.blk b (some { B with armed := false }) }

/-- `u = h.exclusive_shared_to_unique()`: `include/mutable/util/unsharable_shared_ptr.hpp:84-92`.  `none`: the exception "not exclusive". -/
def unshare (s : St ι κ) (u : κ) (h : ι) : Option (St ι κ) :=
  if useCount s h = 0 then some (assignUn s u none)
  else if 1 < useCount s h then none
  else some (assignUn (reset (disarm s (s.sh h)) h) u (get s h))

/-- The statements of a program. -/
inductive Op (ι κ : Type) where
  | make (h : ι)
  | copy (d x : ι)
  | move (d x : ι)
  | reset (h : ι)
  | moveUn (d x : κ)
  | dropUn (u : κ)
  | adopt (h : ι) (u : κ)
  | unshare (u : κ) (h : ι)

/-- One statement; an exception leaves the store as it was when it was thrown: `include/mutable/util/unsharable_shared_ptr.hpp:86`. -/
def step (s : St ι κ) : Op ι κ → St ι κ
  | .make h => make s h
  | .copy d x => copy s d x
  | .move d x => move s d x
  | .reset h => reset s h
  | .moveUn d x => moveUn s d x
  | .dropUn u => assignUn s u none
  | .adopt h u => adopt s h u
  | .unshare u h => (unshare s u h).getD s

/-- A program, from the beginning. -/
def run (ops : List (Op ι κ)) : St ι κ := ops.foldl step init

end Mutable.Unshare
