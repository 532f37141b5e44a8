import Verif.Tail.Main
import Mathlib.Data.List.Lex
import Mathlib.Algebra.Order.Ring.Int

/-!
# C54: SELECT, ORDER BY and LIMIT

`IsResult` (`Verif/Tail/Spec.lean`) says what a statement with these clauses should return: the rows in an order that
respects the ORDER BY keys, of these the window of LIMIT and OFFSET, and of each row the SELECT list.  The names of the
ORDER BY clause refer to items of the SELECT list first and to columns of the row below second; columns that are only
used by ORDER BY are carried along and dropped at the end.
-/
namespace Mutable.Tail

open Deliver

variable {α : Type} [DecidableEq α]

/-- C54 (compiled): the query returns, and what it returns is a correct result.

Missing: scalar functions in the ORDER BY clause (`NoCall`), LIMIT 0, LIMIT and OFFSET that add up to 2^64 or more, and
SELECT lists whose names clash with each other or with the columns ORDER BY needs (`NoClash`); in each of these cases
the claim is false, see below and C52. -/
theorem C54_compiled_partial (sem : Sem α) (srt : Sorter α) (le : List Bool → List (Option α) → List (Option α) → Prop)
    (hs : Sorts srt le) (low : Option String → String → Option Ident) (items : List (Item α))
    (orders : List (Ex α × Bool)) (lim : Option (Nat × Nat)) (nested : Bool) (cols : List Ident) (rows : List (Env α))
    (hr : ∀ o ∈ orders, Resolvable items low o.1) (hc : ∀ o ∈ orders, NoCall o.1)
    (h0 : lim ≠ some (0, 0)) (hb : ∀ n off, lim = some (n, off) → off + n < 2 ^ 64)
    (hR : ReservedFree (hidden items low orders ++ items)) (hN : NoClash (hidden items low orders ++ items) cols)
    (hG : ∀ env ∈ rows, GoodRow sem (hidden items low orders ++ items) cols env) :
    ∃ out, wasmQuery sem srt low items orders lim nested rows = some out ∧
      IsResult sem le items low orders lim rows out :=
  wasm_ok sem srt le hs low items orders lim nested cols rows hr hc h0 hb hR hN hG

/-- C54 (interpreter): the query returns, and what it returns is a correct result.

Missing: scalar functions in the ORDER BY clause, LIMIT 0, LIMIT and OFFSET that add up to 2^64 or more, and names that
occur twice among the SELECT list and the columns ORDER BY needs; in each of these cases the claim is false, see below.
`TextOk` excludes columns that happen to have the text of an ORDER BY expression as their name. -/
theorem C54_interpreter_partial (sem : Sem α) (srt : Sorter α)
    (le : List Bool → List (Option α) → List (Option α) → Prop)
    (hs : Sorts srt le) (low : Option String → String → Option Ident) (items : List (Item α))
    (orders : List (Ex α × Bool)) (lim : Option (Nat × Nat)) (nested : Bool) (cols : List Ident) (rows : List (Env α))
    (hr : ∀ o ∈ orders, Resolvable items low o.1) (hc : ∀ o ∈ orders, NoCall o.1)
    (h0 : lim ≠ some (0, 0)) (hb : ∀ n off, lim = some (n, off) → off + n < 2 ^ 64)
    (hcols : cols.Nodup) (hnames : ((hidden items low orders ++ items).map projId).Nodup)
    (hcf : ConstFree items (cols ++ (hidden items low orders ++ items).map projId))
    (htext : ∀ o ∈ orders, TextOk (hidden items low orders ++ items) items low cols o.1)
    (hG : ∀ env ∈ rows, GoodRow sem (hidden items low orders ++ items) cols env) :
    ∃ out, interpQuery sem srt low items orders lim nested rows = some out ∧
      IsResult sem le items low orders lim rows out :=
  interp_ok sem srt le hs low items orders lim nested cols rows hr hc h0 hb hcols hnames hcf htext hG

/-- C54 (LIMIT): in whatever batches the rows arrive, LIMIT n OFFSET off lets pass rows off, off+1, …, off+n-1, in both
back ends; for off + n < 2^64. -/
theorem C54_limit_partial {ρ : Type} (n off : Nat) (hb : off + n < 2 ^ 64) (batches : List (List ρ)) :
    wasmLimit n off batches = (batches.flatten.drop off).take n ∧
      interpLimit n off batches = (batches.flatten.drop off).take n :=
  ⟨wasmLimit_eq n off hb batches, interpLimit_eq n off hb batches⟩

/-- C54 (names): an ORDER BY expression whose names are all known and unambiguous is accepted; the columns carried along
for it are exactly those it uses and the SELECT list lacks. -/
theorem C54_resolve (items : List (Item α)) (low : Option String → String → Option Ident)
    (orders : List (Ex α × Bool)) (hr : ∀ o ∈ orders, Resolvable items low o.1) (hc : ∀ o ∈ orders, NoCall o.1) :
    ∃ os, resolveAll items low orders = some os ∧ planItems items os = hidden items low orders ++ items ∧
      os.map (·.2) = orders.map (·.2) := by
  obtain ⟨os, h1, h2, h3, _, _⟩ := resolveAll_ok items low orders hr hc
  exact ⟨os, h1, by rw [planItems, h2], h3⟩

omit [DecidableEq α] in
/-- C54 (ambiguity): a name that two items of the SELECT list have is rejected, and so is a name nothing has. -/
theorem C54_reject (items : List (Item α)) (low : Option String → String → Option Ident) (a : String)
    (h : ¬ Resolvable items low (.des none a)) : resolve items low (.des none a) = none := by
  have hf := results_fst items a
  simp only [Resolvable] at h
  simp only [resolve, resolveDes]
  cases hres : results items a with
  | nil =>
    rw [hres] at hf
    rw [← hf] at h
    simp only [List.map_nil, Bool.not_eq_true, Option.isSome_eq_false_iff, Option.isNone_iff_eq_none] at h
    simp [h]
  | cons p r =>
    cases r with
    | nil =>
      rw [hres] at hf
      rw [← hf] at h
      exact absurd trivial h
    | cons q r => rfl

/-! ## A query that meets the hypotheses

`SELECT A.x AS a, A.x + A.y, 7 FROM A ORDER BY a ASC, a + A.z DESC LIMIT 2 OFFSET 1`. -/

namespace Ex1

/-- Natural numbers with addition. -/
def sem : Sem Nat where
  un _ v := v
  bin _ a b := match a, b with | some a, some b => some (a + b) | _, _ => none
  call _ v := v

/-- A key as integers that grow in the order wanted. -/
def enc (fl : List Bool) (k : List (Option Nat)) : List Int :=
  List.zipWith (fun asc v => let n : Int := match v with | none => 0 | some n => n + 1
                             if asc then n else - n) fl k

def le (fl : List Bool) (a b : List (Option Nat)) : Prop := enc fl a ≤ enc fl b

def srt : Sorter Nat := fun fl _ l => l.mergeSort fun a b => decide (enc fl a.1 ≤ enc fl b.1)

theorem sorts : Sorts srt le := by
  intro fl ρ l
  refine ⟨List.mergeSort_perm _ _, ?_⟩
  rw [List.pairwise_map]
  refine (List.pairwise_mergeSort (le := fun a b : List (Option Nat) × ρ => decide (enc fl a.1 ≤ enc fl b.1)) ?_ ?_ l).imp ?_
  · intro a b c h1 h2
    exact decide_eq_true (le_trans (of_decide_eq_true h1) (of_decide_eq_true h2))
  · intro a b
    rcases le_total (enc fl a.1) (enc fl b.1) with h | h
    · simp [h]
    · simp [h]
  · intro a b h
    have h' : enc fl a.1 ≤ enc fl b.1 := of_decide_eq_true h
    exact h'

def low (t : Option String) (a : String) : Option Ident :=
  if t = none ∨ t = some "A" then (if a = "x" ∨ a = "y" ∨ a = "z" then some ⟨some "A", a⟩ else none) else none

def x : Ex Nat := .des (some "A") "x"
def y : Ex Nat := .des (some "A") "y"
def z : Ex Nat := .des (some "A") "z"

def items : List (Item Nat) := [⟨x, some "a", .prim 1⟩, ⟨.bin "+" x y, none, .prim 1⟩, ⟨.const "7" (some 7), none, .prim 2⟩]

def orders : List (Ex Nat × Bool) := [(.des none "a", true), (.bin "+" (.des none "a") z, false)]

def cols : List Ident := [⟨some "A", "x"⟩, ⟨some "A", "y"⟩, ⟨some "A", "z"⟩]

def row (a b c : Option Nat) : Env Nat := [(⟨some "A", "x"⟩, a), (⟨some "A", "y"⟩, b), (⟨some "A", "z"⟩, c)]

def rows : List (Env Nat) := [row (some 1) (some 2) none, row (some 1) none (some 5), row none (some 3) (some 4)]

theorem hidden_is : hidden items low orders = [⟨z, none, .prim 0⟩] := by decide +kernel

theorem good : ∀ env ∈ rows, GoodRow sem (hidden items low orders ++ items) cols env := by
  intro env he
  rw [hidden_is]
  simp only [rows, List.mem_cons, List.not_mem_nil, or_false] at he
  rcases he with rfl | rfl | rfl <;> exact ⟨by decide, by decide, by decide⟩

theorem resolvable : ∀ o ∈ orders, Resolvable items low o.1 := by
  intro o ho
  simp only [orders, List.mem_cons, List.not_mem_nil, or_false] at ho
  rcases ho with rfl | rfl
  · exact trivial
  · exact ⟨trivial, (rfl : (low (some "A") "z").isSome = true)⟩

theorem noCall : ∀ o ∈ orders, NoCall o.1 := by
  intro o ho
  simp only [orders, List.mem_cons, List.not_mem_nil, or_false] at ho
  rcases ho with rfl | rfl
  · exact trivial
  · exact ⟨trivial, trivial⟩

theorem reserved : ReservedFree (hidden items low orders ++ items) := by
  rw [hidden_is]; unfold ReservedFree; decide

theorem noClash : NoClash (hidden items low orders ++ items) cols := by
  rw [hidden_is]
  constructor
  · intro a ha b hb _ _ h
    simp only [items, List.cons_append, List.nil_append, List.mem_cons, List.not_mem_nil, or_false] at ha hb
    rcases ha with rfl | rfl | rfl | rfl <;> rcases hb with rfl | rfl | rfl | rfl <;>
      first | exact ⟨rfl, rfl⟩ | (revert h; decide)
  · intro a ha _ h
    simp only [items, List.cons_append, List.nil_append, List.mem_cons, List.not_mem_nil, or_false] at ha
    rcases ha with rfl | rfl | rfl | rfl <;>
      first | (exact ⟨rfl, fun _ _ hh => nomatch hh⟩) | exact absurd h (by decide)
  · intro a ha h1 h2
    simp only [items, List.cons_append, List.nil_append, List.mem_cons, List.not_mem_nil, or_false] at ha
    rcases ha with rfl | rfl | rfl | rfl <;> first | exact trivial | exact absurd rfl h1

theorem textOk : ∀ o ∈ orders, TextOk (hidden items low orders ++ items) items low cols o.1 := by
  rw [hidden_is]
  intro o ho it hit h
  simp only [orders, List.mem_cons, List.not_mem_nil, or_false] at ho
  rcases ho with rfl | rfl
  · exact Or.inl trivial
  · exfalso
    revert h
    revert it
    decide

example : ∃ out, wasmQuery sem srt low items orders (some (2, 1)) false rows = some out ∧
    IsResult sem le items low orders (some (2, 1)) rows out :=
  C54_compiled_partial sem srt le sorts low items orders (some (2, 1)) false cols rows resolvable noCall (by decide)
    (by rintro n off h; cases h; decide) reserved noClash good

example : ∃ out, interpQuery sem srt low items orders (some (2, 1)) true rows = some out ∧
    IsResult sem le items low orders (some (2, 1)) rows out :=
  C54_interpreter_partial sem srt le sorts low items orders (some (2, 1)) true cols rows resolvable noCall (by decide)
    (by rintro n off h; cases h; decide) (by decide) (by rw [hidden_is]; decide)
    (by
      rw [hidden_is]
      intro it hit t v h
      simp only [items, List.mem_cons, List.not_mem_nil, or_false] at hit
      rcases hit with rfl | rfl | rfl <;> cases h
      decide) textOk good

/-- The only correct result is what one expects. -/
example : IsResult sem le items low orders (some (2, 1)) rows
    [[some 1, none, some 7], [some 1, some 3, some 7]] := by
  refine ⟨[row none (some 3) (some 4), row (some 1) none (some 5), row (some 1) (some 2) none], ?_, by decide, ?_, by decide +kernel⟩
  · exact List.reverse_perm rows
  · exact ⟨[[none, none], [some 1, some 6], [some 1, none]], by decide +kernel, fun _ => by
      unfold le; decide +kernel⟩

example : wasmLimit 2 1 [[10, 11], [12, 13], [14]] = [11, 12] ∧ interpLimit 2 1 [[10, 11], [12, 13], [14]] = [11, 12] := by
  decide +kernel

example : Resolvable items low (.des none "a") ∧ ¬ Resolvable items low (.des none "b") := by
  refine ⟨trivial, fun h => ?_⟩
  have h : (low none "b").isSome = true := h
  revert h
  decide

example : ¬ Resolvable (items ++ items) low (.des none "a") := by
  exact id

/-! ## Where the claim is false -/

/-- A single row is in any order. -/
theorem single (items : List (Item Nat)) (orders : List (Ex Nat × Bool)) (env : Env Nat)
    (le : List Bool → List (Option Nat) → List (Option Nat) → Prop)
    (ks : List (Option Nat)) (out : List (Option Nat)) (h1 : orderKeys sem items low orders env = some ks)
    (h2 : specRow sem items env = some out) : IsResult sem le items low orders none [env] [out] := by
  refine ⟨[env], List.Perm.refl _, fun _ => rfl, ⟨[ks], ?_, fun _ => List.pairwise_singleton _ _⟩, ?_⟩
  · rw [List.mapM_cons, h1]; rfl
  · rw [window, specRows, List.mapM_cons, h2]; rfl

def selX : List (Item Nat) := [⟨x, none, .prim 1⟩]

/-- `SELECT A.x FROM A LIMIT 0` returns all rows, in both back ends. -/
theorem C54_limit_zero_defect (le : List Bool → List (Option Nat) → List (Option Nat) → Prop) (srt : Sorter Nat) :
    wasmQuery sem srt low selX [] (some (0, 0)) false [row (some 1) none none] = some [[some 1]] ∧
    interpQuery sem srt low selX [] (some (0, 0)) false [row (some 1) none none] = some [[some 1]] ∧
    ¬ IsResult sem le selX low [] (some (0, 0)) [row (some 1) none none] [[some 1]] := by
  refine ⟨by rfl, by rfl, ?_⟩
  rintro ⟨l, _, _, _, h⟩
  simp only [window, List.take_zero, specRows, List.mapM_nil] at h
  cases h

/-- `SELECT A.x FROM A LIMIT 18446744073709551615 OFFSET 1` returns nothing: the sum of limit and offset overflows. -/
theorem C54_limit_overflow_defect (le : List Bool → List (Option Nat) → List (Option Nat) → Prop) (srt : Sorter Nat) :
    wasmQuery sem srt low selX [] (some (2 ^ 64 - 1, 1)) false [row (some 1) none none, row (some 2) none none] =
      some [] ∧
    interpQuery sem srt low selX [] (some (2 ^ 64 - 1, 1)) false [row (some 1) none none, row (some 2) none none] =
      some [] ∧
    ¬ IsResult sem le selX low [] (some (2 ^ 64 - 1, 1)) [row (some 1) none none, row (some 2) none none] [] := by
  refine ⟨by rfl, by rfl, ?_⟩
  rintro ⟨l, _, h1, _, h⟩
  rw [h1 rfl] at h
  revert h
  decide +kernel

/-- `SELECT A.x FROM A ORDER BY ISNULL(A.y)`: `ISNULL(A.y)` is carried along instead of `A.y`, and the generated code
does not find `A.y`. -/
theorem C54_function_compiled_defect (le : List Bool → List (Option Nat) → List (Option Nat) → Prop) (srt : Sorter Nat) :
    wasmQuery sem srt low selX [(.call "ISNULL" y, true)] none false [row (some 1) (some 2) none] = none ∧
    ∃ out, IsResult sem le selX low [(.call "ISNULL" y, true)] none [row (some 1) (some 2) none] out :=
  ⟨by rfl, _, single _ _ _ _ [some 2] [some 1] (by decide +kernel) (by decide +kernel)⟩

/-- `SELECT A.x FROM A ORDER BY NOT ISNULL(A.y)`: neither does the interpreter. -/
theorem C54_function_interpreter_defect (le : List Bool → List (Option Nat) → List (Option Nat) → Prop)
    (srt : Sorter Nat) :
    interpQuery sem srt low selX [(.un "NOT" (.call "ISNULL" y), true)] none false [row (some 1) (some 2) none] = none ∧
    ∃ out, IsResult sem le selX low [(.un "NOT" (.call "ISNULL" y), true)] none [row (some 1) (some 2) none] out :=
  ⟨by rfl, _, single _ _ _ _ [some 2] [some 1] (by decide +kernel) (by decide +kernel)⟩

def selA : List (Item Nat) := [⟨x, some "a", .prim 1⟩]

/-- `SELECT A.x AS a FROM A ORDER BY ISNULL(a)`: `ISNULL(a)` is computed on the row below, which has no `a`; both back
ends fail. -/
theorem C54_function_alias_defect (le : List Bool → List (Option Nat) → List (Option Nat) → Prop) (srt : Sorter Nat) :
    wasmQuery sem srt low selA [(.call "ISNULL" (.des none "a"), true)] none false [row (some 1) (some 2) none] = none ∧
    interpQuery sem srt low selA [(.call "ISNULL" (.des none "a"), true)] none false [row (some 1) (some 2) none] = none ∧
    ∃ out, IsResult sem le selA low [(.call "ISNULL" (.des none "a"), true)] none [row (some 1) (some 2) none] out :=
  ⟨by rfl, by rfl, _, single _ _ _ _ [some 1] [some 1] (by decide +kernel) (by decide +kernel)⟩

/-- `SELECT A.x FROM A ORDER BY A.y + A.y`: `A.y` is carried along twice, and the interpreter finds its name ambiguous. -/
theorem C54_twice_defect (le : List Bool → List (Option Nat) → List (Option Nat) → Prop) (srt : Sorter Nat) :
    interpQuery sem srt low selX [(.bin "+" y y, true)] none false [row (some 1) (some 2) none] = none ∧
    ∃ out, IsResult sem le selX low [(.bin "+" y y, true)] none [row (some 1) (some 2) none] out :=
  ⟨by rfl, _, single _ _ _ _ [some 4] [some 1] (by decide +kernel) (by decide +kernel)⟩

/-- `SELECT A.x, A.x FROM A` is fine in the interpreter, but with `ORDER BY A.y` it fails: the second projection finds
the name `A.x` ambiguous.  (The sorting algorithm is any that sorts a single row.) -/
theorem C54_select_twice_defect (le : List Bool → List (Option Nat) → List (Option Nat) → Prop) (srt : Sorter Nat)
    (h1 : ∀ fl ρ (p : List (Option Nat) × ρ), srt fl ρ [p] = [p]) :
    interpQuery sem srt low (selX ++ selX) [] none false [row (some 1) (some 2) none] = some [[some 1, some 1]] ∧
    interpQuery sem srt low (selX ++ selX) [(y, true)] none false [row (some 1) (some 2) none] = none ∧
    ∃ out, IsResult sem le (selX ++ selX) low [(y, true)] none [row (some 1) (some 2) none] out := by
  refine ⟨by rfl, ?_, _, single _ _ _ _ [some 2] [some 1, some 1] (by decide +kernel) (by decide +kernel)⟩
  have e1 : resolveAll (selX ++ selX) low [(y, true)] = some [(.des ⟨some "A", "y"⟩ none, true)] := by rfl
  rw [interpQuery, e1]
  dsimp only
  rw [interpTail]
  have e2 : [row (some 1) (some 2) none].mapM
      (interpProject sem (planItems (selX ++ selX) [(.des ⟨some "A", "y"⟩ none, true)])) =
      some [[some 2, some 1, some 1]] := by decide +kernel
  rw [e2]
  dsimp only
  have e3 : sortRows srt [(RE.des ⟨some "A", "y"⟩ none, true)]
      (fun row => interpKeys sem [(.des ⟨some "A", "y"⟩ none, true)]
        (named (planItems (selX ++ selX) [(.des ⟨some "A", "y"⟩ none, true)]) row)) [[some 2, some 1, some 1]] =
      some [[some 2, some 1, some 1]] := by
    rw [sortRows, if_neg (by decide)]
    have : ([[some 2, some 1, some 1]] : List (List (Option Nat))).mapM (fun r => (interpKeys sem [(RE.des ⟨some "A", "y"⟩ none, true)]
        (named (planItems (selX ++ selX) [(.des ⟨some "A", "y"⟩ none, true)]) r)).map fun k => (k, r)) =
        some [([some 2], [some 2, some 1, some 1])] := by decide +kernel
    rw [this, Option.map_some, h1]
    rfl
  rw [e3]
  dsimp only
  decide +kernel

end Ex1

end Mutable.Tail
