import Verif.Deliver.Interp

/-!
# C52: the client sees the SELECT list of every qualifying row

`specRows`/`specPrint` (`Verif/Deliver/Spec.lean`) evaluate the SELECT list item by item on each
qualifying row.  Both back ends are compared with it.  For the compiled back end the full claim is false
of the code; the last section proves the counterexamples.
-/
namespace Mutable.Deliver

variable {α : Type}

theorem allConst_iff {items : List (Item α)} (hR : ReservedFree items) :
    (∀ it ∈ items, it.isConst) ↔ ∀ it ∈ items, projId it = constId :=
  ⟨fun h it hit => (projId_const hR hit).2 (h it hit), fun h it hit => (projId_const hR hit).1 (h it hit)⟩

/-- C52 (compiled, printed): whatever the sizes of the windows and of the packs of rows the pipeline
delivers, what is printed is the text of the qualifying rows, in their order, each item of the SELECT list
with its own value.

Missing: SELECT lists whose names clash (`NoClash`), and finite windows together with predication
(`WindowOk`); there the claim is false, see below. -/
theorem C52_print_partial (sem : Sem α) (items : List (Item α)) (cols : List Ident) (w L : Nat)
    (packs : List (List (Env α) × Bool)) (hR : ReservedFree items) (hN : NoClash items cols)
    (h : ∀ p ∈ packs, ∀ env ∈ p.1, GoodRow sem items cols env)
    (hw : WindowOk (∀ it ∈ items, it.isConst) w L packs) :
    wasmPrint sem items w packs = specPrint sem items (kept packs) := by
  refine wasmPrint_ok sem items cols w L packs hR hN h ?_
  rw [← propext (allConst_iff hR)]
  exact hw

/-- C52 (compiled, callback): the callback gets exactly the qualifying rows, in order.

Missing: as for `C52_print_partial`, and SELECT lists with exactly one unaliased constant among other
columns, all of different names (`CallbackSafe`); there the claim is false, see below. -/
theorem C52_callback_partial (sem : Sem α) (items : List (Item α)) (cols : List Ident) (w L : Nat)
    (packs : List (List (Env α) × Bool)) (hR : ReservedFree items) (hN : NoClash items cols)
    (h : ∀ p ∈ packs, ∀ env ∈ p.1, GoodRow sem items cols env)
    (hw : WindowOk (∀ it ∈ items, it.isConst) w L packs) (hC : CallbackSafe items) :
    wasmCallback sem items w packs = specRows sem items (kept packs) := by
  refine wasmCallback_ok sem items cols w L packs hR hN h ?_ ?_
  · rw [← propext (allConst_iff hR)]
    exact hw
  · rcases hC with hC | hC | hC
    · exact Or.inl fun it hit hc => hC it hit ((projId_const hR hit).1 hc)
    · exact Or.inr (Or.inl ((allConst_iff hR).1 hC))
    · exact Or.inr (Or.inr hC)

/-- C52 (windows): for a finite window of `w` slots and packs of `L` rows with `L` dividing `w`, every
window handed over but the last is full, and none is larger than the buffer; and without predication the
windows one after the other are the rows, none lost, none twice. -/
theorem C52_windows {ρ} (noCols : Bool) (w L : Nat) (packs : List (List ρ × Bool)) (hw : w ≠ 0)
    (hd : L ∣ w) (hp : ∀ p ∈ packs, p.1.length = L) :
    (∀ win ∈ (writeResultSet noCols w packs).dropLast, win.length = w) ∧
    (∀ win ∈ writeResultSet noCols w packs, win.length ≤ w) ∧
    ((∀ p ∈ packs, p.2 = true) → (writeResultSet noCols w packs).flatten = packs.flatMap (·.1)) := by
  refine ⟨(windows_fit noCols w L packs hw hd hp).1, (windows_fit noCols w L packs hw hd hp).2, ?_⟩
  intro ht
  have hk : kept packs = packs.flatMap (·.1) := by
    rw [kept, List.filter_eq_self.2 ht]
  rw [← hk]
  have hf : ∀ s : WSt ρ, (fun t : WSt ρ => t.done.flatten ++ t.buf)
      (packs.foldl (fun s p => if noCols then stepCount w s p.1 p.2 else stepFinite w s p.1 p.2) s) =
        s.done.flatten ++ s.buf ++ kept packs := by
    intro s
    cases noCols with
    | true => simpa using foldl_count w packs s
    | false => simpa using foldl_finite w packs ht s
  rw [writeResultSet, List.flatten_append]
  simp only [if_neg hw, List.flatten_cons, List.flatten_nil, List.append_nil]
  have := hf ⟨[], []⟩
  simpa using this

/-- C52 (interpreter, printed): no condition on the names of the SELECT list is needed. -/
theorem C52_interpreter_print (sem : Sem α) (items : List (Item α)) (cols : List Ident)
    (envs : List (Env α)) (hnd : cols.Nodup) (hc : ConstFree items cols)
    (hg : ∀ env ∈ envs, GoodRow sem items cols env) :
    interpPrint sem items envs = specPrint sem items envs :=
  interpPrint_ok sem items cols envs hnd hc hg

/-- C52 (interpreter, callback). -/
theorem C52_interpreter_callback (sem : Sem α) (items : List (Item α)) (cols : List Ident)
    (envs : List (Env α)) (hnd : cols.Nodup) (hc : ConstFree items cols)
    (hg : ∀ env ∈ envs, GoodRow sem items cols env) :
    interpCallback sem items envs = specRows sem items envs :=
  interpCallback_ok sem items cols envs hnd hc hg

/-- C52 (agreement): where the names do not clash, both back ends deliver the same, for any two ways of
packing the same qualifying rows. -/
theorem C52_backends_agree_partial (sem : Sem α) (items : List (Item α)) (cols : List Ident) (w L : Nat)
    (packs : List (List (Env α) × Bool)) (hR : ReservedFree items) (hN : NoClash items cols)
    (h : ∀ p ∈ packs, ∀ env ∈ p.1, GoodRow sem items cols env)
    (hw : WindowOk (∀ it ∈ items, it.isConst) w L packs) (hnd : cols.Nodup) (hc : ConstFree items cols) :
    wasmPrint sem items w packs = interpPrint sem items (kept packs) ∧
    (CallbackSafe items → wasmCallback sem items w packs = interpCallback sem items (kept packs)) := by
  have hk : ∀ env ∈ kept packs, GoodRow sem items cols env := by
    intro env henv
    obtain ⟨p, hp, hx⟩ := mem_kept henv
    exact h p hp env hx
  constructor
  · rw [C52_print_partial sem items cols w L packs hR hN h hw,
      C52_interpreter_print sem items cols _ hnd hc hk]
  · intro hC
    rw [C52_callback_partial sem items cols w L packs hR hN h hw hC,
      C52_interpreter_callback sem items cols _ hnd hc hk]

/-! ## The hypotheses are met -/

/-- A meaning of operators for the examples. -/
def exSem : Sem Int where
  un := fun _ a => a.map (- ·)
  bin := fun _ a b => match a, b with | some x, some y => some (x + y) | _, _ => none
  call := fun _ a => a

/-- `SELECT A.x, A.x + A.y AS s, A.x, 7, 8, NULL` over rows with columns `A.x`, `A.y`. -/
def exItems : List (Item Int) :=
  [⟨.des (some "A") "x", none, .prim 0⟩,
   ⟨.bin "+" (.des (some "A") "x") (.des (some "A") "y"), some "s", .prim 0⟩,
   ⟨.des (some "A") "x", none, .prim 0⟩,
   ⟨.const "7" (some 7), none, .prim 0⟩, ⟨.const "8" (some 8), none, .prim 0⟩,
   ⟨.const "NULL" none, none, .null⟩]

/-- The columns below. -/
def exCols : List Ident := [⟨some "A", "x"⟩, ⟨some "A", "y"⟩]

/-- A row. -/
def exRow (x y : Option Int) : Env Int := [(⟨some "A", "x"⟩, x), (⟨some "A", "y"⟩, y)]

example : ReservedFree exItems := by unfold ReservedFree exItems; decide
example : ConstFree exItems exCols := by
  intro it hit t v he
  simp only [exItems, List.mem_cons, List.not_mem_nil, or_false] at hit
  rcases hit with rfl | rfl | rfl | rfl | rfl | rfl <;> simp_all [exCols]
example : CallbackSafe exItems := Or.inr (Or.inr (by decide))
theorem exNoClash : NoClash exItems exCols := by
  refine ⟨?_, ?_, ?_⟩
  · intro a ha b hb h1 h2 h3
    simp only [exItems, List.mem_cons, List.not_mem_nil, or_false] at ha hb
    rcases ha with rfl | rfl | rfl | rfl | rfl | rfl <;> rcases hb with rfl | rfl | rfl | rfl | rfl | rfl <;>
      simp_all [Item.isConst, projId]
  · intro a ha h1 h2
    simp only [exItems, List.mem_cons, List.not_mem_nil, or_false] at ha
    rcases ha with rfl | rfl | rfl | rfl | rfl | rfl <;>
      simp_all [Item.isConst, projId, exCols, exprId]
  · intro a ha h1 h2
    simp only [exItems, List.mem_cons, List.not_mem_nil, or_false] at ha
    rcases ha with rfl | rfl | rfl | rfl | rfl | rfl <;>
      simp_all [exCols, exprId]
theorem exGood (x y : Option Int) : GoodRow exSem exItems exCols (exRow x y) := by
  refine ⟨rfl, ?_, ?_⟩
  · intro it hit
    simp only [exItems, List.mem_cons, List.not_mem_nil, or_false] at hit
    rcases hit with rfl | rfl | rfl | rfl | rfl | rfl <;> rfl
  · intro it hit ht
    simp only [exItems, List.mem_cons, List.not_mem_nil, or_false] at hit
    rcases hit with rfl | rfl | rfl | rfl | rfl | rfl <;> first | rfl | (cases ht)
example : WindowOk (∀ it ∈ exItems, it.isConst) 4 2
    [([exRow (some 1) none, exRow (some 2) (some 3)], true), ([exRow (some 4) none, exRow none none], true)] :=
  Or.inr ⟨⟨2, rfl⟩, by decide, Or.inl (by simp)⟩
example : wasmCallback exSem exItems 2 [([exRow (some 1) (some 5)], true), ([exRow none (some 5)], true),
      ([exRow (some 3) (some 5)], true)] =
    some [[some 1, some 6, some 1, some 7, some 8, none], [none, none, none, some 7, some 8, none],
      [some 3, some 8, some 3, some 7, some 8, none]] := by decide +kernel

/-! ## Where the compiled back end is wrong -/

/-- The full claim for printing: as `C52_print_partial`, with nothing asked of names, windows and
predication but that packs of `L` rows fill windows exactly. -/
def FullPrint : Prop :=
  ∀ (sem : Sem Int) (items : List (Item Int)) (cols : List Ident) (w L : Nat)
    (packs : List (List (Env Int) × Bool)), ReservedFree items → L ∣ w → (w = 0 ∨ L < w) →
    (∀ p ∈ packs, p.1.length = L) → (∀ p ∈ packs, ∀ env ∈ p.1, GoodRow sem items cols env) →
    wasmPrint sem items w packs = specPrint sem items (kept packs)

/-- One column `A.x`. -/
def xItems : List (Item Int) := [⟨.des (some "A") "x", none, .prim 0⟩]

/-- Finite windows and predication: a row rejected by the predicate that meets a buffer with one free slot
is delivered (`src/backend/WasmUtil.cpp:2953-2962` does not look at the predicate). -/
theorem C52_window_predication :
    wasmCallback exSem xItems 2 [([[(⟨some "A", "x"⟩, some 1)]], true), ([[(⟨some "A", "x"⟩, some 2)]], false)]
      = some [[some 1], [some 2]] ∧
    specRows exSem xItems (kept [([[(⟨some "A", "x"⟩, some 1)]], true),
      ([[(⟨some "A", "x"⟩, some 2)]], false)]) = some [[some 1]] := by
  decide +kernel

/-- A callback below `SELECT 1, A.x` gets the value of `A.x` in the place of the constant
(`src/backend/V8Engine.cpp:448-467`). -/
theorem C52_callback_constant_first :
    wasmCallback exSem [⟨.const "1" (some 1), none, .prim 0⟩, ⟨.des (some "A") "x", none, .prim 0⟩] 0
      [([[(⟨some "A", "x"⟩, some 5)]], true)] = some [[some 5, none]] ∧
    interpCallback exSem [⟨.const "1" (some 1), none, .prim 0⟩, ⟨.des (some "A") "x", none, .prim 0⟩]
      [[(⟨some "A", "x"⟩, some 5)]] = some [[some 1, some 5]] := by
  decide +kernel

/-- A callback below `SELECT A.x, 1` gets the constant on the first row only: the tuple is cleared after
each row (`src/backend/V8Engine.cpp:462-466`). -/
theorem C52_callback_constant_cleared :
    wasmCallback exSem [⟨.des (some "A") "x", none, .prim 0⟩, ⟨.const "1" (some 1), none, .prim 0⟩] 0
      [([[(⟨some "A", "x"⟩, some 5)]], true), ([[(⟨some "A", "x"⟩, some 6)]], true)] =
        some [[some 5, some 1], [some 6, none]] := by
  decide +kernel

/-- `SELECT x AS y, y AS x … GROUP BY x, y`: the compiled projection takes the columns of these names from
below instead of swapping them (`src/backend/WasmOperator.cpp:2423-2426`); the interpreter swaps. -/
theorem C52_alias_shadows :
    wasmCallback exSem [⟨.des none "x", some "y", .prim 0⟩, ⟨.des none "y", some "x", .prim 0⟩] 0
      [([[(⟨none, "x"⟩, some 1), (⟨none, "y"⟩, some 2)]], true)] = some [[some 2, some 1]] ∧
    interpCallback exSem [⟨.des none "x", some "y", .prim 0⟩, ⟨.des none "y", some "x", .prim 0⟩]
      [[(⟨none, "x"⟩, some 1), (⟨none, "y"⟩, some 2)]] = some [[some 1, some 2]] := by
  decide +kernel

/-- `SELECT A.x AS a, A.y AS a`: the second column shows the first. -/
theorem C52_same_alias :
    wasmCallback exSem [⟨.des (some "A") "x", some "a", .prim 0⟩, ⟨.des (some "A") "y", some "a", .prim 0⟩] 0
      [([exRow (some 1) (some 2)], true)] = some [[some 1, some 1]] ∧
    interpCallback exSem [⟨.des (some "A") "x", some "a", .prim 0⟩,
        ⟨.des (some "A") "y", some "a", .prim 0⟩] [exRow (some 1) (some 2)] = some [[some 1, some 2]] := by
  decide +kernel

/-- Hence the full claim is false of the code. -/
theorem C52_full_print_false : ¬ FullPrint := by
  intro h
  have := h exSem xItems [⟨some "A", "x"⟩] 2 1
    [([[(⟨some "A", "x"⟩, some 1)]], true), ([[(⟨some "A", "x"⟩, some 2)]], false)]
    (by unfold ReservedFree xItems; decide) ⟨2, rfl⟩ (Or.inr (by decide))
    (by intro p hp; simp only [List.mem_cons, List.not_mem_nil, or_false] at hp; rcases hp with rfl | rfl <;> rfl)
    (by
      intro p hp env he
      simp only [List.mem_cons, List.not_mem_nil, or_false] at hp
      rcases hp with rfl | rfl <;>
      · simp only [List.mem_cons, List.not_mem_nil, or_false] at he
        subst he
        refine ⟨rfl, ?_, ?_⟩
        · intro it hit; simp only [xItems, List.mem_cons, List.not_mem_nil, or_false] at hit; subst hit; rfl
        · intro it hit ht; simp only [xItems, List.mem_cons, List.not_mem_nil, or_false] at hit; subst hit
          cases ht)
  revert this
  decide +kernel

end Mutable.Deliver
