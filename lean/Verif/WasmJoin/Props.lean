import Verif.WasmJoin.Final
import Verif.WasmSort.Props
import Verif.WasmHT.Props

/-!
# C55: joins and the group-join of compiled code

Specification: `pairs` (`Verif.WasmJoin.Spec`) are all pairs of rows for which the predicate is true, `joined` the rows of an
equi-join, `IsAgg` (`Verif.WasmAgg.Spec`) says what an aggregate is on a list of rows.  `rowsOf` are the rows that the next
operator takes into account: those whose predicate, if they carry one, is true.
-/
namespace Mutable.WasmJoin
open Mutable.WasmAgg

section
variable {A B V : Type}

/-! ### Nested-loops join -/

theorem nljEmit_rows (predicated : Bool) (pred : A → B → Bool) (r : B) : ∀ L : List A,
    rowsOf (L.flatMap (nljEmit predicated pred r)) = (L.filter fun l => pred l r).map fun l => (l, r) := by
  intro L
  induction L with
  | nil => rfl
  | cons l L ih =>
    rw [List.flatMap_cons, rowsOf_app, ih, List.filter_cons]
    unfold nljEmit
    cases predicated <;> cases pred l r <;> simp [rowsOf]

/-- Nested-loops join, branching or predicated: the pairs of qualifying rows for which the predicate is true (not false, not
NULL), each exactly once, for all inputs. -/
theorem C55_nested_loops (predicated : Bool) (pred : A → B → Bool) (left : List (Option Bool × A))
    (right : List (Option Bool × B)) :
    rowsOf (nlj predicated pred left right) = pairs (fun l r => pred l r = true) (rowsOf left) (rowsOf right) := by
  unfold nlj pairs
  rw [materialize_eq]
  induction right with
  | nil => rfl
  | cons x right ih =>
    rw [List.flatMap_cons, rowsOf_app, ih, rowsOf_cons x right, List.flatMap_append]
    congr 1
    obtain ⟨o, b⟩ := x
    unfold nljRow
    have hacc : rowsOf [(o, b)] = if accepted o then [b] else [] := by
      cases o with
      | none => rfl
      | some q => cases q <;> rfl
    rw [hacc]
    cases accepted o with
    | false => rfl
    | true =>
      simp only [if_true, nljEmit_rows, List.flatMap_cons, List.flatMap_nil, List.append_nil]
      congr 1
      apply List.filter_congr
      intro l _
      rw [Bool.decide_eq_true]

example : rowsOf (nlj true (fun (a b : Nat) => a == b) [(none, 1), (some false, 2), (none, 3)] [(some true, 3), (none, 2), (none, 3)]) =
    [(3, 3), (3, 3)] := by decide

/-! ### Sort-merge join -/

variable [LinearOrder V]

/-- The rows the merge phase reads are those of the input, ordered by the key: they are sorted (C43), or they are ordered
already. -/
def Prepared (flag : Bool) (sort : List A → List A) (k : A → List (Option V)) (rows : List A) : Prop :=
  (if flag then sort rows else rows).Perm rows ∧ SortedBy k (if flag then sort rows else rows)

section
variable (predicated sl sr : Bool) {sortL : List A → List A} {sortR : List B → List B}
  {kl : A → List (Option V)} {kr : B → List (Option V)} {n : Nat}

/-- Sort-merge join on any number of key columns: the pairs of qualifying rows with equal keys, each exactly once, if the left
keys are unique.  Not covered (`_partial`): with several key columns, whenever a right key is before a left key in the
lexicographic order, it must be at most the left key in every component, for otherwise pairs are lost
(`C55_composite_keys_lose_pairs`). -/
theorem C55_sort_merge_partial (hl : ∀ a, (kl a).length = n) (hr : ∀ b, (kr b).length = n)
    (left : List (Option Bool × A)) (right : List (Option Bool × B))
    (hpl : Prepared sl sortL kl (rowsOf left)) (hpr : Prepared sr sortR kr (rowsOf right))
    (hu : UniqueKeys kl (rowsOf left))
    (hc : ∀ l ∈ rowsOf left, ∀ r ∈ rowsOf right, KeyLe (kr r) (kl l) → AllLe (kr r) (kl l)) :
    (rowsOf (smj predicated sl sr sortL sortR kl kr left right)).Perm
      (pairs (fun l r => KeysEq (kl l) (kr r)) (rowsOf left) (rowsOf right)) := by
  unfold smj
  rw [materialize_eq, materialize_eq, merge_spec hl hr _ _ _ le_rfl hpl.2 hpr.2 (hu.perm hpl.1.symm)
    (fun l h1 r h2 => hc l (hpl.1.mem_iff.1 h1) r (hpr.1.mem_iff.1 h2))]
  exact pairs_perm _ hpl.1 hpr.1

/-- Sort-merge join on one key column: exactly the pairs of qualifying rows with equal keys, if the left keys are unique. -/
theorem C55_sort_merge_single (hl : ∀ a, (kl a).length = 1) (hr : ∀ b, (kr b).length = 1)
    (left : List (Option Bool × A)) (right : List (Option Bool × B))
    (hpl : Prepared sl sortL kl (rowsOf left)) (hpr : Prepared sr sortR kr (rowsOf right))
    (hu : UniqueKeys kl (rowsOf left)) :
    (rowsOf (smj predicated sl sr sortL sortR kl kr left right)).Perm
      (pairs (fun l r => KeysEq (kl l) (kr r)) (rowsOf left) (rowsOf right)) := by
  refine C55_sort_merge_partial predicated sl sr hl hr left right hpl hpr hu ?_
  intro l _ r _ h
  have h1 := hl l
  have h2 := hr r
  generalize kl l = x at *
  generalize kr r = y at *
  match x, y, h1, h2 with
  | [a], [b], _, _ =>
    refine .cons ?_ .nil
    simpa [KeyLe] using h

/-- Whatever the keys are — several columns, duplicates, not even sorted — the sort-merge join produces only pairs of rows
with equal keys, and none of them more often than it should. -/
theorem C55_sort_merge_sound (hl : ∀ a, (kl a).length = n) (hr : ∀ b, (kr b).length = n)
    (left : List (Option Bool × A)) (right : List (Option Bool × B))
    (hpl : (if sl then sortL (rowsOf left) else rowsOf left).Perm (rowsOf left))
    (hpr : (if sr then sortR (rowsOf right) else rowsOf right).Perm (rowsOf right)) :
    ∃ all, all.Perm (pairs (fun l r => KeysEq (kl l) (kr r)) (rowsOf left) (rowsOf right)) ∧
      (rowsOf (smj predicated sl sr sortL sortR kl kr left right)).Sublist all := by
  unfold smj
  rw [materialize_eq, materialize_eq]
  exact ⟨_, pairs_perm _ hpl hpr, merge_sublist hl hr _ _ _ le_rfl⟩

/-- The result is ordered by the keys of the left rows, and by those of the right rows. -/
theorem C55_sort_merge_order (hr : ∀ a, KeyLe (kl a) (kl a)) (hr' : ∀ b, KeyLe (kr b) (kr b))
    (left : List (Option Bool × A)) (right : List (Option Bool × B))
    (hpl : Prepared sl sortL kl (rowsOf left)) (hpr : Prepared sr sortR kr (rowsOf right)) :
    (smj predicated sl sr sortL sortR kl kr left right).Pairwise
      fun x y => KeyLe (kl x.2.1) (kl y.2.1) ∧ KeyLe (kr x.2.2) (kr y.2.2) := by
  unfold smj
  rw [materialize_eq, materialize_eq]
  exact merge_order (fun a b => KeyLe (kl a) (kl b)) (fun a b => KeyLe (kr a) (kr b)) hr hr' _ _ _ le_rfl hpl.2 hpr.2

end

theorem keyLe_refl : ∀ x : List (Option V), KeyLe x x
  | [] => trivial
  | _ :: xs => .inr ⟨rfl, keyLe_refl xs⟩

end

/-! ### With the sort of C43 -/

section
open Mutable.WSort (Cell Key Row Col Before Same rowLe sortBuffer cfg Typed NoNullString)
variable {V : Type} [LinearOrder V]

/-- The value of a cell. -/
def cellVal (c : Cell V) : Option V := if c.null then none else some c.val

/-- The values of the ordering expressions. -/
def keyVals (ks : List (Key (Row V) V)) (r : Row V) : List (Option V) := ks.map fun k => cellVal (k.eval r)

theorem rowLe_keyLe (ks : List (Key (Row V) V)) (hasc : ∀ k ∈ ks, k.asc = true) (l r : Row V) (h : rowLe ks l r) :
    KeyLe (keyVals ks l) (keyVals ks r) := by
  induction ks with
  | nil => trivial
  | cons k ks ih =>
    rw [Mutable.WSort.rowLe_cons, hasc k (by simp)] at h
    simp only [keyVals, List.map_cons, KeyLe]
    rcases h with h | ⟨h, h'⟩
    · left
      unfold Before at h
      unfold cellVal
      cases hx : (k.eval l).null <;> cases hy : (k.eval r).null <;> simp_all [ValBefore]
    · right
      refine ⟨?_, ih (fun k hk => hasc k (by simp [hk])) h'⟩
      unfold Same at h
      unfold cellVal
      cases hx : (k.eval l).null <;> cases hy : (k.eval r).null <;> simp_all

/-- The buffer after the sort of C43 (the fuel is sufficient). -/
def quicksorted (cols : List Col) (ks : List (Key (Row V) V)) (hard two : Bool) (d : Row V) (l : List (Row V)) : List (Row V) :=
  (sortBuffer (cfg cols ks false hard two) (2 * l.length + 2) d l).getD []

theorem quicksorted_prepared (cols : List Col) (ks : List (Key (Row V) V)) (hasc : ∀ k ∈ ks, k.asc = true) (hard two : Bool)
    (d : Row V) (l : List (Row V)) (ht : ∀ r ∈ l, Typed ks r) (hs : ∀ r ∈ l, NoNullString cols r) :
    Prepared true (quicksorted cols ks hard two d) (keyVals ks) l := by
  obtain ⟨out, h1, h2, h3⟩ := Mutable.WSort.C43_order_by_partial cols ks hard two d l ht hs
  have e : quicksorted cols ks hard two d l = out := by unfold quicksorted; rw [h1 _ le_rfl]; rfl
  refine ⟨by simpa [e] using h2, ?_⟩
  simp only [if_true, e]
  exact h3.imp fun h => rowLe_keyLe ks hasc _ _ h

/-- Sort-merge join on one column with both inputs sorted by the emitted quicksort: exactly the pairs of qualifying rows with
equal keys. -/
theorem C55_sort_merge_quicksort (predicated : Bool) (cl cr : List Col) (kl kr : Key (Row V) V) (hl : kl.asc = true)
    (hr : kr.asc = true) (hard two : Bool) (d : Row V) (left right : List (Option Bool × Row V))
    (tl : ∀ r ∈ rowsOf left, Typed [kl] r ∧ NoNullString cl r) (tr : ∀ r ∈ rowsOf right, Typed [kr] r ∧ NoNullString cr r)
    (hu : UniqueKeys (keyVals [kl]) (rowsOf left)) :
    (rowsOf (smj predicated true true (quicksorted cl [kl] hard two d) (quicksorted cr [kr] hard two d) (keyVals [kl])
      (keyVals [kr]) left right)).Perm
      (pairs (fun l r => SqlEq (cellVal (kl.eval l)) (cellVal (kr.eval r))) (rowsOf left) (rowsOf right)) := by
  have h := C55_sort_merge_single predicated true true (kl := keyVals [kl]) (kr := keyVals [kr]) (fun _ => rfl) (fun _ => rfl)
    left right
    (quicksorted_prepared cl [kl] (by simpa using hl) hard two d _ (fun r h => (tl r h).1) (fun r h => (tl r h).2))
    (quicksorted_prepared cr [kr] (by simpa using hr) hard two d _ (fun r h => (tr r h).1) (fun r h => (tr r h).2)) hu
  refine h.trans (List.Perm.of_eq ?_)
  unfold pairs
  congr 1
  funext r
  congr 1
  apply List.filter_congr
  intro l _
  simp only [decide_eq_decide, keyVals, List.map_cons, List.map_nil]
  constructor
  · intro h; cases h with | cons h _ => exact h
  · intro h; exact .cons h .nil

end

/-! ### All joins agree -/

section
variable {L R V : Type} [DecidableEq V]

theorem sqlEqual_iff : ∀ (x y : List (Option V)), Mutable.WasmHT.sqlEqual (fun a b => decide (a = b)) x y = true ↔ KeysEq x y
  | [], [] => by simp [Mutable.WasmHT.sqlEqual]; exact .nil
  | [], _ :: _ => by simp [Mutable.WasmHT.sqlEqual]; intro h; cases h
  | _ :: _, [] => by simp [Mutable.WasmHT.sqlEqual]; intro h; cases h
  | none :: _, _ :: _ => by
    simp [Mutable.WasmHT.sqlEqual]
    intro h; cases h with | cons h _ => exact h.1 rfl
  | some _ :: _, none :: _ => by
    simp [Mutable.WasmHT.sqlEqual]
    intro h; cases h with | cons h _ => exact absurd h.2 (by simp)
  | some a :: x, some b :: y => by
    simp only [Mutable.WasmHT.sqlEqual, Bool.and_eq_true, decide_eq_true_eq, sqlEqual_iff x y]
    constructor
    · rintro ⟨rfl, h⟩; exact .cons ⟨by simp, rfl⟩ h
    · intro h; cases h with | cons h1 h2 => exact ⟨by simpa using h1.2, h2⟩

/-- The hash join (C46) and the nested-loops join on the same equalities give the same rows, for all inputs. -/
theorem C55_hash_join_agrees (c : Mutable.WasmHT.Cfg (List (Option V)))
    (heq : c.eq = Mutable.WasmHT.equalKeys fun a b => decide (a = b)) (hst : Mutable.WasmHT.IsStrategy c.strat)
    (hc : Mutable.WasmHT.Respects c.eq c.hash) (ic : Nat) (hic : ic < 2 ^ 31) (load : Nat × Nat) (predicated : Bool)
    (left : List (Option Bool × (List (Option V) × L))) (right : List (Option Bool × (List (Option V) × R)))
    (hb : (rowsOf left).length ≤ 2 ^ 29) :
    ∃ out, Mutable.WasmHT.join c false ic load (rowsOf left) (rowsOf right) = some out ∧
      out.Perm ((rowsOf (nlj predicated (fun l r => decide (KeysEq l.1 r.1)) left right)).map fun x => (x.1.2, x.2.2)) := by
  obtain ⟨out, h1, h2⟩ := Mutable.WasmHT.C46_join c (fun a b => decide (a = b)) heq hst hc ic hic load (rowsOf left) hb (rowsOf right)
  refine ⟨out, h1, h2.trans (List.Perm.of_eq ?_)⟩
  rw [C55_nested_loops, pairs, List.map_flatMap]
  congr 1
  funext r
  rw [List.map_map]
  have : ((rowsOf left).filter fun b => Mutable.WasmHT.sqlEqual (fun a b => decide (a = b)) b.1 r.1) =
      (rowsOf left).filter fun l => decide (decide (KeysEq l.1 r.1) = true) := by
    apply List.filter_congr
    intro l _
    rw [Bool.eq_iff_iff, sqlEqual_iff]
    simp
  rw [this]
  rfl

end

section
variable {L R V : Type} [LinearOrder V]

/-- The sort-merge join on one column and the nested-loops join on the same equality give the same rows, if the left keys are
unique. -/
theorem C55_sort_merge_agrees (p p' sl sr : Bool) {sortL : List L → List L} {sortR : List R → List R}
    {kl : L → List (Option V)} {kr : R → List (Option V)} (hl : ∀ a, (kl a).length = 1) (hr : ∀ b, (kr b).length = 1)
    (left : List (Option Bool × L)) (right : List (Option Bool × R))
    (hpl : Prepared sl sortL kl (rowsOf left)) (hpr : Prepared sr sortR kr (rowsOf right))
    (hu : UniqueKeys kl (rowsOf left)) :
    (rowsOf (smj p sl sr sortL sortR kl kr left right)).Perm
      (rowsOf (nlj p' (fun l r => decide (KeysEq (kl l) (kr r))) left right)) := by
  rw [C55_nested_loops]
  refine (C55_sort_merge_single p sl sr hl hr left right hpl hpr hu).trans (List.Perm.of_eq ?_)
  unfold pairs
  simp

end

/-! ### What the sort-merge join loses -/

/-- With two key columns: the right row (0, 9) is before the left row (1, 5) but not at most it in every component, so the left
row is skipped although the next right row has the same key.  All inputs are sorted and unique. -/
theorem C55_composite_keys_lose_pairs (predicated : Bool) :
    let k : Nat × Nat → List (Option Nat) := fun x => [some x.1, some x.2]
    let L := [(1, 5), (2, 6)]
    let R := [(0, 9), (1, 5)]
    SortedBy k L ∧ SortedBy k R ∧ UniqueKeys k L ∧ UniqueKeys k R ∧
      rowsOf (merge predicated k k L R) = [] ∧ pairs (fun l r => KeysEq (k l) (k r)) L R = [((1, 5), (1, 5))] := by
  refine ⟨by simp [SortedBy, KeyLe, ValBefore], by simp [SortedBy, KeyLe, ValBefore], ?_, ?_, ?_, by decide +kernel⟩
  · simp only [UniqueKeys]; decide +kernel
  · simp only [UniqueKeys]; decide +kernel
  · cases predicated <;> simp [merge, smEmit, childLe, childLe1, leTrue, keysEq, eqTrue, rowsOf]

/-- With duplicates among the left keys (which `UNIQUE` does not prevent): one of two pairs is lost. -/
theorem C55_duplicate_keys_lose_pairs (predicated : Bool) :
    let k : Nat × Nat → List (Option Nat) := fun x => [some x.1]
    rowsOf (merge predicated k k [(1, 0), (1, 1)] [(1, 2)]) = [((1, 0), (1, 2))] ∧
      pairs (fun l r => KeysEq (k l) (k r)) [(1, 0), (1, 1)] [(1, 2)] = [((1, 0), (1, 2)), ((1, 1), (1, 2))] := by
  refine ⟨?_, by decide +kernel⟩
  cases predicated <;> simp [merge, smEmit, childLe, childLe1, leTrue, keysEq, eqTrue, rowsOf]

/-- A case of the theorem for one column with NULLs on both sides. -/
example : let k : Option Nat × Nat → List (Option Nat) := fun x => [x.1]
    SortedBy k [(none, 0), (some 1, 1), (some 3, 2)] ∧ SortedBy k [(none, 0), (some 1, 3), (some 1, 4), (some 2, 5), (some 3, 6)] ∧
      UniqueKeys k [(none, 0), (some 1, 1), (some 3, 2)] := by
  refine ⟨by simp [SortedBy, KeyLe, ValBefore], by simp [SortedBy, KeyLe, ValBefore], ?_⟩
  simp only [UniqueKeys]; decide +kernel

/-- A case of the theorem for several columns: the second one does not decrease. -/
example : let k : Nat × Nat → List (Option Nat) := fun x => [some x.1, some x.2]
    ∀ l ∈ [(1, 5), (2, 6)], ∀ r ∈ [(0, 3), (1, 5), (2, 6)], KeyLe (k r) (k l) → AllLe (k r) (k l) := by
  intro k l hl r hr h
  simp only [List.mem_cons, List.not_mem_nil, or_false] at hl hr
  rcases hl with rfl | rfl <;> rcases hr with rfl | rfl | rfl <;>
    first
    | (exfalso; simp [k, KeyLe, ValBefore] at h; done)
    | (refine .cons ?_ (.cons ?_ .nil) <;> simp [ValBefore])

/-! ### Group-join -/

section
variable {B P V C : Type} [DecidableEq V] [DecidableEq C]

/-- Hash-based group-join: one group for each grouping key of a joined row, with the values of the aggregates on the joined rows
of the group, although no row of the join is ever built.  Not covered (`_partial`): the grouping keys must be the build keys of
the join predicate in this order; no row of the probe input may be rejected by predication; the arguments of aggregates are
columns of exactly one of the two inputs; the sums of a group and the number of its rows fit into 64 bits; no AVG of a decimal
with digits after the point. -/
theorem C55_group_join_partial {evB : Arg → B → Option Val} {evP : Arg → P → Option Val} {inB inP : Arg → Bool} {aggs : List Agg}
    (bval : C → B → Option V) (pval : C → P → Option V) (on : List (C × C))
    (build : List (Option Bool × B)) (probe : List (Option Bool × P))
    (hpt : Partitioned inB inP aggs) (hty : ∀ g ∈ aggs, ∀ a, g.arg = some a → ValidTy a.ty)
    (hpred : ∀ x ∈ probe, x.1 ≠ some false)
    (okB : ∀ b ∈ rowsOf build, RowOkIn evB inB aggs b) (okP : ∀ p ∈ rowsOf probe, RowOkIn evP inP aggs p)
    (hlenB : (rowsOf build).length < 2 ^ 32) (hlenP : (rowsOf probe).length < 2 ^ 32)
    (hfit : ∀ k, ((joined bval pval on (rowsOf build) (rowsOf probe)).filter fun x =>
          groupKey bval (on.map Prod.fst) x = k).length < 2 ^ 63 ∧
        SumsFit (argOf evB evP inB) aggs ((joined bval pval on (rowsOf build) (rowsOf probe)).filter fun x =>
          groupKey bval (on.map Prod.fst) x = k))
    (hdec : NoScaledAvg aggs) :
    let out := groupJoin evB evP inB inP bval pval on (on.map Prod.fst) aggs build probe
    let J := joined bval pval on (rowsOf build) (rowsOf probe)
    (out.map Prod.fst).Nodup ∧
      (∀ k, k ∈ out.map Prod.fst ↔ ∃ x ∈ J, groupKey bval (on.map Prod.fst) x = k) ∧
      ∀ o ∈ out, ∀ g ∈ aggs,
        IsAgg (argOf evB evP inB) g (J.filter fun x => groupKey bval (on.map Prod.fst) x = o.1) (o.2 g) :=
  group_join bval pval on build probe hpt hty hpred okB okP hlenB hlenP hfit hdec

end

/-! A case of the theorem and what is not covered.  Rows are pairs of numbers, columns are 0 and 1; `b`/`p` is the second
column of the build/probe relation. -/
section

def exB : Arg := ⟨0, .int 64, false⟩
def exP : Arg := ⟨1, .int 32, false⟩
def exInB (a : Arg) : Bool := decide (a = exB)
def exInP (a : Arg) : Bool := !exInB a
def exEv (_ : Arg) (r : Nat × Nat) : Option Val := some (.i r.2)
def exVal (c : Nat) (r : Nat × Nat) : Option Nat := some (if c = 0 then r.1 else r.2)
def exAggs : List Agg := [.countStar, .sum exB, .sum exP, .avg exB, .avg exP, .min exP, .count exP]

/-- Two build rows and three probe rows of the group 1: the values are those of six joined rows; the group 2 has no match. -/
example : (groupJoin exEv exEv exInB exInP exVal exVal [(0, 0)] [0] exAggs [(none, (1, 10)), (none, (2, 5)), (some true, (1, 20))]
      [(none, (1, 1)), (none, (3, 7)), (none, (1, 2)), (none, (1, 6))]).map (fun o => (o.1, exAggs.map o.2)) =
    [([(0, some 1)], [some (.i 6), some (.i 90), some (.i 18), some (.d (.fin 15)), some (.d (.fin 3)), some (.i 1), some (.i 6)])] := by
  decide +kernel

example : Partitioned exInB exInP exAggs ∧ (∀ g ∈ exAggs, ∀ a, g.arg = some a → ValidTy a.ty) ∧ NoScaledAvg exAggs ∧
    RowOkIn exEv exInB exAggs (1, 10) ∧ RowOkIn exEv exInP exAggs (1, 2) := by
  refine ⟨fun _ _ _ _ => rfl, ?_, ?_, ?_, ?_⟩
  · intro g hg a ha
    simp only [exAggs, List.mem_cons, List.not_mem_nil, or_false] at hg
    rcases hg with rfl | rfl | rfl | rfl | rfl | rfl | rfl <;> simp only [Agg.arg, Option.some.injEq, reduceCtorEq] at ha <;>
      subst ha <;> simp [ValidTy, exB, exP]
  · intro a ha w s h
    simp only [exAggs, List.mem_cons, List.not_mem_nil, or_false, reduceCtorEq, false_or, Agg.avg.injEq] at ha
    rcases ha with rfl | rfl <;> simp [exB, exP] at h
  · intro g hg a ha _
    simp only [exAggs, List.mem_cons, List.not_mem_nil, or_false] at hg
    rcases hg with rfl | rfl | rfl | rfl | rfl | rfl | rfl <;> simp only [Agg.arg, Option.some.injEq, reduceCtorEq] at ha <;>
      subst ha <;> refine ⟨by simp [exEv], ?_⟩ <;> intro v hv <;> simp only [exEv, Option.some.injEq] at hv <;> subst hv <;>
      exact ⟨by simp, _, rfl, by norm_num, by norm_num⟩
  · intro g hg a ha _
    simp only [exAggs, List.mem_cons, List.not_mem_nil, or_false] at hg
    rcases hg with rfl | rfl | rfl | rfl | rfl | rfl | rfl <;> simp only [Agg.arg, Option.some.injEq, reduceCtorEq] at ha <;>
      subst ha <;> refine ⟨by simp [exEv], ?_⟩ <;> intro v hv <;> simp only [exEv, Option.some.injEq] at hv <;> subst hv <;>
      exact ⟨by simp, _, rfl, by norm_num, by norm_num⟩

example : ∀ k, ((joined exVal exVal [(0, 0)] [(1, 10), (2, 5), (1, 20)] [(1, 1), (3, 7), (1, 2), (1, 6)]).filter fun x =>
      groupKey exVal ([((0 : Nat), (0 : Nat))].map Prod.fst) x = k).length < 2 ^ 63 ∧
    SumsFit (argOf exEv exEv exInB) exAggs ((joined exVal exVal [(0, 0)] [(1, 10), (2, 5), (1, 20)]
      [(1, 1), (3, 7), (1, 2), (1, 6)]).filter fun x => groupKey exVal ([((0 : Nat), (0 : Nat))].map Prod.fst) x = k) := by
  intro k
  have hJ : joined exVal exVal [(0, 0)] [(1, 10), (2, 5), (1, 20)] [(1, 1), (3, 7), (1, 2), (1, 6)] =
      [((1, 10), (1, 1)), ((1, 10), (1, 2)), ((1, 10), (1, 6)), ((1, 20), (1, 1)), ((1, 20), (1, 2)), ((1, 20), (1, 6))] := by
    decide +kernel
  rw [hJ]
  by_cases hk : [((0 : Nat), some (1 : Nat))] = k
  · subst hk
    refine ⟨by decide +kernel, ?_⟩
    intro a ha
    simp only [exAggs, List.mem_cons, List.not_mem_nil, or_false, reduceCtorEq, false_or, Agg.sum.injEq] at ha
    rcases ha with rfl | rfl <;> decide +kernel
  · have e : ([((1, 10), (1, 1)), ((1, 10), (1, 2)), ((1, 10), (1, 6)), ((1, 20), (1, 1)), ((1, 20), (1, 2)), ((1, 20), (1, 6))] :
        List ((Nat × Nat) × (Nat × Nat))).filter (fun x => groupKey exVal ([((0 : Nat), (0 : Nat))].map Prod.fst) x = k) = [] := by
      simp [groupKey, exVal, hk]
    rw [e]
    refine ⟨by simp, ?_⟩
    intro a _
    simp

/-- The order of the grouping keys is not compared to that of the join predicate (`gjKeysMatch`), but the values are stored in
the order of the predicate: `ON a0 = b0 AND a1 = b1 GROUP BY a1, a0` swaps the values of the two columns. -/
theorem C55_group_join_swaps_keys :
    gjKeysMatch [1, 0] ([((0 : Nat), (0 : Nat)), (1, 1)].map Prod.fst) = true ∧
    (groupJoin exEv exEv exInB exInP exVal exVal [(0, 0), (1, 1)] [1, 0] [] [(none, (7, 8))] [(none, (7, 8))]).map Prod.fst =
      [[(1, some 7), (0, some 8)]] ∧
    (joined exVal exVal [(0, 0), (1, 1)] [(7, 8)] [(7, 8)]).map (groupKey exVal [1, 0]) = [[(1, some 8), (0, some 7)]] := by
  decide +kernel

/-- The grouping keys need not be all of the build keys: `ON a0 = b0 AND a1 = b1 GROUP BY a0, a0` is accepted, and yields two
groups where there is one. -/
theorem C55_group_join_duplicate_keys :
    gjKeysMatch [0, 0] ([((0 : Nat), (0 : Nat)), (1, 1)].map Prod.fst) = true ∧
    (groupJoin exEv exEv exInB exInP exVal exVal [(0, 0), (1, 1)] [0, 0] [.countStar] [(none, (7, 8)), (none, (7, 9))]
      [(none, (7, 8)), (none, (7, 9))]).map (fun o => o.2 .countStar) = [some (.i 1), some (.i 1)] ∧
    ((joined exVal exVal [(0, 0), (1, 1)] [(7, 8), (7, 9)] [(7, 8), (7, 9)]).map (groupKey exVal [0, 0])).dedup =
      [[(0, some 7), (0, some 7)]] := by
  decide +kernel

/-- A row of the probe input that a predicated filter has rejected is counted all the same. -/
theorem C55_group_join_counts_rejected :
    (groupJoin exEv exEv exInB exInP exVal exVal [(0, 0)] [0] [.countStar] [(none, (1, 10))]
      [(some true, (1, 1)), (some false, (1, 2))]).map (fun o => o.2 .countStar) = [some (.i 2)] ∧
    (joined exVal exVal [(0, 0)] [(1, 10)] (rowsOf [(some true, (1, 1)), (some false, (1, 2))])).length = 1 := by
  decide +kernel

end

end Mutable.WasmJoin
