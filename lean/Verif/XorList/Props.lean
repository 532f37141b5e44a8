import Verif.XorList.Inv
import Mathlib.Algebra.Order.BigOperators.Group.List
import Mathlib.Algebra.Order.Ring.Nat
/-! C23: `doubly_linked_list` is a sequence. -/
namespace Mutable.XorList
variable {T : Type}

/-! ### Specification: the same operations on a plain sequence -/

/-- The public operations that change a list.  A position `i` names the iterator obtained from
`begin()` by `i` applications of `operator++`. -/
inductive Op (T : Type)
  | emplace (i : Nat) (v : T)
  | insertN (i n : Nat) (v : T)
  | insertRange (i : Nat) (vs : List T)
  | erase (i : Nat)
  | pushFront (v : T) | pushBack (v : T)
  | popFront | popBack | reverse | clear

/-- Which operations are allowed on a sequence. -/
def Op.Ok (l : List T) : Op T → Prop
  | .emplace i _ | .insertN i _ _ | .insertRange i _ => i ≤ l.length
  | .erase i => i < l.length
  | .popFront | .popBack => l ≠ []
  | _ => True

/-- Effect on a plain sequence. -/
def Op.onList (l : List T) : Op T → List T
  | .emplace i v => l.take i ++ [v] ++ l.drop i
  | .insertN i n v => l.take i ++ List.replicate n v ++ l.drop i
  | .insertRange i vs => l.take i ++ vs ++ l.drop i
  | .erase i => l.eraseIdx i
  | .pushFront v => v :: l
  | .pushBack v => l ++ [v]
  | .popFront => l.tail
  | .popBack => l.dropLast
  | .reverse => l.reverse
  | .clear => []

/-- The value an operation returns, if any. -/
def Op.result (l : List T) : Op T → Option T
  | .popFront => l.head?
  | .popBack => l.getLast?
  | _ => none

/-- How many nodes an operation allocates. -/
def Op.allocs : Op T → Nat
  | .emplace _ _ | .pushFront _ | .pushBack _ => 1
  | .insertN _ n _ => n
  | .insertRange _ vs => vs.length
  | _ => 0

/-- Running an operation on the real list, with the addresses `as` returned by the allocator.
The loop of `clear` is given `size + 1` rounds. -/
def Op.run (L : DLL T) (as : List Nat) : Op T → Option (DLL T × Option T)
  | .emplace i v => do
    let it ← L.advance L.begin i
    let r ← L.emplace it (as.headD 0) v
    some (r.1, none)
  | .insertN i _ v => do
    let it ← L.advance L.begin i
    let r ← L.insertN it v as
    some (r.1, none)
  | .insertRange i vs => do
    let it ← L.advance L.begin i
    let r ← L.insertRange it (as.zip vs)
    some (r.1, none)
  | .erase i => do
    let it ← L.advance L.begin i
    let r ← L.erase it
    some (r.1, none)
  | .pushFront v => do
    let r ← L.emplace L.begin (as.headD 0) v
    some (r.1, none)
  | .pushBack v => do
    let r ← L.emplace L.end' (as.headD 0) v
    some (r.1, none)
  | .popFront => do
    let r ← L.popFront
    some (r.1, some r.2)
  | .popBack => do
    let r ← L.popBack
    some (r.1, some r.2)
  | .reverse => some (L.reverse, none)
  | .clear => do
    let r ← L.clear (L.size + 1)
    some (r, none)

/-- The observable contents of a list object are the sequence `l`. -/
structure Observes (L : DLL T) (l : List T) : Prop where
  size : L.size = l.length
  front : L.front = l.head?
  back : L.back = l.getLast?
  forward : L.Visits L.end' L.begin l
  backward : L.VisitsBack L.begin L.end' l.reverse
  reverseOrder : L.Visits L.rend L.rbegin l.reverse

/-- The lists reachable from the empty list by allowed operations, together with the plain sequence
that saw the same operations; the allocator returns any non-null unused addresses. -/
inductive Hist : DLL T → List T → Prop
  | init : Hist DLL.empty []
  | step {L L' l o as r} : Hist L l → o.Ok l → FreshList L.heap as → as.length = o.allocs →
      Op.run L as o = some (L', r) → Hist L' (o.onList l)

/-! ### Lemmas -/

theorem reverse_reverse (L : DLL T) : L.reverse.reverse = L := rfl

theorem observes_of_rep {L : DLL T} {xs} (R : Rep L xs) : Observes L (xs.map Prod.snd) where
  size := by simp [R.size]
  front := by
    cases xs with
    | nil =>
      have := R.head
      simp only [DLL.front, List.map_nil, List.head?_nil, Option.map_eq_none_iff, this]
      exact R.owned _ (by simp)
    | cons x xs =>
      have := R.seg.1
      simp only [DLL.front, R.head, firstA_cons, this, Option.map_some]
      simp
  back := by
    rcases List.eq_nil_or_concat xs with rfl | ⟨ys, y, rfl⟩
    · have := R.tail
      simp only [DLL.back, List.map_nil, List.getLast?_nil, Option.map_eq_none_iff, this]
      exact R.owned _ (by simp)
    · rw [List.concat_eq_append] at *
      have := (seg_append.1 R.seg).2.1
      simp only [DLL.back, R.tail, lastA_append, lastA_cons, lastA_nil, this, Option.map_some]
      simp
  forward := by rw [begin_rep R]; exact visits_rep (xs := []) R
  backward := by
    rw [end_rep R, List.map_reverse.symm]
    have := visitsBack_rep (xs := xs) (ys := []) (by simpa using R)
    simpa using this
  reverseOrder := by
    have R' := reverse_rep R
    have : L.reverse.Visits L.reverse.end' (itAt [] xs.reverse) _ := visits_rep (xs := []) R'
    rw [← begin_rep R', List.map_reverse] at this
    clear R'
    have key : ∀ {s i l}, L.reverse.Visits s i l → L.Visits s i l := by
      intro s i l h
      induction h with
      | stop => exact .stop
      | step a b c _ ih => exact .step a b c ih
    exact key this

theorem advance_begin {L : DLL T} {xs : List (Nat × T)} (R : Rep L xs) {i} (hi : i ≤ xs.length) :
    L.advance L.begin i = some (itAt (xs.take i) (xs.drop i)) := by
  have := advance_rep (L := L) (xs := []) (ys := xs.take i) (zs := xs.drop i) (by simpa using R)
  rw [List.take_append_drop, ← begin_rep R, List.length_take, min_eq_left hi] at this
  simpa using this

theorem run_rep {L : DLL T} {xs : List (Nat × T)} (R : Rep L xs) (o : Op T) (ok : o.Ok (xs.map Prod.snd))
    {as} (hf : FreshList L.heap as) (hl : as.length = o.allocs) :
    ∃ L' xs', Op.run L as o = some (L', o.result (xs.map Prod.snd)) ∧ Rep L' xs' ∧
      xs'.map Prod.snd = o.onList (xs.map Prod.snd) := by
  have split : ∀ i, Rep L (xs.take i ++ xs.drop i) := fun i => by simpa using R
  have one : ∀ {as : List Nat}, FreshList L.heap as → as.length = 1 →
      as.headD 0 ≠ 0 ∧ L.heap (as.headD 0) = none := by
    intro as hf hl
    match as, hl with
    | [a], _ => exact hf.2 a (by simp)
  cases o with
  | emplace i v =>
    simp only [Op.Ok, List.length_map] at ok
    have ho := one hf hl
    obtain ⟨L', e, R'⟩ := emplace_rep (split i) ho.1 ho.2 v
    exact ⟨L', _, by simp [Op.run, advance_begin R ok, e, Op.result, -List.headD_eq_head?_getD], R', by simp [Op.onList]⟩
  | insertN i n v =>
    simp only [Op.Ok, List.length_map] at ok
    obtain ⟨L', e, R'⟩ := insertN_rep (split i) v hf
    refine ⟨L', _, by simp [Op.run, advance_begin R ok, e, Op.result], R', ?_⟩
    have : (List.map Prod.snd (List.map (fun x => (x, v)) as.reverse)) = List.replicate n v := by
      rw [List.map_map]
      simp only [Op.allocs] at hl
      rw [← hl]
      simp [Function.comp_def]
    simp only [Op.onList, List.map_append, this, List.map_take, List.map_drop, List.append_assoc]
  | insertRange i vs =>
    simp only [Op.Ok, List.length_map] at ok
    simp only [Op.allocs] at hl
    obtain ⟨L', e, R'⟩ := insertRange_rep (r := as.zip vs) (split i) (by
      rw [addrs, List.map_fst_zip (by omega)]; exact hf)
    refine ⟨L', _, by simp [Op.run, advance_begin R ok, e, Op.result], R', ?_⟩
    simp only [Op.onList, List.map_append, List.map_snd_zip (by omega : vs.length ≤ as.length),
      List.map_take, List.map_drop, List.append_assoc]
  | erase i =>
    simp only [Op.Ok, List.length_map] at ok
    have R0 := split i
    rw [List.drop_eq_getElem_cons ok] at R0
    obtain ⟨L', e, R', -⟩ := erase_rep R0
    rw [← List.drop_eq_getElem_cons ok] at e
    refine ⟨L', _, by simp [Op.run, advance_begin R ok.le, e, Op.result], R', ?_⟩
    simp [Op.onList, List.eraseIdx_eq_take_drop_succ]
  | pushFront v =>
    have ho := one hf hl
    obtain ⟨L', e, R'⟩ := emplace_rep (xs := []) R ho.1 ho.2 v
    rw [← begin_rep R] at e
    exact ⟨L', _, by simp [Op.run, e, Op.result, -List.headD_eq_head?_getD], R', by simp [Op.onList]⟩
  | pushBack v =>
    have ho := one hf hl
    obtain ⟨L', e, R'⟩ := emplace_rep (xs := xs) (ys := []) (by simpa using R) ho.1 ho.2 v
    rw [← end_rep R] at e
    exact ⟨L', _, by simp [Op.run, e, Op.result, -List.headD_eq_head?_getD], R', by simp [Op.onList]⟩
  | popFront =>
    cases xs with
    | nil => simp [Op.Ok] at ok
    | cons x xs =>
      obtain ⟨L', e, R'⟩ := popFront_rep R
      exact ⟨L', xs, by simp [Op.run, e, Op.result], R', by simp [Op.onList]⟩
  | popBack =>
    rcases List.eq_nil_or_concat xs with rfl | ⟨ys, y, rfl⟩
    · simp [Op.Ok] at ok
    · rw [List.concat_eq_append] at *
      obtain ⟨L', e, R'⟩ := popBack_rep R
      exact ⟨L', ys, by simp [Op.run, e, Op.result], R', by simp [Op.onList]⟩
  | reverse => exact ⟨_, _, rfl, reverse_rep R, by simp [Op.onList]⟩
  | clear =>
    obtain ⟨L', e, R'⟩ := clear_rep R (fuel := L.size + 1) (by rw [R.size]; omega)
    exact ⟨L', [], by simp [Op.run, e, Op.result], R', by simp [Op.onList]⟩

theorem hist_rep {L : DLL T} {l} (h : Hist L l) : ∃ xs, Rep L xs ∧ xs.map Prod.snd = l := by
  induction h with
  | init => exact ⟨[], empty_rep, rfl⟩
  | @step L L' l o as r _ ok hf hl e ih =>
    obtain ⟨xs, R, rfl⟩ := ih
    obtain ⟨L1, xs1, e1, R1, h1⟩ := run_rep R o ok hf hl
    rw [e] at e1
    obtain ⟨rfl, -⟩ := by simpa using e1
    exact ⟨xs1, R1, h1⟩

/-! ### The property -/

/-- After any history of operations the list object shows exactly the plain sequence: size, first and
last element, forward iteration, backward iteration (`--` from `end()`) and `rbegin()..rend()`. -/
theorem C23_history_is_sequence {L : DLL T} {l : List T} (h : Hist L l) : Observes L l := by
  obtain ⟨xs, R, rfl⟩ := hist_rep h
  exact observes_of_rep R

/-- In every reachable state every allowed operation runs without touching memory that is not
allocated and without failing an assertion, returns the value it would on a plain sequence, and has its effect. -/
theorem C23_operations_succeed {L : DLL T} {l : List T} (h : Hist L l) (o : Op T) (ok : o.Ok l)
    {as : List Nat} (hf : FreshList L.heap as) (hl : as.length = o.allocs) :
    ∃ L', Op.run L as o = some (L', o.result l) ∧ Observes L' (o.onList l) := by
  obtain ⟨xs, R, rfl⟩ := hist_rep h
  obtain ⟨L', xs', e, R', hx⟩ := run_rep R o ok hf hl
  exact ⟨L', e, hx ▸ observes_of_rep R'⟩

/-- The sequence of values visited by a loop is unique, so `Observes` pins the contents down. -/
theorem C23_observation_is_unique {L : DLL T} {l l' : List T} (h : Observes L l) (h' : Observes L l') : l = l' := by
  have key : ∀ {i a}, L.Visits L.end' i a → ∀ b, L.Visits L.end' i b → a = b := by
    intro i a ha
    induction ha with
    | stop =>
      intro b hb
      cases hb with
      | stop => rfl
      | step h => exact absurd rfl h
    | step h1 h2 h3 _ ih =>
      intro b hb
      cases hb with
      | stop => exact absurd rfl h1
      | step g1 g2 g3 g4 =>
        rw [h2] at g2; rw [h3] at g3
        obtain rfl := by simpa using g2
        obtain rfl := by simpa using g3
        rw [ih _ g4]
  exact key h.forward _ h'.forward

/-- No node leaks: the memory owned by a reachable list is as many nodes as it has elements, and after
`clear()` (hence after destruction) nothing is allocated. -/
theorem C23_no_leak {L : DLL T} {l : List T} (h : Hist L l) :
    (∃ as : List Nat, as.Nodup ∧ as.length = l.length ∧ ∀ a, L.heap a ≠ none ↔ a ∈ as) ∧
      ∃ L', L.clear (L.size + 1) = some L' ∧ (∀ a, L'.heap a = none) ∧ Observes L' [] := by
  obtain ⟨xs, R, rfl⟩ := hist_rep h
  refine ⟨⟨addrs xs, R.nodup, by simp [addrs], fun a => ⟨?_, ?_⟩⟩, ?_⟩
  · intro hn
    by_contra hc
    exact hn (R.owned a hc)
  · intro ha
    obtain ⟨x, hx, rfl⟩ := List.mem_map.1 ha
    obtain ⟨s, t, e⟩ := List.append_of_mem hx
    have := R.seg
    rw [e, seg_append] at this
    rw [this.2.1]; simp
  · obtain ⟨L', e, R'⟩ := clear_rep R (fuel := L.size + 1) (by rw [R.size]; omega)
    exact ⟨L', e, fun a => R'.owned a (by simp), observes_of_rep R'⟩

/-- The iterator returned by `emplace` denotes the new element, the one returned by `erase` the element
after the erased one: iterating from them visits the rest of the sequence. -/
theorem C23_returned_iterators {L : DLL T} {l : List T} (h : Hist L l) {i : Nat} (hi : i ≤ l.length) :
    ∃ it, L.advance L.begin i = some it ∧ L.Visits L.end' it (l.drop i) ∧
      (∀ a v, a ≠ 0 → L.heap a = none → ∃ L' it', L.emplace it a v = some (L', it') ∧
        L'.Visits L'.end' it' (v :: l.drop i)) ∧
      (i < l.length → ∃ L' it', L.erase it = some (L', it') ∧ L'.Visits L'.end' it' (l.drop (i + 1))) := by
  obtain ⟨xs, R, rfl⟩ := hist_rep h
  have hi' : i ≤ xs.length := by simpa using hi
  have R0 : Rep L (xs.take i ++ xs.drop i) := by simpa using R
  refine ⟨_, advance_begin R hi', ?_, ?_, ?_⟩
  · simpa [List.map_drop] using visits_rep R0
  · intro a v ha hf
    obtain ⟨L', e, R'⟩ := emplace_rep R0 ha hf v
    refine ⟨L', _, e, ?_⟩
    simpa [List.map_drop] using visits_rep R'
  · intro hlt
    have hlt' : i < xs.length := by simpa using hlt
    have R1 := R0
    rw [List.drop_eq_getElem_cons hlt'] at R1
    obtain ⟨L', e, R', -⟩ := erase_rep R1
    rw [← List.drop_eq_getElem_cons hlt'] at e
    refine ⟨L', _, e, ?_⟩
    simpa [List.map_drop] using visits_rep R'

/-- Popping an empty list fails the assertion, in any reachable state. -/
theorem C23_pop_empty {L : DLL T} (h : Hist L []) : L.popFront = none ∧ L.popBack = none := by
  obtain ⟨xs, R, hx⟩ := hist_rep h
  obtain rfl : xs = [] := by simpa using hx
  exact pop_empty R

/-! ### Iterator stability: an iterator survives an insertion elsewhere, but — unlike for `std::list` —
not an insertion directly in front of the element it points to. -/

/-- An iterator whose position is not the insertion point still denotes the same element with the same
elements behind it (with the inserted element in place). -/
theorem C23_iterator_stable {L : DLL T} {l : List T} (h : Hist L l) {i j : Nat} (hij : i < j) (hj : j ≤ l.length)
    {a : Nat} {v : T} (ha : a ≠ 0) (hf : L.heap a = none) :
    ∃ iti itj L' r, L.advance L.begin i = some iti ∧ L.advance L.begin j = some itj ∧
      L.emplace itj a v = some (L', r) ∧
      L'.Visits L'.end' iti ((l.take j).drop i ++ v :: l.drop j) := by
  obtain ⟨xs, R, rfl⟩ := hist_rep h
  simp only [List.length_map] at hj
  have R0 : Rep L (xs.take j ++ xs.drop j) := by simpa using R
  obtain ⟨L', e, R'⟩ := emplace_rep R0 ha hf v
  refine ⟨_, _, L', _, advance_begin R (by omega), advance_begin R hj, e, ?_⟩
  have e1 : xs.take j = xs.take i ++ (xs.take j).drop i := by
    conv_lhs => rw [← List.take_append_drop i (xs.take j), List.take_take, min_eq_left hij.le]
  have R2 : Rep L' (xs.take i ++ ((xs.take j).drop i ++ (a, v) :: xs.drop j)) := by
    rw [← List.append_assoc, ← e1]; exact R'
  have V := visits_rep R2
  have hne : (xs.take j).drop i ≠ [] := by
    intro hc
    have := congrArg List.length hc
    simp at this
    omega
  have hit : itAt (xs.take i) (xs.drop i) = itAt (xs.take i) ((xs.take j).drop i ++ (a, v) :: xs.drop j) := by
    have e2 : xs.drop i = (xs.take j).drop i ++ xs.drop j := by
      conv_lhs => rw [← List.take_append_drop j xs]
      rw [List.drop_append]
      congr 1
      rw [List.length_take, min_eq_left hj, Nat.sub_eq_zero_of_le hij.le]
      rfl
    rw [e2]
    simp only [itAt, firstA_append]
    cases hq : (xs.take j).drop i with
    | nil => exact absurd hq hne
    | cons y ys => rfl
  rw [hit]
  simpa [List.map_drop, List.map_take] using V

/-- An iterator at the insertion point is broken by the insertion: on the list `[x]`, inserting `v` before `x`
leaves the old `begin()` (which points to `x`) such that a loop from it to `end()` reads memory that is not
allocated. -/
theorem C23_iterator_at_insertion_point_breaks (x v : T) :
    ∃ (L L' : DLL T) (r i₁ i₂ : It), Hist L [x] ∧ L.emplace L.begin 7 v = some (L', r) ∧
      L'.deref L.begin = some x ∧ L.begin ≠ L'.end' ∧ L'.next L.begin = some i₁ ∧ i₁ ≠ L'.end' ∧
      L'.next i₁ = some i₂ ∧ i₂ ≠ L'.end' ∧ L'.deref i₂ = none := by
  have H : Hist (T := T) ⟨DLL.empty.heap.set 4 (some ⟨0, x⟩), 4, 4, 1⟩ [x] :=
    Hist.step (o := .pushBack x) (as := [4]) .init trivial ⟨by simp, by simp [DLL.empty]⟩ rfl (r := none)
      (by simp [Op.run, DLL.emplace, Heap.xorIf, DLL.end', DLL.empty])
  refine ⟨_, ⟨((DLL.empty.heap.set 4 (some ⟨0, x⟩)).set 7 (some ⟨4, v⟩)).set 4 (some ⟨7, x⟩), 7, 4, 2⟩, ⟨7, 0⟩,
    ⟨7, 4⟩, ⟨0, 7⟩, H, ?_, rfl, ?_, ?_, ?_, ?_, ?_, rfl⟩ <;>
    simp [DLL.emplace, Heap.xorIf, Heap.xorAt, DLL.begin, DLL.end', DLL.next, Heap.set]

/-! ### Witnesses -/

/-- A concrete history: push_back 1, push_back 2, push_front 3, reverse, erase position 1, insert range. -/
example : ∃ L : DLL Nat, Hist L [2, 8, 9, 3] := by
  have h1 : Hist (T := Nat) _ _ := Hist.step (o := .pushBack 1) (as := [4]) .init trivial ⟨by simp, by simp [DLL.empty]⟩ rfl rfl
  have fr : ∀ {L : DLL Nat} {l}, Hist L l → ∀ n, ∃ as, FreshList L.heap as ∧ as.length = n := by
    intro L l h n
    obtain ⟨⟨bs, -, -, hb⟩, -⟩ := C23_no_leak h
    refine ⟨(List.range n).map (· + (bs.sum + 1)), ⟨?_, ?_⟩, by simp⟩
    · exact List.Nodup.map (fun a b h => by simpa using h) List.nodup_range
    · intro a ha
      obtain ⟨k, -, rfl⟩ := List.mem_map.1 ha
      refine ⟨by simp, ?_⟩
      by_contra hc
      have := List.single_le_sum (fun _ _ => Nat.zero_le _) _ ((hb _).1 hc)
      omega
  have go : ∀ {L : DLL Nat} {l}, Hist L l → ∀ o : Op Nat, o.Ok l → ∃ L', Hist L' (o.onList l) := by
    intro L l h o ok
    obtain ⟨as, hf, hl⟩ := fr h o.allocs
    obtain ⟨L', e, -⟩ := C23_operations_succeed h o ok hf hl
    exact ⟨L', .step h ok hf hl e⟩
  obtain ⟨L2, h2⟩ := go h1 (.pushBack 2) trivial
  obtain ⟨L3, h3⟩ := go h2 (.pushFront 3) trivial
  obtain ⟨L4, h4⟩ := go h3 .reverse trivial
  obtain ⟨L5, h5⟩ := go h4 (.erase 1) (by simp [Op.Ok, Op.onList])
  obtain ⟨L6, h6⟩ := go h5 (.insertRange 1 [8, 9]) (by simp [Op.Ok, Op.onList])
  exact ⟨L6, h6⟩

end Mutable.XorList
