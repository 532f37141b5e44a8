import Verif.XorList.Model
import Mathlib.Data.List.Induction
/-! The representation invariant of the XOR-linked list. -/
namespace Mutable.XorList
universe u
variable {T : Type u}

/-- Address of the first node of `xs`, or `n` if there is none. -/
def firstA (n : Nat) : List (Nat × T) → Nat
  | [] => n
  | x :: _ => x.1

/-- Address of the last node of `xs`, or `p` if there is none. -/
def lastA (p : Nat) : List (Nat × T) → Nat
  | [] => p
  | x :: xs => lastA x.1 xs

/-- `xs` is stored in the heap as a linked segment between `p` and `n`. -/
def Seg (h : Heap T) : Nat → List (Nat × T) → Nat → Prop
  | _, [], _ => True
  | p, x :: xs, n => h x.1 = some ⟨p ^^^ firstA n xs, x.2⟩ ∧ Seg h x.1 xs n

def addrs (xs : List (Nat × T)) : List Nat := xs.map Prod.fst

/-- The list object represents the sequence of nodes `xs`. -/
structure Rep (L : DLL T) (xs : List (Nat × T)) : Prop where
  nodup : (addrs xs).Nodup
  nonnull : 0 ∉ addrs xs
  seg : Seg L.heap 0 xs 0
  owned : ∀ a, a ∉ addrs xs → L.heap a = none
  head : L.head = firstA 0 xs
  tail : L.tail = lastA 0 xs
  size : L.size = xs.length

/-- The iterator between the nodes `xs` and `ys`. -/
def itAt (xs ys : List (Nat × T)) : It := ⟨firstA 0 ys, lastA 0 xs⟩

@[simp] theorem firstA_append (n) (xs ys : List (Nat × T)) :
    firstA n (xs ++ ys) = firstA (firstA n ys) xs := by cases xs <;> rfl

@[simp] theorem lastA_append (p) (xs ys : List (Nat × T)) :
    lastA p (xs ++ ys) = lastA (lastA p xs) ys := by
  induction xs generalizing p with
  | nil => rfl
  | cons x xs ih => simpa [lastA] using ih x.1

@[simp] theorem firstA_cons (n) (x : Nat × T) (xs) : firstA n (x :: xs) = x.1 := rfl
@[simp] theorem firstA_nil (n) : firstA n ([] : List (Nat × T)) = n := rfl
@[simp] theorem lastA_nil (n) : lastA n ([] : List (Nat × T)) = n := rfl
@[simp] theorem lastA_cons (n) (x : Nat × T) (xs) : lastA n (x :: xs) = lastA x.1 xs := rfl

theorem lastA_reverse (n) (xs : List (Nat × T)) : lastA n xs.reverse = firstA n xs := by
  cases xs <;> simp

theorem firstA_reverse (n) (xs : List (Nat × T)) : firstA n xs.reverse = lastA n xs := by
  rw [← lastA_reverse, List.reverse_reverse]

theorem seg_append {h : Heap T} {p n} {xs ys : List (Nat × T)} :
    Seg h p (xs ++ ys) n ↔ Seg h p xs (firstA n ys) ∧ Seg h (lastA p xs) ys n := by
  induction xs generalizing p with
  | nil => simp [Seg]
  | cons x xs ih => simp [Seg, ih, and_assoc]

theorem seg_reverse {h : Heap T} {p n} {xs : List (Nat × T)} (H : Seg h p xs n) :
    Seg h n xs.reverse p := by
  induction xs generalizing p with
  | nil => simp [Seg]
  | cons x xs ih =>
    simp only [List.reverse_cons, seg_append, firstA_cons, Seg, lastA_reverse, firstA_nil, and_true]
    refine ⟨ih H.2, ?_⟩
    rw [H.1, Nat.xor_comm]

theorem seg_frame {h h' : Heap T} {p n} {xs : List (Nat × T)} (H : Seg h p xs n)
    (e : ∀ a ∈ addrs xs, h' a = h a) : Seg h' p xs n := by
  induction xs generalizing p with
  | nil => trivial
  | cons x xs ih =>
    refine ⟨?_, ih H.2 fun a ha => e a (by simp only [addrs, List.map_cons, List.mem_cons]; exact Or.inr ha)⟩
    rw [e x.1 (by simp [addrs]), H.1]

theorem addrs_append (xs ys : List (Nat × T)) : addrs (xs ++ ys) = addrs xs ++ addrs ys := by simp [addrs]
@[simp] theorem addrs_cons (x : Nat × T) (ys : List (Nat × T)) : addrs (x :: ys) = x.1 :: addrs ys := rfl
@[simp] theorem addrs_nil : addrs ([] : List (Nat × T)) = [] := rfl

theorem xor_cancel (p n a : Nat) : p ^^^ n ^^^ (n ^^^ a) = p ^^^ a := by
  rw [← Nat.xor_assoc (p ^^^ n), Nat.xor_assoc p n n, Nat.xor_self, Nat.xor_zero]

theorem firstA_eq_zero {ys : List (Nat × T)} (h : 0 ∉ addrs ys) : firstA 0 ys = 0 ↔ ys = [] := by
  cases ys with
  | nil => simp
  | cons x xs => simp only [addrs_cons, List.mem_cons, not_or] at h; simp; omega

theorem lastA_mem {p} {xs : List (Nat × T)} (h : xs ≠ []) : lastA p xs ∈ addrs xs := by
  induction xs generalizing p with
  | nil => exact absurd rfl h
  | cons x xs ih =>
    by_cases e : xs = []
    · subst e; simp
    · simp [ih (p := x.1) e]

theorem lastA_eq_zero {ys : List (Nat × T)} (h : 0 ∉ addrs ys) : lastA 0 ys = 0 ↔ ys = [] := by
  constructor
  · intro e
    by_contra hn
    exact h (e ▸ lastA_mem hn)
  · rintro rfl; rfl

/-- Relinking the last node of a segment. -/
theorem relink_last {h : Heap T} {p n n'} {xs : List (Nat × T)} (H : Seg h p xs n) (hn : (addrs xs).Nodup)
    (hne : xs ≠ []) :
    ∃ h', h.xorAt (lastA p xs) (n ^^^ n') = some h' ∧ Seg h' p xs n' ∧ ∀ a, a ≠ lastA p xs → h' a = h a := by
  obtain ⟨xs, x, rfl⟩ := List.eq_nil_or_concat xs |>.resolve_left hne
  simp only [List.concat_eq_append] at *
  simp only [seg_append, Seg, firstA_cons, firstA_nil, and_true, lastA_append, lastA_cons, lastA_nil] at H ⊢
  refine ⟨h.set x.1 (some ⟨lastA p xs ^^^ n ^^^ (n ^^^ n'), x.2⟩), ?_, ⟨?_, ?_⟩, ?_⟩
  · simp [Heap.xorAt, H.2]
  · refine seg_frame H.1 fun a ha => ?_
    have : a ≠ x.1 := by
      rintro rfl
      simp only [addrs_append, addrs_cons, addrs_nil, List.nodup_append] at hn
      exact hn.2.2 _ ha _ (by simp) rfl
    simp [Heap.set, this]
  · simp [Heap.set, xor_cancel]
  · intro a ha; simp [Heap.set, ha]

/-- Relinking the first node of a segment. -/
theorem relink_first {h : Heap T} {p p' n} {xs : List (Nat × T)} (H : Seg h p xs n) (hn : (addrs xs).Nodup)
    (hne : xs ≠ []) :
    ∃ h', h.xorAt (firstA n xs) (p ^^^ p') = some h' ∧ Seg h' p' xs n ∧ ∀ a, a ≠ firstA n xs → h' a = h a := by
  have hn' : (addrs xs.reverse).Nodup := by simpa [addrs] using hn
  obtain ⟨h', e, s, f⟩ := relink_last (n' := p') (seg_reverse H) hn' (by simpa using hne)
  rw [lastA_reverse] at e f
  refine ⟨h', e, ?_, f⟩
  simpa using seg_reverse s

theorem Seg.get {h : Heap T} {p n} {xs : List (Nat × T)} {x} (H : Seg h p (x :: xs) n) :
    h x.1 = some ⟨p ^^^ firstA n xs, x.2⟩ := H.1

/-- `emplace` inserts a node at the iterator's position. -/
theorem emplace_rep {L : DLL T} {xs ys : List (Nat × T)} (R : Rep L (xs ++ ys)) {a : Nat} (ha : a ≠ 0)
    (hf : L.heap a = none) (v : T) :
    ∃ L', L.emplace (itAt xs ys) a v = some (L', itAt xs ((a, v) :: ys)) ∧ Rep L' (xs ++ (a, v) :: ys) := by
  have hnx : 0 ∉ addrs xs := fun h => R.nonnull (by simp [addrs_append, h])
  have hny : 0 ∉ addrs ys := fun h => R.nonnull (by simp [addrs_append, h])
  have nd := R.nodup
  rw [addrs_append, List.nodup_append] at nd
  have S := seg_append.1 R.seg
  have hmem : ∀ x ∈ xs ++ ys, ∃ n, L.heap x.1 = some n := by
    intro x hx
    obtain ⟨s, t, e⟩ := List.append_of_mem hx
    have := R.seg
    rw [e, seg_append] at this
    exact ⟨_, this.2.1⟩
  have hfr : a ∉ addrs (xs ++ ys) := by
    intro h
    obtain ⟨x, hx, rfl⟩ := List.mem_map.1 h
    obtain ⟨n, hn⟩ := hmem x hx
    simp [hn] at hf
  have hax : a ∉ addrs xs := fun h => hfr (by simp [addrs_append, h])
  have hay : a ∉ addrs ys := fun h => hfr (by simp [addrs_append, h])
  -- first step
  set h0 := L.heap.set a (some ⟨lastA 0 xs ^^^ firstA 0 ys, v⟩) with hh0
  have f0 : ∀ b, b ≠ a → h0 b = L.heap b := fun b hb => by simp [hh0, Heap.set, hb]
  have h0a : h0 a = some ⟨lastA 0 xs ^^^ firstA 0 ys, v⟩ := by simp [hh0, Heap.set]
  have S1 : Seg h0 0 xs (firstA 0 ys) := seg_frame S.1 fun b hb => f0 b (by rintro rfl; exact hax hb)
  have S2 : Seg h0 (lastA 0 xs) ys 0 := seg_frame S.2 fun b hb => f0 b (by rintro rfl; exact hay hb)
  -- second step
  have st1 : ∃ h1, h0.xorIf (lastA 0 xs) (firstA 0 ys ^^^ a) = some h1 ∧
      Seg h1 0 xs a ∧ ∀ b, b ∉ addrs xs → h1 b = h0 b := by
    by_cases e : xs = []
    · subst e; exact ⟨h0, by simp [Heap.xorIf], trivial, fun _ _ => rfl⟩
    · have : lastA 0 xs ≠ 0 := by rwa [Ne, lastA_eq_zero hnx]
      obtain ⟨h1, a1, a2, a3⟩ := relink_last (n' := a) S1 nd.1 e
      refine ⟨h1, by rw [Heap.xorIf, if_pos this, a1], a2, fun b hb => a3 b ?_⟩
      rintro rfl
      exact hb (lastA_mem e)
  obtain ⟨h1, e1, S1', f1⟩ := st1
  have S2' : Seg h1 (lastA 0 xs) ys 0 := seg_frame S2 fun b hb => f1 b fun h => nd.2.2 b h b hb rfl
  have st2 : ∃ h2, h1.xorIf (firstA 0 ys) (lastA 0 xs ^^^ a) = some h2 ∧
      Seg h2 a ys 0 ∧ ∀ b, b ∉ addrs ys → h2 b = h1 b := by
    by_cases e : ys = []
    · subst e; exact ⟨h1, by simp [Heap.xorIf], trivial, fun _ _ => rfl⟩
    · have : firstA 0 ys ≠ 0 := by rwa [Ne, firstA_eq_zero hny]
      obtain ⟨h2, a1, a2, a3⟩ := relink_first (p' := a) S2' nd.2.1 e
      refine ⟨h2, by rw [Heap.xorIf, if_pos this, a1], a2, fun b hb => a3 b ?_⟩
      rintro rfl
      rw [← firstA_reverse] at *
      cases ys with
      | nil => exact e rfl
      | cons y ys => simp at hb
  obtain ⟨h2, e2, S2'', f2⟩ := st2
  have S1'' : Seg h2 0 xs a := seg_frame S1' fun b hb => f2 b fun h => nd.2.2 b hb b h rfl
  have hA : h2 a = some ⟨lastA 0 xs ^^^ firstA 0 ys, v⟩ := by rw [f2 a hay, f1 a hax, h0a]
  refine ⟨⟨h2, if lastA 0 xs ≠ 0 then L.head else a, if firstA 0 ys ≠ 0 then L.tail else a, L.size + 1⟩, ?_, ?_⟩
  · simp only [DLL.emplace, itAt, firstA_cons, Option.bind_eq_bind]
    rw [← hh0, e1]
    simp only [Option.bind_some]
    rw [e2]
    rfl
  · refine ⟨?_, ?_, ?_, ?_, ?_, ?_, ?_⟩
    · simp only [addrs_append, addrs_cons]
      rw [List.nodup_append]
      refine ⟨nd.1, List.nodup_cons.2 ⟨hay, nd.2.1⟩, ?_⟩
      intro b hb c hc e
      subst e
      rcases List.mem_cons.1 hc with rfl | hc
      · exact hax hb
      · exact nd.2.2 b hb b hc rfl
    · simp only [addrs_append, addrs_cons, List.mem_append, List.mem_cons, not_or]
      exact ⟨hnx, by omega, hny⟩
    · rw [seg_append]
      exact ⟨S1'', hA, S2''⟩
    · intro b hb
      simp only [addrs_append, addrs_cons, List.mem_append, List.mem_cons, not_or] at hb
      show h2 b = none
      rw [f2 b hb.2.2, f1 b hb.1, f0 b hb.2.1, R.owned b (by simp [addrs_append, hb.1, hb.2.2])]
    · simp only [firstA_append, firstA_cons]
      by_cases e : xs = []
      · subst e; simp
      · have : lastA 0 xs ≠ 0 := by rwa [Ne, lastA_eq_zero hnx]
        rw [if_pos this, R.head]
        cases xs with
        | nil => exact absurd rfl e
        | cons x xs => rfl
    · simp only [lastA_append, lastA_cons]
      by_cases e : ys = []
      · subst e; simp
      · have : firstA 0 ys ≠ 0 := by rwa [Ne, firstA_eq_zero hny]
        rw [if_pos this, R.tail]
        cases ys with
        | nil => exact absurd rfl e
        | cons x xs => simp
    · simp [R.size]; omega

/-- `erase` removes the node the iterator points to. -/
theorem erase_rep {L : DLL T} {xs ys : List (Nat × T)} {x : Nat × T} (R : Rep L (xs ++ x :: ys)) :
    ∃ L', L.erase (itAt xs (x :: ys)) = some (L', itAt xs ys) ∧ Rep L' (xs ++ ys) ∧ L'.heap x.1 = none := by
  obtain ⟨a, v⟩ := x
  have hnx : 0 ∉ addrs xs := fun h => R.nonnull (by simp [addrs_append, h])
  have hny : 0 ∉ addrs ys := fun h => R.nonnull (by simp [addrs_append, h])
  have nd := R.nodup
  rw [addrs_append, List.nodup_append, addrs_cons, List.nodup_cons] at nd
  obtain ⟨nx, ⟨hay, ny⟩, nxy⟩ := nd
  have hax : a ∉ addrs xs := fun h => nxy a h a (by simp) rfl
  have S := seg_append.1 R.seg
  obtain ⟨S1, hA, S2⟩ := S
  simp only [firstA_cons] at S1
  dsimp only at hA
  have hnext : lastA 0 xs ^^^ firstA 0 ys ^^^ lastA 0 xs = firstA 0 ys := by
    rw [Nat.xor_comm, ← Nat.xor_assoc, Nat.xor_self, Nat.zero_xor]
  have st1 : ∃ h1, L.heap.xorIf (lastA 0 xs) (a ^^^ firstA 0 ys) = some h1 ∧
      Seg h1 0 xs (firstA 0 ys) ∧ ∀ b, b ∉ addrs xs → h1 b = L.heap b := by
    by_cases e : xs = []
    · subst e; exact ⟨L.heap, by simp [Heap.xorIf], trivial, fun _ _ => rfl⟩
    · have : lastA 0 xs ≠ 0 := by rwa [Ne, lastA_eq_zero hnx]
      obtain ⟨h1, a1, a2, a3⟩ := relink_last (n' := firstA 0 ys) S1 nx e
      refine ⟨h1, by rw [Heap.xorIf, if_pos this, a1], a2, fun b hb => a3 b ?_⟩
      rintro rfl
      exact hb (lastA_mem e)
  obtain ⟨h1, e1, S1', f1⟩ := st1
  have S2' : Seg h1 a ys 0 := seg_frame S2 fun b hb => f1 b fun h => nxy b h b (by simp [hb]) rfl
  have st2 : ∃ h2, h1.xorIf (firstA 0 ys) (a ^^^ lastA 0 xs) = some h2 ∧
      Seg h2 (lastA 0 xs) ys 0 ∧ ∀ b, b ∉ addrs ys → h2 b = h1 b := by
    by_cases e : ys = []
    · subst e; exact ⟨h1, by simp [Heap.xorIf], trivial, fun _ _ => rfl⟩
    · have : firstA 0 ys ≠ 0 := by rwa [Ne, firstA_eq_zero hny]
      obtain ⟨h2, a1, a2, a3⟩ := relink_first (p' := lastA 0 xs) S2' ny e
      refine ⟨h2, by rw [Heap.xorIf, if_pos this, a1], a2, fun b hb => a3 b ?_⟩
      rintro rfl
      cases ys with
      | nil => exact e rfl
      | cons y ys => simp at hb
  obtain ⟨h2, e2, S2'', f2⟩ := st2
  have S1'' : Seg h2 0 xs (firstA 0 ys) := seg_frame S1' fun b hb => f2 b fun h => nxy b hb b (by simp [h]) rfl
  refine ⟨⟨h2.set a none, if lastA 0 xs ≠ 0 then L.head else firstA 0 ys,
    if firstA 0 ys ≠ 0 then L.tail else lastA 0 xs, L.size - 1⟩, ?_, ⟨?_, ?_, ?_, ?_, ?_, ?_, ?_⟩, ?_⟩
  · simp only [DLL.erase, itAt, firstA_cons, Option.bind_eq_bind, hA, Option.bind_some, hnext]
    rw [e1]
    simp only [Option.bind_some]
    rw [e2]
    rfl
  · rw [addrs_append, List.nodup_append]
    exact ⟨nx, ny, fun b hb c hc => nxy b hb c (by simp [hc])⟩
  · simp [addrs_append, hnx, hny]
  · rw [seg_append]
    refine ⟨seg_frame S1'' fun b hb => ?_, seg_frame S2'' fun b hb => ?_⟩
    · have : b ≠ a := by rintro rfl; exact hax hb
      simp [Heap.set, this]
    · have : b ≠ a := by rintro rfl; exact hay hb
      simp [Heap.set, this]
  · intro b hb
    simp only [addrs_append, List.mem_append, not_or] at hb
    by_cases e : b = a
    · subst e; simp [Heap.set]
    · simp only [Heap.set, if_neg e]
      rw [f2 b hb.2, f1 b hb.1, R.owned b (by simp [addrs_append, hb.1, hb.2, e])]
  · simp only [firstA_append]
    by_cases e : xs = []
    · subst e; simp
    · have : lastA 0 xs ≠ 0 := by rwa [Ne, lastA_eq_zero hnx]
      rw [if_pos this, R.head]
      cases xs with
      | nil => exact absurd rfl e
      | cons x xs => rfl
  · simp only [lastA_append]
    by_cases e : ys = []
    · subst e; simp
    · have : firstA 0 ys ≠ 0 := by rwa [Ne, firstA_eq_zero hny]
      rw [if_pos this, R.tail]
      cases ys with
      | nil => exact absurd rfl e
      | cons x xs => simp
  · simp [R.size]
  · simp [Heap.set]

theorem reverse_rep {L : DLL T} {xs : List (Nat × T)} (R : Rep L xs) : Rep L.reverse xs.reverse where
  nodup := by simpa [addrs] using R.nodup
  nonnull := by simpa [addrs] using R.nonnull
  seg := seg_reverse R.seg
  owned a ha := R.owned a (by simpa [addrs] using ha)
  head := by rw [firstA_reverse]; exact R.tail
  tail := by rw [lastA_reverse]; exact R.head
  size := by rw [List.length_reverse]; exact R.size

theorem empty_rep : Rep (DLL.empty : DLL T) [] where
  nodup := by simp
  nonnull := by simp
  seg := trivial
  owned _ _ := rfl
  head := rfl
  tail := rfl
  size := rfl

theorem begin_rep {L : DLL T} {xs} (R : Rep L xs) : L.begin = itAt [] xs := by
  simp [DLL.begin, itAt, R.head]

theorem end_rep {L : DLL T} {xs} (R : Rep L xs) : L.end' = itAt xs [] := by
  simp [DLL.end', itAt, R.tail]

theorem next_rep {L : DLL T} {xs ys x} (R : Rep L (xs ++ x :: ys)) :
    L.next (itAt xs (x :: ys)) = some (itAt (xs ++ [x]) ys) := by
  have S := (seg_append.1 R.seg).2.1
  simp only [DLL.next, itAt, firstA_cons, S, lastA_append, lastA_cons, lastA_nil]
  rw [← Nat.xor_assoc, Nat.xor_self, Nat.zero_xor]

theorem pred_rep {L : DLL T} {xs ys x} (R : Rep L (xs ++ x :: ys)) :
    L.pred (itAt (xs ++ [x]) ys) = some (itAt xs (x :: ys)) := by
  have S := (seg_append.1 R.seg).2.1
  simp only [DLL.pred, itAt, firstA_cons, S, lastA_append, lastA_cons, lastA_nil]
  rw [Nat.xor_assoc, Nat.xor_self, Nat.xor_zero]

theorem deref_rep {L : DLL T} {xs ys x} (R : Rep L (xs ++ x :: ys)) :
    L.deref (itAt xs (x :: ys)) = some x.2 := by
  have S := (seg_append.1 R.seg).2.1
  simp [DLL.deref, itAt, S]

theorem itAt_ne_end {L : DLL T} {xs ys x} (R : Rep L (xs ++ x :: ys)) :
    itAt xs (x :: ys) ≠ L.end' := by
  intro h
  have : x.1 = 0 := congrArg It.node h
  exact R.nonnull (by simp [addrs_append, ← this])

theorem itAt_ne_begin {L : DLL T} {xs ys x} (R : Rep L (xs ++ x :: ys)) :
    itAt (xs ++ [x]) ys ≠ L.begin := by
  intro h
  have : x.1 = 0 := by simpa [itAt, DLL.begin] using congrArg It.prev h
  exact R.nonnull (by simp [addrs_append, ← this])

theorem popFront_rep {L : DLL T} {x : Nat × T} {xs} (R : Rep L (x :: xs)) :
    ∃ L', L.popFront = some (L', x.2) ∧ Rep L' xs := by
  obtain ⟨L', e, R', -⟩ := erase_rep (xs := []) R
  have e0 : L.head ≠ 0 := by
    rw [R.head, Ne, firstA_eq_zero R.nonnull]; simp
  have e1 : L.tail ≠ 0 := by
    rw [R.tail, Ne, lastA_eq_zero R.nonnull]; simp
  have e2 : L.size ≠ 0 := by rw [R.size]; simp
  have ef : L.front = some x.2 := by
    have := R.seg.1
    simp only [DLL.front, R.head, firstA_cons, this, Option.map_some]
  refine ⟨L', ?_, R'⟩
  rw [← begin_rep R] at e
  simp [DLL.popFront, e0, e1, e2, ef, e]

theorem popBack_rep {L : DLL T} {x : Nat × T} {xs} (R : Rep L (xs ++ [x])) :
    ∃ L', L.popBack = some (L', x.2) ∧ Rep L' xs := by
  have := reverse_rep R
  rw [List.reverse_append] at this
  obtain ⟨L', e, R'⟩ := popFront_rep this
  refine ⟨L'.reverse, by simp [DLL.popBack, e], ?_⟩
  simpa using reverse_rep R'

theorem pop_empty {L : DLL T} (R : Rep L []) : L.popFront = none ∧ L.popBack = none := by
  have h := R.head
  have t := R.tail
  simp at h t
  constructor <;> simp [DLL.popFront, DLL.popBack, h, t, DLL.reverse]

theorem clear_rep {L : DLL T} {xs} (R : Rep L xs) {fuel} (hf : xs.length < fuel) :
    ∃ L', L.clear fuel = some L' ∧ Rep L' [] := by
  induction fuel generalizing L xs with
  | zero => omega
  | succ fuel ih =>
    cases xs with
    | nil =>
      have h := R.head
      have t := R.size
      simp at h t
      exact ⟨L, by simp [DLL.clear, h, t], R⟩
    | cons x xs =>
      have e0 : L.head ≠ 0 := by
        rw [R.head, Ne, firstA_eq_zero R.nonnull]; simp
      obtain ⟨L1, e, R1⟩ := popFront_rep R
      obtain ⟨L', e', R'⟩ := ih R1 (by simp at hf; omega)
      exact ⟨L', by simp [DLL.clear, e0, e, e'], R'⟩

/-- The addresses handed out by the allocator: non-null, unused and distinct. -/
def FreshList (h : Heap T) (as : List Nat) : Prop := as.Nodup ∧ ∀ a ∈ as, a ≠ 0 ∧ h a = none

theorem fresh_after {L L' : DLL T} {xs ys : List (Nat × T)} {a v} {as : List Nat} (R : Rep L (xs ++ ys))
    (R' : Rep L' (xs ++ (a, v) :: ys)) (hf : FreshList L.heap (a :: as)) : FreshList L'.heap as := by
  refine ⟨(List.nodup_cons.1 hf.1).2, fun b hb => ⟨(hf.2 b (by simp [hb])).1, R'.owned b ?_⟩⟩
  have h1 := (hf.2 b (by simp [hb])).2
  have h2 : b ≠ a := by rintro rfl; exact (List.nodup_cons.1 hf.1).1 hb
  have h3 : b ∉ addrs (xs ++ ys) := by
    intro h
    obtain ⟨x, hx, rfl⟩ := List.mem_map.1 h
    obtain ⟨s, t, e⟩ := List.append_of_mem hx
    have := R.seg
    rw [e, seg_append] at this
    rw [this.2.1] at h1
    simp at h1
  simp only [addrs_append, addrs_cons, List.mem_append, List.mem_cons, not_or] at h3 ⊢
  exact ⟨h3.1, h2, h3.2⟩

theorem insertN_rep {L : DLL T} {xs ys : List (Nat × T)} (R : Rep L (xs ++ ys)) (v : T) {as : List Nat}
    (hf : FreshList L.heap as) :
    ∃ L', L.insertN (itAt xs ys) v as = some (L', itAt xs (as.reverse.map (·, v) ++ ys)) ∧
      Rep L' (xs ++ (as.reverse.map (·, v) ++ ys)) := by
  induction as generalizing L ys with
  | nil => exact ⟨L, rfl, R⟩
  | cons a as ih =>
    obtain ⟨L1, e1, R1⟩ := emplace_rep R (hf.2 a (by simp)).1 (hf.2 a (by simp)).2 v
    obtain ⟨L2, e2, R2⟩ := ih R1 (fresh_after R R1 hf)
    refine ⟨L2, ?_, ?_⟩
    · simp [DLL.insertN, e1, e2]
    · simpa using R2

theorem insertLoop_rep {L : DLL T} {xs ys r : List (Nat × T)} {x} (R : Rep L (xs ++ x :: ys))
    (hf : FreshList L.heap (addrs r)) :
    ∃ L' i, L.insertLoop (itAt xs (x :: ys)) r = some (L', i) ∧ Rep L' (xs ++ x :: (r ++ ys)) := by
  induction r generalizing L xs x with
  | nil => exact ⟨L, _, rfl, R⟩
  | cons y r ih =>
    obtain ⟨a, v⟩ := y
    have R0 : Rep L ((xs ++ [x]) ++ ys) := by simpa using R
    obtain ⟨L1, e1, R1⟩ := emplace_rep R0 (hf.2 a (by simp)).1 (hf.2 a (by simp)).2 v
    obtain ⟨L2, i, e2, R2⟩ := ih R1 (fresh_after R0 R1 (by simpa using hf))
    refine ⟨L2, i, ?_, ?_⟩
    · simp [DLL.insertLoop, next_rep R, e1, e2]
    · simpa using R2

theorem insertRange_rep {L : DLL T} {xs ys r : List (Nat × T)} (R : Rep L (xs ++ ys))
    (hf : FreshList L.heap (addrs r)) :
    ∃ L', L.insertRange (itAt xs ys) r = some (L', itAt xs (r ++ ys)) ∧ Rep L' (xs ++ (r ++ ys)) := by
  cases r with
  | nil => exact ⟨L, rfl, R⟩
  | cons y r =>
    obtain ⟨a, v⟩ := y
    have ha := hf.2 a (by simp)
    obtain ⟨L1, e1, R1⟩ := emplace_rep R ha.1 ha.2 v
    obtain ⟨L2, i, e2, R2⟩ := insertLoop_rep (r := r) R1 (fresh_after R R1 (by simpa using hf))
    refine ⟨L2, ?_, R2⟩
    have : ¬ (itAt xs ((a, v) :: ys) = L1.end' ∨ (itAt xs ((a, v) :: ys)).node = 0) := by
      rintro (h | h)
      · exact itAt_ne_end R1 h
      · exact ha.1 h
    simp only [DLL.insertRange, e1, if_neg this, e2]
    rfl

theorem advance_rep {L : DLL T} {xs ys zs : List (Nat × T)} (R : Rep L (xs ++ (ys ++ zs))) :
    L.advance (itAt xs (ys ++ zs)) ys.length = some (itAt (xs ++ ys) zs) := by
  induction ys generalizing xs with
  | nil => simp [DLL.advance]
  | cons y ys ih =>
    have := ih (xs := xs ++ [y]) (by simpa using R)
    have e : L.next (itAt xs (y :: (ys ++ zs))) = some (itAt (xs ++ [y]) (ys ++ zs)) := next_rep R
    simp only [List.length_cons, DLL.advance, List.cons_append, e]
    simpa using this

theorem visits_rep {L : DLL T} {xs ys : List (Nat × T)} (R : Rep L (xs ++ ys)) :
    L.Visits L.end' (itAt xs ys) (ys.map Prod.snd) := by
  induction ys generalizing xs with
  | nil => rw [end_rep (by simpa using R)]; exact .stop
  | cons y ys ih =>
    exact .step (itAt_ne_end R) (deref_rep R) (next_rep R) (ih (xs := xs ++ [y]) (by simpa using R))

theorem visitsBack_rep {L : DLL T} {xs ys : List (Nat × T)} (R : Rep L (xs ++ ys)) :
    L.VisitsBack L.begin (itAt xs ys) (xs.map Prod.snd).reverse := by
  induction xs using List.reverseRecOn generalizing ys with
  | nil => rw [begin_rep (xs := ys) (by simpa using R)]; exact .stop
  | append_singleton xs x ih =>
    have R' : Rep L (xs ++ x :: ys) := by simpa using R
    rw [List.map_append, List.reverse_append]
    exact .step (itAt_ne_begin R') (pred_rep R') (deref_rep R') (ih R')

end Mutable.XorList
