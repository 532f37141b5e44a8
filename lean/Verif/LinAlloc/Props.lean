import Verif.LinAlloc.Model
import Mathlib.Data.List.Perm.Basic
import Mathlib.Tactic.Push
/-! C26: `LinearAllocator`. -/
namespace Mutable.LinAlloc

/-! ### Histories and specification -/

/-- `live` are the (offset, size) of the `Memory` objects that have been handed out and not been destroyed. -/
inductive Hist : LA → List (Nat × Nat) → Prop
  | init {k} : Hist (LA.init (2 ^ k)) []
  | alloc {st live size m} : Hist st live → (allocate st size).2 = some m → m.1 + m.2 ≤ 2 ^ 63 →
      Hist (allocate st size).1 (m :: live)
  | dealloc {st live m st'} : Hist st live → m ∈ live → deallocate st m.1 = some st' → Hist st' (live.erase m)
  /-- clients write to their memory -/
  | write {st live file'} : Hist st live →
      (∀ a, (∀ m ∈ live, ¬ (m.1 ≤ a ∧ a < m.1 + m.2)) → file' a = st.file a) → Hist { st with file := file' } live

/-- Live memory occupies disjoint page aligned file ranges below the file size; the file ends where the last live range ends. -/
structure Safe (st : LA) (live : List (Nat × Nat)) : Prop where
  disjoint : live.Pairwise fun x y => x.1 + x.2 ≤ y.1 ∨ y.1 + y.2 ≤ x.1
  aligned : ∀ m ∈ live, st.pg ∣ m.1 ∧ st.pg ∣ m.2 ∧ 0 < m.2
  inside : ∀ m ∈ live, m.1 + m.2 ≤ st.fileSize
  empty : live = [] → st.fileSize = 0
  tight : live ≠ [] → ∃ m ∈ live, m.1 + m.2 = st.fileSize
  next : st.offset = st.fileSize

/-! ### Lemmas -/

theorem mark_eq {o} (h : o < 2 ^ 63) : mark o = o + 2 ^ 63 := Bits.or_high h
theorem isMarked_mark {o} (h : o < 2 ^ 63) : isMarked (mark o) = true := by
  unfold isMarked
  rw [mark_eq h, show MSB = 2 ^ 63 from rfl, Bits.and_high_one h]; rfl
theorem isMarked_of_lt {o} (h : o < 2 ^ 63) : isMarked o = false := by
  unfold isMarked
  rw [show MSB = 2 ^ 63 from rfl, Bits.and_high_zero h]; rfl
theorem unmarked_mark {o} (h : o < 2 ^ 63) : unmarked (mark o) = o := by
  unfold unmarked
  rw [mark_eq h, Bits.and_mask, Nat.add_mod_right, Nat.mod_eq_of_lt h]

/-- An entry of the allocation stack: offset, size, and whether it is live. -/
structure Entry where
  off : Nat
  len : Nat
  live : Bool

def Entry.word (e : Entry) : Nat := if e.live then e.off else mark e.off

/-- The entries are contiguous, the newest ends at `top`, the oldest starts at 0. -/
def Stack : List Entry → Nat → Prop
  | [], top => top = 0
  | e :: t, top => e.off + e.len = top ∧ Stack t e.off

def liveOf (es : List Entry) : List (Nat × Nat) := (es.filter (·.live)).map fun e => (e.off, e.len)

structure Inv (st : LA) (live : List (Nat × Nat)) (es : List Entry) : Prop where
  pg : ∃ k, st.pg = 2 ^ k
  allocs : st.allocs = es.map Entry.word
  stack : Stack es st.offset
  size : st.fileSize = st.offset
  bound : st.offset ≤ 2 ^ 63
  al : ∀ e ∈ es, st.pg ∣ e.off ∧ st.pg ∣ e.len ∧ 0 < e.len
  top : ∀ e ∈ es.head?, e.live = true
  live : live.Perm (liveOf es)

theorem stack_le {es top} (h : Stack es top) : ∀ e ∈ es, e.off + e.len ≤ top := by
  induction es generalizing top with
  | nil => simp
  | cons x t ih =>
    intro e he
    rcases List.mem_cons.1 he with rfl | he
    · exact h.1.le
    · have := ih h.2 e he; have := h.1; omega

theorem stack_pairwise {es top} (h : Stack es top) : es.Pairwise fun x y => y.off + y.len ≤ x.off := by
  induction es generalizing top with
  | nil => exact .nil
  | cons x t ih => exact List.pairwise_cons.2 ⟨fun e he => stack_le h.2 e he, ih h.2⟩

theorem mem_liveOf {es : List Entry} {m} : m ∈ liveOf es ↔ ∃ e ∈ es, e.live = true ∧ (e.off, e.len) = m := by
  simp [liveOf, and_assoc]

theorem safe_of_inv {st live es} (I : Inv st live es) : Safe st live := by
  constructor
  · have : (liveOf es).Pairwise fun x y => x.1 + x.2 ≤ y.1 ∨ y.1 + y.2 ≤ x.1 := by
      unfold liveOf
      rw [List.pairwise_map]
      exact ((stack_pairwise I.stack).filter _).imp fun h => Or.inr h
    exact (I.live.symm.pairwise_iff (R := fun x y => x.1 + x.2 ≤ y.1 ∨ y.1 + y.2 ≤ x.1) (fun h => Or.symm h)).1 this
  · intro m hm
    obtain ⟨e, he, -, rfl⟩ := mem_liveOf.1 (I.live.mem_iff.1 hm)
    exact I.al e he
  · intro m hm
    obtain ⟨e, he, -, rfl⟩ := mem_liveOf.1 (I.live.mem_iff.1 hm)
    rw [I.size]; exact stack_le I.stack e he
  · rintro rfl
    cases es with
    | nil => rw [I.size]; exact I.stack
    | cons e t =>
      have := (mem_liveOf (es := e :: t)).2 ⟨e, by simp, I.top e (by simp), rfl⟩
      rw [← I.live.mem_iff] at this
      simp at this
  · intro hne
    cases es with
    | nil =>
      have := I.live.length_eq
      simp [liveOf] at this
      exact absurd this hne
    | cons e t =>
      refine ⟨(e.off, e.len), I.live.mem_iff.2 (mem_liveOf.2 ⟨e, by simp, I.top e (by simp), rfl⟩), ?_⟩
      rw [I.size]; exact I.stack.1
  · exact I.size.symm

theorem alloc_inv {st live es} (I : Inv st live es) {size m} (hm : (allocate st size).2 = some m) (hb : m.1 + m.2 ≤ 2 ^ 63) :
    Inv (allocate st size).1 (m :: live) (⟨m.1, m.2, true⟩ :: es) ∧ size ≤ m.2 ∧ m.1 = st.offset := by
  obtain ⟨k, hk⟩ := I.pg
  by_cases h0 : size = 0
  · simp [allocate, h0] at hm
  have e : allocate st size = ({ ftruncate st (st.offset + ceilPage st.pg size) with allocs := st.offset :: st.allocs, offset := st.offset + ceilPage st.pg size }, some (st.offset, ceilPage st.pg size)) := by
    simp [allocate, h0]
  rw [e] at hm ⊢
  obtain rfl := by simpa using hm
  simp only at hb ⊢
  have hc := Bits.ceil_or (n := size) (k := k) (by omega)
  rw [← hk] at hc
  change st.pg ∣ ceilPage st.pg size ∧ size ≤ ceilPage st.pg size ∧ _ at hc
  have hoff : st.pg ∣ st.offset := by
    cases es with
    | nil => rw [show st.offset = 0 from I.stack]; exact Nat.dvd_zero _
    | cons x t =>
      have := I.al x (by simp)
      rw [← I.stack.1]
      exact Nat.dvd_add this.1 this.2.1
  refine ⟨⟨⟨k, hk⟩, ?_, ⟨rfl, I.stack⟩, rfl, hb, ?_, by simp, ?_⟩, hc.2.1, trivial⟩
  · simp [I.allocs, Entry.word]
  · intro x hx
    rcases List.mem_cons.1 hx with rfl | hx
    · exact ⟨hoff, hc.1, by simp only; omega⟩
    · exact I.al x hx
  · simpa [liveOf] using I.live

theorem reclaim_spec {es : List Entry} {cur top : Nat} (S : Stack es top) (hcur : unmarked cur = top) (hb : top < 2 ^ 63)
    (hp : ∀ e ∈ es, 0 < e.len) :
    ∃ es', reclaim cur (es.map Entry.word) = ((reclaim cur (es.map Entry.word)).1, es'.map Entry.word) ∧
      Stack es' (reclaim cur (es.map Entry.word)).1 ∧ (reclaim cur (es.map Entry.word)).1 ≤ top ∧
      (∀ e ∈ es'.head?, e.live = true) ∧ liveOf es' = liveOf es ∧ ∀ e ∈ es', e ∈ es := by
  induction es generalizing cur top with
  | nil => exact ⟨[], by simp [reclaim], by simp only [List.map_nil, reclaim, hcur]; exact S, by simp [reclaim, hcur], by simp, rfl, by simp⟩
  | cons x t ih =>
    have h1 := S.1
    have h2 := hp x (by simp)
    have hx : x.off < 2 ^ 63 := by omega
    cases hl : x.live with
    | true =>
      have hw : x.word = x.off := by simp [Entry.word, hl]
      have : reclaim cur ((x :: t).map Entry.word) = (top, (x :: t).map Entry.word) := by
        simp [reclaim, hw, isMarked_of_lt hx, hcur]
      rw [this]
      exact ⟨x :: t, rfl, S, le_rfl, by simp [hl], rfl, fun _ h => h⟩
    | false =>
      have hw : x.word = mark x.off := by simp [Entry.word, hl]
      have : reclaim cur ((x :: t).map Entry.word) = reclaim (mark x.off) (t.map Entry.word) := by
        simp [reclaim, hw, isMarked_mark hx]
      rw [this]
      obtain ⟨es', a1, a2, a3, a4, a5, a6⟩ := ih S.2 (unmarked_mark hx) hx (fun e he => hp e (by simp [he]))
      exact ⟨es', a1, a2, by omega, a4, by rw [a5]; simp [liveOf, hl], fun e he => by simp [a6 e he]⟩

theorem markIn_spec {es : List Entry} {top o n : Nat} (S : Stack es top) (hb : top ≤ 2 ^ 63) (hp : ∀ e ∈ es, 0 < e.len)
    (hm : (o, n) ∈ liveOf es) :
    ∃ es', markIn o (es.map Entry.word) = some (es'.map Entry.word) ∧ Stack es' top ∧
      (liveOf es').Perm ((liveOf es).erase (o, n)) ∧ ∀ e ∈ es', ∃ e' ∈ es, e.off = e'.off ∧ e.len = e'.len := by
  induction es generalizing top with
  | nil => simp [liveOf] at hm
  | cons x t ih =>
    have h1 := S.1
    have h2 := hp x (by simp)
    by_cases hx : x.live = true ∧ x.off = o
    · obtain ⟨hl, rfl⟩ := hx
      have hn : n = x.len := by
        obtain ⟨e, he, -, hee⟩ := mem_liveOf.1 hm
        simp only [Prod.mk.injEq] at hee
        rcases List.mem_cons.1 he with rfl | he
        · exact hee.2.symm
        · have := stack_le S.2 e he
          have := hp e (by simp [he])
          omega
      subst hn
      refine ⟨{ x with live := false } :: t, ?_, ⟨S.1, S.2⟩, ?_, ?_⟩
      · simp [markIn, Entry.word, hl]
      · simp [liveOf, hl]
      · intro e he
        rcases List.mem_cons.1 he with rfl | he
        · exact ⟨x, by simp, rfl, rfl⟩
        · exact ⟨e, by simp [he], rfl, rfl⟩
    · have hlt : o < x.off ∨ (x.live = true ∧ o = x.off) := by
        obtain ⟨e, he, hel, hee⟩ := mem_liveOf.1 hm
        simp only [Prod.mk.injEq] at hee
        rcases List.mem_cons.1 he with rfl | he
        · exact Or.inr ⟨hel, hee.1.symm⟩
        · have := stack_le S.2 e he
          have := hp e (by simp [he])
          exact Or.inl (by omega)
      have hlt : o < x.off := hlt.resolve_right fun h => hx ⟨h.1, h.2.symm⟩
      have hne : x.word ≠ o := by
        unfold Entry.word
        split
        · omega
        · rw [mark_eq (by omega)]; omega
      have hmt : (o, n) ∈ liveOf t := by
        obtain ⟨e, he, hel, hee⟩ := mem_liveOf.1 hm
        rcases List.mem_cons.1 he with rfl | he
        · simp only [Prod.mk.injEq] at hee; omega
        · exact mem_liveOf.2 ⟨e, he, hel, hee⟩
      obtain ⟨es', a1, a2, a3, a4⟩ := ih S.2 (by omega) (fun e he => hp e (by simp [he])) hmt
      refine ⟨x :: es', ?_, ⟨S.1, a2⟩, ?_, ?_⟩
      · simp [markIn, hne, a1]
      · cases hl : x.live with
        | false => simpa [liveOf, hl] using a3
        | true =>
          have e1 : liveOf (x :: es') = (x.off, x.len) :: liveOf es' := by simp [liveOf, hl]
          have e2 : liveOf (x :: t) = (x.off, x.len) :: liveOf t := by simp [liveOf, hl]
          rw [e1, e2, List.erase_cons_tail (by simp; omega)]
          exact a3.cons _
      · intro e he
        rcases List.mem_cons.1 he with rfl | he
        · exact ⟨e, by simp, rfl, rfl⟩
        · obtain ⟨e', he', h⟩ := a4 e he
          exact ⟨e', by simp [he'], h⟩

theorem dealloc_inv {st live es} (I : Inv st live es) {m} (hm : m ∈ live) :
    ∃ st' es', deallocate st m.1 = some st' ∧ Inv st' (live.erase m) es' ∧
      ∀ a, a < st'.fileSize → st'.file a = st.file a := by
  obtain ⟨o, n⟩ := m
  have hml := I.live.mem_iff.1 hm
  have hlive := I.live.erase (o, n)
  cases es with
  | nil => simp [liveOf] at hml
  | cons x t =>
    have hxl := I.top x (by simp)
    have hxw : x.word = x.off := by simp [Entry.word, hxl]
    have ht := I.allocs
    simp only [List.map_cons, hxw] at ht
    have S := I.stack
    have hpos : ∀ e ∈ x :: t, 0 < e.len := fun e he => (I.al e he).2.2
    have hb := I.bound
    by_cases hxo : x.off = o
    · have hx63 : x.off < 2 ^ 63 := by have := hpos x (by simp); have := S.1; omega
      obtain ⟨es', a1, a2, a3, a4, a5, a6⟩ := reclaim_spec (cur := mark o) S.2 (by rw [← hxo]; exact unmarked_mark hx63) hx63
        (fun e he => hpos e (by simp [he]))
      have hn : n = x.len := by
        obtain ⟨e, he, -, hee⟩ := mem_liveOf.1 hml
        simp only [Prod.mk.injEq] at hee
        rcases List.mem_cons.1 he with rfl | he
        · exact hee.2.symm
        · have := stack_le S.2 e he
          have := hpos e (by simp [he])
          omega
      have hle : (reclaim (mark o) (t.map Entry.word)).1 ≤ st.fileSize := by
        rw [I.size]; have := S.1; omega
      have h6 : deallocate st o = some { ftruncate st (reclaim (mark o) (t.map Entry.word)).1 with offset := (reclaim (mark o) (t.map Entry.word)).1, allocs := (reclaim (mark o) (t.map Entry.word)).2 } := by
        simp [deallocate, ht, hxo]
      refine ⟨_, es', h6, ⟨I.pg, ?_, a2, rfl, ?_, ?_, a4, ?_⟩, ?_⟩
      · simp only; rw [a1]
      · simp only; omega
      · intro e he; exact I.al e (by simp [a6 e he])
      · rw [a5]
        refine hlive.trans ?_
        have : liveOf (x :: t) = (o, n) :: liveOf t := by simp [liveOf, hxl, hxo, hn]
        rw [this]; simp
      · intro a ha
        simp only [ftruncate] at ha ⊢
        rw [if_pos ⟨by omega, ha⟩]
    · have hmt : (o, n) ∈ liveOf t := by
        obtain ⟨e, he, hel, hee⟩ := mem_liveOf.1 hml
        rcases List.mem_cons.1 he with rfl | he
        · simp only [Prod.mk.injEq] at hee; omega
        · exact mem_liveOf.2 ⟨e, he, hel, hee⟩
      obtain ⟨es', a1, a2, a3, a4⟩ := markIn_spec S.2 (by have := S.1; omega) (fun e he => hpos e (by simp [he])) hmt
      have h6 : deallocate st o = some { st with allocs := x.off :: es'.map Entry.word } := by
        simp [deallocate, ht, hxo, a1]
      refine ⟨_, x :: es', h6, ⟨I.pg, ?_, ⟨S.1, a2⟩, I.size, I.bound, ?_, by simp [hxl], ?_⟩, fun _ _ => rfl⟩
      · simp [hxw]
      · intro e he
        rcases List.mem_cons.1 he with rfl | he
        · exact I.al e (by simp)
        · obtain ⟨e', he', h1, h2⟩ := a4 e he
          have := I.al e' (by simp [he'])
          rw [h1, h2]; exact this
      · refine hlive.trans ?_
        have e1 : liveOf (x :: es') = (x.off, x.len) :: liveOf es' := by simp [liveOf, hxl]
        have e2 : liveOf (x :: t) = (x.off, x.len) :: liveOf t := by simp [liveOf, hxl]
        rw [e1, e2, List.erase_cons_tail (by simp; omega)]
        exact (a3.symm.cons _)

theorem hist_inv {st live} (h : Hist st live) : ∃ es, Inv st live es := by
  induction h with
  | @init k => exact ⟨[], ⟨⟨k, rfl⟩, rfl, rfl, rfl, by simp [LA.init], by simp, by simp, by simp [liveOf]⟩⟩
  | alloc _ hm hb ih =>
    obtain ⟨es, I⟩ := ih
    exact ⟨_, (alloc_inv I hm hb).1⟩
  | dealloc _ hm e ih =>
    obtain ⟨es, I⟩ := ih
    obtain ⟨st', es', e', I', -⟩ := dealloc_inv I hm
    rw [e] at e'
    obtain rfl := by simpa using e'
    exact ⟨es', I'⟩
  | write _ _ ih =>
    obtain ⟨es, I⟩ := ih
    exact ⟨es, ⟨I.pg, I.allocs, I.stack, I.size, I.bound, I.al, I.top, I.live⟩⟩

/-! ### The property -/

/-- In every history, live memory occupies disjoint page aligned ranges of the file, and the file ends with the last live range. -/
theorem C26_live_memory_disjoint {st live} (h : Hist st live) : Safe st live := by
  obtain ⟨es, I⟩ := hist_inv h
  exact safe_of_inv I

/-- An allocation has at least the requested size, lies behind all live memory, reads as zero and leaves all live memory unchanged. -/
theorem C26_allocate {st live} (h : Hist st live) {size : Nat} (h0 : 0 < size) :
    ∃ m, (allocate st size).2 = some m ∧ size ≤ m.2 ∧ (∀ x ∈ live, x.1 + x.2 ≤ m.1) ∧
      (∀ a, m.1 ≤ a → a < m.1 + m.2 → (allocate st size).1.file a = 0) ∧
      ∀ x ∈ live, ∀ a, x.1 ≤ a → a < x.1 + x.2 → (allocate st size).1.file a = st.file a := by
  obtain ⟨es, I⟩ := hist_inv h
  have S := safe_of_inv I
  obtain ⟨k, hk⟩ := I.pg
  have hc := (Bits.ceil_or (n := size) (k := k) h0).2.1
  rw [← hk] at hc
  have e : allocate st size = ({ ftruncate st (st.offset + ceilPage st.pg size) with allocs := st.offset :: st.allocs, offset := st.offset + ceilPage st.pg size }, some (st.offset, ceilPage st.pg size)) := by
    have hne : size ≠ 0 := by omega
    simp [allocate, hne]
  rw [e]
  refine ⟨_, rfl, hc, ?_, ?_, ?_⟩
  · intro x hx
    have := S.inside x hx
    have := S.next
    simp only; omega
  · intro a h1 h2
    have := S.next
    simp only [ftruncate] at *
    rw [if_neg (by omega)]
  · intro x hx a h1 h2
    have := S.inside x hx
    have := S.next
    simp only [ftruncate]
    rw [if_pos ⟨by omega, by omega⟩]

/-- Destroying a live memory object succeeds and leaves the contents of all other live memory unchanged. -/
theorem C26_deallocate {st live} (h : Hist st live) {m} (hm : m ∈ live) :
    ∃ st', deallocate st m.1 = some st' ∧ Safe st' (live.erase m) ∧
      ∀ x ∈ live.erase m, ∀ a, x.1 ≤ a → a < x.1 + x.2 → st'.file a = st.file a := by
  obtain ⟨es, I⟩ := hist_inv h
  obtain ⟨st', es', e, I', hf⟩ := dealloc_inv I hm
  have S := safe_of_inv I'
  refine ⟨st', e, S, fun x hx a _ h2 => hf a ?_⟩
  have := S.inside x hx
  omega

/-- Destroying memory that is not live (for example twice) throws. -/
theorem C26_no_double_free {st live} (h : Hist st live) {o : Nat} (ho : o < 2 ^ 63) (hn : ∀ m ∈ live, m.1 ≠ o) : deallocate st o = none := by
  obtain ⟨es, I⟩ := hist_inv h
  have hw : ∀ e ∈ es, e.word ≠ o := by
    intro e he
    have := stack_le I.stack e he
    have := (I.al e he).2.2
    have := I.bound
    unfold Entry.word
    split
    · next hl => exact hn (e.off, e.len) (I.live.mem_iff.2 (mem_liveOf.2 ⟨e, he, hl, rfl⟩))
    · rw [mark_eq (by omega)]; omega
  have hmk : ∀ l : List Entry, (∀ e ∈ l, e.word ≠ o) → markIn o (l.map Entry.word) = none := by
    intro l hl
    induction l with
    | nil => rfl
    | cons x t ih => simp [markIn, hl x (by simp), ih (fun e he => hl e (by simp [he]))]
  cases es with
  | nil => simp [deallocate, I.allocs]
  | cons x t =>
    have h1 := hw x (by simp)
    have h2 := hmk t (fun e he => hw e (by simp [he]))
    simp only [deallocate, I.allocs, List.map_cons]
    rw [if_neg h1, h2]; rfl

/-! ### Witness -/

/-- Three allocations; the middle one is destroyed (nothing is reclaimed), then the last (both are reclaimed). -/
example : ∃ st, Hist st [(0, 4096)] ∧ st.fileSize = 4096 := by
  have h1 := Hist.alloc (Hist.init (k := 12)) (size := 100) (m := (0, 4096)) (by decide +kernel) (by simp only; omega)
  have h2 := Hist.alloc h1 (size := 5000) (m := (4096, 8192)) (by decide +kernel) (by simp only; omega)
  have h3 := Hist.alloc h2 (size := 1) (m := (12288, 4096)) (by decide +kernel) (by simp only; omega)
  obtain ⟨st4, e4, S4, -⟩ := C26_deallocate h3 (m := (4096, 8192)) (by simp)
  have h4 := Hist.dealloc h3 (by simp) e4
  obtain ⟨st5, e5, S5, -⟩ := C26_deallocate h4 (m := (12288, 4096)) (by simp)
  have h5 := Hist.dealloc h4 (by simp) e5
  have e : (([(12288, 4096), (4096, 8192), (0, 4096)] : List (Nat × Nat)).erase (4096, 8192)).erase (12288, 4096) = [(0, 4096)] := by decide
  rw [e] at h5 S5
  refine ⟨st5, h5, ?_⟩
  obtain ⟨m, hm, he⟩ := S5.tight (by simp)
  obtain rfl : m = (0, 4096) := by simpa using hm
  exact he.symm

end Mutable.LinAlloc
