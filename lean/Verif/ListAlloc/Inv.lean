import Verif.ListAlloc.Model
import Mathlib.Data.List.Perm.Basic
import Mathlib.Data.List.TakeWhile
import Mathlib.Tactic.Push
import Mathlib.Tactic.NormNum
import Mathlib.Algebra.Order.Ring.Nat
import Mathlib.Algebra.Group.Basic
/-! The invariant of `list_allocator`: the mapped memory is tiled by chunks. -/
namespace Mutable.ListAlloc

/-- A chunk, free (`use = none`) or handed out for a request of `s` bytes (`use = some s`). -/
structure Chunk where
  addr : Nat
  size : Nat
  mark : Bool
  use : Option Nat

def Chunk.fin (c : Chunk) : Nat := c.addr + c.size

/-- What holds between a chunk and the next chunk in memory. -/
def Link (pg : Nat) (c : Chunk) : Option Chunk → Prop
  | none => pg ∣ c.fin
  | some d => c.fin ≤ d.addr ∧ (d.mark = false → c.fin = d.addr) ∧ (d.mark = true → pg ∣ c.fin) ∧
      (c.use = none → d.use = none → d.mark = true)

def Tiled (pg : Nat) : List Chunk → Option Chunk → Prop
  | [], _ => True
  | c :: t, o => Link pg c (t.head?.or o) ∧ Tiled pg t o

structure Wf (pg : Nat) (c : Chunk) : Prop where
  nz : c.addr ≠ 0
  al : 8 ∣ c.addr
  al' : 8 ∣ c.size
  big : 16 ≤ c.size
  bound : c.fin ≤ 2 ^ 63
  mrk : c.mark = true → pg ∣ c.addr
  use : ∀ s, c.use = some s → 0 < s ∧ s + 8 ≤ c.size

def isFree (c : Chunk) : Bool := c.use.isNone
def freeOf (l : List Chunk) : List Nat := (l.filter isFree).map Chunk.addr
def liveOf (l : List Chunk) : List (Nat × Nat) := l.filterMap fun c => c.use.map (c.addr, ·)

def MemOK (mem : Nat → Word) (c : Chunk) : Prop :=
  match c.use with
  | none => mem (c.addr + 8) = ⟨c.size, c.mark⟩
  | some s => mem (sizeAddr c.addr s) = ⟨c.size, c.mark⟩

structure Inv (F0 : Set Nat) (st : St) (live : List (Nat × Nat)) (l : List Chunk) : Prop where
  pgpos : ∃ k, st.pg = 2 ^ k ∧ 4 ≤ k
  wf : ∀ c ∈ l, Wf st.pg c
  tiled : Tiled st.pg l none
  headMark : ∀ c ∈ l.head?, c.mark = true
  mem : ∀ c ∈ l, MemOK st.mem c
  free : st.free = freeOf l
  live : live.Perm (liveOf l)
  mapped : st.mapped = F0 ∪ {a | ∃ c ∈ l, c.addr ≤ a ∧ a < c.fin}
  foreign : ∀ a ∈ F0, ∀ c ∈ l, ¬ (c.addr ≤ a ∧ a < c.fin)

/-! ### Arithmetic -/

theorem ceilMul_dvd (n m : Nat) : m ∣ ceilMul n m := ⟨_, Nat.mul_comm _ _⟩

theorem le_ceilMul {n m : Nat} (h : 0 < m) : n ≤ ceilMul n m := by
  unfold ceilMul
  have := Nat.div_add_mod (n + m - 1) m
  have h2 := Nat.mod_lt (n + m - 1) h
  rw [Nat.mul_comm] at this
  omega

theorem ceilMul_lt {n m : Nat} (h : 0 < m) : ceilMul n m < n + m := by
  unfold ceilMul
  have := Nat.div_mul_le_self (n + m - 1) m
  omega

theorem ceilMul_le_of_dvd {n m k : Nat} (h : 0 < m) (hk : m ∣ k) (hn : n ≤ k) : ceilMul n m ≤ k := by
  obtain ⟨q, rfl⟩ := hk
  unfold ceilMul
  have : (n + m - 1) / m ≤ q := by
    rw [← Nat.lt_succ_iff, Nat.div_lt_iff_lt_mul h]
    rw [Nat.succ_mul, Nat.mul_comm q m]; omega
  calc (n + m - 1) / m * m ≤ q * m := Nat.mul_le_mul_right _ this
    _ = m * q := Nat.mul_comm _ _

theorem ceilMul_self {n m : Nat} (h : 0 < m) (hn : m ∣ n) : ceilMul n m = n :=
  le_antisymm (ceilMul_le_of_dvd h hn le_rfl) (le_ceilMul h)

theorem ceil8_add {a n : Nat} (h : 8 ∣ a) : ceilMul (a + n) 8 = a + ceilMul n 8 := by
  unfold ceilMul; omega

/-! ### Lists of chunks -/

theorem tiled_append {pg} {xs ys : List Chunk} {o} :
    Tiled pg (xs ++ ys) o ↔ Tiled pg xs (ys.head?.or o) ∧ Tiled pg ys o := by
  induction xs with
  | nil => simp [Tiled]
  | cons x xs ih =>
    simp only [List.cons_append, Tiled, ih, and_assoc]
    have : ((xs ++ ys).head?.or o) = (xs.head?.or (ys.head?.or o)) := by
      cases xs <;> simp
    rw [this]

theorem tiled_mono {pg} {xs : List Chunk} {o o'} (h : ∀ x ∈ xs.getLast?, Link pg x o → Link pg x o')
    (H : Tiled pg xs o) : Tiled pg xs o' := by
  induction xs with
  | nil => trivial
  | cons x xs ih =>
    cases xs with
    | nil => exact ⟨h x (by simp) H.1, trivial⟩
    | cons y ys => exact ⟨H.1, ih (fun z hz => h z (by simpa using hz)) H.2⟩

/-- The next chunk is what the last chunk of `xs` links to. -/
theorem tiled_last {pg} {xs : List Chunk} {o x} (H : Tiled pg xs o) (hx : x ∈ xs.getLast?) : Link pg x o := by
  induction xs with
  | nil => simp at hx
  | cons y ys ih =>
    cases ys with
    | nil =>
      obtain rfl : y = x := by simpa using hx
      simpa using H.1
    | cons z zs => exact ih H.2 (by simpa using hx)

theorem tiled_pairwise {pg} {l : List Chunk} {o} (H : Tiled pg l o) :
    l.Pairwise fun c d => c.fin ≤ d.addr := by
  induction l with
  | nil => exact .nil
  | cons c t ih =>
    have iht := ih H.2
    refine List.pairwise_cons.2 ⟨fun d hd => ?_, iht⟩
    cases t with
    | nil => simp at hd
    | cons e t =>
      have h1 : c.fin ≤ e.addr := (by simpa using H.1 : Link pg c (some e)).1
      rcases List.mem_cons.1 hd with rfl | hd
      · exact h1
      · have := (List.pairwise_cons.1 iht).1 d hd
        unfold Chunk.fin at *
        omega

theorem freeOf_append (xs ys : List Chunk) : freeOf (xs ++ ys) = freeOf xs ++ freeOf ys := by simp [freeOf]
theorem freeOf_cons_free {c : Chunk} {ys} (h : c.use = none) : freeOf (c :: ys) = c.addr :: freeOf ys := by
  simp [freeOf, isFree, h]
theorem freeOf_cons_used {c : Chunk} {ys s} (h : c.use = some s) : freeOf (c :: ys) = freeOf ys := by
  simp [freeOf, isFree, h]
theorem liveOf_append (xs ys : List Chunk) : liveOf (xs ++ ys) = liveOf xs ++ liveOf ys := by simp [liveOf]
theorem liveOf_cons_free {c : Chunk} {ys} (h : c.use = none) : liveOf (c :: ys) = liveOf ys := by
  simp [liveOf, h]
theorem liveOf_cons_used {c : Chunk} {ys s} (h : c.use = some s) : liveOf (c :: ys) = (c.addr, s) :: liveOf ys := by
  simp [liveOf, h]

theorem mem_freeOf {l : List Chunk} {a} : a ∈ freeOf l ↔ ∃ c ∈ l, c.use = none ∧ c.addr = a := by
  simp [freeOf, isFree, and_assoc]

theorem mem_liveOf {l : List Chunk} {a s} : (a, s) ∈ liveOf l ↔ ∃ c ∈ l, c.use = some s ∧ c.addr = a := by
  simp only [liveOf, List.mem_filterMap, Option.map_eq_some_iff, Prod.mk.injEq]
  constructor
  · rintro ⟨c, hc, x, h1, h2, rfl⟩; exact ⟨c, hc, h1, h2⟩
  · rintro ⟨c, hc, h1, h2⟩; exact ⟨c, hc, s, h1, h2, rfl⟩

theorem freeOf_split {l : List Chunk} {b h a} (e : freeOf l = b ++ h :: a) :
    ∃ xs c ys, l = xs ++ c :: ys ∧ c.use = none ∧ c.addr = h ∧ freeOf xs = b ∧ freeOf ys = a := by
  induction l generalizing b with
  | nil => simp [freeOf] at e
  | cons c t ih =>
    cases hc : c.use with
    | none =>
      rw [freeOf_cons_free hc] at e
      cases b with
      | nil =>
        obtain ⟨rfl, rfl⟩ := by simpa using e
        exact ⟨[], c, t, rfl, hc, rfl, rfl, rfl⟩
      | cons x b =>
        simp only [List.cons_append, List.cons.injEq] at e
        obtain ⟨rfl, e⟩ := e
        obtain ⟨xs, d, ys, rfl, h1, h2, h3, h4⟩ := ih e
        exact ⟨c :: xs, d, ys, rfl, h1, h2, by rw [freeOf_cons_free hc, h3], h4⟩
    | some s =>
      rw [freeOf_cons_used hc] at e
      obtain ⟨xs, d, ys, rfl, h1, h2, h3, h4⟩ := ih e
      exact ⟨c :: xs, d, ys, rfl, h1, h2, by rw [freeOf_cons_used hc, h3], h4⟩

theorem takeWhile_split {p : Nat → Bool} {xs ys : List Nat} (h1 : ∀ a ∈ xs, p a = true) (h2 : ∀ a ∈ ys, p a = false) :
    (xs ++ ys).takeWhile p = xs ∧ (xs ++ ys).dropWhile p = ys := by
  induction xs with
  | nil =>
    cases ys with
    | nil => simp
    | cons y ys => simp [h2 y (by simp)]
  | cons x xs ih =>
    have := ih (fun a ha => h1 a (by simp [ha]))
    simp [h1 x (by simp), this.1, this.2]

/-- Chunks in order, and a range apart from all of them: the range lies between two chunks. -/
theorem place {l : List Chunk} (hp : l.Pairwise fun c d => c.fin ≤ d.addr) (h0 : ∀ c ∈ l, 0 < c.size) {b e : Nat} (hbe : b < e)
    (hd : ∀ a, b ≤ a → a < e → ∀ c ∈ l, ¬ (c.addr ≤ a ∧ a < c.fin)) :
    ∃ xs ys, l = xs ++ ys ∧ (∀ c ∈ xs, c.fin ≤ b) ∧ ∀ c ∈ ys, e ≤ c.addr := by
  induction l with
  | nil => exact ⟨[], [], rfl, by simp, by simp⟩
  | cons c t ih =>
    rw [List.pairwise_cons] at hp
    by_cases hc : c.fin ≤ b
    · obtain ⟨xs, ys, rfl, h1, h2⟩ := ih hp.2 (fun d hd => h0 d (by simp [hd])) (fun a h1 h2 d hd' => hd a h1 h2 d (by simp [hd']))
      refine ⟨c :: xs, ys, rfl, ?_, h2⟩
      intro d hd
      rcases List.mem_cons.1 hd with rfl | hd
      · exact hc
      · exact h1 d hd
    · have hs := h0 c (by simp)
      have hce : e ≤ c.addr := by
        by_contra hlt
        by_cases hb : b ≤ c.addr
        · exact hd c.addr hb (by omega) c (by simp) ⟨le_rfl, by unfold Chunk.fin; omega⟩
        · exact hd b le_rfl hbe c (by simp) ⟨by omega, by omega⟩
      refine ⟨[], c :: t, rfl, by simp, fun d hd => ?_⟩
      rcases List.mem_cons.1 hd with rfl | hd
      · exact hce
      · have := hp.1 d hd
        unfold Chunk.fin at *
        omega

/-- Where the size word of a used chunk lies. -/
theorem sizeAddr_eq {pg} {c : Chunk} (w : Wf pg c) {s} (hs : c.use = some s) :
    sizeAddr c.addr s = c.addr + ceilMul s 8 ∧ s ≤ ceilMul s 8 ∧ ceilMul s 8 + 8 ≤ c.size := by
  have h1 := w.use s hs
  have h2 := w.bound
  have h3 := w.al
  have h4 := w.al'
  unfold Chunk.fin at h2
  have e : add64 c.addr s = c.addr + s := Nat.mod_eq_of_lt (by omega)
  refine ⟨by rw [sizeAddr, e, ceil8_add h3], le_ceilMul (by omega), ?_⟩
  unfold ceilMul; omega

/-- The address of the word a chunk's size is stored in. -/
def wordAddr (c : Chunk) : Nat := match c.use with
  | none => c.addr + 8
  | some s => sizeAddr c.addr s

theorem memOK_iff {mem c} : MemOK mem c ↔ mem (wordAddr c) = ⟨c.size, c.mark⟩ := by
  unfold MemOK wordAddr
  cases c.use <;> rfl

theorem wordAddr_in {pg c} (w : Wf pg c) : c.addr ≤ wordAddr c ∧ wordAddr c + 8 ≤ c.fin := by
  have := w.big
  unfold wordAddr Chunk.fin
  cases h : c.use with
  | none => simp only; omega
  | some s => have := sizeAddr_eq w h; simp only; omega

/-- Memory changes inside one chunk do not affect another. -/
theorem memOK_set {pg mem} {c : Chunk} (w : Wf pg c) (h : MemOK mem c) {a v} (ha : a < c.addr ∨ c.fin ≤ a) :
    MemOK (setW mem a v) c := by
  rw [memOK_iff] at *
  have := wordAddr_in w
  have hne : wordAddr c ≠ a := by omega
  simp [setW, hne, h]

end Mutable.ListAlloc
