import Verif.Unshare.Model
import Mathlib.Algebra.Order.BigOperators.Group.Finset
import Mathlib.Tactic.Linarith
/-! # The conservation law of ownership -/
namespace Mutable.Unshare
variable {ι κ : Type} [DecidableEq ι] [DecidableEq κ] [Fintype ι] [Fintype κ]

/-- One for the value of `v`, zero for all others. -/
def ind (v : Option ℕ) (x : ℕ) : ℕ := if v = some x then 1 else 0

/-- How often `x` is a value of `f`. -/
def cnt {α : Type} [Fintype α] (f : α → Option ℕ) (x : ℕ) : ℕ := ∑ a, ind (f a) x

theorem cnt_update {α : Type} [Fintype α] [DecidableEq α] (f : α → Option ℕ) (a : α) (v : Option ℕ) (x : ℕ) :
    cnt (Function.update f a v) x + ind (f a) x = cnt f x + ind v x := by
  unfold cnt
  rw [← Finset.add_sum_erase _ _ (Finset.mem_univ a), ← Finset.add_sum_erase Finset.univ (fun a => ind (f a) x) (Finset.mem_univ a)]
  have : ∑ y ∈ Finset.univ.erase a, ind (Function.update f a v y) x = ∑ y ∈ Finset.univ.erase a, ind (f y) x :=
    Finset.sum_congr rfl fun y hy => by rw [Function.update_of_ne (Finset.ne_of_mem_erase hy)]
  rw [this, Function.update_self]
  omega

theorem le_cnt {α : Type} [Fintype α] (f : α → Option ℕ) (a : α) (x : ℕ) : ind (f a) x ≤ cnt f x :=
  Finset.single_le_sum (f := fun a => ind (f a) x) (fun _ _ => Nat.zero_le _) (Finset.mem_univ a)

theorem cnt_eq_card {α : Type} [Fintype α] [DecidableEq α] (f : α → Option ℕ) (x : ℕ) :
    cnt f x = (Finset.univ.filter fun a => f a = some x).card := by
  unfold cnt ind
  rw [Finset.card_filter]

theorem two_le_cnt {α : Type} [Fintype α] [DecidableEq α] {f : α → Option ℕ} {a b : α} {x : ℕ} (h : a ≠ b) (ha : f a = some x)
    (hb : f b = some x) : 2 ≤ cnt f x := by
  rw [cnt_eq_card]
  exact Finset.one_lt_card.mpr ⟨a, by simp [ha], b, by simp [hb], h⟩

/-- The object of a control block. -/
def objOf (s : St ι κ) (b : ℕ) : Option ℕ := (s.blk b).bind Block.obj

/-- How many control blocks hold `o`. -/
def bsum (B : ℕ → Option Block) (n o : ℕ) : ℕ := ∑ b ∈ Finset.range n, ind ((B b).bind Block.obj) o

theorem bsum_update (B : ℕ → Option Block) (n b : ℕ) (hb : b < n) (v : Option Block) (o : ℕ) :
    bsum (Function.update B b v) n o + ind ((B b).bind Block.obj) o = bsum B n o + ind (v.bind Block.obj) o := by
  unfold bsum
  rw [← Finset.add_sum_erase _ _ (Finset.mem_range.mpr hb),
    ← Finset.add_sum_erase (Finset.range n) (fun b => ind ((B b).bind Block.obj) o) (Finset.mem_range.mpr hb)]
  have : ∑ y ∈ (Finset.range n).erase b, ind ((Function.update B b v y).bind Block.obj) o =
      ∑ y ∈ (Finset.range n).erase b, ind ((B y).bind Block.obj) o :=
    Finset.sum_congr rfl fun y hy => by rw [Function.update_of_ne (Finset.ne_of_mem_erase hy)]
  rw [this, Function.update_self]
  omega

theorem bsum_new (B : ℕ → Option Block) (n : ℕ) (v : Option Block) (o : ℕ) :
    bsum (Function.update B n v) (n + 1) o = bsum B n o + ind (v.bind Block.obj) o := by
  unfold bsum
  rw [Finset.sum_range_succ, Function.update_self]
  congr 1
  exact Finset.sum_congr rfl fun y hy => by rw [Function.update_of_ne (by simp at hy; omega)]

theorem le_bsum (B : ℕ → Option Block) (n b o : ℕ) (hb : b < n) : ind ((B b).bind Block.obj) o ≤ bsum B n o :=
  Finset.single_le_sum (f := fun b => ind ((B b).bind Block.obj) o) (fun _ _ => Nat.zero_le _) (Finset.mem_range.mpr hb)

theorem add_le_bsum (B : ℕ → Option Block) (n b c o : ℕ) (h : b ≠ c) (hb : b < n) (hc : c < n) :
    ind ((B b).bind Block.obj) o + ind ((B c).bind Block.obj) o ≤ bsum B n o := by
  have := Finset.sum_le_sum_of_subset (f := fun b => ind ((B b).bind Block.obj) o) (s := {b, c}) (t := Finset.range n)
    (by intro x hx; simp at hx; rcases hx with rfl | rfl <;> simpa)
  rwa [Finset.sum_pair h] at this

/-- The counter of a control block, zero if it was freed. -/
def ctr : Option Block → ℕ
  | none => 0
  | some B => B.count

/-- One for the objects that were created. -/
def made (n o : ℕ) : ℕ := if o < n then 1 else 0

/-- The invariant, with `e` references to control blocks and `x` to objects held by temporaries: counters are right, only blocks in use
are allocated, and every object that was created is either owned once or was destroyed once. -/
structure Inv (s : St ι κ) (e x : ℕ → ℕ) : Prop where
  cnt : ∀ b, cnt s.sh b + e b = ctr (s.blk b)
  blk : ∀ b B, s.blk b = some B → 0 < B.count ∧ B.armed = true ∧ b < s.nblk
  law : ∀ o, s.del o + bsum s.blk s.nblk o + Unshare.cnt s.un o + x o = made s.nobj o

theorem inv_init : Inv (init : St ι κ) (fun _ => 0) (fun _ => 0) := by
  refine ⟨fun b => ?_, fun b B h => ?_, fun o => ?_⟩
  · simp [init, Unshare.cnt, ind, ctr]
  · cases h
  · simp [init, Unshare.cnt, ind, bsum, made]

variable {s : St ι κ} {e x : ℕ → ℕ}

theorem inv_newBlock {o : Option ℕ} (h : Inv s e (fun y => x y + ind o y)) :
    Inv (newBlock s o) (fun b => e b + ind (some s.nblk) b) x := by
  have hn : s.blk s.nblk = none := by
    cases hB : s.blk s.nblk with
    | none => rfl
    | some B => exact absurd (h.blk _ _ hB).2.2 (lt_irrefl _)
  refine ⟨fun b => ?_, fun b B hB => ?_, fun y => ?_⟩
  · have := h.cnt b
    simp only [newBlock]
    by_cases hb : b = s.nblk
    · subst hb
      rw [hn] at this
      simp only [Function.update_self, ctr, ind] at this ⊢
      simp
      omega
    · rw [Function.update_of_ne hb]
      simp only [ind]
      rw [if_neg (by simpa using fun h => hb h.symm)]
      omega
  · simp only [newBlock] at hB ⊢
    by_cases hb : b = s.nblk
    · subst hb
      rw [Function.update_self] at hB
      cases hB
      exact ⟨Nat.one_pos, rfl, Nat.lt_succ_self _⟩
    · rw [Function.update_of_ne hb] at hB
      obtain ⟨h1, h2, h3⟩ := h.blk _ _ hB
      exact ⟨h1, h2, by omega⟩
  · have := h.law y
    simp only [newBlock]
    rw [bsum_new]
    simp only [Option.bind_some] at this ⊢
    omega

theorem inv_inc {b : Option ℕ} (h : Inv s e x) (hb : ∀ c, b = some c → s.blk c ≠ none) : Inv (inc s b) (fun y => e y + ind b y) x := by
  cases b with
  | none => simpa [inc, ind] using h
  | some b =>
    cases hB : s.blk b with
    | none => exact absurd hB (hb b rfl)
    | some B =>
      simp only [inc, hB]
      obtain ⟨g1, g2, g3⟩ := h.blk _ _ hB
      refine ⟨fun c => ?_, fun c C hC => ?_, fun y => ?_⟩
      · have := h.cnt c
        dsimp only at this ⊢
        by_cases hc : c = b
        · subst hc
          rw [hB] at this
          simp only [Function.update_self, ctr, ind, if_true] at this ⊢
          omega
        · rw [Function.update_of_ne hc]
          simp only [ind]
          rw [if_neg (by simpa using fun h => hc h.symm)]
          omega
      · dsimp only at hC ⊢
        by_cases hc : c = b
        · subst hc
          rw [Function.update_self] at hC
          cases hC
          exact ⟨Nat.succ_pos _, g2, g3⟩
        · rw [Function.update_of_ne hc] at hC
          exact h.blk _ _ hC
      · have := h.law y
        have u := bsum_update s.blk s.nblk b g3 (some { B with count := B.count + 1 }) y
        rw [hB] at u
        simp only [Option.bind_some] at u ⊢
        omega

theorem inv_setSh {v : Option ℕ} (i : ι) (h : Inv s (fun y => e y + ind v y) x) :
    Inv { s with sh := Function.update s.sh i v } (fun y => e y + ind (s.sh i) y) x := by
  refine ⟨fun b => ?_, h.blk, h.law⟩
  have := h.cnt b
  have u := cnt_update s.sh i v b
  simp only at this ⊢
  omega

theorem inv_setUn {v : Option ℕ} (i : κ) (h : Inv s e (fun y => x y + ind v y)) :
    Inv { s with un := Function.update s.un i v } e (fun y => x y + ind (s.un i) y) := by
  refine ⟨h.cnt, h.blk, fun o => ?_⟩
  have := h.law o
  have u := cnt_update s.un i v o
  simp only at this ⊢
  omega

theorem inv_destroy {o : Option ℕ} (h : Inv s e (fun y => x y + ind o y)) : Inv (destroy s o) e x := by
  cases o with
  | none => simpa [destroy, ind] using h
  | some o =>
    refine ⟨h.cnt, h.blk, fun y => ?_⟩
    have := h.law y
    simp only [destroy, ind] at this ⊢
    by_cases hy : y = o
    · subst hy
      rw [Function.update_self]
      simp only [if_true] at this
      omega
    · rw [Function.update_of_ne hy]
      rw [if_neg (by simpa using fun h => hy h.symm)] at this
      omega

/-- A block with one reference left, which is given up: its object has no owner. -/
theorem inv_free {b : ℕ} {B : Block} (h : Inv s (fun y => e y + ind (some b) y) x) (hB : s.blk b = some B) (h1 : B.count = 1) :
    Inv { s with blk := Function.update s.blk b none } e (fun y => x y + ind B.obj y) := by
  obtain ⟨g1, g2, g3⟩ := h.blk _ _ hB
  refine ⟨fun c => ?_, fun c C hC => ?_, fun y => ?_⟩
  · have := h.cnt c
    dsimp only at this ⊢
    by_cases hc : c = b
    · subst hc
      rw [hB] at this
      simp only [Function.update_self, ctr, ind, if_true] at this ⊢
      omega
    · rw [Function.update_of_ne hc]
      simp only [ind] at this
      rw [if_neg (by simpa using fun h => hc h.symm)] at this
      omega
  · dsimp only at hC ⊢
    by_cases hc : c = b
    · subst hc
      rw [Function.update_self] at hC
      cases hC
    · rw [Function.update_of_ne hc] at hC
      exact h.blk _ _ hC
  · have := h.law y
    have u := bsum_update s.blk s.nblk b g3 none y
    rw [hB] at u
    have z : ind (Option.bind (none : Option Block) Block.obj) y = 0 := by simp [ind]
    rw [z] at u
    simp only [Option.bind_some] at u ⊢
    omega

theorem inv_dec {b : Option ℕ} (h : Inv s (fun y => e y + ind b y) x) : Inv (dec s b) e x := by
  cases b with
  | none => simpa [dec, ind] using h
  | some b =>
    cases hB : s.blk b with
    | none =>
      have := h.cnt b
      rw [hB] at this
      simp [ind, ctr] at this
    | some B =>
      simp only [dec, hB]
      obtain ⟨g1, g2, g3⟩ := h.blk _ _ hB
      split_ifs with h1
      · exact inv_destroy (inv_free h hB h1)
      · refine ⟨fun c => ?_, fun c C hC => ?_, fun y => ?_⟩
        · have := h.cnt c
          dsimp only at this ⊢
          by_cases hc : c = b
          · subst hc
            rw [hB] at this
            simp only [Function.update_self, ctr, ind, if_true] at this ⊢
            omega
          · rw [Function.update_of_ne hc]
            simp only [ind] at this
            rw [if_neg (by simpa using fun h => hc h.symm)] at this
            omega
        · dsimp only at hC ⊢
          by_cases hc : c = b
          · subst hc
            rw [Function.update_self] at hC
            cases hC
            exact ⟨by simp only; omega, g2, g3⟩
          · rw [Function.update_of_ne hc] at hC
            exact h.blk _ _ hC
        · have := h.law y
          have u := bsum_update s.blk s.nblk b g3 (some { B with count := B.count - 1 }) y
          rw [hB] at u
          simp only [Option.bind_some] at u ⊢
          omega

theorem inv_takeOver {i : ι} {b : Option ℕ} (h : Inv s (fun y => e y + ind b y) x) : Inv (takeOver s i b) e x := inv_dec (inv_setSh i h)

theorem inv_assignUn {u : κ} {o : Option ℕ} (h : Inv s e (fun y => x y + ind o y)) : Inv (assignUn s u o) e x :=
  inv_destroy (inv_setUn u h)

/-! ## What the operations leave alone -/

theorem live (h : Inv s e x) {i : ι} {b : ℕ} (hb : s.sh i = some b) : ∃ B, s.blk b = some B := by
  cases hB : s.blk b with
  | some B => exact ⟨B, rfl⟩
  | none =>
    have := h.cnt b
    have u := le_cnt s.sh i b
    rw [hB] at this
    simp [ctr] at this
    rw [hb] at u
    simp [ind] at u
    omega

theorem get_destroy (s : St ι κ) (o : Option ℕ) (i : ι) : get (destroy s o) i = get s i := by cases o <;> rfl
theorem un_destroy (s : St ι κ) (o : Option ℕ) : (destroy s o).un = s.un := by cases o <;> rfl

theorem get_dec {b : Option ℕ} (h : Inv s (fun y => e y + ind b y) x) (i : ι) : get (dec s b) i = get s i := by
  cases b with
  | none => rfl
  | some b =>
    cases hB : s.blk b with
    | none => simp only [dec, hB]
    | some B =>
      simp only [dec, hB]
      have key : ∀ (v : Option Block), (s.sh i = some b → v.bind Block.obj = B.obj) →
          get { s with blk := Function.update s.blk b v } i = get s i := by
        intro v hv
        simp only [get]
        cases hi : s.sh i with
        | none => rfl
        | some c =>
          by_cases hc : c = b
          · subst hc
            have := hv hi
            simp only [Function.update_self, hB]
            cases v <;> simpa using this
          · simp only [Function.update_of_ne hc]
      split_ifs with h1
      · rw [get_destroy]
        refine key _ fun hi => ?_
        have := h.cnt b
        have u := le_cnt s.sh i b
        rw [hB] at this
        rw [hi] at u
        simp [ind, ctr] at this u
        omega
      · rw [get_destroy]
        refine key _ fun hi => ?_
        have := h.cnt b
        have u := le_cnt s.sh i b
        rw [hB] at this
        rw [hi] at u
        simp [ind, ctr] at this u
        omega
      · exact key _ fun _ => rfl

theorem un_dec (s : St ι κ) (b : Option ℕ) : (dec s b).un = s.un := by
  cases b with
  | none => rfl
  | some b =>
    simp only [dec]
    cases hB : s.blk b with
    | none => rfl
    | some B =>
      simp only
      split_ifs
      · exact un_destroy _ _
      · exact un_destroy _ _
      · rfl

theorem get_inc (s : St ι κ) (b : Option ℕ) (i : ι) : get (inc s b) i = get s i := by
  cases b with
  | none => rfl
  | some b =>
    simp only [inc]
    cases hB : s.blk b with
    | none => rfl
    | some B =>
      simp only [get]
      cases hi : s.sh i with
      | none => rfl
      | some c =>
        by_cases hc : c = b
        · subst hc; simp only [Function.update_self, hB]
        · simp only [Function.update_of_ne hc]

theorem un_inc (s : St ι κ) (b : Option ℕ) : (inc s b).un = s.un := by
  cases b with
  | none => rfl
  | some b => simp only [inc]; cases s.blk b <;> rfl

theorem sh_inc (s : St ι κ) (b : Option ℕ) : (inc s b).sh = s.sh := by
  cases b with
  | none => rfl
  | some b => simp only [inc]; cases s.blk b <;> rfl

/-- The object of the block a reference refers to. -/
def deref (s : St ι κ) : Option ℕ → Option ℕ
  | none => none
  | some b => (s.blk b).bind Block.obj

theorem get_eq_deref (s : St ι κ) (i : ι) : get s i = deref s (s.sh i) := by
  simp only [get, deref]
  cases s.sh i with
  | none => rfl
  | some b => cases hB : s.blk b <;> simp [hB]

theorem get_takeOver {i : ι} {b : Option ℕ} (h : Inv s (fun y => e y + ind b y) x) (j : ι) :
    get (takeOver s i b) j = if j = i then deref s b else get s j := by
  unfold takeOver
  rw [get_dec (inv_setSh i h), get_eq_deref, get_eq_deref]
  simp only [deref]
  by_cases hj : j = i
  · subst hj; rw [if_pos rfl, Function.update_self]
  · rw [if_neg hj, Function.update_of_ne hj]

theorem un_takeOver (s : St ι κ) (i : ι) (b : Option ℕ) : (takeOver s i b).un = s.un := un_dec _ _

end Mutable.Unshare
