import Mathlib.Tactic.ByContra
import Mathlib.Tactic.Common
import Verif.Bitset.Model
/-! Lemmas about the `SmallBitset` model: extensional characterisations of all operations. -/
namespace Mutable
namespace SB

/-- membership -/
def Mem (S : SB) (i : Nat) : Prop := S.getLsbD i = true

instance (S : SB) (i : Nat) : Decidable (Mem S i) := inferInstanceAs (Decidable (_ = _))

theorem mem_lt {S : SB} {i : Nat} (h : Mem S i) : i < 64 := by
  by_contra hc
  have := BitVec.getLsbD_of_ge S i (by omega)
  simp [Mem, this] at h

theorem ext {S T : SB} (h : ∀ i, Mem S i ↔ Mem T i) : S = T := by
  apply BitVec.eq_of_getLsbD_eq
  intro i _
  have := h i
  simp only [Mem] at this
  cases hs : S.getLsbD i <;> cases ht : T.getLsbD i <;> simp_all

@[simp] theorem not_mem_zero (i : Nat) : ¬ Mem (0#64) i := by simp [Mem]

@[simp] theorem mem_or (S T : SB) (i : Nat) : Mem (S ||| T) i ↔ Mem S i ∨ Mem T i := by
  simp [Mem]
@[simp] theorem mem_and (S T : SB) (i : Nat) : Mem (S &&& T) i ↔ Mem S i ∧ Mem T i := by
  simp [Mem]
@[simp] theorem mem_diff (S T : SB) (i : Nat) : Mem (diff S T) i ↔ Mem S i ∧ ¬ Mem T i := by
  simp only [Mem, diff, BitVec.getLsbD_and, BitVec.getLsbD_not, Bool.and_eq_true, Bool.not_eq_true', decide_eq_true_eq]
  constructor
  · rintro ⟨h, _, h2⟩; simp_all
  · rintro ⟨h, h2⟩; have := mem_lt h; simp_all
@[simp] theorem mem_not (S : SB) (i : Nat) : Mem (~~~ S) i ↔ i < 64 ∧ ¬ Mem S i := by
  simp [Mem]
@[simp] theorem mem_xor (S T : SB) (i : Nat) : Mem (S ^^^ T) i ↔ ¬ (Mem S i ↔ Mem T i) := by
  simp only [Mem, BitVec.getLsbD_xor]
  cases S.getLsbD i <;> cases T.getLsbD i <;> simp

@[simp] theorem mem_singleton (n i : Nat) : Mem (singleton n) i ↔ i < 64 ∧ i = n := by
  simp only [Mem, singleton, BitVec.getLsbD_shiftLeft, BitVec.getLsbD_one]
  simp; omega

theorem ne_zero_iff (S : SB) : S ≠ 0#64 ↔ ∃ i, Mem S i := by
  constructor
  · intro h
    by_contra hc
    apply h
    apply ext
    intro i
    simp only [not_mem_zero, iff_false]
    exact fun hm => hc ⟨i, hm⟩
  · rintro ⟨i, hi⟩ rfl
    exact not_mem_zero i hi

theorem get_iff (S : SB) (i : Nat) : get S i = true ↔ Mem S i := by
  simp only [get, bne_iff_ne, ne_eq, Mem]
  rw [← ne_eq, ne_zero_iff]
  simp only [mem_and]
  constructor
  · rintro ⟨j, hj, h1⟩
    have : j = 0 := by
      have := (BitVec.getLsbD_one (w := 64) (i := j))
      simp [Mem] at h1; omega
    subst this
    simpa [Mem] using hj
  · intro h
    exact ⟨0, by simpa [Mem] using h, by simp [Mem]⟩

end SB
end Mutable
