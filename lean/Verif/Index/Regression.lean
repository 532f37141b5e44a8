import Verif.Index.Model
import Mathlib.Tactic.FieldSimp
import Mathlib.Tactic.Ring
import Mathlib.Tactic.Linarith
import Mathlib.Tactic.Positivity
/-!
# C28: the linear models are least-squares fits
-/
namespace Mutable.Index

/-! ### Specification -/

/-- The sum of the squared errors of a linear model for the keys at positions `y, y + 1, …`. -/
def sse (m : Linear) : List Rat → Nat → Rat
  | [], _ => 0
  | x :: t, y => (m.eval x - y) ^ 2 + sse m t (y + 1)

/-! ### Proof -/

theorem regression_step (i : Nat) (x y mx my c m2 a b : Rat) :
    let dx := x - mx
    let mx' := mx + dx / ((i : Rat) + 1)
    let my' := my + (y - my) / ((i : Rat) + 1)
    m2 * a ^ 2 - 2 * a * c + i * (b + a * mx - my) ^ 2 + (a * x + b - y) ^ 2 =
      (m2 + dx * (x - mx')) * a ^ 2 - 2 * a * (c + dx * (y - my')) + ((i : Rat) + 1) * (b + a * mx' - my') ^ 2 + (y - my) * (y - my') := by
  intro dx mx' my'
  have h : (i : Rat) + 1 ≠ 0 := by positivity
  simp only [dx, mx', my']
  field_simp
  ring

theorem regressionLoop_sse (offset : Nat) (xs : List Rat) (i : Nat) (mx my c m2 : Rat) :
    ∃ e, ∀ a b : Rat, sse ⟨a, b⟩ xs (offset + i) + (m2 * a ^ 2 - 2 * a * c + i * (b + a * mx - my) ^ 2) =
      (regressionLoop offset xs i mx my c m2).2.2.2 * a ^ 2 - 2 * a * (regressionLoop offset xs i mx my c m2).2.2.1 +
      ((i : Rat) + xs.length) * (b + a * (regressionLoop offset xs i mx my c m2).1 - (regressionLoop offset xs i mx my c m2).2.1) ^ 2 + e := by
  induction xs generalizing i mx my c m2 with
  | nil => exact ⟨0, fun a b => by simp [sse, regressionLoop]⟩
  | cons x t ih =>
    have hs := regression_step i x ((offset + i : Nat) : Rat) mx my c m2
    simp only at hs
    obtain ⟨e, he⟩ := ih (i + 1) (mx + (x - mx) / ((i : Rat) + 1)) (my + (((offset + i : Nat) : Rat) - my) / ((i : Rat) + 1))
      (c + (x - mx) * (((offset + i : Nat) : Rat) - (my + (((offset + i : Nat) : Rat) - my) / ((i : Rat) + 1))))
      (m2 + (x - mx) * (x - (mx + (x - mx) / ((i : Rat) + 1))))
    refine ⟨e + (((offset + i : Nat) : Rat) - my) * (((offset + i : Nat) : Rat) - (my + (((offset + i : Nat) : Rat) - my) / ((i : Rat) + 1))), fun a b => ?_⟩
    have he' := he a b
    have hs' := hs a b
    simp only [regressionLoop, sse, Linear.eval, List.length_cons, Nat.cast_add, Nat.cast_one] at he' hs' ⊢
    rw [show offset + i + 1 = offset + (i + 1) from by omega]
    rw [show (i : Rat) + ((t.length : Rat) + 1) = (i : Rat) + 1 + t.length from by ring]
    linarith

theorem regressionLoop_m2 (offset : Nat) (xs : List Rat) (i : Nat) (mx my c m2 : Rat) (h0 : 0 ≤ m2) (h1 : m2 = 0 → c = 0) :
    0 ≤ (regressionLoop offset xs i mx my c m2).2.2.2 ∧
    ((regressionLoop offset xs i mx my c m2).2.2.2 = 0 → (regressionLoop offset xs i mx my c m2).2.2.1 = 0) := by
  induction xs generalizing i mx my c m2 with
  | nil => exact ⟨h0, h1⟩
  | cons x t ih =>
    unfold regressionLoop
    simp only
    have hd : (0 : Rat) < (i : Rat) + 1 := by positivity
    have key : (x - mx) * (x - (mx + (x - mx) / ((i : Rat) + 1))) = (x - mx) ^ 2 * i / ((i : Rat) + 1) := by
      field_simp; ring
    have hk : 0 ≤ (x - mx) ^ 2 * i / ((i : Rat) + 1) := by positivity
    apply ih
    · rw [key]; linarith
    · intro h
      rw [key] at h
      have hz : (x - mx) ^ 2 * i / ((i : Rat) + 1) = 0 := by linarith
      have hm : m2 = 0 := by linarith
      rw [h1 hm, zero_add]
      rw [div_eq_zero_iff] at hz
      rcases hz with hz | hz
      · rcases mul_eq_zero.1 hz with hz | hz
        · have : x - mx = 0 := by simpa using hz
          rw [this, zero_mul]
        · have : (i : Rat) = 0 := hz
          rw [this]
          simp
      · exact absurd hz hd.ne'

/-- No line has a smaller squared error on the trained keys than the model returned by `train_linear_regression`. -/
theorem trainRegression_optimal (xs : List Rat) (offset : Nat) (m : Linear) (hn : xs ≠ []) :
    sse (trainRegression xs offset 1) xs offset ≤ sse m xs offset := by
  match xs, hn with
  | [x], _ =>
    simp only [trainRegression, sse, Linear.eval]
    have := sq_nonneg (m.slope * x + m.intercept - (offset : Rat))
    simpa using this
  | x :: x2 :: t, _ =>
    obtain ⟨e, he⟩ := regressionLoop_sse offset (x :: x2 :: t) 0 0 0 0 0
    obtain ⟨g1, g2⟩ := regressionLoop_m2 offset (x :: x2 :: t) 0 0 0 0 0 le_rfl (fun _ => rfl)
    unfold trainRegression
    simp only
    generalize regressionLoop offset (x :: x2 :: t) 0 0 0 0 0 = r at he g1 g2
    obtain ⟨mx, my, c, m2⟩ := r
    simp only at he g1 g2 ⊢
    have hl : ((x :: x2 :: t).length : Rat) - 1 = (t.length : Rat) + 1 := by push_cast [List.length_cons]; ring
    have hlp : (0 : Rat) < (t.length : Rat) + 1 := by positivity
    have hmm : sse m (x :: x2 :: t) offset = m2 * m.slope ^ 2 - 2 * m.slope * c + (x :: x2 :: t).length * (m.intercept + m.slope * mx - my) ^ 2 + e := by
      have := he m.slope m.intercept
      simpa using this
    have hall : ∀ a b : Rat, sse ⟨a, b⟩ (x :: x2 :: t) offset = m2 * a ^ 2 - 2 * a * c + (x :: x2 :: t).length * (b + a * mx - my) ^ 2 + e := by
      intro a b
      have := he a b
      simpa using this
    have hsq : 0 ≤ ((x :: x2 :: t).length : Rat) * (m.intercept + m.slope * mx - my) ^ 2 := by positivity
    rw [hl]
    split
    · next hv =>
      have hm : m2 = 0 := by
        rw [div_eq_zero_iff] at hv
        exact hv.resolve_right hlp.ne'
      rw [hall, hmm, g2 hm, hm]
      have : (my + 0 * mx - my) ^ 2 = 0 := by ring
      rw [this]
      linarith
    · next hv =>
      have hm : m2 ≠ 0 := fun h => hv (by rw [h]; simp)
      have hs : c / ((t.length : Rat) + 1) / (m2 / ((t.length : Rat) + 1)) * 1 = c / m2 := by field_simp
      rw [hs, hall, hmm]
      have h1 : (my * 1 - c / m2 * mx + c / m2 * mx - my) ^ 2 = 0 := by ring
      rw [h1]
      have h2 : m2 * m.slope ^ 2 - 2 * m.slope * c - (m2 * (c / m2) ^ 2 - 2 * (c / m2) * c) = m2 * (m.slope - c / m2) ^ 2 := by
        field_simp; ring
      have h3 : 0 ≤ m2 * (m.slope - c / m2) ^ 2 := by positivity
      linarith

end Mutable.Index
