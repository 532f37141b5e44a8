import Verif.Common
/-! SQL's three-valued logic (specification level, independent of the code). -/
namespace Mutable.SQL

/-- A SQL truth value. -/
inductive K3 | F | N | T
  deriving DecidableEq, Repr, Inhabited

namespace K3

/-- SQL `NOT`. -/
def not : K3 → K3 | F => T | N => N | T => F

/-- SQL `AND`: FALSE dominates, then NULL. -/
def and : K3 → K3 → K3
  | F, _ => F | _, F => F
  | N, _ => N | _, N => N
  | T, T => T

/-- SQL `OR`: TRUE dominates, then NULL. -/
def or : K3 → K3 → K3
  | T, _ => T | _, T => T
  | N, _ => N | _, N => N
  | F, F => F

/-- SQL `=` on Booleans: NULL if an operand is NULL. -/
def eq : K3 → K3 → K3
  | N, _ => N | _, N => N
  | T, T => T | F, F => T | _, _ => F

/-- SQL `<>` on Booleans: NULL if an operand is NULL. -/
def ne : K3 → K3 → K3
  | N, _ => N | _, N => N
  | T, T => F | F, F => F | _, _ => T

/-- Logical strength: `a ≤ b` iff `a` is at most as true as `b` (F < N < T). -/
def le : K3 → K3 → Prop
  | F, _ => True | N, F => False | N, _ => True | T, T => True | T, _ => False

theorem and_assoc (a b c : K3) : and (and a b) c = and a (and b c) := by cases a <;> cases b <;> cases c <;> rfl
theorem or_assoc (a b c : K3) : or (or a b) c = or a (or b c) := by cases a <;> cases b <;> cases c <;> rfl
theorem and_comm (a b : K3) : and a b = and b a := by cases a <;> cases b <;> rfl
theorem or_comm (a b : K3) : or a b = or b a := by cases a <;> cases b <;> rfl
@[simp] theorem T_and (a : K3) : and T a = a := by cases a <;> rfl
@[simp] theorem and_T (a : K3) : and a T = a := by cases a <;> rfl
@[simp] theorem F_or (a : K3) : or F a = a := by cases a <;> rfl
@[simp] theorem or_F (a : K3) : or a F = a := by cases a <;> rfl
@[simp] theorem T_or (a : K3) : or T a = T := by cases a <;> rfl
@[simp] theorem or_T (a : K3) : or a T = T := by cases a <;> rfl
@[simp] theorem F_and (a : K3) : and F a = F := by cases a <;> rfl
@[simp] theorem and_F (a : K3) : and a F = F := by cases a <;> rfl
@[simp] theorem not_not (a : K3) : not (not a) = a := by cases a <;> rfl
theorem not_and (a b : K3) : not (and a b) = or (not a) (not b) := by cases a <;> cases b <;> rfl
theorem not_or (a b : K3) : not (or a b) = and (not a) (not b) := by cases a <;> cases b <;> rfl
theorem or_and (a b c : K3) : or a (and b c) = and (or a b) (or a c) := by
  cases a <;> cases b <;> cases c <;> rfl
theorem and_or (a b c : K3) : or (and a b) c = and (or a c) (or b c) := by
  cases a <;> cases b <;> cases c <;> rfl
theorem not_eq (a b : K3) : not (eq a b) = ne a b := by cases a <;> cases b <;> rfl
theorem not_ne (a b : K3) : not (ne a b) = eq a b := by cases a <;> cases b <;> rfl
theorem eq_not (a b : K3) : eq (not a) (not b) = eq a b := by cases a <;> cases b <;> rfl
theorem equiv_eq (a b : K3) : and (or (not a) b) (or (not b) a) = eq a b := by cases a <;> cases b <;> rfl
theorem le_refl (a : K3) : le a a := by cases a <;> trivial
theorem le_antisymm {a b : K3} (h : le a b) (h' : le b a) : a = b := by
  cases a <;> cases b <;> simp_all [le]
theorem le_trans {a b c : K3} (h : le a b) (h' : le b c) : le a c := by
  cases a <;> cases b <;> cases c <;> simp_all [le]
theorem le_or_left (a b : K3) : le a (or a b) := by cases a <;> cases b <;> trivial
theorem le_or_right (a b : K3) : le b (or a b) := by cases a <;> cases b <;> trivial
theorem or_le {a b c : K3} (h : le a c) (h' : le b c) : le (or a b) c := by
  cases a <;> cases b <;> cases c <;> simp_all [le, or]
theorem and_le_left (a b : K3) : le (and a b) a := by cases a <;> cases b <;> trivial
theorem and_le_right (a b : K3) : le (and a b) b := by cases a <;> cases b <;> trivial
theorem le_and {a b c : K3} (h : le c a) (h' : le c b) : le c (and a b) := by
  cases a <;> cases b <;> cases c <;> simp_all [le, and]

end K3
end Mutable.SQL
