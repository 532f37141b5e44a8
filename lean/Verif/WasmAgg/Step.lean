import Verif.WasmAgg.Infos
import Mathlib.Tactic.Ring
import Mathlib.Tactic.FieldSimp
import Mathlib.Tactic.Linarith
import Mathlib.Data.Rat.Cast.Order
import Mathlib.Data.List.Induction

/-! The state of an aggregate as a function of the rows it has consumed. -/
namespace Mutable.WasmAgg

def Ty.isI : Ty → Bool
  | .int _ => true | .dec _ _ => true | .flt => false | .dbl => false

/-- `v` is an integer, or a finite floating-point number. -/
def Kind (ty : Ty) (v : Val) : Prop := if ty.isI then ∃ z, v = .i z else ∃ q, v = .d (.fin q)

theorem Fits.kind {ty : Ty} {v : Val} (h : Fits ty v) : Kind ty v := by
  cases ty <;> simp only [Fits] at h <;> simp only [Kind, Ty.isI]
  · obtain ⟨_, z, hz, _⟩ := h; exact ⟨z, hz⟩
  · obtain ⟨_, z, hz, _⟩ := h; exact ⟨z, hz⟩
  · obtain ⟨q, hq, _⟩ := h; exact ⟨q, hq⟩
  · obtain ⟨q, hq, _⟩ := h; exact ⟨q, hq⟩

/-- The number behind the representation. -/
def Val.toQ : Val → ℚ
  | .i z => z | .d (.fin q) => q | .d _ => 0

theorem Kind.ext {ty : Ty} {v w : Val} (hv : Kind ty v) (hw : Kind ty w) (h : v.toQ = w.toQ) : v = w := by
  unfold Kind at hv hw
  split at hv
  · rename_i hi
    simp only [hi, if_true] at hw
    obtain ⟨z, rfl⟩ := hv
    obtain ⟨y, rfl⟩ := hw
    simp only [Val.toQ] at h
    rw [Int.cast_injective h]
  · rename_i hi
    simp only [hi, if_false] at hw
    obtain ⟨z, rfl⟩ := hv
    obtain ⟨y, rfl⟩ := hw
    simp only [Val.toQ] at h
    rw [h]

theorem conv_kind {ty ty' : Ty} {v : Val} (hv : Kind ty v) (h : ty'.isI = true → ty.isI = true) : Kind ty' (conv ty' v) := by
  unfold Kind at *
  cases hty : ty'.isI with
  | true =>
    have h1 := h hty
    simp only [h1, if_true] at hv
    obtain ⟨z, rfl⟩ := hv
    simp only [if_true]
    cases ty' <;> simp_all [Ty.isI, conv]
  | false =>
    simp only [Bool.false_eq_true, if_false]
    split at hv
    · obtain ⟨z, rfl⟩ := hv
      cases ty' <;> simp_all [Ty.isI, conv, Val.toDbl]
    · obtain ⟨q, rfl⟩ := hv
      cases ty' <;> simp_all [Ty.isI, conv, Val.toDbl]

theorem conv_toQ {ty ty' : Ty} {v : Val} (hv : Kind ty v) : (conv ty' v).toQ = v.toQ := by
  unfold Kind at hv
  split at hv
  · obtain ⟨z, rfl⟩ := hv
    cases ty' <;> simp [conv, Val.toDbl, Val.toQ]
  · obtain ⟨q, rfl⟩ := hv
    cases ty' <;> simp [conv, Val.toDbl, Val.toQ]

theorem Kind.toDbl {ty : Ty} {v : Val} (hv : Kind ty v) : v.toDbl = .fin v.toQ := by
  unfold Kind at hv
  split at hv
  · obtain ⟨z, rfl⟩ := hv; rfl
  · obtain ⟨q, rfl⟩ := hv; rfl

/-! ### Minimum and maximum -/

/-- Order of numbers in the direction of the aggregate. -/
def le' (isMin : Bool) (a b : ℚ) : Prop := if isMin then a ≤ b else b ≤ a

theorem le'_refl (m : Bool) (a : ℚ) : le' m a a := by cases m <;> simp [le']
theorem le'_trans {m : Bool} {a b c : ℚ} (h1 : le' m a b) (h2 : le' m b c) : le' m a c := by
  cases m <;> simp only [le', if_true, Bool.false_eq_true, if_false] at * <;> linarith
theorem le'_antisymm {m : Bool} {a b : ℚ} (h1 : le' m a b) (h2 : le' m b a) : a = b := by
  cases m <;> simp only [le', if_true, Bool.false_eq_true, if_false] at * <;> linarith
theorem le'_total (m : Bool) (a b : ℚ) : le' m a b ∨ le' m b a := by
  cases m <;> simp only [le', if_true, Bool.false_eq_true, if_false]
  · exact le_total b a
  · exact le_total a b

theorem vmm_cases (m : Bool) {ty : Ty} {a b : Val} (ha : Kind ty a) (hb : Kind ty b) :
    (vmm m a b = a ∧ le' m a.toQ b.toQ) ∨ (vmm m a b = b ∧ le' m b.toQ a.toQ) := by
  unfold Kind at ha hb
  split at ha
  · rename_i hi
    simp only [hi, if_true] at hb
    obtain ⟨x, rfl⟩ := ha
    obtain ⟨y, rfl⟩ := hb
    cases m <;> simp only [vmm, le', Val.toQ, if_true, Bool.false_eq_true, if_false, Int.cast_le]
    · split
      · right; exact ⟨rfl, by omega⟩
      · left; exact ⟨rfl, by omega⟩
    · split
      · right; exact ⟨rfl, by omega⟩
      · left; exact ⟨rfl, by omega⟩
  · rename_i hi
    simp only [hi, if_false] at hb
    obtain ⟨x, rfl⟩ := ha
    obtain ⟨y, rfl⟩ := hb
    cases m <;>
      simp only [vmm, Dbl.mm, Dbl.lt, le', Val.toQ, if_true, Bool.false_eq_true, if_false, reduceCtorEq, or_self,
        decide_eq_true_eq]
    · by_cases h : x < y
      · right; rw [if_pos h]; exact ⟨rfl, le_of_lt h⟩
      · left; rw [if_neg h]; exact ⟨rfl, not_lt.1 h⟩
    · by_cases h : y < x
      · right; rw [if_pos h]; exact ⟨rfl, le_of_lt h⟩
      · left; rw [if_neg h]; exact ⟨rfl, not_lt.1 h⟩

/-- `v` is the extreme element of the list. -/
def Extreme (m : Bool) (l : List Val) (v : Val) : Prop := v ∈ l ∧ ∀ w ∈ l, le' m v.toQ w.toQ

theorem Extreme.uniq {m : Bool} {ty : Ty} {l : List Val} (hk : ∀ v ∈ l, Kind ty v) {v w : Val} (hv : Extreme m l v)
    (hw : Extreme m l w) : v = w :=
  (hk _ hv.1).ext (hk _ hw.1) (le'_antisymm (hv.2 _ hw.1) (hw.2 _ hv.1))

theorem Extreme.perm {m : Bool} {l l' : List Val} {v : Val} (h : Extreme m l v) (hp : ∀ x, x ∈ l ↔ x ∈ l') : Extreme m l' v :=
  ⟨(hp _).1 h.1, fun w hw => h.2 w ((hp w).2 hw)⟩

theorem Extreme.vmm {m : Bool} {ty : Ty} {l l' : List Val} (hk : ∀ v ∈ l, Kind ty v) (hk' : ∀ v ∈ l', Kind ty v)
    {v w : Val} (hv : Extreme m l v) (hw : Extreme m l' w) : Extreme m (l ++ l') (vmm m v w) := by
  rcases vmm_cases m (hk _ hv.1) (hk' _ hw.1) with ⟨h1, h2⟩ | ⟨h1, h2⟩
  · rw [h1]
    refine ⟨List.mem_append_left _ hv.1, fun x hx => ?_⟩
    rcases List.mem_append.1 hx with hx | hx
    · exact hv.2 _ hx
    · exact le'_trans h2 (hw.2 _ hx)
  · rw [h1]
    refine ⟨List.mem_append_right _ hw.1, fun x hx => ?_⟩
    rcases List.mem_append.1 hx with hx | hx
    · exact le'_trans h2 (hv.2 _ hx)
    · exact hw.2 _ hx

theorem foldl_vmm {m : Bool} {ty : Ty} : ∀ (l : List Val) (v0 : Val), Kind ty v0 → (∀ v ∈ l, Kind ty v) →
    Extreme m (v0 :: l) (l.foldl (vmm m) v0) := by
  intro l
  induction l using List.reverseRecOn with
  | nil => intro v0 _ _; exact ⟨by simp, by simp [le'_refl]⟩
  | append_singleton l v ih =>
    intro v0 h0 hl
    rw [List.foldl_append, List.foldl_cons, List.foldl_nil]
    have h1 := ih v0 h0 (fun w hw => hl w (by simp [hw]))
    have h2 : Extreme m [v] v := ⟨by simp, by simp [le'_refl]⟩
    have h3 := Extreme.vmm (ty := ty) (l := v0 :: l) (l' := [v]) ?_ ?_ h1 h2
    · simpa using h3
    · intro w hw
      rcases List.mem_cons.1 hw with rfl | hw
      · exact h0
      · exact hl w (by simp [hw])
    · intro w hw; exact hl w (by simp at hw; simp [hw])

theorem neutral_kind (m : Bool) (ty : Ty) : Kind ty (neutral m ty) := by
  cases ty <;> simp [Kind, Ty.isI, neutral]

theorem neutral_le (m : Bool) {ty : Ty} {v : Val} (h : Fits ty v) : le' m v.toQ (neutral m ty).toQ := by
  cases ty with
  | int w =>
    obtain ⟨_, z, rfl, h1, h2⟩ := h
    cases m <;> simp only [le', neutral, Val.toQ, if_true, Bool.false_eq_true, if_false, Int.cast_le] <;> omega
  | dec w s =>
    obtain ⟨_, z, rfl, h1, h2⟩ := h
    cases m <;> simp only [le', neutral, Val.toQ, if_true, Bool.false_eq_true, if_false, Int.cast_le] <;> omega
  | flt =>
    obtain ⟨q, rfl, h1, h2⟩ := h
    cases m <;> simp only [le', neutral, Val.toQ, if_true, Bool.false_eq_true, if_false] <;> assumption
  | dbl =>
    obtain ⟨q, rfl, h1, h2⟩ := h
    cases m <;> simp only [le', neutral, Val.toQ, if_true, Bool.false_eq_true, if_false] <;> assumption

theorem vmm_neutral (m : Bool) {ty : Ty} {v : Val} (h : Fits ty v) : vmm m (neutral m ty) v = v := by
  rcases vmm_cases m (neutral_kind m ty) h.kind with ⟨h1, h2⟩ | ⟨h1, _⟩
  · rw [h1]
    exact (neutral_kind m ty).ext h.kind (le'_antisymm h2 (neutral_le m h))
  · exact h1

/-- Starting with the neutral element does not matter if there is a value. -/
theorem Extreme.neutral {m : Bool} {ty : Ty} {l : List Val} {v : Val} (h : Extreme m (neutral m ty :: l) v)
    (hl : ∀ x ∈ l, Fits ty x) (hne : l ≠ []) : Extreme m l v := by
  refine ⟨?_, fun w hw => h.2 w (by simp [hw])⟩
  rcases List.mem_cons.1 h.1 with h1 | h1
  · obtain ⟨x, hx⟩ := List.exists_mem_of_ne_nil l hne
    have h2 := h.2 x (by simp [hx])
    have h3 := neutral_le m (hl x hx)
    rw [h1] at h2 ⊢
    rwa [(neutral_kind m ty).ext (hl x hx).kind (le'_antisymm h2 h3)]
  · exact h1

/-! ### Sums -/

theorem wrap_wrap_add (w : Nat) (a b : Int) : wrap w (wrap w a + b) = wrap w (a + b) := by
  unfold wrap; exact Int.bmod_add_bmod
theorem wrap_add_wrap (w : Nat) (a b : Int) : wrap w (a + wrap w b) = wrap w (a + b) := by
  unfold wrap; exact Int.add_bmod_bmod

theorem wrap_id {w : Nat} {z : Int} (h1 : -2 ^ (w - 1) ≤ z) (h2 : z < 2 ^ (w - 1)) (hw : 1 ≤ w) : wrap w z = z := by
  unfold wrap
  have hp : (2 : Int) ^ w = 2 * 2 ^ (w - 1) := by
    obtain ⟨k, rfl⟩ : ∃ k, w = k + 1 := ⟨w - 1, by omega⟩
    rw [Nat.add_sub_cancel, pow_succ]; ring
  apply Int.bmod_eq_of_le
  · push_cast; rw [hp]; omega
  · push_cast; rw [hp]; omega

/-- The closed form of a sum. -/
def sumVal (ty : Ty) (l : List Val) : Val :=
  if ty.isI then .i (wrap ty.size (l.map Val.raw).sum) else .d (.fin (l.map Val.toQ).sum)

theorem sumVal_nil (ty : Ty) : sumVal ty [] = zero ty := by
  cases ty <;> simp [sumVal, Ty.isI, zero, wrap]

theorem vadd_sumVal {ty : Ty} {l l' : List Val} : vadd ty (sumVal ty l) (sumVal ty l') = sumVal ty (l ++ l') := by
  unfold sumVal
  split
  · simp only [vadd, List.map_append, List.sum_append, wrap_wrap_add, wrap_add_wrap]
  · simp only [vadd, Dbl.add, List.map_append, List.sum_append]

theorem vadd_sumVal_snoc {ty : Ty} {l : List Val} {v : Val} (hv : Kind ty v) :
    vadd ty (sumVal ty l) v = sumVal ty (l ++ [v]) := by
  unfold Kind at hv
  unfold sumVal
  split at hv
  · rename_i hi
    obtain ⟨z, rfl⟩ := hv
    simp only [hi, if_true, vadd, List.map_append, List.sum_append, wrap_wrap_add]
    simp [Val.raw]
  · rename_i hi
    obtain ⟨z, rfl⟩ := hv
    simp only [hi, Bool.false_eq_true, if_false, vadd, Dbl.add, List.map_append, List.sum_append]
    simp [Val.toQ]

theorem vadd_sumVal_zero {ty : Ty} {l : List Val} : vadd ty (sumVal ty l) (zero ty) = sumVal ty l := by
  rw [← sumVal_nil, vadd_sumVal, List.append_nil]

/-! ### Averages -/

/-- The mean; 0 for the empty list. -/
def mean (l : List Val) : ℚ := (l.map Val.toQ).sum / l.length

theorem avgStep_mean {ty : Ty} {l : List Val} {v : Val} (hv : Kind ty v) {n : ℚ} (hn : n = l.length + 1) :
    avgStep (.fin n) (.d (.fin (mean l))) v = .d (.fin (mean (l ++ [v]))) := by
  have hn0 : n ≠ 0 := by
    have : (0 : ℚ) ≤ l.length := by positivity
    intro h; linarith
  unfold avgStep
  rw [hv.toDbl]
  simp only [Val.toDbl, Dbl.sub, Dbl.neg, Dbl.add, Dbl.div, if_neg hn0]
  congr 2
  simp only [mean, List.map_append, List.sum_append, List.length_append, List.map_cons, List.map_nil, List.sum_cons,
    List.sum_nil, List.length_cons, List.length_nil]
  push_cast
  by_cases hl : (l.length : ℚ) = 0
  · have : l = [] := by simpa using hl
    subst this
    simp [hn]
  · have h1 : (l.length : ℚ) + 1 ≠ 0 := by rw [← hn]; exact hn0
    rw [hn]
    field_simp
    ring

theorem avgStep_same {q n : ℚ} (hn : n ≠ 0) : avgStep (.fin n) (.d (.fin q)) (.d (.fin q)) = .d (.fin q) := by
  simp [avgStep, Val.toDbl, Dbl.sub, Dbl.neg, Dbl.add, Dbl.div, hn]

theorem avgStep_nan {q : ℚ} : avgStep (.fin 0) (.d (.fin q)) (.d (.fin q)) = .d .nan := by
  simp [avgStep, Val.toDbl, Dbl.sub, Dbl.neg, Dbl.add, Dbl.div, Dbl.sgn, Dbl.inf]

theorem avgStep_of_nan (c : Dbl) (v : Val) : avgStep c (.d .nan) v = .d .nan := by
  simp [avgStep, Val.toDbl, Dbl.add]

end Mutable.WasmAgg
