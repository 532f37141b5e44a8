import Verif.SumProd.Spec
import Mathlib.Tactic.Linarith
import Mathlib.Tactic.FieldSimp
import Mathlib.Tactic.Ring
/-
Discrete leaves represent columns.
-/
namespace Mutable.SumProd

/-- The sum of the counts of the bins whose value meets `p`. -/
def mass (p : ℚ → Bool) : List Bin → ℚ
  | [] => 0
  | b :: bs => (if p b.value then b.cum else 0) + mass p bs

/-- Bins are sorted. -/
abbrev Sorted (bs : List Bin) : Prop := bs.Pairwise fun a b => a.value < b.value

theorem mass_none {p : ℚ → Bool} {bs : List Bin} (h : ∀ b ∈ bs, p b.value = false) : mass p bs = 0 := by
  induction bs with
  | nil => rfl
  | cons b bs ih => rw [mass, h b List.mem_cons_self, ih fun x hx => h x (List.mem_cons_of_mem _ hx)]; simp

theorem mass_congr {p q : ℚ → Bool} {bs : List Bin} (h : ∀ b ∈ bs, p b.value = q b.value) : mass p bs = mass q bs := by
  induction bs with
  | nil => rfl
  | cons b bs ih => rw [mass, mass, h b List.mem_cons_self, ih fun x hx => h x (List.mem_cons_of_mem _ hx)]

theorem mass_compl (p : ℚ → Bool) (bs : List Bin) : mass (fun x => !p x) bs = mass (fun _ => true) bs - mass p bs := by
  induction bs with
  | nil => simp [mass]
  | cons b bs ih =>
    simp only [mass, ih]
    by_cases hp : p b.value = true <;> simp [hp] <;> ring

theorem mem_insBin {v : ℚ} {bs : List Bin} {b : Bin} (h : b ∈ insBin v bs) : b.value = v ∨ ∃ c ∈ bs, c.value = b.value := by
  induction bs with
  | nil => simp only [insBin, List.mem_singleton] at h; subst h; exact .inl rfl
  | cons c bs ih =>
    rw [insBin] at h
    split at h
    · rcases List.mem_cons.mp h with rfl | h
      · exact .inr ⟨_, List.mem_cons_self, rfl⟩
      · rcases ih h with h | ⟨d, hd, e⟩
        · exact .inl h
        · exact .inr ⟨d, List.mem_cons_of_mem _ hd, e⟩
    · split at h
      · rcases List.mem_cons.mp h with rfl | h
        · exact .inr ⟨_, List.mem_cons_self, rfl⟩
        · exact .inr ⟨_, List.mem_cons_of_mem _ h, rfl⟩
      · rcases List.mem_cons.mp h with rfl | h
        · exact .inl rfl
        · exact .inr ⟨_, h, rfl⟩

theorem insBin_sorted {v : ℚ} {bs : List Bin} (h : Sorted bs) : Sorted (insBin v bs) := by
  induction bs with
  | nil => simp [insBin]
  | cons c bs ih =>
    obtain ⟨h1, h2⟩ := List.pairwise_cons.mp h
    rw [insBin]
    split
    · rename_i hc
      refine List.pairwise_cons.mpr ⟨fun x hx => ?_, ih h2⟩
      rcases mem_insBin hx with e | ⟨d, hd, e⟩
      · rw [e]; exact hc
      · rw [← e]; exact h1 d hd
    · rename_i hc
      split
      · exact List.pairwise_cons.mpr ⟨h1, h2⟩
      · rename_i hne
        have hlt : v < c.value := lt_of_le_of_ne (not_lt.mp hc) (Ne.symm hne)
        refine List.pairwise_cons.mpr ⟨fun x hx => ?_, h⟩
        rcases List.mem_cons.mp hx with rfl | hx
        · exact hlt
        · exact lt_trans hlt (h1 x hx)

theorem insBin_mass (p : ℚ → Bool) (v : ℚ) (bs : List Bin) : mass p (insBin v bs) = mass p bs + if p v then 1 else 0 := by
  induction bs with
  | nil => simp [insBin, mass]
  | cons c bs ih =>
    rw [insBin]
    split
    · rw [mass, mass, ih]; ring
    · split
      · rename_i he
        rw [mass, mass, he]
        cases p v <;> simp <;> ring
      · rw [mass]; simp only; ring

/-- `bs` counts the values `vals`. -/
def Counts (bs : List Bin) (vals : List ℚ) : Prop := Sorted bs ∧ ∀ p : ℚ → Bool, mass p bs = vals.countP p

theorem counts_ins {bs : List Bin} {vals : List ℚ} (h : Counts bs vals) (v : ℚ) : Counts (insBin v bs) (vals ++ [v]) := by
  refine ⟨insBin_sorted h.1, fun p => ?_⟩
  rw [insBin_mass, h.2 p, List.countP_append]
  cases hp : p v <;> simp [hp]

theorem counts_countBins (vals : List ℚ) : Counts (countBins vals) vals := by
  have : ∀ (l : List ℚ) (bs : List Bin) (w : List ℚ), Counts bs w → Counts (l.foldl (fun bs v => insBin v bs) bs) (w ++ l) := by
    intro l
    induction l with
    | nil => intro bs w h; simpa using h
    | cons v l ih =>
      intro bs w h
      have := ih _ _ (counts_ins h v)
      simpa using this
  have := this vals [] [] ⟨.nil, fun p => by simp [mass]⟩
  rw [List.nil_append] at this
  exact this

/-! ### Cumulative probabilities -/

theorem cumul_values (n prev : ℚ) (bs : List Bin) : (cumul n prev bs).map (·.value) = bs.map (·.value) := by
  induction bs generalizing prev with
  | nil => rfl
  | cons b bs ih => simp [cumul, ih]

theorem cumul_length (n prev : ℚ) (bs : List Bin) : (cumul n prev bs).length = bs.length := by
  simpa using congrArg List.length (cumul_values n prev bs)

theorem lastCum_cumul (n prev : ℚ) (bs : List Bin) : lastCum prev (cumul n prev bs) = prev + mass (fun _ => true) bs / n := by
  induction bs generalizing prev with
  | nil => simp [cumul, lastCum, mass]
  | cons b bs ih => rw [cumul, lastCum, ih, mass]; simp only [if_true]; ring

theorem lastCum_while {q : ℚ → Bool} (hq : ∀ x y, x < y → q y = true → q x = true) (n prev : ℚ) {bs : List Bin} (h : Sorted bs) :
    lastCum prev ((cumul n prev bs).takeWhile fun b => q b.value) = prev + mass q bs / n := by
  induction bs generalizing prev with
  | nil => simp [cumul, lastCum, mass]
  | cons b bs ih =>
    obtain ⟨h1, h2⟩ := List.pairwise_cons.mp h
    rw [cumul, List.takeWhile_cons]
    simp only
    cases hb : q b.value with
    | true => simp only [if_true]; rw [lastCum, ih _ h2, mass, hb]; simp only [if_true]; ring
    | false =>
      have : mass q bs = 0 := mass_none fun x hx => by
        by_contra hc
        have := hq _ _ (h1 x hx) (by simpa using hc)
        rw [hb] at this; cases this
      simp [lastCum, mass, hb, this]

theorem at_lower (n prev v : ℚ) {bs : List Bin} (h : Sorted bs) :
    (match (cumul n prev bs).dropWhile fun b => b.value < v with
      | [] => 0
      | b :: _ => if b.value = v then b.cum - lastCum prev ((cumul n prev bs).takeWhile fun b => b.value < v) else 0) =
      mass (fun x => x = v) bs / n := by
  induction bs generalizing prev with
  | nil => simp [cumul, mass]
  | cons b bs ih =>
    obtain ⟨h1, h2⟩ := List.pairwise_cons.mp h
    rw [cumul, List.dropWhile_cons, List.takeWhile_cons]
    simp only
    by_cases hb : b.value < v
    · simp only [hb, decide_true, if_true]
      rw [mass]
      simp only [ne_of_lt hb, decide_false]
      have := ih (b.cum / n + prev) h2
      rw [lastCum]
      simpa using this
    · simp only [hb, decide_false]
      have hz : ∀ x ∈ bs, (decide (x.value = v)) = false := by
        intro x hx
        have := h1 x hx
        simp only [decide_eq_false_iff_not]
        intro e
        rw [e] at this
        exact hb this
      rw [mass, mass_none (p := fun x => decide (x = v)) hz]
      by_cases he : b.value = v
      · simp [he, lastCum]
      · simp [he]

theorem lastValue_mem (d : ℚ) (b : Bin) (bs : List Bin) : ∃ c ∈ b :: bs, c.value = lastValue d (b :: bs) := by
  induction bs generalizing d b with
  | nil => exact ⟨b, List.mem_cons_self, rfl⟩
  | cons c bs ih =>
    obtain ⟨x, hx, e⟩ := ih b.value c
    exact ⟨x, List.mem_cons_of_mem _ hx, e⟩

theorem lastValue_ge {bs : List Bin} (h : Sorted bs) (d : ℚ) (hd : ∀ b ∈ bs, d < b.value) : ∀ b ∈ bs, b.value ≤ lastValue d bs ∧ d < lastValue d bs := by
  induction bs generalizing d with
  | nil => simp
  | cons c bs ih =>
    obtain ⟨h1, h2⟩ := List.pairwise_cons.mp h
    have hc := hd c List.mem_cons_self
    rw [lastValue]
    intro b hb
    cases bs with
    | nil =>
      simp only [List.mem_singleton] at hb
      subst hb
      exact ⟨le_refl _, hc⟩
    | cons e bs =>
      have := ih h2 c.value h1
      have he := this e List.mem_cons_self
      rcases List.mem_cons.mp hb with rfl | hb
      · exact ⟨le_of_lt he.2, lt_trans hc he.2⟩
      · exact ⟨(this b hb).1, lt_trans hc he.2⟩

theorem values_sorted {n prev : ℚ} {bs : List Bin} (h : Sorted bs) : Sorted (cumul n prev bs) := by
  have e : ∀ l : List Bin, Sorted l ↔ (l.map (·.value)).Pairwise (· < ·) := fun l => by rw [List.pairwise_map]
  rw [e, cumul_values, ← e]
  exact h

theorem lastValue_ge_all {b : Bin} {bs : List Bin} (h : Sorted (b :: bs)) : ∀ x ∈ b :: bs, x.value ≤ lastValue 0 (b :: bs) := by
  intro x hx
  rw [lastValue]
  obtain ⟨h1, h2⟩ := List.pairwise_cons.mp h
  cases bs with
  | nil => simp only [List.mem_singleton] at hx; subst hx; exact le_refl _
  | cons c bs =>
    have := lastValue_ge h2 b.value h1
    rcases List.mem_cons.mp hx with rfl | hx
    · exact le_of_lt (this c List.mem_cons_self).2
    · exact (this x hx).1

/-- The mass of an operator. -/
def opMass (op : Op) (v : ℚ) (bs : List Bin) : ℚ := mass (fun x => sat op v (some x)) bs

theorem evalLeaf_exact {n : ℚ} {bs : List Bin} (h : Sorted bs) (nullP : ℚ) {op : Op} (hop : op ≠ .isNull) (v : ℚ) :
    evalLeaf (cumul n 0 bs) nullP op v = opMass op v bs / n := by
  cases bs with
  | nil => cases op <;> simp_all [cumul, evalLeaf, opMass, mass]
  | cons b bs =>
    have hs := values_sorted (n := n) (prev := 0) h
    have hfirst : ∀ x ∈ b :: bs, b.value ≤ x.value := by
      intro x hx
      rcases List.mem_cons.mp hx with rfl | hx
      · exact le_refl _
      · exact le_of_lt ((List.pairwise_cons.mp h).1 x hx)
    have hlast : ∀ x ∈ b :: bs, x.value ≤ lastValue 0 (cumul n 0 (b :: bs)) := by
      intro x hx
      have hm : x.value ∈ (cumul n 0 (b :: bs)).map (·.value) := by rw [cumul_values]; exact List.mem_map.mpr ⟨x, hx, rfl⟩
      obtain ⟨y, hy, e⟩ := List.mem_map.mp hm
      rw [← e]
      rw [cumul] at hs hy ⊢
      exact lastValue_ge_all hs y hy
    have hlow : beforeLower (cumul n 0 (b :: bs)) v = mass (fun x => x < v) (b :: bs) / n := by
      unfold beforeLower
      have := lastCum_while (q := fun x => decide (x < v)) (by intro x y h1 h2; simp only [decide_eq_true_eq] at *; exact lt_trans h1 h2) n 0 h
      rw [this, zero_add]
    have hup : beforeUpper (cumul n 0 (b :: bs)) v = mass (fun x => x ≤ v) (b :: bs) / n := by
      unfold beforeUpper
      have := lastCum_while (q := fun x => decide (x ≤ v)) (by intro x y h1 h2; simp only [decide_eq_true_eq] at *; exact le_of_lt (lt_of_lt_of_le h1 h2)) n 0 h
      rw [this, zero_add]
    have hall : lastCum 0 (cumul n 0 (b :: bs)) = mass (fun _ => true) (b :: bs) / n := by rw [lastCum_cumul, zero_add]
    have hat : atLower (cumul n 0 (b :: bs)) v = mass (fun x => x = v) (b :: bs) / n := at_lower n 0 v h
    have hcons : cumul n 0 (b :: bs) = ⟨b.value, b.cum / n + 0⟩ :: cumul n (b.cum / n + 0) bs := rfl
    rw [hcons] at hlast hlow hup hall hat ⊢
    unfold opMass
    cases op with
    | isNull => exact absurd rfl hop
    | eq =>
      simp only [evalLeaf]
      split
      · rename_i hc
        rw [mass_none]
        · simp
        · intro x hx
          simp only [sat, decide_eq_false_iff_not]
          rintro rfl
          rcases hc with hc | hc
          · exact absurd (hfirst x hx) (not_le.mpr hc)
          · exact absurd (hlast x hx) (not_le.mpr hc)
      · rw [hat]; rfl
    | lt =>
      simp only [evalLeaf]
      split
      · rename_i hc
        rw [mass_none]
        · simp
        · intro x hx
          simp only [sat, decide_eq_false_iff_not, not_lt]
          exact le_trans hc (hfirst x hx)
      · split
        · rename_i hc
          rw [hall]
          congr 1
          apply mass_congr
          intro x hx
          simp only [sat, Bool.true_eq, decide_eq_true_eq]
          exact lt_of_le_of_lt (hlast x hx) hc
        · rw [hlow]; rfl
    | le =>
      simp only [evalLeaf]
      split
      · rename_i hc
        rw [mass_none]
        · simp
        · intro x hx
          simp only [sat, decide_eq_false_iff_not, not_le]
          exact lt_of_lt_of_le hc (hfirst x hx)
      · split
        · rename_i hc
          rw [hall]
          congr 1
          apply mass_congr
          intro x hx
          simp only [sat, Bool.true_eq, decide_eq_true_eq]
          exact le_trans (hlast x hx) hc
        · rw [hup]; rfl
    | gt =>
      simp only [evalLeaf]
      split
      · rename_i hc
        rw [hall]
        congr 1
        apply mass_congr
        intro x hx
        simp only [sat, Bool.true_eq, decide_eq_true_eq]
        exact lt_of_lt_of_le hc (hfirst x hx)
      · split
        · rename_i hc
          rw [mass_none]
          · simp
          · intro x hx
            simp only [sat, decide_eq_false_iff_not, not_lt]
            exact le_trans (hlast x hx) hc
        · rw [hall, hup, ← sub_div, ← mass_compl]
          congr 1
          apply mass_congr
          intro x _
          simp [sat, ← not_le]
    | ge =>
      simp only [evalLeaf]
      split
      · rename_i hc
        rw [hall]
        congr 1
        apply mass_congr
        intro x hx
        simp only [sat, Bool.true_eq, decide_eq_true_eq]
        exact le_trans hc (hfirst x hx)
      · split
        · rename_i hc
          rw [mass_none]
          · simp
          · intro x hx
            simp only [sat, decide_eq_false_iff_not, not_le]
            exact lt_of_le_of_lt (hlast x hx) hc
        · rw [hall, hlow, ← sub_div, ← mass_compl]
          congr 1
          apply mass_congr
          intro x _
          simp [sat, ← not_lt]

end Mutable.SumProd
