import Verif.SumProd.Cont
import Mathlib.Algebra.Order.Group.Abs
/-
What continuous leaves answer.
-/
namespace Mutable.SumProd

/-- The answer is right, or off by at most the fraction in the bin of the value. -/
def Near (x : CLeaf) (col : List (Option ℚ)) (v est frac : ℚ) : Prop :=
  est = frac ∨ ∃ a b, x.HasBin a b ∧ a < v ∧ v ≤ b ∧ |est - frac| ≤ fracIn col a b

theorem near_of {x : CLeaf} {col : List (Option ℚ)} {v est frac a b : ℚ} (hn : (0 : ℚ) < col.length) (hb : x.HasBin a b) (h1 : a < v) (h2 : v ≤ b)
    {E N : ℚ} (he : est = E / col.length) (hf : frac = N / col.length) (hE : cle (col.filterMap id) a ≤ E ∧ E ≤ cle (col.filterMap id) b)
    (hN : cle (col.filterMap id) a ≤ N ∧ N ≤ cle (col.filterMap id) b) : Near x col v est frac := by
  refine .inr ⟨a, b, hb, h1, h2, ?_⟩
  rw [frac_in col (le_trans h1.le h2), he, hf, ← sub_div, abs_div, abs_of_pos hn]
  apply div_le_div_of_nonneg_right _ hn.le
  rw [abs_le]
  constructor <;> linarith [hE.1, hE.2, hN.1, hN.2]

/-- The same for numbers of values that are greater. -/
theorem near_of' {x : CLeaf} {col : List (Option ℚ)} {v est frac a b T : ℚ} (hn : (0 : ℚ) < col.length) (hb : x.HasBin a b) (h1 : a < v) (h2 : v ≤ b)
    {E N : ℚ} (he : est = (T - E) / col.length) (hf : frac = (T - N) / col.length) (hE : cle (col.filterMap id) a ≤ E ∧ E ≤ cle (col.filterMap id) b)
    (hN : cle (col.filterMap id) a ≤ N ∧ N ≤ cle (col.filterMap id) b) : Near x col v est frac := by
  refine .inr ⟨a, b, hb, h1, h2, ?_⟩
  rw [frac_in col (le_trans h1.le h2), he, hf, ← sub_div, abs_div, abs_of_pos hn]
  apply div_le_div_of_nonneg_right _ hn.le
  rw [abs_le]
  constructor <;> linarith [hE.1, hE.2, hN.1, hN.2]

/-- Everything about a leaf that evaluation needs. -/
theorem right_facts {x : CLeaf} {col : List (Option ℚ)} (h : Right x col) : ∃ b bs, x.bins = b :: bs ∧ (0 : ℚ) < col.length ∧
    (∀ y ∈ col.filterMap id, y ≤ (lastBin b bs).upper) ∧ (lastBin b bs).cum = (col.filterMap id).length / col.length ∧
    x.lower ≤ b.upper ∧ (∀ c ∈ b :: bs, c.upper ≤ (lastBin b bs).upper) ∧ x.HasBin x.lower b.upper := by
  obtain ⟨b, bs, e⟩ := List.exists_cons_of_ne_nil h.ne
  have ha := h.asc
  rw [e] at ha
  have hall : ∀ y ∈ col.filterMap id, y ≤ (lastBin b bs).upper := by
    intro y hy
    obtain ⟨c, hc, hle⟩ := h.high y hy
    rw [e] at hc
    exact le_trans hle (lastBin_ge ha c hc)
  refine ⟨b, bs, e, ?_, hall, ?_, ha.1, lastBin_ge ha, ?_⟩
  · exact_mod_cast List.length_pos_iff.mpr h.pos
  · rw [h.cum _ (e ▸ lastBin_mem b bs), cle_all hall]
  · unfold CLeaf.HasBin
    rw [e]
    simp

theorem around_facts {x : CLeaf} {col : List (Option ℚ)} (h : Right x col) {b : CBin} {bs : List CBin} (e : x.bins = b :: bs) {v : ℚ} (hb : b.upper < v)
    (hl : v ≤ (lastBin b bs).upper) : ∃ p c, around b bs v = some (p, c) ∧ x.HasBin p.upper c.upper ∧ p.upper < v ∧ v ≤ c.upper ∧
      p.cum = cle (col.filterMap id) p.upper / col.length ∧ c.cum = cle (col.filterMap id) c.upper / col.length ∧ p ∈ x.bins ∧ c ∈ x.bins := by
  have hex : ∃ c ∈ bs, v ≤ c.upper := by
    rcases List.mem_cons.mp (lastBin_mem b bs) with hm | hm
    · rw [hm] at hl; exact absurd hb (not_lt.mpr hl)
    · exact ⟨_, hm, hl⟩
  obtain ⟨p, c, e1, hm, h1, h2⟩ := around_spec hb hex
  have hz := List.of_mem_zip hm
  have hp : p ∈ x.bins := e ▸ hz.1
  have hc : c ∈ x.bins := e ▸ List.mem_cons_of_mem _ hz.2
  refine ⟨p, c, e1, hasBin_of ?_, h1, h2, h.cum _ hp, h.cum _ hc, hp, hc⟩
  rw [e, List.zip_cons_cons]
  exact List.mem_cons_of_mem _ hm

/-- A value between the lower bound and the last bound is in a bin. -/
theorem bin_exists {x : CLeaf} {col : List (Option ℚ)} (h : Right x col) {b : CBin} {bs : List CBin} (e : x.bins = b :: bs) {v : ℚ} (h1 : x.lower < v)
    (h2 : v ≤ (lastBin b bs).upper) : ∃ p c, x.HasBin p c ∧ p < v ∧ v ≤ c := by
  by_cases hb : b.upper < v
  · obtain ⟨p, c, _, hbin, hp, hc, _⟩ := around_facts h e hb h2
    exact ⟨_, _, hbin, hp, hc⟩
  · refine ⟨x.lower, b.upper, ?_, h1, not_lt.mp hb⟩
    unfold CLeaf.HasBin
    rw [e]
    simp

theorem unit_ratio {a v b : ℚ} (h1 : a < v) (h2 : v ≤ b) : 0 ≤ (v - a) / (b - a) ∧ (v - a) / (b - a) ≤ 1 :=
  ⟨div_nonneg (by linarith) (by linarith), div_le_one_of_le₀ (by linarith) (by linarith)⟩

theorem less_near {x : CLeaf} {col : List (Option ℚ)} (h : Right x col) (t : EvalType) (oe : Bool) (v : ℚ) :
    Near x col v (x.evalLess t oe v) (fracCol col (if oe then .le else .lt) v) := by
  obtain ⟨b, bs, e, hn, hall, hlast, hb, hge, hbin⟩ := right_facts h
  have hN : ∃ N, fracCol col (if oe then .le else .lt) v = N / col.length ∧ clt (col.filterMap id) v ≤ N ∧ N ≤ cle (col.filterMap id) v := by
    cases oe with
    | true => exact ⟨_, frac_le col v, clt_le _ _, le_refl _⟩
    | false => exact ⟨_, frac_lt col v, le_refl _, clt_le _ _⟩
  obtain ⟨N, hf, hN1, hN2⟩ := hN
  have hNab : ∀ {a c : ℚ}, a < v → v ≤ c → cle (col.filterMap id) a ≤ N ∧ N ≤ cle (col.filterMap id) c :=
    fun h1 h2 => ⟨le_trans (le_clt _ h1) hN1, le_trans hN2 (cle_mono _ h2)⟩
  unfold CLeaf.evalLess
  rw [e]
  simp only
  split
  · rename_i hlo
    left
    split
    · rename_i hc
      obtain ⟨rfl, rfl⟩ := hc
      simp only [if_true]
      rw [frac_le, h.lowP]
    · rename_i hc
      have h0 : clt (col.filterMap id) v = 0 := clt_none fun y hy => le_trans hlo (h.low y hy)
      cases oe with
      | false => simp only [Bool.false_eq_true, if_false]; rw [frac_lt, h0, zero_div]
      | true =>
        simp only [if_true]
        have : v < x.lower := lt_of_le_of_ne hlo fun he => hc ⟨he.symm, rfl⟩
        rw [frac_le, cle_none fun y hy => lt_of_lt_of_le this (h.low y hy), zero_div]
  · rename_i hlo
    have hlo := not_le.mp hlo
    split
    · rename_i hl
      rcases lt_or_eq_of_le hl with hl | hl
      · left
        rw [hlast, hf]
        congr 1
        have h1 : clt (col.filterMap id) v = (col.filterMap id).length := by
          refine le_antisymm ?_ ?_
          · refine le_trans (clt_le _ _) ?_
            rw [cle_all fun y hy => le_trans (hall y hy) hl.le]
          · have := le_clt (col.filterMap id) hl
            rw [cle_all hall] at this
            exact this
        have h2 : cle (col.filterMap id) v = (col.filterMap id).length := cle_all fun y hy => le_trans (hall y hy) hl.le
        rw [h1] at hN1; rw [h2] at hN2
        exact le_antisymm hN1 hN2
      · obtain ⟨p, c, hbin', hp, hc⟩ := bin_exists h e hlo hl.ge
        have hcl : cle (col.filterMap id) v = (col.filterMap id).length := cle_all fun y hy => hl ▸ hall y hy
        refine near_of hn hbin' hp hc hlast hf ?_ (hNab hp hc)
        rw [← hcl]
        exact ⟨cle_mono _ hp.le, cle_mono _ hc⟩
    · rename_i hl
      have hl := not_le.mp hl
      split
      · rename_i hvb
        obtain ⟨r0, r1⟩ := unit_ratio hlo hvb
        have hm := cle_mono (col.filterMap id) hb
        refine near_of hn hbin hlo hvb (E := cle (col.filterMap id) x.lower +
          (cle (col.filterMap id) b.upper - cle (col.filterMap id) x.lower) * ((v - x.lower) / (b.upper - x.lower))) ?_ hf ?_ (hNab hlo hvb)
        · rw [h.lowP, h.cum b (e ▸ List.mem_cons_self)]
          have := hn.ne'
          ring
        · have hd : 0 ≤ cle (col.filterMap id) b.upper - cle (col.filterMap id) x.lower := by linarith
          have := mul_nonneg hd r0
          have := mul_le_of_le_one_right hd r1
          constructor <;> linarith
      · rename_i hvb
        obtain ⟨p, c, e1, hbin', hp, hc, hpc, hcc, _⟩ := around_facts h e (not_le.mp hvb) hl.le
        rw [e1]
        simp only
        have hs : ∀ A U L : ℚ, switchEval t A U L = L := fun A U L => by cases t <;> rfl
        rw [hs]
        exact near_of hn hbin' hp hc hpc hf ⟨le_refl _, cle_mono _ (le_trans hp.le hc)⟩ (hNab hp hc)

theorem greater_near {x : CLeaf} {col : List (Option ℚ)} (h : Right x col) (t : EvalType) (oe : Bool) (v : ℚ) :
    Near x col v (x.evalGreater t oe v) (fracCol col (if oe then .ge else .gt) v) := by
  obtain ⟨b, bs, e, hn, hall, hlast, hb, hge, hbin⟩ := right_facts h
  have hN : ∃ N, fracCol col (if oe then .ge else .gt) v = ((col.filterMap id).length - N) / col.length ∧ clt (col.filterMap id) v ≤ N ∧
      N ≤ cle (col.filterMap id) v := by
    cases oe with
    | true => exact ⟨_, frac_ge col v, le_refl _, clt_le _ _⟩
    | false => exact ⟨_, frac_gt col v, clt_le _ _, le_refl _⟩
  obtain ⟨N, hf, hN1, hN2⟩ := hN
  have hNab : ∀ {a c : ℚ}, a < v → v ≤ c → cle (col.filterMap id) a ≤ N ∧ N ≤ cle (col.filterMap id) c :=
    fun h1 h2 => ⟨le_trans (le_clt _ h1) hN1, le_trans hN2 (cle_mono _ h2)⟩
  unfold CLeaf.evalGreater
  rw [e]
  simp only
  split
  · rename_i hlo
    left
    split
    · rename_i hc
      obtain ⟨rfl, rfl⟩ := hc
      simp only [Bool.false_eq_true, if_false]
      rw [frac_gt, h.lowP, hlast, sub_div]
    · rename_i hc
      have h0 : clt (col.filterMap id) v = 0 := clt_none fun y hy => le_trans hlo (h.low y hy)
      cases oe with
      | true => simp only [if_true]; rw [frac_ge, h0, sub_zero, hlast]
      | false =>
        simp only [Bool.false_eq_true, if_false]
        have : v < x.lower := lt_of_le_of_ne hlo fun he => hc ⟨he.symm, rfl⟩
        rw [frac_gt, cle_none fun y hy => lt_of_lt_of_le this (h.low y hy), sub_zero, hlast]
  · rename_i hlo
    have hlo := not_le.mp hlo
    split
    · rename_i hl
      rcases lt_or_eq_of_le hl with hl | hl
      · left
        rw [hf]
        have h1 : ((col.filterMap id).length : ℚ) ≤ clt (col.filterMap id) v := by
          have := le_clt (col.filterMap id) hl
          rw [cle_all hall] at this
          exact this
        have h2 : cle (col.filterMap id) v = (col.filterMap id).length := cle_all fun y hy => le_trans (hall y hy) hl.le
        have : N = (col.filterMap id).length := le_antisymm (h2 ▸ hN2) (le_trans h1 hN1)
        rw [this, sub_self, zero_div]
      · obtain ⟨p, c, hbin', hp, hc⟩ := bin_exists h e hlo hl.ge
        have hcl : cle (col.filterMap id) v = (col.filterMap id).length := cle_all fun y hy => hl ▸ hall y hy
        refine near_of' hn hbin' hp hc (E := (col.filterMap id).length) (by rw [sub_self, zero_div]) hf ?_ (hNab hp hc)
        rw [← hcl]
        exact ⟨cle_mono _ hp.le, cle_mono _ hc⟩
    · rename_i hl
      have hl := not_le.mp hl
      split
      · rename_i hvb
        obtain ⟨r0, r1⟩ := unit_ratio hlo hvb
        have hm := cle_mono (col.filterMap id) hb
        refine near_of' hn hbin hlo hvb (E := cle (col.filterMap id) b.upper -
          (cle (col.filterMap id) b.upper - cle (col.filterMap id) x.lower) * (1 - (v - x.lower) / (b.upper - x.lower))) ?_ hf ?_ (hNab hlo hvb)
        · rw [h.lowP, h.cum b (e ▸ List.mem_cons_self), hlast]
          ring
        · have hd : 0 ≤ cle (col.filterMap id) b.upper - cle (col.filterMap id) x.lower := by linarith
          have := mul_nonneg hd (sub_nonneg.mpr r1)
          have := mul_le_of_le_one_right hd (sub_le_self 1 r0)
          constructor <;> linarith
      · rename_i hvb
        obtain ⟨p, c, e1, hbin', hp, hc, hpc, hcc, _⟩ := around_facts h e (not_le.mp hvb) hl.le
        rw [e1]
        simp only
        have hs : ∀ A U L : ℚ, switchEval t A U L = L := fun A U L => by cases t <;> rfl
        rw [hs]
        refine near_of' hn hbin' hp hc (E := cle (col.filterMap id) c.upper) ?_ hf ⟨cle_mono _ (le_trans hp.le hc), le_refl _⟩ (hNab hp hc)
        rw [hlast, hcc, sub_div]

theorem eq_upper {x : CLeaf} {col : List (Option ℚ)} (h : Right x col) (v : ℚ) :
    fracCol col .eq v ≤ x.evalEq v ∧ (x.evalEq v = fracCol col .eq v ∨ ∃ a b, x.HasBin a b ∧ a < v ∧ v ≤ b ∧ x.evalEq v = fracIn col a b) := by
  obtain ⟨b, bs, e, hn, hall, hlast, hb, hge, hbin⟩ := right_facts h
  have hle : ∀ {a c : ℚ}, a < v → v ≤ c → fracCol col .eq v ≤ fracIn col a c := by
    intro a c h1 h2
    rw [frac_in col (le_trans h1.le h2), frac_eq]
    apply div_le_div_of_nonneg_right _ hn.le
    have := le_clt (col.filterMap id) h1
    have := cle_mono (col.filterMap id) h2
    linarith
  unfold CLeaf.evalEq
  rw [e]
  simp only
  split
  · rename_i hc
    have : fracCol col .eq v = 0 := by
      rw [frac_eq]
      rcases hc with hc | hc
      · rw [cle_none fun y hy => lt_of_lt_of_le hc (h.low y hy), clt_none fun y hy => le_trans (le_of_lt hc) (h.low y hy)]
        simp
      · have h1 := le_clt (col.filterMap id) hc
        have h2 := clt_le (col.filterMap id) v
        rw [cle_all hall] at h1
        rw [cle_all fun y hy => le_trans (hall y hy) hc.le] at h2 ⊢
        rw [le_antisymm h2 h1, sub_self, zero_div]
    rw [this]
    exact ⟨le_refl _, .inl rfl⟩
  · rename_i hc
    push Not at hc
    split
    · rename_i he
      subst he
      have : x.lowerP = fracCol col .eq x.lower := by rw [frac_eq, clt_none h.low, sub_zero, h.lowP]
      rw [this]
      exact ⟨le_refl _, .inl rfl⟩
    · rename_i he
      have hlo : x.lower < v := lt_of_le_of_ne hc.1 he
      split
      · rename_i hvb
        have : b.cum - x.lowerP = fracIn col x.lower b.upper := by
          rw [frac_in col hb, h.lowP, h.cum b (e ▸ List.mem_cons_self), sub_div]
        rw [this]
        exact ⟨hle hlo hvb, .inr ⟨_, _, hbin, hlo, hvb, rfl⟩⟩
      · rename_i hvb
        obtain ⟨p, c, e1, hbin', hp, hcu, hpc, hcc, _⟩ := around_facts h e (not_le.mp hvb) hc.2
        rw [e1]
        simp only
        have : c.cum - p.cum = fracIn col p.upper c.upper := by
          rw [frac_in col (le_trans hp.le hcu), hpc, hcc, sub_div]
        rw [this]
        exact ⟨hle hp hcu, .inr ⟨_, _, hbin', hp, hcu, rfl⟩⟩

end Mutable.SumProd
