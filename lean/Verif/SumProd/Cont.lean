import Verif.SumProd.Tree
/-
Continuous leaves represent columns.
-/
namespace Mutable.SumProd

/-- The number of values that are at most `x`. -/
def cle (vals : List ℚ) (x : ℚ) : ℚ := (vals.countP fun y => decide (y ≤ x) : Nat)

/-- One value more that is at most `x`. -/
def one (v x : ℚ) : ℚ := if v ≤ x then 1 else 0

theorem cle_append (vals : List ℚ) (v x : ℚ) : cle (vals ++ [v]) x = cle vals x + one v x := by
  unfold cle one
  rw [List.countP_append]
  by_cases h : v ≤ x <;> simp [h]

theorem cle_erase {vals : List ℚ} {v : ℚ} (hv : v ∈ vals) (x : ℚ) : cle (vals.erase v) x = cle vals x - one v x := by
  unfold cle one
  rw [(List.perm_cons_erase hv).countP_eq, List.countP_cons]
  by_cases h : v ≤ x <;> simp [h]

theorem cle_mono (vals : List ℚ) {x y : ℚ} (h : x ≤ y) : cle vals x ≤ cle vals y := by
  unfold cle
  have : vals.countP (fun z => decide (z ≤ x)) ≤ vals.countP fun z => decide (z ≤ y) :=
    List.countP_mono_left fun z _ hz => by simp only [decide_eq_true_eq] at *; exact le_trans hz h
  exact_mod_cast this

/-- The counts of the bins above `prev` are differences of `g`. -/
def CC (g : ℚ → ℚ) : ℚ → List CBin → Prop
  | _, [] => True
  | prev, b :: bs => b.cum = g b.upper - g prev ∧ CC g b.upper bs

/-- Bounds in ascending order. -/
def Asc : ℚ → List CBin → Prop
  | _, [] => True
  | prev, b :: bs => prev ≤ b.upper ∧ Asc b.upper bs

theorem asc_all {prev : ℚ} {bs : List CBin} (h : Asc prev bs) : ∀ b ∈ bs, prev ≤ b.upper := by
  induction bs generalizing prev with
  | nil => simp
  | cons c bs ih =>
    intro b hb
    rcases List.mem_cons.mp hb with rfl | hb
    · exact h.1
    · exact le_trans h.1 (ih h.2 b hb)

theorem asc_congr : ∀ {prev : ℚ} {bs cs : List CBin}, bs.map (·.upper) = cs.map (·.upper) → Asc prev bs → Asc prev cs
  | _, [], [], _, _ => trivial
  | _, [], _ :: _, h, _ => by simp at h
  | _, _ :: _, [], h, _ => by simp at h
  | _, b :: bs, c :: cs, h, ha => by
    simp only [List.map_cons, List.cons.injEq] at h
    exact ⟨h.1 ▸ ha.1, h.1 ▸ asc_congr h.2 ha.2⟩

theorem cc_shift {g g' : ℚ → ℚ} {prev d : ℚ} {bs : List CBin} (h : CC g prev bs) (h0 : g' prev = g prev + d)
    (hb : ∀ b ∈ bs, g' b.upper = g b.upper + d) : CC g' prev bs := by
  induction bs generalizing prev with
  | nil => trivial
  | cons b bs ih =>
    have e := hb b List.mem_cons_self
    exact ⟨by rw [h.1, e, h0]; ring, ih h.2 e fun x hx => hb x (List.mem_cons_of_mem _ hx)⟩

theorem cumulC_upper (n prev : ℚ) (bs : List CBin) : (cumulC n prev bs).map (·.upper) = bs.map (·.upper) := by
  induction bs generalizing prev with
  | nil => rfl
  | cons b bs ih => simp [cumulC, ih]

theorem countsC_upper (n prev : ℚ) (bs : List CBin) : (countsC n prev bs).map (·.upper) = bs.map (·.upper) := by
  induction bs generalizing prev with
  | nil => rfl
  | cons b bs ih => simp [countsC, ih]

theorem putBin_upper (v : ℚ) (bs : List CBin) : (putBin v bs).map (·.upper) = bs.map (·.upper) := by
  induction bs with
  | nil => rfl
  | cons b bs ih => rw [putBin]; split <;> simp [ih]

theorem cumulC_cc {g : ℚ → ℚ} {n prev : ℚ} {bs : List CBin} (h : CC g prev bs) : ∀ b ∈ cumulC n (g prev / n) bs, b.cum = g b.upper / n := by
  induction bs generalizing prev with
  | nil => simp [cumulC]
  | cons c bs ih =>
    have e : c.cum / n + g prev / n = g c.upper / n := by rw [h.1]; ring
    intro b hb
    rw [cumulC, e] at hb
    rcases List.mem_cons.mp hb with rfl | hb
    · rfl
    · exact ih h.2 b hb

theorem countsC_cc {g : ℚ → ℚ} {n prev : ℚ} (hn : n ≠ 0) {bs : List CBin} (h : ∀ b ∈ bs, b.cum = g b.upper / n) : CC g prev (countsC n (g prev / n) bs) := by
  induction bs generalizing prev with
  | nil => trivial
  | cons c bs ih =>
    have e := h c List.mem_cons_self
    refine ⟨?_, ?_⟩
    · simp only [e]; field_simp
    · rw [e]; exact ih fun b hb => h b (List.mem_cons_of_mem _ hb)

theorem putBin_cc {g g' : ℚ → ℚ} {v : ℚ} (hg : ∀ x, g' x = g x + one v x) {prev : ℚ} {bs : List CBin} (h : CC g prev bs) (ha : Asc prev bs)
    (hv : prev < v) : CC g' prev (putBin v bs) := by
  have h0 : g' prev = g prev := by rw [hg, one, if_neg (not_le.mpr hv), add_zero]
  induction bs generalizing prev with
  | nil => trivial
  | cons b bs ih =>
    rw [putBin]
    split
    · rename_i hb
      have e : g' b.upper = g b.upper := by rw [hg, one, if_neg (not_le.mpr hb), add_zero]
      exact ⟨by rw [h.1, e, h0], ih h.2 ha.2 hb e⟩
    · rename_i hb
      have hb := not_lt.mp hb
      have e : g' b.upper = g b.upper + 1 := by rw [hg, one, if_pos hb]
      refine ⟨by simp only [h.1, e, h0]; ring, cc_shift h.2 e fun c hc => ?_⟩
      rw [hg, one, if_pos (le_trans hb (asc_all ha.2 c hc))]

theorem takeBin_cc {g g' : ℚ → ℚ} {v : ℚ} (hg : ∀ x, g' x = g x - one v x) (hm : ∀ x y, x ≤ y → g' x ≤ g' y) {prev : ℚ} {bs : List CBin}
    (h : CC g prev bs) (ha : Asc prev bs) (hv : prev < v) (hex : ∃ b ∈ bs, v ≤ b.upper) :
    ∃ bs', takeBin v bs = some bs' ∧ CC g' prev bs' ∧ bs'.map (·.upper) = bs.map (·.upper) := by
  have h0 : g' prev = g prev := by rw [hg, one, if_neg (not_le.mpr hv), sub_zero]
  induction bs generalizing prev with
  | nil => obtain ⟨b, hb, _⟩ := hex; simp at hb
  | cons b bs ih =>
    rw [takeBin]
    by_cases hb : b.upper < v
    · have e : g' b.upper = g b.upper := by rw [hg, one, if_neg (not_le.mpr hb), sub_zero]
      have hex' : ∃ b ∈ bs, v ≤ b.upper := by
        obtain ⟨c, hc, hcv⟩ := hex
        rcases List.mem_cons.mp hc with rfl | hc
        · exact absurd hb (not_lt.mpr hcv)
        · exact ⟨c, hc, hcv⟩
      obtain ⟨bs', e1, e2, e3⟩ := ih h.2 ha.2 hb hex' e
      refine ⟨b :: bs', by rw [if_pos hb, e1]; rfl, ⟨by rw [h.1, e, h0], e2⟩, by simp [e3]⟩
    · have hb' := not_lt.mp hb
      have e : g' b.upper = g b.upper - 1 := by rw [hg, one, if_pos hb']
      have hne : b.cum ≠ 0 := by
        have := hm prev b.upper ha.1
        rw [h.1]
        intro hz
        linarith
      refine ⟨⟨b.upper, b.cum - 1⟩ :: bs, by rw [if_neg hb, if_neg hne], ⟨by simp only [h.1, e, h0]; ring, ?_⟩, rfl⟩
      refine cc_shift (d := -1) h.2 (by rw [e]; ring) fun c hc => ?_
      rw [hg, one, if_pos (le_trans hb' (asc_all ha.2 c hc))]
      ring

/-- The leaf represents the column. -/
structure Right (x : CLeaf) (col : List (Option ℚ)) : Prop where
  rows : x.rows = col.length
  pos : col ≠ []
  ne : x.bins ≠ []
  asc : Asc x.lower x.bins
  low : ∀ y ∈ col.filterMap id, x.lower ≤ y
  high : ∀ y ∈ col.filterMap id, ∃ b ∈ x.bins, y ≤ b.upper
  lowP : x.lowerP = cle (col.filterMap id) x.lower / col.length
  cum : ∀ b ∈ x.bins, b.cum = cle (col.filterMap id) b.upper / col.length

theorem nzero {col : List (Option ℚ)} (h : col ≠ []) : (col.length : ℚ) ≠ 0 := by
  exact_mod_cast fun h' => h (List.length_eq_zero_iff.mp h')

theorem mem_upper {bs cs : List CBin} (h : bs.map (·.upper) = cs.map (·.upper)) {y : ℚ} (hy : ∃ b ∈ bs, y ≤ b.upper) : ∃ b ∈ cs, y ≤ b.upper := by
  obtain ⟨b, hb, hle⟩ := hy
  have : b.upper ∈ cs.map (·.upper) := h ▸ List.mem_map_of_mem hb
  obtain ⟨c, hc, e⟩ := List.mem_map.mp this
  exact ⟨c, hc, by rw [e]; exact hle⟩

theorem ne_upper {bs cs : List CBin} (h : bs.map (·.upper) = cs.map (·.upper)) (hb : bs ≠ []) : cs ≠ [] := by
  rintro rfl
  simp at h
  exact hb h

theorem countC_fold {lo : ℚ} (vals : List ℚ) : ∀ (bs : List CBin) (done : List ℚ), CC (cle done) lo bs → Asc lo bs → (∀ v ∈ vals, lo ≤ v) →
    CC (cle (done ++ vals)) lo (vals.foldl (countC lo) bs) ∧ (vals.foldl (countC lo) bs).map (·.upper) = bs.map (·.upper) := by
  induction vals with
  | nil => intro bs done h _ _; simpa using h
  | cons v vals ih =>
    intro bs done h ha hv
    have hup : (countC lo bs v).map (·.upper) = bs.map (·.upper) := by
      unfold countC; split
      · rfl
      · exact putBin_upper v bs
    have hcc : CC (cle (done ++ [v])) lo (countC lo bs v) := by
      unfold countC
      split
      · rename_i e
        refine cc_shift (d := 1) h (by rw [cle_append, one, if_pos e.le]) fun b hb => ?_
        rw [cle_append, one, if_pos (by rw [e]; exact asc_all ha b hb)]
      · rename_i e
        exact putBin_cc (cle_append done v) h ha (lt_of_le_of_ne (hv v List.mem_cons_self) (Ne.symm e))
    obtain ⟨h1, h2⟩ := ih _ _ hcc (asc_congr hup.symm ha) fun y hy => hv y (List.mem_cons_of_mem _ hy)
    rw [List.append_assoc] at h1
    exact ⟨h1, h2.trans hup⟩

theorem emptyBins_cc (lo hi : ℚ) (nb : Nat) : CC (cle []) lo (emptyBins lo hi nb) := by
  unfold emptyBins
  have : ∀ (l : List Nat) (prev : ℚ), CC (cle []) prev (l.map fun (i : Nat) => ⟨lo + ((i : ℚ) + 1) * ((hi - lo) / nb), 0⟩) := by
    intro l
    induction l with
    | nil => intro prev; trivial
    | cons i l ih => intro prev; exact ⟨by simp [cle], ih _⟩
  exact this _ _

theorem emptyBins_asc {lo hi : ℚ} (h : lo ≤ hi) (nb : Nat) : Asc lo (emptyBins lo hi nb) := by
  unfold emptyBins
  have hw : 0 ≤ (hi - lo) / nb := div_nonneg (by linarith) (Nat.cast_nonneg _)
  have : ∀ (k s : Nat) (prev : ℚ), prev ≤ lo + ((s : ℚ) + 1) * ((hi - lo) / nb) →
      Asc prev ((List.range' s k).map fun (i : Nat) => ⟨lo + ((i : ℚ) + 1) * ((hi - lo) / nb), 0⟩) := by
    intro k
    induction k with
    | zero => intro s prev _; trivial
    | succ k ih =>
      intro s prev hp
      rw [List.range'_succ, List.map_cons]
      refine ⟨hp, ih _ _ ?_⟩
      push_cast
      linarith
  rw [List.range_eq_range']
  refine this _ _ _ ?_
  push_cast
  linarith

theorem emptyBins_high {lo hi : ℚ} {nb : Nat} (hn : 0 < nb) {y : ℚ} (hy : y ≤ hi) : ∃ b ∈ emptyBins lo hi nb, y ≤ b.upper := by
  refine ⟨⟨lo + (((nb - 1 : Nat) : ℚ) + 1) * ((hi - lo) / nb), 0⟩, ?_, ?_⟩
  · unfold emptyBins
    exact List.mem_map.mpr ⟨nb - 1, List.mem_range.mpr (by omega), rfl⟩
  · have : (nb : ℚ) ≠ 0 := by exact_mod_cast hn.ne'
    have e : (((nb - 1 : Nat) : ℚ) + 1) = nb := by rw [Nat.cast_sub (by omega)]; push_cast; ring
    simp only [e]
    have : lo + (nb : ℚ) * ((hi - lo) / nb) = hi := by field_simp; ring
    rw [this]
    exact hy

theorem right_learn {lo hi : ℚ} {nb : Nat} (hn : 0 < nb) {col : List (Option ℚ)} (hlo : ∀ y ∈ col.filterMap id, lo ≤ y) (hhi : ∀ y ∈ col.filterMap id, y ≤ hi)
    (hne : col.filterMap id ≠ []) : Right (learnCont lo hi nb col) col := by
  have hcol : col ≠ [] := by rintro rfl; exact hne rfl
  have hle : lo ≤ hi := by
    obtain ⟨y, ys, e⟩ := List.exists_cons_of_ne_nil hne
    exact le_trans (hlo y (e ▸ List.mem_cons_self)) (hhi y (e ▸ List.mem_cons_self))
  have hall : col.all (fun x => x.isNone) ≠ true := by
    intro h
    apply hne
    rw [List.filterMap_eq_nil_iff]
    intro x hx
    have := List.all_eq_true.mp h x hx
    simpa using this
  unfold learnCont
  rw [if_neg hall]
  obtain ⟨h1, h2⟩ := countC_fold (col.filterMap id) _ [] (emptyBins_cc lo hi nb) (emptyBins_asc hle nb) hlo
  rw [List.nil_append] at h1
  have hup := (cumulC_upper (col.length : ℚ) ((col.countP fun x => x = some lo) / col.length) ((col.filterMap id).foldl (countC lo) (emptyBins lo hi nb))).trans h2
  have hlp : ((col.countP fun x => x = some lo : Nat) : ℚ) = cle (col.filterMap id) lo := by
    unfold cle
    rw [List.countP_filterMap]
    congr 1
    apply List.countP_congr
    intro x hx
    cases x with
    | none => simp
    | some y =>
      have := hlo y (List.mem_filterMap.mpr ⟨_, hx, rfl⟩)
      simp only [Option.some.injEq, decide_eq_true_eq, id]
      constructor
      · intro e; simp [e]
      · intro e
        simp at e
        exact le_antisymm e this
  have hemp : emptyBins lo hi nb ≠ [] := by
    intro h
    have := congrArg List.length h
    unfold emptyBins at this
    simp at this
    omega
  refine ⟨rfl, hcol, ne_upper hup.symm hemp, asc_congr hup.symm (emptyBins_asc hle nb), hlo, fun y hy => mem_upper hup.symm (emptyBins_high hn (hhi y hy)), ?_, ?_⟩
  · simp only [hlp]
  · simp only [hlp]
    exact cumulC_cc h1

/-! ### Updates -/

theorem lastBin_mem (b : CBin) (bs : List CBin) : lastBin b bs ∈ b :: bs := by
  induction bs generalizing b with
  | nil => simp [lastBin]
  | cons c bs ih => rw [lastBin]; exact List.mem_cons_of_mem _ (ih c)

theorem lastBin_ge {prev : ℚ} {b : CBin} {bs : List CBin} (h : Asc prev (b :: bs)) : ∀ c ∈ b :: bs, c.upper ≤ (lastBin b bs).upper := by
  induction bs generalizing prev b with
  | nil => intro c hc; rw [List.mem_singleton] at hc; subst hc; exact le_refl _
  | cons d bs ih =>
    intro c hc
    rw [lastBin]
    rcases List.mem_cons.mp hc with rfl | hc
    · exact le_trans h.2.1 (ih h.2 d List.mem_cons_self)
    · exact ih h.2 c hc

theorem lastBin_upper {b c : CBin} {bs cs : List CBin} (h : (b :: bs).map (·.upper) = (c :: cs).map (·.upper)) :
    (lastBin b bs).upper = (lastBin c cs).upper := by
  induction bs generalizing b c cs with
  | nil =>
    cases cs with
    | nil => simpa [lastBin] using h
    | cons d cs => simp at h
  | cons d bs ih =>
    cases cs with
    | nil => simp at h
    | cons e cs =>
      rw [lastBin, lastBin]
      simp only [List.map_cons, List.cons.injEq] at h
      exact ih (by simp only [List.map_cons, List.cons.injEq]; exact h.2)

theorem cc_append {g : ℚ → ℚ} {c : CBin} : ∀ {prev : ℚ} {b : CBin} {bs : List CBin}, CC g prev (b :: bs) → c.cum = g c.upper - g (lastBin b bs).upper →
    CC g prev (b :: bs ++ [c])
  | _, _, [], h, hc => ⟨h.1, hc, trivial⟩
  | _, _, _ :: _, h, hc => ⟨h.1, cc_append h.2 hc⟩

theorem asc_append {c : CBin} : ∀ {prev : ℚ} {b : CBin} {bs : List CBin}, Asc prev (b :: bs) → (lastBin b bs).upper ≤ c.upper → Asc prev (b :: bs ++ [c])
  | _, _, [], h, hc => ⟨h.1, hc, trivial⟩
  | _, _, _ :: _, h, hc => ⟨h.1, asc_append h.2 hc⟩

theorem cle_all {vals : List ℚ} {x : ℚ} (h : ∀ y ∈ vals, y ≤ x) : cle vals x = vals.length := by
  unfold cle
  rw [List.countP_eq_length.mpr]
  intro y hy
  simpa using h y hy

theorem cle_none {vals : List ℚ} {x : ℚ} (h : ∀ y ∈ vals, x < y) : cle vals x = 0 := by
  unfold cle
  rw [List.countP_eq_zero.mpr]
  · rfl
  · intro y hy
    simpa using h y hy

theorem vals_ins (col : List (Option ℚ)) (v : ℚ) : (col ++ [some v]).filterMap id = col.filterMap id ++ [v] := by simp

/-- The bins after an update represent the column if their counts do. -/
theorem right_mk {col : List (Option ℚ)} (hcol : col ≠ []) {n lower np : ℚ} {rows : Nat} {bs : List CBin} (hrows : rows = col.length) (hn : n = col.length)
    (hne : bs ≠ []) (ha : Asc lower bs) (low : ∀ y ∈ col.filterMap id, lower ≤ y) (high : ∀ y ∈ col.filterMap id, ∃ b ∈ bs, y ≤ b.upper)
    {lp : ℚ} (hlp : lp = cle (col.filterMap id) lower) (hcc : CC (cle (col.filterMap id)) lower bs) :
    Right ⟨cumulC n (lp / n) bs, lower, lp / n, np, rows⟩ col := by
  have hup := cumulC_upper n (lp / n) bs
  refine ⟨hrows, hcol, ne_upper hup.symm hne, asc_congr hup.symm ha, low, fun y hy => mem_upper hup.symm (high y hy), ?_, ?_⟩
  · simp only [hlp, hn]
  · rw [hn, hlp]
    exact cumulC_cc hcc

theorem right_counts {x : CLeaf} {col : List (Option ℚ)} (h : Right x col) : ∃ b bs, countsC x.rows x.lowerP x.bins = b :: bs ∧
    CC (cle (col.filterMap id)) x.lower (b :: bs) ∧ Asc x.lower (b :: bs) ∧ (∀ y ∈ col.filterMap id, ∃ c ∈ b :: bs, y ≤ c.upper) ∧
    x.lowerP * x.rows = cle (col.filterMap id) x.lower := by
  have hup := countsC_upper (x.rows : ℚ) x.lowerP x.bins
  obtain ⟨b, bs, e⟩ := List.exists_cons_of_ne_nil (ne_upper hup.symm h.ne)
  refine ⟨b, bs, e, ?_, ?_, fun y hy => ?_, ?_⟩
  · rw [← e, h.rows, h.lowP]; exact countsC_cc (nzero h.pos) h.cum
  · rw [← e]; exact asc_congr hup.symm h.asc
  · rw [← e]; exact mem_upper hup.symm (h.high y hy)
  · rw [h.lowP, h.rows]
    have := nzero h.pos
    field_simp

theorem right_ins {x : CLeaf} {col : List (Option ℚ)} (h : Right x col) (v : ℚ) :
    Right (x.insert v) (col ++ [some v]) ∧ (x.insert v).lower = min x.lower v := by
  obtain ⟨b, bs, e, hcc, ha, hh, hl⟩ := right_counts h
  have hcol : col ++ [some v] ≠ [] := by simp
  have hrows : x.rows + 1 = (col ++ [some v]).length := by rw [h.rows]; simp
  have hn : (x.rows : ℚ) + 1 = (col ++ [some v]).length := by rw [h.rows]; simp
  have hlen : ∀ {lo : ℚ}, lo ≤ v → (∀ y ∈ col.filterMap id, lo ≤ y) → ∀ y ∈ (col ++ [some v]).filterMap id, lo ≤ y := by
    intro lo h1 h2 y hy
    rw [vals_ins] at hy
    rcases List.mem_append.mp hy with hy | hy
    · exact h2 y hy
    · rw [List.mem_singleton] at hy; rw [hy]; exact h1
  have hhigh : ∀ {cs : List CBin}, cs.map (·.upper) = (b :: bs).map (·.upper) → (∃ c ∈ cs, v ≤ c.upper) →
      ∀ y ∈ (col ++ [some v]).filterMap id, ∃ c ∈ cs, y ≤ c.upper := by
    intro cs hup hex y hy
    rw [vals_ins] at hy
    rcases List.mem_append.mp hy with hy | hy
    · exact mem_upper hup.symm (hh y hy)
    · rw [List.mem_singleton] at hy; rw [hy]; exact hex
  have ha' := asc_all ha
  unfold CLeaf.insert
  rw [e]
  simp only
  split
  · rename_i hv
    refine ⟨right_mk hcol hrows hn (by simp) ha (hlen hv.ge h.low) (hhigh rfl ⟨b, List.mem_cons_self, by rw [hv]; exact ha.1⟩) ?_ ?_, by rw [hv, min_self]⟩
    · rw [hl, vals_ins, cle_append, one, if_pos hv.le]
    · rw [vals_ins]
      refine cc_shift (d := 1) hcc (by rw [cle_append, one, if_pos hv.le]) fun c hc => ?_
      rw [cle_append, one, if_pos (by rw [hv]; exact ha' c hc)]
  · rename_i hv
    split
    · rename_i hlt
      have h0 : cle (col.filterMap id) v = 0 := cle_none fun y hy => lt_of_lt_of_le hlt (h.low y hy)
      have hasc : Asc v (⟨b.upper, b.cum + x.lowerP * x.rows⟩ :: bs) := ⟨le_trans hlt.le ha.1, ha.2⟩
      refine ⟨right_mk hcol hrows hn (by simp) hasc (hlen (le_refl _) fun y hy => le_trans hlt.le (h.low y hy))
        (hhigh (by simp) ⟨⟨b.upper, b.cum + x.lowerP * x.rows⟩, List.mem_cons_self, le_trans hlt.le ha.1⟩) ?_ ?_, by rw [min_eq_right hlt.le]⟩
      · rw [vals_ins, cle_append, h0, one, if_pos (le_refl _), zero_add]
      · rw [vals_ins]
        have e1 : cle (col.filterMap id ++ [v]) b.upper = cle (col.filterMap id) b.upper + 1 := by
          rw [cle_append, one, if_pos (le_trans hlt.le ha.1)]
        have e2 : cle (col.filterMap id ++ [v]) v = 1 := by rw [cle_append, h0, one, if_pos (le_refl _), zero_add]
        refine ⟨?_, ?_⟩
        · simp only [hl, e1, e2, hcc.1]; ring
        · refine cc_shift (d := 1) hcc.2 e1 fun c hc => ?_
          rw [cle_append, one, if_pos (le_trans hlt.le (ha' c (List.mem_cons_of_mem _ hc)))]
    · rename_i hnlt
      have hlo : x.lower < v := lt_of_le_of_ne (not_lt.mp hnlt) (Ne.symm hv)
      have hlp : x.lowerP * x.rows = cle ((col ++ [some v]).filterMap id) x.lower := by
        rw [hl, vals_ins, cle_append, one, if_neg (not_le.mpr hlo), add_zero]
      split
      · rename_i hgt
        refine ⟨right_mk hcol hrows hn (by simp) (asc_append ha (le_of_lt hgt)) (hlen hlo.le h.low) ?_ hlp ?_, by rw [min_eq_left hlo.le]⟩
        · intro y hy
          rw [vals_ins] at hy
          rcases List.mem_append.mp hy with hy | hy
          · obtain ⟨c, hc, hle⟩ := hh y hy
            exact ⟨c, List.mem_append_left _ hc, hle⟩
          · rw [List.mem_singleton] at hy
            exact ⟨⟨v, 1⟩, by simp, hy.le⟩
        · rw [vals_ins]
          have hall : ∀ y ∈ col.filterMap id, y ≤ (lastBin b bs).upper := by
            intro y hy
            obtain ⟨c, hc, hle⟩ := hh y hy
            exact le_trans hle (lastBin_ge ha c hc)
          have hlast : cle (col.filterMap id ++ [v]) (lastBin b bs).upper = (col.filterMap id).length := by
            rw [cle_append, one, if_neg (not_le.mpr hgt), add_zero, cle_all hall]
          refine cc_append ?_ ?_
          · refine cc_shift (d := 0) hcc (by rw [cle_append, one, if_neg (not_le.mpr hlo)]) fun c hc => ?_
            rw [cle_append, one, if_neg (not_le.mpr (lt_of_le_of_lt (lastBin_ge ha c hc) hgt))]
          · simp only
            rw [hlast, cle_append, cle_all (x := v) fun y hy => le_trans (hall y hy) (le_of_lt hgt), one, if_pos (le_refl _)]
            ring
      · rename_i hgt
        refine ⟨right_mk hcol hrows hn ?_ (asc_congr (putBin_upper v _).symm ha) (hlen hlo.le h.low) ?_ hlp ?_, by rw [min_eq_left hlo.le]⟩
        · exact ne_upper (putBin_upper v _).symm (by simp)
        · exact hhigh (putBin_upper v _) (mem_upper (putBin_upper v _).symm ⟨_, lastBin_mem b bs, not_lt.mp hgt⟩)
        · rw [vals_ins]
          exact putBin_cc (cle_append _ v) hcc ha hlo

theorem right_del {x : CLeaf} {col : List (Option ℚ)} (h : Right x col) {v : ℚ} (hv : some v ∈ col) (hne : v ≠ x.lower) (h2 : 2 ≤ col.length) :
    Right (x.delete v) (col.erase (some v)) ∧ (x.delete v).lower = x.lower := by
  obtain ⟨b, bs, e, hcc, ha, hh, hl⟩ := right_counts h
  have hmem : v ∈ col.filterMap id := List.mem_filterMap.mpr ⟨_, hv, rfl⟩
  have hlo : x.lower < v := lt_of_le_of_ne (h.low v hmem) (Ne.symm hne)
  have hlen : (col.erase (some v)).length = col.length - 1 := List.length_erase_of_mem hv
  have hcol : col.erase (some v) ≠ [] := by
    intro hz
    rw [hz] at hlen
    simp only [List.length_nil] at hlen
    omega
  have hrows : x.rows - 1 = (col.erase (some v)).length := by rw [h.rows, hlen]
  have hn : (x.rows : ℚ) - 1 = (col.erase (some v)).length := by rw [h.rows, hlen, Nat.cast_sub (by omega), Nat.cast_one]
  have hsub : ∀ y ∈ (col.erase (some v)).filterMap id, y ∈ col.filterMap id := by
    intro y hy
    rw [filterMap_erase] at hy
    exact List.mem_of_mem_erase hy
  obtain ⟨c, hc, hle⟩ := hh v hmem
  obtain ⟨bs', e1, e2, e3⟩ := takeBin_cc (g' := cle ((col.erase (some v)).filterMap id)) (v := v)
    (fun y => by rw [filterMap_erase, cle_erase hmem]) (fun _ _ hxy => cle_mono _ hxy) hcc ha hlo ⟨c, hc, hle⟩
  unfold CLeaf.delete
  rw [e]
  simp only
  rw [if_neg (by
    rintro (h1 | h1)
    · exact absurd hlo (not_lt.mpr h1.le)
    · exact absurd (le_trans hle (lastBin_ge ha c hc)) (not_le.mpr h1)), if_neg hne, e1]
  simp only
  refine ⟨right_mk hcol hrows hn (ne_upper e3.symm (by simp)) (asc_congr e3.symm ha) (fun y hy => h.low y (hsub y hy))
    (fun y hy => mem_upper e3.symm (hh y (hsub y hy))) ?_ e2, trivial⟩
  rw [hl, filterMap_erase, cle_erase hmem, one, if_neg (not_le.mpr hlo), sub_zero]

theorem right_history (us : List Upd) : ∀ {x : CLeaf} {col : List (Option ℚ)}, Right x col → UpdsOkC x.lower col us →
    Right (us.foldl Upd.applyCont x) (us.foldl Upd.apply col) := by
  induction us with
  | nil => intro x col h _; exact h
  | cons u us ih =>
    intro x col h hok
    cases u with
    | ins v =>
      obtain ⟨h1, h2⟩ := right_ins h v
      refine ih h1 ?_
      change UpdsOkC (x.insert v).lower _ us
      rw [h2]; exact hok
    | del v =>
      obtain ⟨h1, h2⟩ := right_del h hok.1 hok.2.1 hok.2.2.1
      refine ih h1 ?_
      change UpdsOkC (x.delete v).lower _ us
      rw [h2]; exact hok.2.2.2

/-! ### Evaluation -/

/-- The number of values less than `x`. -/
def clt (vals : List ℚ) (x : ℚ) : ℚ := (vals.countP fun y => decide (y < x) : Nat)

theorem frac_vals (col : List (Option ℚ)) {op : Op} (hop : op ≠ .isNull) (v : ℚ) :
    fracCol col op v = ((col.filterMap id).countP fun y => sat op v (some y) : Nat) / col.length := by
  unfold fracCol
  congr 2
  rw [List.countP_filterMap]
  apply List.countP_congr
  intro x _
  cases x with
  | none => cases op <;> simp_all [sat]
  | some y => rfl

theorem countP_compl (vals : List ℚ) (p q : ℚ → Bool) (h : ∀ y, q y = !p y) : ((vals.countP q : Nat) : ℚ) = vals.length - (vals.countP p : Nat) := by
  have := List.length_eq_countP_add_countP p (l := vals)
  have e : vals.countP q = vals.countP fun y => decide (¬p y = true) := by
    apply List.countP_congr
    intro y _
    rw [h]; simp
  rw [e]
  have : (vals.length : ℚ) = (vals.countP p : Nat) + (vals.countP fun y => decide (¬p y = true) : Nat) := by exact_mod_cast this
  linarith

theorem frac_le (col : List (Option ℚ)) (v : ℚ) : fracCol col .le v = cle (col.filterMap id) v / col.length := frac_vals col (by simp) v

theorem frac_lt (col : List (Option ℚ)) (v : ℚ) : fracCol col .lt v = clt (col.filterMap id) v / col.length := frac_vals col (by simp) v

theorem frac_gt (col : List (Option ℚ)) (v : ℚ) : fracCol col .gt v = ((col.filterMap id).length - cle (col.filterMap id) v) / col.length := by
  rw [frac_vals col (by simp) v, countP_compl _ (fun y => decide (y ≤ v)) _ (fun y => by simp [sat, ← not_le])]
  rfl

theorem frac_ge (col : List (Option ℚ)) (v : ℚ) : fracCol col .ge v = ((col.filterMap id).length - clt (col.filterMap id) v) / col.length := by
  rw [frac_vals col (by simp) v, countP_compl _ (fun y => decide (y < v)) _ (fun y => by simp [sat, ← not_lt])]
  rfl

theorem clt_le (vals : List ℚ) (v : ℚ) : clt vals v ≤ cle vals v := by
  unfold clt cle
  have : vals.countP (fun z => decide (z < v)) ≤ vals.countP fun z => decide (z ≤ v) :=
    List.countP_mono_left fun z _ hz => by simp only [decide_eq_true_eq] at *; exact hz.le
  exact_mod_cast this

theorem le_clt (vals : List ℚ) {a v : ℚ} (h : a < v) : cle vals a ≤ clt vals v := by
  unfold clt cle
  have : vals.countP (fun z => decide (z ≤ a)) ≤ vals.countP fun z => decide (z < v) :=
    List.countP_mono_left fun z _ hz => by simp only [decide_eq_true_eq] at *; exact lt_of_le_of_lt hz h
  exact_mod_cast this

theorem clt_none {vals : List ℚ} {x : ℚ} (h : ∀ y ∈ vals, x ≤ y) : clt vals x = 0 := by
  unfold clt
  rw [List.countP_eq_zero.mpr]
  · rfl
  · intro y hy
    simpa using h y hy

theorem frac_eq (col : List (Option ℚ)) (v : ℚ) : fracCol col .eq v = (cle (col.filterMap id) v - clt (col.filterMap id) v) / col.length := by
  rw [frac_vals col (by simp) v]
  congr 1
  unfold cle clt
  induction col.filterMap id with
  | nil => simp
  | cons y vals ih =>
    simp only [List.countP_cons, Nat.cast_add] at ih ⊢
    rw [ih]
    rcases lt_trichotomy y v with h | h | h
    · simp [sat, h, h.le, h.ne]
    · simp [sat, h]; ring
    · simp [sat, not_lt.mpr h.le, not_le.mpr h, h.ne']

theorem frac_in (col : List (Option ℚ)) {a b : ℚ} (h : a ≤ b) : fracIn col a b = (cle (col.filterMap id) b - cle (col.filterMap id) a) / col.length := by
  unfold fracIn cle
  congr 1
  induction col with
  | nil => simp
  | cons x col ih =>
    rw [List.countP_cons, Nat.cast_add, ih]
    cases x with
    | none => simp
    | some y =>
      simp only [List.filterMap_cons, id, List.countP_cons, Nat.cast_add]
      by_cases h1 : y ≤ a
      · simp [h1, le_trans h1 h, not_lt.mpr h1]
      · by_cases h2 : y ≤ b
        · simp [h1, h2, not_le.mp h1]; ring
        · simp [h1, h2]

theorem around_spec {v : ℚ} : ∀ {p : CBin} {bs : List CBin}, p.upper < v → (∃ b ∈ bs, v ≤ b.upper) →
    ∃ q b, around p bs v = some (q, b) ∧ (q, b) ∈ (p :: bs).zip bs ∧ q.upper < v ∧ v ≤ b.upper
  | p, [], _, h => by obtain ⟨b, hb, _⟩ := h; simp at hb
  | p, c :: bs, hp, h => by
    rw [around]
    by_cases hc : c.upper < v
    · have h' : ∃ b ∈ bs, v ≤ b.upper := by
        obtain ⟨b, hb, hle⟩ := h
        rcases List.mem_cons.mp hb with rfl | hb
        · exact absurd hc (not_lt.mpr hle)
        · exact ⟨b, hb, hle⟩
      obtain ⟨q, b, e, hm, h1, h2⟩ := around_spec hc h'
      exact ⟨q, b, by rw [if_pos hc, e], by rw [List.zip_cons_cons]; exact List.mem_cons_of_mem _ hm, h1, h2⟩
    · exact ⟨p, c, by rw [if_neg hc], by rw [List.zip_cons_cons]; exact List.mem_cons_self, hp, not_lt.mp hc⟩

theorem hasBin_of {x : CLeaf} {q b : CBin} (h : (q, b) ∈ ((⟨x.lower, x.lowerP⟩ : CBin) :: x.bins).zip x.bins) : x.HasBin q.upper b.upper := by
  unfold CLeaf.HasBin
  have : (x.lower :: x.bins.map (·.upper)).zip (x.bins.map (·.upper)) =
      (((⟨x.lower, x.lowerP⟩ : CBin) :: x.bins).zip x.bins).map fun e => (e.1.upper, e.2.upper) := by
    have e := List.zip_map (f := fun b : CBin => b.upper) (g := fun b : CBin => b.upper) (l₁ := (⟨x.lower, x.lowerP⟩ : CBin) :: x.bins) (l₂ := x.bins)
    exact e
  rw [this]
  exact List.mem_map.mpr ⟨_, h, rfl⟩

end Mutable.SumProd
