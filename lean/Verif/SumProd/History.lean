import Verif.SumProd.Leaf
/-
Leaves under updates.
-/
namespace Mutable.SumProd

theorem mass_nonneg_mem {bs : List Bin} {v : ℚ} (h : mass (fun x => decide (x = v)) bs ≠ 0) : ∃ b ∈ bs, b.value = v := by
  by_contra hc
  push Not at hc
  exact h (mass_none fun b hb => by simpa using hc b hb)

theorem counts_cumul {n : ℚ} (hn : n ≠ 0) (prev : ℚ) (bs : List Bin) : counts n prev (cumul n prev bs) = bs := by
  induction bs generalizing prev with
  | nil => rfl
  | cons b bs ih =>
    simp only [cumul, counts, ih]
    have : (b.cum / n + prev - prev) * n = b.cum := by field_simp; ring
    rw [this]

theorem decBin_spec {v : ℚ} : ∀ {bs : List Bin}, Sorted bs → (∃ b ∈ bs, b.value = v) →
    ∃ bs', decBin v bs = some bs' ∧ bs'.map (·.value) = bs.map (·.value) ∧ ∀ p : ℚ → Bool, mass p bs' = mass p bs - if p v then 1 else 0
  | [], _, h => by obtain ⟨b, hb, _⟩ := h; simp at hb
  | c :: bs, hs, h => by
    obtain ⟨h1, h2⟩ := List.pairwise_cons.mp hs
    rw [decBin]
    by_cases hlt : c.value < v
    · obtain ⟨b, hb, e⟩ := h
      have hb' : b ∈ bs := by
        rcases List.mem_cons.mp hb with rfl | hb
        · exact absurd hlt (by rw [e]; exact lt_irrefl _)
        · exact hb
      obtain ⟨bs', e1, e2, e3⟩ := decBin_spec h2 ⟨b, hb', e⟩
      refine ⟨c :: bs', by rw [if_pos hlt, e1]; rfl, by simp [e2], fun p => ?_⟩
      rw [mass, mass, e3]; ring
    · have he : c.value = v := by
        obtain ⟨b, hb, e⟩ := h
        rcases List.mem_cons.mp hb with rfl | hb
        · exact e
        · exact absurd (e ▸ h1 b hb) hlt
      refine ⟨⟨c.value, c.cum - 1⟩ :: bs, by rw [if_neg hlt, if_pos he], rfl, fun p => ?_⟩
      rw [mass, mass, he]
      by_cases hp : p v = true <;> simp [hp] <;> ring

theorem counts_del {bs : List Bin} {vals : List ℚ} (h : Counts bs vals) {v : ℚ} (hv : v ∈ vals) :
    ∃ bs', decBin v bs = some bs' ∧ Counts bs' (vals.erase v) := by
  have hm : mass (fun x => decide (x = v)) bs ≠ 0 := by
    rw [h.2]
    have : 0 < vals.countP fun x => decide (x = v) := List.countP_pos_iff.mpr ⟨v, hv, by simp⟩
    exact_mod_cast this.ne'
  obtain ⟨bs', e1, e2, e3⟩ := decBin_spec h.1 (mass_nonneg_mem hm)
  refine ⟨bs', e1, ?_, fun p => ?_⟩
  · have e : ∀ l : List Bin, Sorted l ↔ (l.map (·.value)).Pairwise (· < ·) := fun l => by rw [List.pairwise_map]
    rw [e, e2, ← e]; exact h.1
  · have := (List.perm_cons_erase hv).countP_eq p
    rw [e3, h.2, this, List.countP_cons]
    by_cases hp : p v = true <;> simp [hp]

/-- A leaf represents a column, except NULLs. -/
def Rep (x : Node) (col : List (Option ℚ)) : Prop :=
  ∃ bs np, x = .leaf (cumul col.length 0 bs) np col.length ∧ Counts bs (col.filterMap id) ∧ (col = [] → bs = [])

theorem rep_learn (col : List (Option ℚ)) : Rep (learnLeaf col) col := by
  unfold learnLeaf
  split
  · rename_i h
    have : col.filterMap id = [] := by
      rw [List.filterMap_eq_nil_iff]
      intro x hx
      have := List.all_eq_true.mp h x hx
      simpa using this
    refine ⟨[], 1, rfl, ⟨.nil, fun p => ?_⟩, fun _ => rfl⟩
    rw [this]; simp [mass]
  · refine ⟨_, _, rfl, counts_countBins _, fun h => ?_⟩
    rw [h]; rfl

theorem rep_ins {x : Node} {col : List (Option ℚ)} (h : Rep x col) (v : ℚ) : Rep (insertLeaf v x) (col ++ [some v]) := by
  obtain ⟨bs, np, rfl, hc, h0⟩ := h
  have hf : (col ++ [some v]).filterMap id = col.filterMap id ++ [v] := by simp
  have hne : col ++ [some v] = [] → ∀ l : List Bin, l = [] := fun h => by simp at h
  cases bs with
  | nil =>
    refine ⟨[⟨v, 1⟩], np * col.length / (col.length + 1), ?_, ?_, fun h => hne h _⟩
    · rw [cumul, insertLeaf]
      simp [cumul]
    · rw [hf]
      exact counts_ins hc v
  | cons b bs =>
    refine ⟨insBin v (b :: bs), np, ?_, by rw [hf]; exact counts_ins hc v, fun h => hne h _⟩
    have hn : (col.length : ℚ) ≠ 0 := by
      intro hz
      have hz : col = [] := List.length_eq_zero_iff.mp (by exact_mod_cast hz)
      exact absurd (h0 hz) (by simp)
    have e : cumul (col.length : ℚ) 0 (b :: bs) = ⟨b.value, b.cum / col.length + 0⟩ :: cumul col.length (b.cum / col.length + 0) bs := rfl
    rw [e, insertLeaf, ← e, counts_cumul hn]
    simp

theorem filterMap_erase (col : List (Option ℚ)) (v : ℚ) : (col.erase (some v)).filterMap id = (col.filterMap id).erase v := by
  induction col with
  | nil => rfl
  | cons x col ih =>
    rw [List.erase_cons]
    cases x with
    | none => simp; exact ih
    | some y =>
      by_cases hy : y = v
      · simp [hy]
      · simp [hy]; exact ih

theorem rep_del {x : Node} {col : List (Option ℚ)} (h : Rep x col) {v : ℚ} (hv : some v ∈ col) (hl : 2 ≤ col.length) :
    Rep (deleteLeaf v x) (col.erase (some v)) := by
  obtain ⟨bs, np, rfl, hc, h0⟩ := h
  have hn : (col.length : ℚ) ≠ 0 := by
    have : col.length ≠ 0 := by omega
    exact_mod_cast this
  obtain ⟨bs', e, hc'⟩ := counts_del hc (v := v) (List.mem_filterMap.mpr ⟨_, hv, rfl⟩)
  have hlen : (col.erase (some v)).length = col.length - 1 := List.length_erase_of_mem hv
  refine ⟨bs', np, ?_, by rw [filterMap_erase]; exact hc', fun hz => ?_⟩
  · rw [deleteLeaf, counts_cumul hn, e]
    simp only
    rw [hlen, Nat.cast_sub (by omega), Nat.cast_one]
  · rw [hz] at hlen
    simp only [List.length_nil] at hlen
    omega

theorem rep_history (us : List Upd) : ∀ {x : Node} {col : List (Option ℚ)}, Rep x col → UpdsOk col us →
    Rep (us.foldl Upd.applyLeaf x) (us.foldl Upd.apply col) := by
  induction us with
  | nil => intro x col h _; exact h
  | cons u us ih =>
    intro x col h hok
    cases u with
    | ins v => exact ih (rep_ins h v) hok
    | del v => exact ih (rep_del h hok.1 hok.2.1) hok.2.2

theorem rep_ask {x : Node} {col : List (Option ℚ)} (h : Rep x col) {op : Op} (hop : op ≠ .isNull) (v : ℚ) (f : Filter) (a : Nat)
    (hf : findCond f a = some (op, v)) : x.eval f a = fracCol col op v := by
  obtain ⟨bs, np, rfl, hc, _⟩ := h
  rw [Node.eval, hf]
  simp only
  rw [evalLeaf_exact hc.1 np hop, opMass, hc.2, fracCol]
  congr 2
  rw [List.countP_filterMap]
  apply List.countP_congr
  intro x _
  cases x with
  | none => cases op <;> simp_all [sat]
  | some y => rfl

theorem learn_null {col : List (Option ℚ)} (hc : col ≠ []) (v : ℚ) (f : Filter) (a : Nat) (hf : findCond f a = some (.isNull, v)) :
    (learnLeaf col).eval f a = fracCol col .isNull v := by
  unfold learnLeaf
  have hs : (fun x : Option ℚ => x.isNone) = sat .isNull v := by funext x; cases x <;> rfl
  split
  · rename_i h
    rw [Node.eval, hf]
    simp only [evalLeaf]
    rw [fracCol, ← hs, List.countP_eq_length.mpr (fun x hx => List.all_eq_true.mp h x hx), div_self]
    exact_mod_cast fun h => hc (List.length_eq_zero_iff.mp h)
  · rw [Node.eval, hf]
    simp only [evalLeaf, fracCol, hs]

theorem learn_ask {col : List (Option ℚ)} (hc : col ≠ []) (op : Op) (v : ℚ) (f : Filter) (a : Nat) (hf : findCond f a = some (op, v)) :
    (learnLeaf col).eval f a = fracCol col op v := by
  by_cases h : op = .isNull
  · subst h; exact learn_null hc v f a hf
  · exact rep_ask (rep_learn col) h v f a hf

end Mutable.SumProd
