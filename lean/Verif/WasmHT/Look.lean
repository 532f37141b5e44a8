import Verif.WasmHT.Open
import Mathlib.Data.List.Pairwise

/-! # The open-addressing hash table: lookups and `try_emplace` -/

namespace Mutable.WasmHT

/-- What is assumed of key comparison and hash function. -/
structure Good {K : Type} (c : Cfg K) : Prop where
  refl : ∀ a, c.eq a a = true
  symm : ∀ a b, c.eq a b = true → c.eq b a = true
  trans : ∀ a b d, c.eq a b = true → c.eq b d = true → c.eq a d = true
  hash : ∀ a b, c.eq a b = true → c.hash a = c.hash b

namespace OA

variable {K V : Type} {c : Cfg K} {L : Lawful c.strat} {t : OA K V}

/-- The slots probed by a lookup. -/
def probed (L : Lawful c.strat) (t : OA K V) (b : Nat) : List Nat :=
  (List.range (t.refs b)).map (L.P t.cap b)

theorem rangeLoop_eq (h : Core c L t) (k : K) {b : Nat} (hb : b < t.cap) :
    ∀ n s, s + n = t.refs b → rangeLoop c t k n (L.P t.cap b s) s =
      ((List.range' s n).map (L.P t.cap b)).flatMap
        fun x => if equalKey c t x k then (t.ent x).toList else [] := by
  intro n
  induction n with
  | zero => intro s _; simp [rangeLoop]
  | succ n ih =>
    intro s hs
    rw [rangeLoop, List.range'_succ, List.map_cons, List.flatMap_cons]
    have hle := h.refs_le hb
    have hfree := h.free
    rw [h.next hb (by omega), ih (s + 1) (by omega)]
    split <;> simp

theorem findLoop_eq (h : Core c L t) (k : K) {b : Nat} (hb : b < t.cap) :
    ∀ n s, s + n = t.refs b → findLoop c t k n (L.P t.cap b s) s =
      (((List.range' s n).map (L.P t.cap b)).flatMap
        fun x => if equalKey c t x k then (t.ent x).toList else []).head? := by
  intro n
  induction n with
  | zero => intro s _; simp [findLoop]
  | succ n ih =>
    intro s hs
    rw [findLoop, List.range'_succ, List.map_cons, List.flatMap_cons]
    have hle := h.refs_le hb
    have hfree := h.free
    rw [h.next hb (by omega), ih (s + 1) (by omega)]
    split
    · next he =>
      have hocc := h.runs b hb s (by omega)
      obtain ⟨e, he'⟩ := h.filled _ (h.P_lt s hb) hocc
      rw [he']; simp
    · simp

theorem Core.range_eq (h : Core c L t) (k : K) : range c t k =
    (probed L t (bucket c t.cap k)).flatMap
      fun x => if equalKey c t x k then (t.ent x).toList else [] := by
  have hb := h.bucket_lt (c := c) k
  have := rangeLoop_eq h k hb (t.refs (bucket c t.cap k)) 0 (by omega)
  rw [h.P_zero hb] at this
  unfold range probed
  simp only
  rw [this, List.range_eq_range']

theorem Core.find_eq (h : Core c L t) (k : K) : find c t k = (range c t k).head? := by
  have hb := h.bucket_lt (c := c) k
  have := findLoop_eq h k hb (t.refs (bucket c t.cap k)) 0 (by omega)
  rw [h.P_zero hb] at this
  rw [h.range_eq]
  unfold find probed
  simp only
  rw [this, List.range_eq_range']

theorem flatMap_slots (t : OA K V) (k : K) (l : List Nat) :
    (l.flatMap fun x => if equalKey c t x k then (t.ent x).toList else []) =
      (l.filter fun x => equalKey c t x k).filterMap t.ent := by
  induction l with
  | nil => rfl
  | cons x l ih =>
    rw [List.flatMap_cons, ih, List.filter_cons]
    split
    · rw [List.filterMap_cons]
      cases t.ent x <;> simp
    · simp

theorem filter_slots (t : OA K V) (k : K) (l : List Nat) :
    (l.filterMap t.ent).filter (fun e => c.eq e.1 k) =
      (l.filter fun x => equalKey c t x k).filterMap t.ent := by
  induction l with
  | nil => rfl
  | cons x l ih =>
    rw [List.filterMap_cons, List.filter_cons]
    cases he : t.ent x with
    | none => simpa [he, equalKey] using ih
    | some e =>
      have hk : equalKey c t x k = c.eq e.1 k := by simp [equalKey, he]
      simp only
      rw [List.filter_cons, hk]
      split
      · rw [List.filterMap_cons, he]; simpa using ih
      · exact ih

/-- The entries visited by `for_each_in_equal_range` are those with an equal key. -/
theorem Core.range_perm (g : Good c) (h : Core c L t) (k : K) :
    (range c t k).Perm ((forEach t).filter fun e => c.eq e.1 k) := by
  have hb := h.bucket_lt (c := c) k
  rw [h.range_eq, flatMap_slots, forEach_eq, filter_slots]
  apply List.Perm.filterMap
  have hfree := h.free
  have hle := h.refs_le hb
  have hnd : (probed L t (bucket c t.cap k)).Nodup := by
    apply List.Nodup.map_on _ List.nodup_range
    intro i hi j hj e
    rw [List.mem_range] at hi hj
    exact h.P_inj hb (by omega) (by omega) e
  apply (List.perm_ext_iff_of_nodup (hnd.filter _) ((nodup_slots t).filter _)).2
  intro x
  rw [List.mem_filter, List.mem_filter, mem_slots]
  constructor
  · rintro ⟨hx, he⟩
    obtain ⟨i, hi, rfl⟩ := List.mem_map.1 hx
    rw [List.mem_range] at hi
    exact ⟨⟨h.P_lt i hb, h.runs _ hb i hi⟩, he⟩
  · rintro ⟨⟨hx, hocc⟩, he⟩
    refine ⟨?_, he⟩
    obtain ⟨e, hent⟩ := h.filled x hx hocc
    have heq : c.eq e.1 k = true := by simpa [equalKey, hent] using he
    obtain ⟨i, hi, hP⟩ := h.home x hx hocc e hent
    have hbk : bucket c t.cap e.1 = bucket c t.cap k := by
      unfold bucket; rw [g.hash _ _ heq]
    rw [hbk] at hi hP
    exact List.mem_map.2 ⟨i, List.mem_range.2 hi, hP⟩

/-- The probing of `try_emplace`. -/
theorem Core.probeKey (h : Core c L t) (k : K) {b : Nat} (hb : b < t.cap) :
    ∀ (fuel r : Nat), t.num < fuel + r →
      (∀ i, i < r → t.refs (L.P t.cap b i) ≠ 0 ∧ equalKey c t (L.P t.cap b i) k = false) →
      ∃ r' f, probeKey c t k fuel (L.P t.cap b r) r = some (L.P t.cap b r', r', f) ∧
        (∀ i, i < r' → t.refs (L.P t.cap b i) ≠ 0 ∧ equalKey c t (L.P t.cap b i) k = false) ∧
        (if f then t.refs (L.P t.cap b r') ≠ 0 ∧ equalKey c t (L.P t.cap b r') k = true
          else t.refs (L.P t.cap b r') = 0) := by
  intro fuel
  induction fuel with
  | zero =>
    intro r hr hrun
    have := h.run_le hb fun i hi => (hrun i hi).1
    omega
  | succ f ih =>
    intro r hr hrun
    rw [OA.probeKey]
    split
    · next h0 =>
      split
      · next he => exact ⟨r, true, rfl, hrun, by simp [h0, he]⟩
      · next he =>
        have hrun' : ∀ i, i < r + 1 →
            t.refs (L.P t.cap b i) ≠ 0 ∧ equalKey c t (L.P t.cap b i) k = false := by
          intro i hi
          rcases Nat.lt_succ_iff_lt_or_eq.1 hi with hi | rfl
          · exact hrun i hi
          · exact ⟨h0, by simpa using he⟩
        have hle := h.run_le hb fun i hi => (hrun' i hi).1
        have hfree := h.free
        have hcap := h.cap_le
        have hmod : (r + 1) % 2 ^ 32 = r + 1 := Nat.mod_eq_of_lt (by omega)
        simp only [hmod]
        rw [h.next hb (by omega)]
        exact ih (r + 1) (by omega) hrun'
    · next h0 => exact ⟨r, false, rfl, hrun, by simpa using h0⟩

/-- If the probing stops at a free slot, no entry has the key. -/
theorem Core.absent (g : Good c) (h : Core c L t) (k : K) {r : Nat}
    (hrun : ∀ i, i < r → t.refs (L.P t.cap (bucket c t.cap k) i) ≠ 0 ∧
      equalKey c t (L.P t.cap (bucket c t.cap k) i) k = false)
    (h0 : t.refs (L.P t.cap (bucket c t.cap k) r) = 0) :
    ∀ e ∈ forEach t, c.eq e.1 k = false := by
  intro e he
  rw [Bool.eq_false_iff]
  intro heq
  rw [forEach_eq] at he
  obtain ⟨s, hs, hent⟩ := List.mem_filterMap.1 he
  rw [mem_slots] at hs
  obtain ⟨i, hi, hP⟩ := h.home s hs.1 hs.2 e hent
  have hbk : bucket c t.cap e.1 = bucket c t.cap k := by
    unfold bucket; rw [g.hash _ _ heq]
  rw [hbk] at hi hP
  have hge := Spot.ge h (k := k) ⟨h0, fun i hi => (hrun i hi).1⟩
  have := (hrun i (by omega)).2
  rw [hP] at this
  simp [equalKey, hent, heq] at this

/-- Replacing the values of the entry in a slot. -/
theorem forEach_modify (h : Core c L t) {s : Nat} (hs : s < t.cap) (hocc : t.refs s ≠ 0) {e : K × V}
    (he : t.ent s = some e) (v : V) :
    ∃ l, (forEach t).Perm (e :: l) ∧
      (forEach { t with ent := put t.ent s (some (e.1, v)) }).Perm ((e.1, v) :: l) := by
  have hmem : s ∈ slots t := mem_slots.2 ⟨hs, hocc⟩
  have hp := List.perm_cons_erase hmem
  refine ⟨((slots t).erase s).filterMap t.ent, ?_, ?_⟩
  · rw [forEach_eq]
    refine (hp.filterMap _).trans ?_
    rw [List.filterMap_cons, he]
  · rw [forEach_eq]
    show ((slots t).filterMap _).Perm _
    refine (hp.filterMap _).trans ?_
    rw [List.filterMap_cons]
    simp only [put_same]
    apply List.Perm.cons
    rw [List.filterMap_congr]
    intro x hx
    apply put_ne
    rintro rfl
    exact (nodup_slots t).not_mem_erase hx

theorem core_modify (h : Core c L t) {s : Nat} {e : K × V}
    (he : t.ent s = some e) (v : V) : Core c L { t with ent := put t.ent s (some (e.1, v)) } where
  pow := h.pow
  num := h.num
  free := h.free
  filled := by
    intro x hx hocc
    by_cases hxs : x = s
    · exact ⟨_, by simp [put, hxs]; rfl⟩
    · obtain ⟨e', he'⟩ := h.filled x hx hocc
      exact ⟨e', by simp [put, hxs, he']⟩
  runs := h.runs
  home := by
    intro x hx hocc e' he'
    by_cases hxs : x = s
    · subst hxs
      have : e' = (e.1, v) := by simpa [put] using he'.symm
      subst this
      exact h.home x hx hocc e he
    · exact h.home x hx hocc e' (by simpa [put, hxs] using he')

/-- `try_emplace` with initialisation or update of the values. -/
theorem Inv.upsert (g : Good c) (h : Inv c L t) (k : K) (init : V) (upd : V → V)
    (hcap : t.num = t.hwm → 2 * t.cap ≤ 2 ^ 31) :
    ∃ t' ins, upsert c t k init upd = some (t', ins) ∧ Inv c L t' ∧
      (t'.cap = t.cap ∨ t'.cap = 2 * t.cap ∧ t.num = t.hwm) ∧
      ((ins = true ∧ (∀ e ∈ forEach t, c.eq e.1 k = false) ∧ t'.num = t.num + 1 ∧
          (forEach t').Perm ((k, init) :: forEach t)) ∨
       (ins = false ∧ t'.num = t.num ∧ ∃ e l, c.eq e.1 k = true ∧ (forEach t).Perm (e :: l) ∧
          (forEach t').Perm ((e.1, upd e.2) :: l))) := by
  obtain ⟨t1, e1, i1, l1, p1, q1, q2, q3⟩ := h.grow hcap
  have hb := i1.toCore.bucket_lt (c := c) k
  have hp := pct_pos i1.pct
  have hbd := hwm_bounds i1.cap4 hp.1 hp.2.1 _ i1.hwm
  obtain ⟨r, f, hf, hrun, hend⟩ := i1.toCore.probeKey k hb t1.cap 0 (by have := i1.free; omega)
    (by intro i hi; omega)
  rw [i1.toCore.P_zero hb] at hf
  unfold OA.upsert
  rw [e1]
  simp only
  rw [hf]
  cases f with
  | false =>
    simp only [Bool.false_eq_true, if_false] at hend
    have hs : Spot L t1 k r := ⟨hend, fun i hi => (hrun i hi).1⟩
    refine ⟨_, _, rfl, ⟨core_place i1.toCore (e := (k, init)) hs (by omega), ?_, i1.hwm, i1.pct⟩, q3,
      .inl ⟨rfl, ?_, ?_, ?_⟩⟩
    · show t1.num + 1 ≤ t1.hwm; omega
    · intro e he
      exact i1.toCore.absent g k hrun hend e (p1.mem_iff.2 he)
    · show t1.num + 1 = _; omega
    · exact (forEach_place i1.toCore (e := (k, init)) hs).trans (p1.cons _)
  | true =>
    simp only [if_true] at hend
    obtain ⟨e, hent⟩ := i1.filled _ (i1.toCore.P_lt r hb) hend.1
    have heq : c.eq e.1 k = true := by simpa [equalKey, hent] using hend.2
    simp only [hent, Option.map_some]
    obtain ⟨l, hl1, hl2⟩ := forEach_modify i1.toCore (i1.toCore.P_lt r hb) hend.1 hent (upd e.2)
    exact ⟨_, _, rfl, ⟨core_modify i1.toCore hent _, i1.le, i1.hwm, i1.pct⟩, q3,
      .inr ⟨rfl, q1, e, l, heq, p1.symm.trans hl1, hl2⟩⟩

end OA
end Mutable.WasmHT
