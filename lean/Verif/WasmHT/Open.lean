import Verif.WasmHT.Probe
import Mathlib.Data.List.Perm.Subperm
import Mathlib.Data.List.Nodup
import Mathlib.Data.List.Range

/-! # The open-addressing hash table: invariant and single operations -/

namespace Mutable.WasmHT
namespace OA

variable {K V : Type}

/-- Occupied slots in order. -/
def slots (t : OA K V) : List Nat := (List.range t.cap).filter fun s => t.refs s ≠ 0

theorem mem_slots {t : OA K V} {s : Nat} : s ∈ slots t ↔ s < t.cap ∧ t.refs s ≠ 0 := by
  simp [slots]

theorem nodup_slots (t : OA K V) : (slots t).Nodup := List.nodup_range.filter _

theorem forEach_eq (t : OA K V) : forEach t = (slots t).filterMap t.ent := by
  unfold forEach slots
  rw [List.filterMap_filter]
  congr 1
  funext s
  simp

/-- The structural invariant. -/
structure Core (c : Cfg K) (L : Lawful c.strat) (t : OA K V) : Prop where
  pow : ∃ n, 2 ≤ n ∧ n ≤ 31 ∧ t.cap = 2 ^ n
  num : t.num = (slots t).length
  free : t.num < t.cap
  filled : ∀ s, s < t.cap → t.refs s ≠ 0 → ∃ e, t.ent s = some e
  runs : ∀ b, b < t.cap → ∀ i, i < t.refs b → t.refs (L.P t.cap b i) ≠ 0
  home : ∀ s, s < t.cap → t.refs s ≠ 0 → ∀ e, t.ent s = some e →
    ∃ i, i < t.refs (bucket c t.cap e.1) ∧ L.P t.cap (bucket c t.cap e.1) i = s

variable {c : Cfg K} {L : Lawful c.strat} {t : OA K V}

theorem bucket_lt {n : Nat} (k : K) : bucket c (2 ^ n) k < 2 ^ n := by
  unfold bucket
  rw [Nat.and_two_pow_sub_one_eq_mod]
  exact Nat.mod_lt _ (Nat.two_pow_pos n)

theorem Core.bucket_lt (h : Core c L t) (k : K) : bucket c t.cap k < t.cap := by
  obtain ⟨n, _, _, hn⟩ := h.pow
  rw [hn]; exact OA.bucket_lt k

theorem Core.P_lt (h : Core c L t) {b : Nat} (i : Nat) (hb : b < t.cap) : L.P t.cap b i < t.cap := by
  obtain ⟨n, _, _, hn⟩ := h.pow
  rw [hn] at hb ⊢; exact L.lt n b i hb

theorem Core.P_zero (h : Core c L t) {b : Nat} (hb : b < t.cap) : L.P t.cap b 0 = b := by
  obtain ⟨n, _, _, hn⟩ := h.pow
  rw [hn] at hb ⊢; exact L.zero n b hb

theorem Core.P_inj (h : Core c L t) {b i j : Nat} (hb : b < t.cap) (hi : i < t.cap) (hj : j < t.cap)
    (e : L.P t.cap b i = L.P t.cap b j) : i = j := by
  obtain ⟨n, _, _, hn⟩ := h.pow
  rw [hn] at hb hi hj e; exact L.inj n b i j hb hi hj e

theorem Core.skip (h : Core c L t) {b i : Nat} (hb : b < t.cap) (hi : i < t.cap) :
    c.strat.skip t.cap b i = L.P t.cap b i := by
  obtain ⟨n, _, h31, hn⟩ := h.pow
  rw [hn] at hb hi ⊢; exact L.skip n b i h31 hb hi

theorem Core.next (h : Core c L t) {b i : Nat} (hb : b < t.cap) (hi : i + 1 < t.cap) :
    c.strat.next t.cap (L.P t.cap b i) (i + 1) = L.P t.cap b (i + 1) := by
  obtain ⟨n, _, h31, hn⟩ := h.pow
  rw [hn] at hb hi ⊢; exact L.next n b i hb hi

theorem Core.cap_le (h : Core c L t) : t.cap ≤ 2 ^ 31 := by
  obtain ⟨n, _, h31, hn⟩ := h.pow
  rw [hn]; exact Nat.pow_le_pow_right (by decide) h31

/-- A run of occupied slots is not longer than the number of entries. -/
theorem Core.run_le (h : Core c L t) {b r : Nat} (hb : b < t.cap)
    (hr : ∀ i, i < r → t.refs (L.P t.cap b i) ≠ 0) : r ≤ t.num := by
  by_contra hlt
  have hfree := h.free
  have hnd : ((List.range (t.num + 1)).map (L.P t.cap b)).Nodup := by
    apply List.Nodup.map_on _ List.nodup_range
    intro i hi j hj e
    rw [List.mem_range] at hi hj
    exact h.P_inj hb (by omega) (by omega) e
  have hsub : (List.range (t.num + 1)).map (L.P t.cap b) ⊆ slots t := by
    intro s hs
    obtain ⟨i, hi, rfl⟩ := List.mem_map.1 hs
    rw [List.mem_range] at hi
    exact mem_slots.2 ⟨h.P_lt i hb, hr i (by omega)⟩
  have := (hnd.subperm hsub).length_le
  rw [List.length_map, List.length_range, ← h.num] at this
  omega

theorem Core.refs_le (h : Core c L t) {b : Nat} (hb : b < t.cap) : t.refs b ≤ t.num :=
  h.run_le hb (h.runs b hb)

/-- The search for a free slot terminates and follows the probing sequence. -/
theorem Core.findFree (h : Core c L t) {b : Nat} (hb : b < t.cap) :
    ∀ (fuel r : Nat), t.num < fuel + r → (∀ i, i < r → t.refs (L.P t.cap b i) ≠ 0) →
      ∃ r', findFree c.strat t.cap t.refs fuel (L.P t.cap b r) r = some (L.P t.cap b r', r') ∧
        t.refs (L.P t.cap b r') = 0 ∧ (∀ i, i < r' → t.refs (L.P t.cap b i) ≠ 0) := by
  intro fuel
  induction fuel with
  | zero =>
    intro r hr hrun
    have := h.run_le hb hrun
    omega
  | succ f ih =>
    intro r hr hrun
    rw [OA.findFree]
    split
    · next h0 => exact ⟨r, rfl, h0, hrun⟩
    · next h0 =>
      have hrun' : ∀ i, i < r + 1 → t.refs (L.P t.cap b i) ≠ 0 := by
        intro i hi
        rcases Nat.lt_succ_iff_lt_or_eq.1 hi with hi | rfl
        · exact hrun i hi
        · exact h0
      have hle := h.run_le hb hrun'
      have hfree := h.free
      have hcap := h.cap_le
      have hmod : (r + 1) % 2 ^ 32 = r + 1 := Nat.mod_eq_of_lt (by omega)
      simp only [hmod]
      rw [h.next hb (by omega)]
      exact ih (r + 1) (by omega) hrun'

theorem put_same {α : Type} (f : Nat → α) (i : Nat) (a : α) : put f i a i = a := by simp [put]
theorem put_ne {α : Type} (f : Nat → α) {i j : Nat} (a : α) (h : j ≠ i) : put f i a j = f j := by
  simp [put, h]

/-- The table after inserting an entry at the end of the run of its bucket. -/
def place (c : Cfg K) (t : OA K V) (slot r : Nat) (e : K × V) : OA K V :=
  { t with
    refs := put (put t.refs (bucket c t.cap e.1) ((r + 1) % 2 ^ 32)) slot 1
    num := t.num + 1
    ent := put t.ent slot (some e) }

/-- Hypotheses under which an entry is placed. -/
structure Spot (L : Lawful c.strat) (t : OA K V) (k : K) (r : Nat) : Prop where
  free : t.refs (L.P t.cap (bucket c t.cap k) r) = 0
  run : ∀ i, i < r → t.refs (L.P t.cap (bucket c t.cap k) i) ≠ 0

theorem Spot.le (h : Core c L t) {k : K} {r : Nat} (hs : Spot L t k r) : r ≤ t.num :=
  h.run_le (h.bucket_lt k) hs.run

theorem Spot.ge (h : Core c L t) {k : K} {r : Nat} (hs : Spot L t k r) :
    t.refs (bucket c t.cap k) ≤ r := by
  by_contra hlt
  exact h.runs _ (h.bucket_lt k) r (by omega) hs.free

section Place
variable (h : Core c L t) {e : K × V} {r : Nat} (hs : Spot L t e.1 r)

include h hs in
theorem place_refs_bucket :
    (place c t (L.P t.cap (bucket c t.cap e.1) r) r e).refs (bucket c t.cap e.1) = r + 1 := by
  have hb := h.bucket_lt (c := c) e.1
  have hle := hs.le h
  have hcap := h.cap_le
  have hfree := h.free
  have hmod : (r + 1) % 2 ^ 32 = r + 1 := Nat.mod_eq_of_lt (by omega)
  simp only [place, hmod]
  by_cases h0 : bucket c t.cap e.1 = L.P t.cap (bucket c t.cap e.1) r
  · have : r = 0 := by
      have h1 := h.P_zero hb
      exact h.P_inj hb (by omega) (by omega) (by rw [h1]; exact h0.symm)
    subst this
    rw [← h0, put_same]
  · rw [put_ne _ _ h0, put_same]

theorem place_refs_slot :
    (place c t (L.P t.cap (bucket c t.cap e.1) r) r e).refs (L.P t.cap (bucket c t.cap e.1) r) = 1 := by
  simp [place, put_same]

theorem place_refs_other {x : Nat} (h1 : x ≠ bucket c t.cap e.1)
    (h2 : x ≠ L.P t.cap (bucket c t.cap e.1) r) :
    (place c t (L.P t.cap (bucket c t.cap e.1) r) r e).refs x = t.refs x := by
  simp [place, put_ne, h1, h2]

include h hs in
theorem place_occ {x : Nat} :
    (place c t (L.P t.cap (bucket c t.cap e.1) r) r e).refs x ≠ 0 ↔
      t.refs x ≠ 0 ∨ x = L.P t.cap (bucket c t.cap e.1) r := by
  have hb := h.bucket_lt (c := c) e.1
  by_cases h2 : x = L.P t.cap (bucket c t.cap e.1) r
  · subst h2; rw [place_refs_slot]; simp
  · by_cases h1 : x = bucket c t.cap e.1
    · subst h1
      rw [place_refs_bucket h hs]
      have : r ≠ 0 := by
        rintro rfl
        exact h2 (h.P_zero hb).symm
      have h3 := hs.run 0 (by omega)
      rw [h.P_zero hb] at h3
      simp [h3]
    · rw [place_refs_other h1 h2]; simp [h2]

include h hs in
theorem slots_place :
    (slots (place c t (L.P t.cap (bucket c t.cap e.1) r) r e)).Perm
      (L.P t.cap (bucket c t.cap e.1) r :: slots t) := by
  have hnot : L.P t.cap (bucket c t.cap e.1) r ∉ slots t := by
    rw [mem_slots]; rintro ⟨_, h2⟩; exact h2 hs.free
  apply (List.perm_ext_iff_of_nodup (nodup_slots _) (List.nodup_cons.2 ⟨hnot, nodup_slots t⟩)).2
  intro x
  rw [mem_slots, List.mem_cons, mem_slots, place_occ h hs]
  have hP := h.P_lt (L := L) r (h.bucket_lt (c := c) e.1)
  show x < t.cap ∧ _ ↔ _
  constructor
  · rintro ⟨h1, h2 | h2⟩
    · exact .inr ⟨h1, h2⟩
    · exact .inl h2
  · rintro (h1 | h1)
    · exact ⟨h1 ▸ hP, .inr h1⟩
    · exact ⟨h1.1, .inl h1.2⟩

include h hs in
theorem forEach_place :
    (forEach (place c t (L.P t.cap (bucket c t.cap e.1) r) r e)).Perm (e :: forEach t) := by
  rw [forEach_eq, forEach_eq]
  refine ((slots_place h hs).filterMap _).trans ?_
  rw [List.filterMap_cons]
  simp only [place, put_same]
  apply List.Perm.cons
  rw [List.filterMap_congr]
  intro x hx
  apply put_ne
  rintro rfl
  exact (mem_slots.1 hx).2 hs.free

include h hs in
theorem core_place (hroom : t.num + 1 < t.cap) :
    Core c L (place c t (L.P t.cap (bucket c t.cap e.1) r) r e) where
  pow := h.pow
  num := by rw [(slots_place h hs).length_eq]; simp [place, h.num]
  free := hroom
  filled := by
    intro s hs' hocc
    by_cases h2 : s = L.P t.cap (bucket c t.cap e.1) r
    · exact ⟨e, by simp [place, put, h2]⟩
    · obtain ⟨e', he'⟩ := h.filled s hs' (((place_occ h hs).1 hocc).resolve_right h2)
      exact ⟨e', by simp [place, put, h2, he']⟩
  runs := by
    intro b hb i hi
    show OA.refs _ (L.P t.cap b i) ≠ 0
    rw [place_occ h hs]
    have hb' : b < t.cap := hb
    by_cases h1 : b = bucket c t.cap e.1
    · subst h1
      rw [place_refs_bucket h hs] at hi
      rcases Nat.lt_succ_iff_lt_or_eq.1 hi with hi | rfl
      · exact .inl (hs.run i hi)
      · exact .inr rfl
    · by_cases h2 : b = L.P t.cap (bucket c t.cap e.1) r
      · subst h2
        rw [place_refs_slot] at hi
        have : i = 0 := by omega
        subst this
        exact .inr (h.P_zero hb')
      · rw [place_refs_other h1 h2] at hi
        exact .inl (h.runs b hb' i hi)
  home := by
    intro s hs' hocc e' he'
    show ∃ i, i < OA.refs _ (bucket c t.cap e'.1) ∧ L.P t.cap (bucket c t.cap e'.1) i = s
    by_cases h2 : s = L.P t.cap (bucket c t.cap e.1) r
    · have : e' = e := by simp [place, put, h2] at he'; exact he'.symm
      subst this
      exact ⟨r, by rw [place_refs_bucket h hs]; omega, h2.symm⟩
    · have hold : t.ent s = some e' := by simpa [place, put, h2] using he'
      obtain ⟨i, hi, hP⟩ := h.home s hs' (((place_occ h hs).1 hocc).resolve_right h2) e' hold
      refine ⟨i, ?_, hP⟩
      by_cases h1 : bucket c t.cap e'.1 = bucket c t.cap e.1
      · rw [h1] at hi ⊢
        rw [place_refs_bucket h hs]
        have := hs.ge h
        omega
      · by_cases h3 : bucket c t.cap e'.1 = L.P t.cap (bucket c t.cap e.1) r
        · rw [h3, hs.free] at hi; omega
        · rw [place_refs_other h1 h3]; exact hi

end Place

/-- `emplace_without_rehashing` terminates and adds one entry. -/
theorem Core.emplaceNoRehash (h : Core c L t) (e : K × V) (hroom : t.num + 1 < t.cap) :
    ∃ t', emplaceNoRehash c t e = some t' ∧ Core c L t' ∧ (forEach t').Perm (e :: forEach t) ∧
      t'.cap = t.cap ∧ t'.num = t.num + 1 ∧ t'.hwm = t.hwm ∧ t'.pct = t.pct := by
  have hb := h.bucket_lt (c := c) e.1
  have hrl := h.refs_le hb
  have hfree := h.free
  obtain ⟨r', hf, h0, hrun⟩ := h.findFree hb t.cap (t.refs (bucket c t.cap e.1)) (by omega)
    (h.runs _ hb)
  have hs : Spot L t e.1 r' := ⟨h0, hrun⟩
  refine ⟨place c t (L.P t.cap (bucket c t.cap e.1) r') r' e, ?_, core_place h hs hroom,
    forEach_place h hs, rfl, rfl, rfl, rfl⟩
  unfold OA.emplaceNoRehash
  simp only
  rw [h.skip hb (by omega), hf]
  rfl

theorem Core.emplaceAll (es : List (K × V)) : ∀ {t : OA K V}, Core c L t →
    t.num + es.length < t.cap →
    ∃ t', emplaceAll c t es = some t' ∧ Core c L t' ∧ (forEach t').Perm (es ++ forEach t) ∧
      t'.cap = t.cap ∧ t'.num = t.num + es.length ∧ t'.hwm = t.hwm ∧ t'.pct = t.pct := by
  induction es with
  | nil => intro t h _; exact ⟨t, rfl, h, .refl _, rfl, rfl, rfl, rfl⟩
  | cons e es ih =>
    intro t h hroom
    simp only [List.length_cons] at hroom
    obtain ⟨t1, e1, c1, p1, q1, q2, q3, q4⟩ := h.emplaceNoRehash e (by omega)
    obtain ⟨t2, e2, c2, p2, s1, s2, s3, s4⟩ := ih c1 (by omega)
    refine ⟨t2, ?_, c2, ?_, by omega, by simp only [List.length_cons]; omega, by omega, by rw [s4, q4]⟩
    · rw [OA.emplaceAll, e1]; exact e2
    · refine p2.trans ((p1.append_left es).trans ?_)
      simpa using List.perm_middle

theorem length_forEach (h : Core c L t) : (forEach t).length = t.num := by
  rw [h.num, forEach_eq]
  have : ∀ l : List Nat, (∀ s ∈ l, ∃ e, t.ent s = some e) → (l.filterMap t.ent).length = l.length := by
    intro l
    induction l with
    | nil => simp
    | cons s l ih =>
      intro hl
      obtain ⟨e, he⟩ := hl s (by simp)
      rw [List.filterMap_cons, he]
      simp [ih fun x hx => hl x (by simp [hx])]
  exact this _ fun s hs => h.filled s (mem_slots.1 hs).1 (mem_slots.1 hs).2

/-- An empty table satisfies the invariant. -/
theorem core_empty {n : Nat} (h2 : 2 ≤ n) (h31 : n ≤ 31) (ent : Nat → Option (K × V)) (hwm : Nat)
    (pct : Nat × Nat) :
    Core c L { cap := 2 ^ n, refs := fun _ => 0, ent := ent, num := 0, hwm := hwm, pct := pct } where
  pow := ⟨n, h2, h31, rfl⟩
  num := by simp [slots]
  free := Nat.two_pow_pos n
  filled := by simp
  runs := by simp
  home := by simp

/-- `rehash` terminates, keeps all entries and doubles the capacity. -/
theorem Core.rehash (h : Core c L t) (hcap : 2 * t.cap ≤ 2 ^ 31) :
    ∃ t', rehash c t = some t' ∧ Core c L t' ∧ (forEach t').Perm (forEach t) ∧
      t'.cap = 2 * t.cap ∧ t'.num = t.num ∧ t'.pct = t.pct := by
  obtain ⟨n, h2, h31, hn⟩ := h.pow
  have hpos := Nat.two_pow_pos n
  have h31' : n + 1 ≤ 31 := by
    rw [hn] at hcap
    exact (Nat.pow_le_pow_iff_right (a := 2) (by decide)).1 (by rw [pow_succ]; omega)
  have hc' : ((t.cap - 1) * 2 + 1) + 1 = 2 ^ (n + 1) := by rw [hn, pow_succ]; omega
  unfold OA.rehash
  rw [hc']
  have he := core_empty (c := c) (L := L) (n := n + 1) (by omega) h31' (fun _ => none) t.hwm t.pct (V := V)
  have hfree := h.free
  obtain ⟨t1, e1, c1, p1, q1, q2, q3, q4⟩ := Core.emplaceAll (forEach t) he (by
    simp only [length_forEach h, pow_succ]; omega)
  refine ⟨t1, e1, c1, ?_, by rw [q1]; simp only [pow_succ]; omega, by rw [q2, length_forEach h]; simp, q4⟩
  refine p1.trans ?_
  have : forEach (OA.mk (2 ^ (n + 1)) (fun _ => 0) (fun _ => none) 0 t.hwm t.pct : OA K V) = [] := by
    simp [forEach]
  rw [this, List.append_nil]

/-! ## High watermark -/

/-- The invariant between the operations. -/
structure Inv (c : Cfg K) (L : Lawful c.strat) (t : OA K V) : Prop extends Core c L t where
  le : t.num ≤ t.hwm
  hwm : t.hwm = (if t.cap ≤ (t.pct.1 * t.cap + t.pct.2 - 1) / t.pct.2 then t.cap - 1
    else (t.pct.1 * t.cap + t.pct.2 - 1) / t.pct.2)
  pct : t.pct = (1, 1) ∨ (t.pct.2 ≤ 2 * t.pct.1 ∧ t.pct.1 < t.pct.2)

theorem pct_pos {p : Nat × Nat} (h : p = (1, 1) ∨ (p.2 ≤ 2 * p.1 ∧ p.1 < p.2)) : 0 < p.2 ∧ p.2 ≤ 2 * p.1 ∧ p.1 ≤ p.2 := by
  rcases h with rfl | h
  · simp
  · omega

/-- Bounds on the high watermark. -/
theorem hwm_bounds {cap a b : Nat} (hcap : 4 ≤ cap) (hb : 0 < b) (h1 : b ≤ 2 * a) (hwm : Nat)
    (h : hwm = (if cap ≤ (a * cap + b - 1) / b then cap - 1 else (a * cap + b - 1) / b)) :
    cap ≤ 2 * hwm ∧ hwm < cap := by
  have hdiv : a * cap ≤ b * ((a * cap + b - 1) / b) := by
    have := Nat.lt_div_mul_add (a := a * cap + b - 1) hb
    rw [Nat.mul_comm b]; omega
  have hhalf : b * cap ≤ b * (2 * ((a * cap + b - 1) / b)) := by
    have : b * cap ≤ 2 * a * cap := Nat.mul_le_mul_right _ h1
    have e : b * (2 * ((a * cap + b - 1) / b)) = 2 * (b * ((a * cap + b - 1) / b)) := by ring
    have e2 : 2 * a * cap = 2 * (a * cap) := by ring
    omega
  have := Nat.le_of_mul_le_mul_left hhalf hb
  subst h
  split <;> omega

/-- The high watermark strictly grows when the capacity doubles. -/
theorem hwm_grows {cap a b h h' : Nat} (hcap : 4 ≤ cap) (hb : 0 < b) (h1 : b ≤ 2 * a) 
    (e : h = (if cap ≤ (a * cap + b - 1) / b then cap - 1 else (a * cap + b - 1) / b))
    (e' : h' = (if 2 * cap ≤ (a * (2 * cap) + b - 1) / b then 2 * cap - 1
      else (a * (2 * cap) + b - 1) / b)) : h < h' := by
  have h3 := (hwm_bounds hcap hb h1 h e).2
  have h4 := (hwm_bounds (cap := 2 * cap) (by omega) hb h1 h' e').1
  omega

theorem Inv.cap4 (h : Inv c L t) : 4 ≤ t.cap := by
  obtain ⟨n, h2, _, hn⟩ := h.pow
  rw [hn]
  calc 4 = 2 ^ 2 := rfl
    _ ≤ 2 ^ n := Nat.pow_le_pow_right (by decide) h2

theorem core_congr {t t' : OA K V} (h : Core c L t) (h1 : t'.cap = t.cap) (h2 : t'.refs = t.refs)
    (h3 : t'.ent = t.ent) (h4 : t'.num = t.num) : Core c L t' := by
  cases t; cases t'; simp only at h1 h2 h3 h4; subst h1 h2 h3 h4
  exact ⟨h.pow, h.num, h.free, h.filled, h.runs, h.home⟩

/-- Growing the table keeps its entries and makes room. -/
theorem Inv.grow (h : Inv c L t) (hcap : t.num = t.hwm → 2 * t.cap ≤ 2 ^ 31) :
    ∃ t', grow c t = some t' ∧ Inv c L t' ∧ t'.num < t'.hwm ∧ (forEach t').Perm (forEach t) ∧
      t'.num = t.num ∧ t.cap ≤ t'.cap ∧ (t'.cap = t.cap ∨ t'.cap = 2 * t.cap ∧ t.num = t.hwm) := by
  unfold OA.grow
  split
  · next hfull =>
    obtain ⟨t1, e1, c1, p1, q1, q2, q3⟩ := h.toCore.rehash (hcap hfull)
    rw [e1]
    have hp := pct_pos h.pct
    have hlt : t1.num < (updateHighWatermark t1).hwm := by
      rw [q2, hfull]
      refine hwm_grows h.cap4 hp.1 hp.2.1 h.hwm ?_
      unfold updateHighWatermark
      simp only [q1, q3]
    refine ⟨_, rfl, ⟨core_congr c1 rfl rfl rfl rfl, hlt.le, rfl, ?_⟩, hlt, p1, q2, ?_, ?_⟩
    · show t1.pct = _ ∨ t1.pct.2 ≤ 2 * t1.pct.1 ∧ t1.pct.1 < t1.pct.2
      rw [q3]; exact h.pct
    · show t.cap ≤ t1.cap; omega
    · exact .inr ⟨q1, hfull⟩
  · next hfull =>
    have := h.le
    exact ⟨t, rfl, h, by omega, .refl _, rfl, Nat.le_refl _, .inl rfl⟩

/-- `emplace` terminates and adds one entry. -/
theorem Inv.emplace (h : Inv c L t) (e : K × V) (hcap : t.num = t.hwm → 2 * t.cap ≤ 2 ^ 31) :
    ∃ t', emplace c t e = some t' ∧ Inv c L t' ∧ (forEach t').Perm (e :: forEach t) ∧
      t'.num = t.num + 1 ∧ (t'.cap = t.cap ∨ t'.cap = 2 * t.cap ∧ t.num = t.hwm) := by
  obtain ⟨t1, e1, i1, l1, p1, q1, q2, q3⟩ := h.grow hcap
  have hp := pct_pos i1.pct
  have hb := hwm_bounds i1.cap4 hp.1 hp.2.1 _ i1.hwm
  obtain ⟨t2, e2, c2, p2, s1, s2, s3, s4⟩ := i1.toCore.emplaceNoRehash e (by omega)
  refine ⟨t2, ?_, ⟨c2, by omega, ?_, ?_⟩, p2.trans (p1.cons e), by omega, by rw [s1]; exact q3⟩
  · rw [OA.emplace, e1]; exact e2
  · rw [s3, s1, s4]; exact i1.hwm
  · rw [s4]; exact i1.pct

end OA
end Mutable.WasmHT
