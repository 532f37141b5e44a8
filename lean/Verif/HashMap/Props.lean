import Verif.HashMap.Inv
/-! C21, C22: `RefCountingHashMap` is a multimap; its probe sequence reaches every slot. -/
namespace Mutable.HM
variable {K V : Type} [DecidableEq K]

/-! ### Specification -/

/-- The public operations that change the map. -/
inductive Op (K V : Type)
  | insertDup (k : K) (v : V) | insertUniq (k : K) (v : V) | rehash | resize (n : Nat) | shrink

/-- Effect of an operation on the model; `none` is a failed assertion (or an endless probe loop). -/
def run1 (P : Params) (h : K → Nat) (m : Map K V) : Op K V → Option (Map K V)
  | .insertDup k v => (m.insertDup P h k v).map (·.1)
  | .insertUniq k v => (m.insertUniq P h k v).map (·.1)
  | .rehash => m.rehash h
  | .resize n => m.resize P h n
  | .shrink => m.shrinkToFit P h

/-- A sequence of operations, oldest first. -/
def run (P : Params) (h : K → Nat) : List (Op K V) → Map K V → Option (Map K V)
  | [], m => some m
  | o :: os, m => match run1 P h m o with
    | none => none
    | some m' => run P h os m'

/-- What the pairs stored should be: a plain collection without any hashing. -/
def spec1 (c : List (K × V)) : Op K V → List (K × V)
  | .insertDup k v => (k, v) :: c
  | .insertUniq k v => if k ∈ c.map Prod.fst then c else (k, v) :: c
  | _ => c

/-- The pairs stored after a sequence of operations. -/
def spec : List (Op K V) → List (K × V) → List (K × V)
  | [], c => c
  | o :: os, c => spec os (spec1 c o)

/-- What is assumed of the load factor arithmetic for correctness: the watermark is below the capacity
(`max_load_factor_` is clamped to at most 0.99). -/
def Params.Sound (P : Params) : Prop := ∀ n, 0 < n → P.wm n < n

/-- What is assumed in addition for the assertions to hold: the watermark grows when the capacity doubles, and a
table sized by `ceil(n / max_load_factor)` has a watermark of at least `n`. -/
structure Params.Good (P : Params) : Prop where
  sound : P.Sound
  mono : ∀ a b, a ≤ b → P.wm a ≤ P.wm b
  dbl : ∀ n, P.wm (2 ^ n) < P.wm (2 ^ (n + 1))
  need : ∀ s, s ≤ P.wm (ceilPow2 (P.need s))

/-- The default load factor, the `float` 0.85 = 14260634 / 2^24.  Simplification: the quotient of `need` is exact. -/
def defaultParams : Params where
  wm c := c * 14260634 / 16777216
  need s := (s * 16777216 + 14260633) / 14260634

/-! ### Lemmas -/

theorem le_ceilPow2 (n : Nat) : n ≤ ceilPow2 n := Nat.le_pow_clog (by omega) n

theorem default_good : defaultParams.Good := by
  refine ⟨?_, ?_, ?_, ?_⟩
  · intro n hn; simp only [defaultParams]; omega
  · intro a b hab; simp only [defaultParams]; omega
  · intro n
    simp only [defaultParams, pow_succ]
    have : 0 < 2 ^ n := by positivity
    rcases Nat.lt_or_ge (2 ^ n) 2 with h | h <;> omega
  · intro s
    have h := le_ceilPow2 (defaultParams.need s)
    simp only [defaultParams] at h ⊢
    generalize ceilPow2 _ = c at h ⊢
    omega

structure Full (P : Params) (h : K → Nat) (m : Map K V) (c : List (K × V)) : Prop where
  wf : WF h m c
  wm : m.wmHigh = P.wm m.cap

theorem Params.Sound.le {P : Params} (hP : P.Sound) (n : Nat) (h : 0 < n) : P.wm n ≤ n := le_of_lt (hP n h)

theorem resize_full {P : Params} (hP : P.Sound) {h : K → Nat} {m m' : Map K V} {c} (w : Full P h m c) (n : Nat)
    (he : m.resize P h n = some m') : Full P h m' c ∧ m'.cap = ceilPow2 (max n (P.need m.size)) ∧ (m' ≠ m → m.size ≤ m'.wmHigh) := by
  unfold Map.resize at he
  simp only at he
  split at he
  · split at he
    · rename_i hne hge
      have := rehashTo_spec (w.wf.setWm (P.wm (ceilPow2 (max n (P.need m.size))))) (Nat.clog 2 (max n (P.need m.size)))
        (by simpa using hge) (by simpa [ceilPow2] using hP.le _ (by positivity))
      obtain ⟨m'', e1, e2, e3, e4⟩ := this
      unfold ceilPow2 at he
      unfold ceilPow2 at e1
      rw [e1] at he
      simp at he; subst he
      refine ⟨⟨e2, by rw [e4, e3]; rfl⟩, e3, fun _ => by rw [e4]; exact hge⟩
    · simp at he
  · rename_i hne
    simp at he; subst he
    exact ⟨w, Eq.symm (not_not.1 hne), fun h => absurd rfl h⟩

theorem grow_full {P : Params} (hP : P.Sound) {h : K → Nat} {m m' : Map K V} {c} (w : Full P h m c)
    (he : m.grow P h = some m') : Full P h m' c ∧ m'.size < m'.cap := by
  have hc := w.wf.cap_pos
  unfold Map.grow at he
  split at he
  · obtain ⟨h1, h2, h3⟩ := resize_full hP w _ he
    refine ⟨h1, ?_⟩
    have hne : m' ≠ m := by
      rintro rfl
      have := le_ceilPow2 (max (2 * m'.cap) (P.need m'.size))
      rw [← h2] at this
      have := le_max_left (2 * m'.cap) (P.need m'.size)
      omega
    have := h3 hne
    rw [h1.wm] at this
    have := hP m'.cap h1.wf.cap_pos
    have := w.wf.size; have := h1.wf.size
    omega
  · rename_i hlt
    simp at he; subst he
    refine ⟨w, ?_⟩
    have := hP m.cap hc
    rw [w.wm] at hlt; omega

theorem insertDup_full {P : Params} (hP : P.Sound) {h : K → Nat} {m m' : Map K V} {c} (w : Full P h m c) {k : K} {v : V}
    {i : Nat} (he : m.insertDup P h k v = some (m', i)) :
    Full P h m' ((k, v) :: c) ∧ i < m'.cap ∧ (m'.tab i).val = some (k, v) := by
  unfold Map.insertDup at he
  split at he
  · simp at he
  · rename_i m1 hg
    obtain ⟨w1, hs⟩ := grow_full hP w hg
    obtain ⟨p, f⟩ := exists_firstFree w1.wf hs (h k % m1.cap)
    rw [insertBody_eq w1.wf k v f] at he
    simp at he
    obtain ⟨rfl, rfl⟩ := he
    refine ⟨⟨place_wf w1.wf k v f, w1.wm⟩, pos_lt' w1.wf _ _, ?_⟩
    simp only [place, setTab]
    by_cases e : pos m1.cap (h k % m1.cap) p = h k % m1.cap <;> simp [e]

theorem mem_keys {c : List (K × V)} {k : K} : k ∈ c.map Prod.fst ↔ ∃ v, (k, v) ∈ c := by
  simp

theorem insertUniq_full {P : Params} (hP : P.Sound) {h : K → Nat} {m m' : Map K V} {c} (w : Full P h m c) {k : K} {v : V}
    {i : Nat} {ins : Bool} (he : m.insertUniq P h k v = some (m', i, ins)) :
    Full P h m' (spec1 c (.insertUniq k v)) ∧ (ins = true ↔ k ∉ c.map Prod.fst) ∧ i < m'.cap ∧
      (m'.tab i).val.map Prod.fst = some k := by
  unfold Map.insertUniq at he
  split at he
  · simp at he
  · rename_i m1 hg
    obtain ⟨w1, hs⟩ := grow_full hP w hg
    have hb : h k % m1.cap < m1.cap := Nat.mod_lt _ w1.wf.cap_pos
    obtain ⟨p, f⟩ := exists_firstFree w1.wf hs (h k % m1.cap)
    have e : m1.masked (h k) = h k % m1.cap := rfl
    simp only [e] at he
    rcases probeKey_spec (k := k) f m1.cap 0 (by omega) (by have := f.lt; omega) with ⟨j, a1, a2, a3, a4⟩ | ⟨a1, a2⟩
    · rw [tri_zero] at a3
      rw [a3] at he
      simp at he
      obtain ⟨rfl, rfl, rfl⟩ := he
      have hmem : k ∈ c.map Prod.fst := by
        cases hv : (m1.tab (pos m1.cap (h k % m1.cap) j)).val with
        | none => simp [hv] at a4
        | some q =>
          obtain ⟨k2, v2⟩ := q
          simp [hv] at a4
          subst a4
          exact mem_keys.2 ⟨v2, (mem_contents w1.wf _ _).2 ⟨_, pos_lt' w1.wf _ _, hv⟩⟩
      refine ⟨?_, by simpa using hmem, pos_lt' w1.wf _ _, a4⟩
      simp only [spec1, if_pos hmem]; exact w1
    · rw [tri_zero] at a2
      rw [a2] at he
      simp at he
      obtain ⟨rfl, rfl, rfl⟩ := he
      have hmem : k ∉ c.map Prod.fst := by
        rw [mem_keys]
        rintro ⟨v2, hv2⟩
        obtain ⟨i, hi, hvi⟩ := (mem_contents w1.wf k v2).1 hv2
        obtain ⟨j, hj, hji⟩ := w1.wf.home i hi k v2 hvi
        have := a1 j (by omega) (lt_of_lt_of_le hj (f.le w1.wf hb))
        rw [hji, hvi] at this
        simp at this
      refine ⟨?_, by simpa using hmem, pos_lt' w1.wf _ _, ?_⟩
      · simp only [spec1, if_neg hmem]
        exact ⟨place_wf w1.wf k v f, w1.wm⟩
      · simp only [setTab]
        by_cases e : pos m1.cap (h k % m1.cap) p = h k % m1.cap <;> simp [e]

theorem rehash_full {P : Params} (hP : P.Sound) {h : K → Nat} {m m' : Map K V} {c} (w : Full P h m c)
    (he : m.rehash h = some m') : Full P h m' c := by
  unfold Map.rehash at he
  by_cases hle : m.size ≤ m.wmHigh
  · obtain ⟨n, hn⟩ := w.wf.cap
    obtain ⟨m'', e1, e2, e3, e4⟩ := rehashTo_spec w.wf n hle (by rw [w.wm, ← hn]; exact hP.le _ w.wf.cap_pos)
    rw [hn, e1] at he
    simp at he; subst he
    exact ⟨e2, by rw [e4, w.wm, e3, hn]⟩
  · simp [Map.rehashTo, hle] at he

theorem run1_full {P : Params} (hP : P.Sound) {h : K → Nat} {m m' : Map K V} {c} (w : Full P h m c) {o : Op K V}
    (he : run1 P h m o = some m') : Full P h m' (spec1 c o) := by
  cases o with
  | insertDup k v =>
    simp only [run1, Option.map_eq_some_iff] at he
    obtain ⟨⟨m1, i⟩, he, rfl⟩ := he
    exact (insertDup_full hP w he).1
  | insertUniq k v =>
    simp only [run1, Option.map_eq_some_iff] at he
    obtain ⟨⟨m1, i, b⟩, he, rfl⟩ := he
    exact (insertUniq_full hP w he).1
  | rehash => exact rehash_full hP w he
  | resize n => exact (resize_full hP w n he).1
  | shrink => exact (resize_full hP w _ he).1

theorem run_full {P : Params} (hP : P.Sound) {h : K → Nat} : ∀ (os : List (Op K V)) (m m' : Map K V) (c), Full P h m c →
    run P h os m = some m' → Full P h m' (spec os c)
  | [], m, m', c, w, he => by simp [run] at he; subst he; exact w
  | o :: os, m, m', c, w, he => by
    unfold run at he
    split at he
    · simp at he
    · rename_i m1 h1
      exact run_full hP os m1 m' _ (run1_full hP w h1) he

theorem new_full {P : Params} {h : K → Nat} {n : Nat} {m : Map K V} (he : Map.new P n = some m) : Full P h m [] := by
  unfold Map.new at he
  split at he
  · simp at he
  · simp at he; subst he
    exact ⟨wf_empty h _ _, rfl⟩

/-! ### Theorems -/

/-- C21: after any sequence of operations on a new map, with any hash function, `for_all(k)` calls back exactly the
pairs with key `k` that a plain collection would hold (as a multiset), `count(k)` is their number, `find(k)` yields a
slot holding such a pair iff there is one, and `size()` is the total number of pairs. -/
theorem C21_multimap (P : Params) (hP : P.Sound) (h : K → Nat) (n : Nat) (os : List (Op K V)) (m0 m : Map K V)
    (h0 : Map.new P n = some m0) (hm : run P h os m0 = some m) (k : K) :
    (m.forAll h k).Perm ((spec os []).filter fun p => p.1 = k) ∧
    m.count h k = ((spec os []).filter fun p => p.1 = k).length ∧
    (∀ i, m.find h k = some i → ∃ v, (m.tab i).val = some (k, v) ∧ (k, v) ∈ spec os []) ∧
    (m.find h k = none ↔ ∀ v, (k, v) ∉ spec os []) ∧
    m.size = (spec os []).length := by
  have w := run_full hP os m0 m [] (new_full h0) hm
  have f := find_spec w.wf k
  refine ⟨forAll_perm w.wf k, (forAll_perm w.wf k).length_eq, fun i hi => (f.1 i hi).2, ⟨f.2, ?_⟩, w.wf.size⟩
  intro hno
  cases hf : m.find h k with
  | none => rfl
  | some i => obtain ⟨v, -, hv⟩ := (f.1 i hf).2; exact absurd hv (hno v)

/-- C21: the returned iterators and the flag.  `insert_with_duplicates` returns the slot that holds the new pair;
`insert_without_duplicates` reports `true` iff the key was absent and returns a slot that holds the key. -/
theorem C21_insert_results (P : Params) (hP : P.Sound) (h : K → Nat) (n : Nat) (os : List (Op K V)) (m0 m : Map K V)
    (h0 : Map.new P n = some m0) (hm : run P h os m0 = some m) (k : K) (v : V) :
    (∀ m' i, m.insertDup P h k v = some (m', i) → (m'.tab i).val = some (k, v)) ∧
    (∀ m' i b, m.insertUniq P h k v = some (m', i, b) →
      (b = true ↔ k ∉ (spec os []).map Prod.fst) ∧ (m'.tab i).val.map Prod.fst = some k) := by
  have w := run_full hP os m0 m [] (new_full h0) hm
  exact ⟨fun m' i he => (insertDup_full hP w he).2.2, fun m' i b he =>
    ⟨(insertUniq_full hP w he).2.1, (insertUniq_full hP w he).2.2.2⟩⟩

theorem resize_total {P : Params} (hP : P.Good) {h : K → Nat} {m : Map K V} {c} (w : Full P h m c) (n : Nat)
    (hs : m.size ≤ m.wmHigh) : ∃ m', m.resize P h n = some m' ∧ m'.size ≤ m'.wmHigh := by
  have hge : m.size ≤ P.wm (ceilPow2 (max n (P.need m.size))) := by
    refine le_trans (hP.need m.size) (hP.mono _ _ ?_)
    unfold ceilPow2
    exact Nat.pow_le_pow_right (by omega) (Nat.clog_mono_right 2 (le_max_right _ _))
  have := rehashTo_spec (w.wf.setWm (P.wm (ceilPow2 (max n (P.need m.size))))) (Nat.clog 2 (max n (P.need m.size)))
        (by simpa using hge) (by simpa [ceilPow2] using hP.sound.le _ (by positivity))
  obtain ⟨m'', e1, e2, e3, e4⟩ := this
  by_cases hne : ceilPow2 (max n (P.need m.size)) ≠ m.cap
  · refine ⟨m'', ?_, ?_⟩
    · unfold Map.resize
      simp only
      rw [if_pos hne, if_pos (by simpa using hge)]
      exact e1
    · rw [e4, e2.size, ← w.wf.size]; exact hge
  · refine ⟨m, ?_, hs⟩
    unfold Map.resize
    simp only
    rw [if_neg hne]

theorem grow_total {P : Params} (hP : P.Good) {h : K → Nat} {m : Map K V} {c} (w : Full P h m c)
    (hs : m.size ≤ m.wmHigh) : ∃ m', m.grow P h = some m' ∧ m'.size < m'.wmHigh := by
  unfold Map.grow
  split
  · obtain ⟨m', e1, _⟩ := resize_total hP w (2 * m.cap) hs
    refine ⟨m', e1, ?_⟩
    obtain ⟨h1, h2, h3⟩ := resize_full hP.sound w _ e1
    rw [h1.wm, h1.wf.size, ← w.wf.size]
    rw [w.wm] at hs
    obtain ⟨j, hj⟩ := w.wf.cap
    have hd := hP.dbl j
    have : 2 ^ (j + 1) ≤ m'.cap := by
      rw [h2]
      refine le_trans ?_ (le_ceilPow2 _)
      refine le_trans ?_ (le_max_left _ _)
      rw [hj, pow_succ]; omega
    have := hP.mono _ _ this
    rw [hj] at hs
    omega
  · exact ⟨m, rfl, by omega⟩

theorem run1_total {P : Params} (hP : P.Good) {h : K → Nat} {m : Map K V} {c} (w : Full P h m c)
    (hs : m.size ≤ m.wmHigh) (o : Op K V) : ∃ m', run1 P h m o = some m' ∧ m'.size ≤ m'.wmHigh := by
  cases o with
  | insertDup k v =>
    obtain ⟨m1, e1, l1⟩ := grow_total hP w hs
    obtain ⟨w1, s1⟩ := grow_full hP.sound w e1
    obtain ⟨p, f⟩ := exists_firstFree w1.wf s1 (h k % m1.cap)
    simp only [run1, Map.insertDup, e1, insertBody_eq w1.wf k v f]
    exact ⟨_, rfl, l1⟩
  | insertUniq k v =>
    obtain ⟨m1, e1, l1⟩ := grow_total hP w hs
    obtain ⟨w1, s1⟩ := grow_full hP.sound w e1
    obtain ⟨p, f⟩ := exists_firstFree w1.wf s1 (h k % m1.cap)
    have e : m1.masked (h k) = h k % m1.cap := rfl
    simp only [run1, Map.insertUniq, e1, e]
    rcases probeKey_spec (k := k) f m1.cap 0 (by omega) (by have := f.lt; omega) with ⟨j, a1, a2, a3, a4⟩ | ⟨a1, a2⟩
    · rw [tri_zero] at a3; rw [a3]; exact ⟨_, rfl, le_of_lt l1⟩
    · rw [tri_zero] at a2; rw [a2]; exact ⟨_, rfl, l1⟩
  | rehash =>
    obtain ⟨n, hn⟩ := w.wf.cap
    obtain ⟨m'', e1, e2, e3, e4⟩ := rehashTo_spec w.wf n hs (by rw [w.wm, ← hn]; exact hP.sound.le _ w.wf.cap_pos)
    refine ⟨m'', by simp only [run1, Map.rehash]; rw [hn]; exact e1, ?_⟩
    rw [e4, e2.size, ← w.wf.size]; exact hs
  | resize n => exact resize_total hP w n hs
  | shrink => exact resize_total hP w _ hs

theorem run_total {P : Params} (hP : P.Good) {h : K → Nat} : ∀ (os : List (Op K V)) (m : Map K V) (c), Full P h m c →
    m.size ≤ m.wmHigh → ∃ m', run P h os m = some m'
  | [], m, c, w, hs => ⟨m, rfl⟩
  | o :: os, m, c, w, hs => by
    obtain ⟨m1, e1, s1⟩ := run1_total hP w hs o
    unfold run
    rw [e1]
    exact run_total hP os m1 _ (run1_full hP.sound w e1) s1

/-- C21: with the default load factor no operation ever fails an assertion or probes forever, for any capacity, any
hash function and any history. -/
theorem C21_total (h : K → Nat) (n : Nat) (os : List (Op K V)) (m0 : Map K V) (h0 : Map.new defaultParams n = some m0) :
    ∃ m, run defaultParams h os m0 = some m := by
  refine run_total default_good os m0 [] (new_full h0) ?_
  unfold Map.new at h0
  split at h0
  · simp at h0
  · simp at h0; subst h0; simp

/-- The hypotheses are met: the default parameters are sound and every map starts from some capacity. -/
example : defaultParams.Sound ∧ ∃ m : Map Nat Nat, Map.new defaultParams 3 = some m ∧ m.cap = 4 :=
  ⟨default_good.sound, _, rfl, by decide⟩

/-- A history with collisions, duplicates and growth. -/
example : spec [Op.insertDup 1 10, .insertDup 1 11, .insertUniq 1 12, .insertUniq 9 13, .rehash] [] =
    [(9, 13), (1, 11), (1, 10)] := by decide

/-- C22: in a table of 2^n slots, every slot is one of the first 2^n probes of every bucket, and these probes are
pairwise distinct.  The probe positions are those of the code: starting at the bucket, step `j` advances by `j`. -/
theorem C22_probe_sequence_is_a_permutation (n b : Nat) (probe : Nat → Nat) (h0 : probe 0 = b % 2 ^ n)
    (hs : ∀ j, probe (j + 1) = (probe j + (j + 1)) % 2 ^ n) :
    (∀ s, s < 2 ^ n → ∃ j, j < 2 ^ n ∧ probe j = s) ∧
    (∀ i j, i < 2 ^ n → j < 2 ^ n → probe i = probe j → i = j) := by
  have e : ∀ j, probe j = pos (2 ^ n) b j := by
    intro j
    induction j with
    | zero => simp [h0, pos]
    | succ j ih => rw [hs, ih]; simp only [pos, tri_succ]; rw [Nat.mod_add_mod, Nat.add_assoc]
  refine ⟨fun s hs => ?_, fun i j hi hj h => ?_⟩
  · obtain ⟨j, h1, h2⟩ := pos_surj n b s hs
    exact ⟨j, h1, by rw [e, h2]⟩
  · rw [e, e] at h; exact pos_inj hi hj h

/-- C22: an insertion into a table with a free slot finds one: the loop ends within `capacity` iterations, after any
history. -/
theorem C22_insertion_terminates (P : Params) (hP : P.Sound) (h : K → Nat) (n : Nat) (os : List (Op K V)) (m0 m : Map K V)
    (h0 : Map.new P n = some m0) (hm : run P h os m0 = some m) (hfree : ∃ i, i < m.cap ∧ (m.tab i).len = 0) (k : K) (v : V) :
    ∃ r, m.insertBody h k v = some r := by
  have w := run_full hP os m0 m [] (new_full h0) hm
  have hs : m.size < m.cap := by
    obtain ⟨i, hi, hi0⟩ := hfree
    rw [w.wf.size, ← w.wf.perm.length_eq]
    unfold Map.entries
    have h1 : ((List.range m.cap).filterMap fun i => if (m.tab i).len ≠ 0 then (m.tab i).val else none) =
        ((List.range m.cap).erase i).filterMap fun i => if (m.tab i).len ≠ 0 then (m.tab i).val else none := by
      have : ∀ l : List Nat, (l.filterMap fun i => if (m.tab i).len ≠ 0 then (m.tab i).val else none) =
        (l.erase i).filterMap fun i => if (m.tab i).len ≠ 0 then (m.tab i).val else none := by
        intro l
        induction l with
        | nil => rfl
        | cons a l ih =>
          by_cases e : a = i
          · subst e; simp [hi0]
          · rw [List.erase_cons_tail (by simpa using e), List.filterMap_cons, List.filterMap_cons, ih]
      exact this _
    rw [h1]
    refine lt_of_le_of_lt (List.length_filterMap_le _ _) ?_
    rw [List.length_erase_of_mem (List.mem_range.2 hi), List.length_range]; omega
  obtain ⟨p, f⟩ := exists_firstFree w.wf hs (h k % m.cap)
  exact ⟨_, insertBody_eq w.wf k v f⟩

/-- C22: the code computes the distance to the end of the probe sequence in 32 bits; up to capacity 2^31 the slot is
nevertheless that of the exact triangular number, for every probe length. -/
theorem C22_distance_32bit (L k b : Nat) (hk : k ≤ 31) :
    (b + ((L * L + L) % 2 ^ 32) / 2) % 2 ^ k = (b + L * (L + 1) / 2) % 2 ^ k := by
  have h := dist32 L k hk
  have : L * (L + 1) / 2 = tri L := rfl
  rw [this, Nat.add_mod, h, ← Nat.add_mod]

/-- C21 (limit, a defect of the code): iterating from `begin()` visits slot 0 even when it is empty. -/
theorem C21_begin_of_empty_map : ∃ m : Map Nat Nat, Map.new defaultParams 1 = some m ∧ m.size = 0 ∧
    m.iterSlots = [0] ∧ (m.tab 0).val = none :=
  ⟨_, rfl, rfl, by decide, rfl⟩

end Mutable.HM
