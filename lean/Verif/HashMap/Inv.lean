import Verif.HashMap.Probe
/-! Invariant of `RefCountingHashMap` and its preservation. -/
namespace Mutable.HM
variable {K V : Type} [DecidableEq K]

/-- pair of an occupied entry -/
def occ (t : Nat → Entry K V) (i : Nat) : Option (K × V) := if (t i).len ≠ 0 then (t i).val else none

structure WF (h : K → Nat) (m : Map K V) (c : List (K × V)) : Prop where
  cap : ∃ n, m.cap = 2 ^ n
  occ : ∀ i, i < m.cap → ((m.tab i).len ≠ 0 ↔ (m.tab i).val.isSome = true)
  chain : ∀ b, b < m.cap → ∀ j, j < (m.tab b).len → (m.tab (pos m.cap b j)).len ≠ 0
  lencap : ∀ b, b < m.cap → (m.tab b).len ≤ m.cap
  home : ∀ i, i < m.cap → ∀ k v, (m.tab i).val = some (k, v) →
    ∃ j, j < (m.tab (h k % m.cap)).len ∧ pos m.cap (h k % m.cap) j = i
  perm : m.entries.Perm c
  size : m.size = c.length

theorem WF.congr {h : K → Nat} {m : Map K V} {c c' : List (K × V)} (w : WF h m c) (hp : c.Perm c') : WF h m c' :=
  { w with perm := w.perm.trans hp, size := w.size.trans hp.length_eq }

theorem WF.setWm {h : K → Nat} {m : Map K V} {c : List (K × V)} (w : WF h m c) (x : Nat) :
    WF h { m with wmHigh := x } c :=
  ⟨w.cap, w.occ, w.chain, w.lencap, w.home, w.perm, w.size⟩

theorem WF.cap_pos {h : K → Nat} {m : Map K V} {c} (w : WF h m c) : 0 < m.cap := by
  obtain ⟨n, e⟩ := w.cap; rw [e]; positivity

theorem wf_empty (h : K → Nat) (n wm : Nat) : WF h (⟨emptyTab, 2 ^ n, 0, wm⟩ : Map K V) [] := by
  refine ⟨⟨n, rfl⟩, by simp [emptyTab], by simp [emptyTab], by simp [emptyTab], by simp [emptyTab], ?_, rfl⟩
  simp [Map.entries, emptyTab]

theorem perm_filterMap_update {α β : Type} {f g : α → Option β} {x : α} {y : β} : ∀ {l : List α}, l.Nodup → x ∈ l →
    f x = none → g x = some y → (∀ z, z ≠ x → g z = f z) → (l.filterMap g).Perm (y :: l.filterMap f)
  | [], _, h, _, _, _ => by simp at h
  | a :: l, hn, hm, h1, h2, h3 => by
    by_cases e : a = x
    · subst e
      have : l.filterMap g = l.filterMap f := by
        apply List.filterMap_congr
        intro z hz
        exact h3 z (fun e => by subst e; exact (List.nodup_cons.1 hn).1 hz)
      simp [h1, h2, this]
    · have hm' : x ∈ l := by
        rcases List.mem_cons.1 hm with h | h
        · exact absurd h.symm e
        · exact h
      have ih := perm_filterMap_update (List.nodup_cons.1 hn).2 hm' h1 h2 h3
      rw [List.filterMap_cons, List.filterMap_cons, h3 a e]
      cases f a with
      | none => exact ih
      | some b => exact (ih.cons b).trans (List.Perm.swap _ _ _)

/-- the table after placing `(k, v)` at the `p`-th probe of bucket `b` -/
def place (t : Nat → Entry K V) (b probe p : Nat) (k : K) (v : V) : Nat → Entry K V :=
  setTab (setTab t probe ⟨(t probe).len + 1, some (k, v)⟩) b
    ⟨p + 1, (setTab t probe ⟨(t probe).len + 1, some (k, v)⟩ b).val⟩

/-- `p` is the number of occupied slots before the first free one in the probe sequence of `b` -/
structure FirstFree (m : Map K V) (b p : Nat) : Prop where
  lt : p < m.cap
  free : (m.tab (pos m.cap b p)).len = 0
  before : ∀ q, q < p → (m.tab (pos m.cap b q)).len ≠ 0

theorem FirstFree.le {h : K → Nat} {m : Map K V} {c} (w : WF h m c) {b p : Nat} (hb : b < m.cap) (f : FirstFree m b p) :
    (m.tab b).len ≤ p := by
  by_contra hlt
  exact w.chain b hb p (by omega) f.free

theorem pos_zero {cap b : Nat} (hb : b < cap) : pos cap b 0 = b := by simp [pos, Nat.mod_eq_of_lt hb]

theorem pos_lt' {h : K → Nat} {m : Map K V} {c} (w : WF h m c) (b j : Nat) : pos m.cap b j < m.cap :=
  Nat.mod_lt _ w.cap_pos

theorem FirstFree.zero {m : Map K V} {b p : Nat} (hb : b < m.cap) (f : FirstFree m b p) :
    p = 0 ↔ (m.tab b).len = 0 := by
  constructor
  · rintro rfl; have := f.free; rwa [pos_zero hb] at this
  · intro h0
    by_contra hp
    have := f.before 0 (by omega)
    rw [pos_zero hb] at this
    exact this h0

theorem place_wf {h : K → Nat} {m : Map K V} {c} (w : WF h m c) {p : Nat} (k : K) (v : V)
    (f : FirstFree m (h k % m.cap) p) :
    WF h { m with tab := place m.tab (h k % m.cap) (pos m.cap (h k % m.cap) p) p k v, size := m.size + 1 } ((k, v) :: c) := by
  set b := h k % m.cap with hb'
  have hb : b < m.cap := Nat.mod_lt _ w.cap_pos
  set probe := pos m.cap b p with hprobe
  have hpr : probe < m.cap := pos_lt' w b p
  have hpf : (m.tab probe).len = 0 := f.free
  have hval : ∀ i, (place m.tab b probe p k v i).val = if i = probe then some (k, v) else (m.tab i).val := by
    intro i
    unfold place setTab
    by_cases e : i = b
    · rw [e]; by_cases e2 : b = probe <;> simp [e2]
    · simp [e]; by_cases e2 : i = probe <;> simp [e2]
  have hlen : ∀ i, (place m.tab b probe p k v i).len = if i = b then p + 1 else if i = probe then 1 else (m.tab i).len := by
    intro i
    unfold place setTab
    by_cases e : i = b
    · simp [e]
    · simp [e]; by_cases e2 : i = probe
      · simp [e2, hpf]
      · simp [e2]
  have hle := f.le w hb
  have mono : ∀ i, (m.tab i).len ≠ 0 → (place m.tab b probe p k v i).len ≠ 0 := by
    intro i hi
    rw [hlen]; split
    · omega
    · split
      · omega
      · exact hi
  refine ⟨w.cap, ?_, ?_, ?_, ?_, ?_, ?_⟩
  · intro i hi
    simp only at hi ⊢
    rw [hlen, hval]
    have hw := w.occ i hi
    by_cases e : i = b
    · subst e
      by_cases e2 : b = probe
      · simp [e2]
      · have : (m.tab b).len ≠ 0 := by
          intro h0
          have := (f.zero hb).2 h0
          subst this
          exact e2 (by rw [hprobe, pos_zero hb])
        rw [if_pos rfl, if_neg e2, ← hw]; simp [this]
    · by_cases e2 : i = probe
      · rw [if_neg e, if_pos e2, if_pos e2]; simp
      · rw [if_neg e, if_neg e2, if_neg e2]; exact hw
  · intro b2 hb2 j hj
    simp only at hb2 hj ⊢
    rw [hlen] at hj
    by_cases e : b2 = b
    · subst e
      rw [if_pos rfl] at hj
      rcases Nat.lt_succ_iff_lt_or_eq.1 hj with hj | rfl
      · exact mono _ (f.before j hj)
      · rw [hlen]; split
        · omega
        · simp [hprobe]
    · rw [if_neg e] at hj
      by_cases e2 : b2 = probe
      · rw [if_pos e2] at hj
        have : j = 0 := by omega
        subst this
        rw [pos_zero hb2, hlen, if_neg e, if_pos e2]; omega
      · rw [if_neg e2] at hj
        exact mono _ (w.chain b2 hb2 j hj)
  · intro b2 hb2
    simp only at hb2 ⊢
    rw [hlen]
    have := f.lt
    split
    · omega
    · split
      · omega
      · exact w.lencap b2 hb2
  · intro i hi k2 v2 hv
    simp only at hi hv ⊢
    rw [hval] at hv
    by_cases e : i = probe
    · rw [if_pos e] at hv
      simp at hv
      obtain ⟨rfl, rfl⟩ := hv
      refine ⟨p, ?_, by rw [← hb', e]⟩
      rw [hlen, if_pos rfl]; omega
    · rw [if_neg e] at hv
      obtain ⟨j, hj, hji⟩ := w.home i hi k2 v2 hv
      refine ⟨j, ?_, hji⟩
      rw [hlen]
      split
      · rename_i e2; rw [e2] at hj; omega
      · split
        · rename_i e2; rw [e2, hpf] at hj; omega
        · exact hj
  · simp only [Map.entries]
    refine List.Perm.trans (perm_filterMap_update (f := fun i => if (m.tab i).len ≠ 0 then (m.tab i).val else none)
      (x := probe) (y := (k, v)) List.nodup_range (List.mem_range.2 hpr) ?_ ?_ ?_) (w.perm.cons _)
    · simp [hpf]
    · simp only [hval, hlen, if_true]
      by_cases e : probe = b <;> simp [e]
    · intro z hz
      simp only [hval, hlen, if_neg hz]
      by_cases e : z = b
      · have : (m.tab b).len ≠ 0 := by
          intro h0
          have := (f.zero hb).2 h0
          exact hz (by rw [e, hprobe, this, pos_zero hb])
        simp [e, this]
      · simp [e]
  · simp [w.size]

theorem entries_full {h : K → Nat} {m : Map K V} {c} (w : WF h m c) (hf : ∀ i, i < m.cap → (m.tab i).len ≠ 0) :
    m.entries.length = m.cap := by
  unfold Map.entries
  have : ∀ (l : List Nat), (∀ i ∈ l, i < m.cap) →
      (l.filterMap fun i => if (m.tab i).len ≠ 0 then (m.tab i).val else none).length = l.length := by
    intro l hl
    induction l with
    | nil => rfl
    | cons a l ih =>
      have ha := hf a (hl a (by simp))
      obtain ⟨x, hx⟩ := Option.isSome_iff_exists.1 ((w.occ a (hl a (by simp))).1 ha)
      simp only [List.filterMap_cons, if_pos ha, hx, List.length_cons]
      rw [ih fun i hi => hl i (by simp [hi])]
  rw [this _ (by simp), List.length_range]

theorem exists_firstFree {h : K → Nat} {m : Map K V} {c} (w : WF h m c) (hs : m.size < m.cap) (b : Nat) :
    ∃ p, FirstFree m b p := by
  have hfree : ∃ i, i < m.cap ∧ (m.tab i).len = 0 := by
    by_contra hno
    have := entries_full w (fun i hi h0 => hno ⟨i, hi, h0⟩)
    rw [w.perm.length_eq, ← w.size] at this
    omega
  obtain ⟨i, hi, h0⟩ := hfree
  obtain ⟨n, hn⟩ := w.cap
  obtain ⟨j, hj, hji⟩ := pos_surj n b i (by rw [← hn]; exact hi)
  rw [← hn] at hj hji
  have hex : ∃ p, (m.tab (pos m.cap b p)).len = 0 := ⟨j, by rw [hji]; exact h0⟩
  refine ⟨Nat.find hex, lt_of_le_of_lt (Nat.find_min' hex (by rw [hji]; exact h0)) hj, Nat.find_spec hex, ?_⟩
  intro q hq
  exact Nat.find_min hex hq

theorem probeFree_spec {m : Map K V} {b : Nat} : ∀ (d fuel L : Nat), d < fuel →
    (m.tab (pos m.cap b (L + d))).len = 0 → (∀ q, L ≤ q → q < L + d → (m.tab (pos m.cap b q)).len ≠ 0) →
    m.probeFree b fuel L (tri L) = some (L + d, pos m.cap b (L + d))
  | 0, fuel + 1, L, _, hfree, _ => by
    unfold Map.probeFree
    have : m.masked (b + tri L) = pos m.cap b L := rfl
    simp only [this]
    rw [Nat.add_zero] at hfree
    simp [hfree]
  | d + 1, fuel + 1, L, hd, hfree, hocc => by
    unfold Map.probeFree
    have e : m.masked (b + tri L) = pos m.cap b L := rfl
    simp only [e]
    rw [if_pos (hocc L (le_refl _) (by omega)), ← tri_succ]
    have := probeFree_spec d fuel (L + 1) (by omega) (by rw [show L + 1 + d = L + (d + 1) by omega]; exact hfree)
      (fun q h1 h2 => hocc q (by omega) (by omega))
    rw [this, show L + 1 + d = L + (d + 1) by omega]

theorem insertBody_eq {h : K → Nat} {m : Map K V} {c} (w : WF h m c) (k : K) (v : V) {p : Nat}
    (f : FirstFree m (h k % m.cap) p) :
    m.insertBody h k v = some
      ({ m with tab := place m.tab (h k % m.cap) (pos m.cap (h k % m.cap) p) p k v, size := m.size + 1 },
        pos m.cap (h k % m.cap) p) := by
  have hb : h k % m.cap < m.cap := Nat.mod_lt _ w.cap_pos
  unfold Map.insertBody
  have e : m.masked (h k) = h k % m.cap := rfl
  simp only [e]
  by_cases h0 : (m.tab (h k % m.cap)).len = 0
  · have hp := (f.zero hb).2 h0
    subst hp
    rw [if_pos h0, pos_zero hb]
    congr 2
    congr 1
    funext i
    unfold place setTab
    by_cases e : i = h k % m.cap <;> simp [e, h0]
  · rw [if_neg h0, tri_eq]
    have hle := f.le w hb
    have hlt := f.lt
    have := probeFree_spec (m := m) (b := h k % m.cap) (p - (m.tab (h k % m.cap)).len) m.cap (m.tab (h k % m.cap)).len
      (by omega) (by rw [Nat.add_sub_cancel' hle]; exact f.free)
      (fun q _ h2 => f.before q (by omega))
    rw [Nat.add_sub_cancel' hle] at this
    rw [this]
    rfl

theorem reinsert_spec (h : K → Nat) : ∀ (l : List (K × V)) (m : Map K V) (c : List (K × V)), WF h m c →
    c.length + l.length ≤ m.wmHigh → m.wmHigh ≤ m.cap →
    ∃ m', reinsert h l m = some m' ∧ WF h m' (l ++ c) ∧ m'.cap = m.cap ∧ m'.wmHigh = m.wmHigh
  | [], m, c, w, _, _ => ⟨m, rfl, w, rfl, rfl⟩
  | (k, v) :: l, m, c, w, hl, hc => by
    have hs := w.size
    simp at hl
    obtain ⟨p, f⟩ := exists_firstFree w (by omega) (h k % m.cap)
    obtain ⟨m', h1, h2, h3, h4⟩ := reinsert_spec h l _ _ (place_wf w k v f) (by simp; omega) hc
    refine ⟨m', ?_, h2.congr ?_, h3, h4⟩
    · unfold reinsert
      rw [if_neg (by omega), insertBody_eq w k v f]
      exact h1
    · simp

theorem rehashTo_spec {h : K → Nat} {m : Map K V} {c} (w : WF h m c) (n : Nat) (h1 : m.size ≤ m.wmHigh)
    (h2 : m.wmHigh ≤ 2 ^ n) :
    ∃ m', m.rehashTo h (2 ^ n) = some m' ∧ WF h m' c ∧ m'.cap = 2 ^ n ∧ m'.wmHigh = m.wmHigh := by
  unfold Map.rehashTo
  rw [if_pos h1]
  obtain ⟨m', e1, e2, e3, e4⟩ := reinsert_spec h m.entries ⟨emptyTab, 2 ^ n, 0, m.wmHigh⟩ [] (wf_empty h n m.wmHigh)
    (by simp [w.perm.length_eq, ← w.size, h1]) h2
  exact ⟨m', e1, e2.congr (by simpa using w.perm), e3, e4⟩

theorem resize_spec {P : Params} (hP : ∀ n, P.wm n ≤ n) {h : K → Nat} {m m' : Map K V} {c} (w : WF h m c) (n : Nat)
    (he : m.resize P h n = some m') : WF h m' c ∧ m'.cap = ceilPow2 (max n (P.need m.size)) ∧
      (m'.wmHigh = P.wm m'.cap ∨ (m' = m)) := by
  unfold Map.resize at he
  simp only at he
  split at he
  · split at he
    · rename_i hne hge
      have := rehashTo_spec (w.setWm (P.wm (ceilPow2 (max n (P.need m.size))))) (Nat.clog 2 (max n (P.need m.size)))
        (by simpa using hge) (by simpa [ceilPow2] using hP _)
      obtain ⟨m'', e1, e2, e3, e4⟩ := this
      unfold ceilPow2 at he
      unfold ceilPow2 at e1
      rw [e1] at he
      simp at he; subst he
      exact ⟨e2, e3, .inl (by rw [e4, e3]; rfl)⟩
    · simp at he
  · rename_i hne
    simp at he; subst he
    exact ⟨w, by simpa using (Eq.symm (not_not.1 hne)), .inr rfl⟩

theorem grow_spec {P : Params} (hP : ∀ n, P.wm n ≤ n) {h : K → Nat} {m m' : Map K V} {c} (w : WF h m c)
    (he : m.grow P h = some m') : WF h m' c := by
  unfold Map.grow at he
  split at he
  · exact (resize_spec hP w _ he).1
  · simp at he; subst he; exact w

/-! lookups -/

theorem perm_filterMap_sub {α β : Type} [DecidableEq α] {f : α → Option β} {l₁ l₂ : List α} (h1 : l₁.Nodup) (h2 : l₂.Nodup)
    (hs : ∀ x ∈ l₁, x ∈ l₂) (hf : ∀ x ∈ l₂, f x ≠ none → x ∈ l₁) : (l₁.filterMap f).Perm (l₂.filterMap f) := by
  have key : ∀ l : List α, l.filterMap f = (l.filter fun x => (f x).isSome).filterMap f := by
    intro l
    induction l with
    | nil => rfl
    | cons a l ih =>
      cases ha : f a with
      | none => simp [ha, ih]
      | some b => simp [ha, ih]
  rw [key l₁, key l₂]
  apply List.Perm.filterMap
  rw [List.perm_ext_iff_of_nodup (h1.filter _) (h2.filter _)]
  intro x
  simp only [List.mem_filter]
  constructor
  · exact fun ⟨a, b⟩ => ⟨hs x a, b⟩
  · exact fun ⟨a, b⟩ => ⟨hf x a (by intro e; simp [e] at b), b⟩

/-- pair at slot `i` if its key is `k` -/
def sel (m : Map K V) (k : K) (i : Nat) : Option (K × V) :=
  match (m.tab i).val with
  | some p => if k = p.1 then some p else none
  | none => none

theorem forAllLoop_eq (m : Map K V) (k : K) (b : Nat) (hc : 0 < m.cap) : ∀ (r step : Nat),
    m.forAllLoop k r (pos m.cap b step) step = ((List.range' step r).map (pos m.cap b)).filterMap (sel m k)
  | 0, step => rfl
  | r + 1, step => by
    unfold Map.forAllLoop
    have e : m.masked (pos m.cap b step + (step + 1)) = pos m.cap b (step + 1) := by
      simp only [Map.masked, pos, tri_succ]
      rw [Nat.mod_add_mod, Nat.add_assoc]
    simp only [e, forAllLoop_eq m k b hc r (step + 1), List.range'_succ, List.map_cons, List.filterMap_cons, sel]
    cases (m.tab (pos m.cap b step)).val with
    | none => rfl
    | some p => by_cases h : k = p.1 <;> simp [h]

theorem forAll_perm {h : K → Nat} {m : Map K V} {c} (w : WF h m c) (k : K) :
    (m.forAll h k).Perm (c.filter fun p => p.1 = k) := by
  have hb : h k % m.cap < m.cap := Nat.mod_lt _ w.cap_pos
  unfold Map.forAll
  have e : m.masked (h k) = h k % m.cap := rfl
  simp only [e]
  have e2 := forAllLoop_eq m k (h k % m.cap) w.cap_pos (m.tab (h k % m.cap)).len 0
  rw [pos_zero hb] at e2
  rw [e2]
  obtain ⟨n, hn⟩ := w.cap
  have hl := w.lencap _ hb
  refine (perm_filterMap_sub (l₂ := List.range m.cap) ?_ List.nodup_range ?_ ?_).trans ?_
  · rw [← List.range_eq_range']
    refine List.Nodup.map_on ?_ List.nodup_range
    intro x hx y hy hxy
    have hx := List.mem_range.1 hx; have hy := List.mem_range.1 hy
    rw [hn] at hxy hl hx hy
    exact pos_inj (by omega) (by omega) hxy
  · intro x hx
    obtain ⟨j, _, rfl⟩ := List.mem_map.1 hx
    exact List.mem_range.2 (pos_lt' w _ _)
  · intro x hx hne
    unfold sel at hne
    cases hv : (m.tab x).val with
    | none => simp [hv] at hne
    | some p =>
      obtain ⟨k2, v2⟩ := p
      simp only [hv] at hne
      by_cases hk : k = k2
      · subst hk
        obtain ⟨j, hj, hji⟩ := w.home x (List.mem_range.1 hx) k v2 hv
        rw [← List.range_eq_range']
        exact List.mem_map.2 ⟨j, List.mem_range.2 hj, hji⟩
      · simp [hk] at hne
  · refine List.Perm.trans ?_ (w.perm.filter _)
    unfold Map.entries
    rw [List.filter_filterMap]
    apply List.Perm.of_eq
    apply List.filterMap_congr
    intro x hx
    have ho := w.occ x (List.mem_range.1 hx)
    unfold sel
    cases hv : (m.tab x).val with
    | none => simp
    | some p =>
      have : (m.tab x).len ≠ 0 := ho.2 (by simp [hv])
      simp only [this, ne_eq, not_false_eq_true, if_true, Option.filter]
      by_cases hk : k = p.1
      · simp [hk]
      · simp [hk, Ne.symm hk]

theorem mem_contents {h : K → Nat} {m : Map K V} {c} (w : WF h m c) (k : K) (v : V) :
    (k, v) ∈ c ↔ ∃ i, i < m.cap ∧ (m.tab i).val = some (k, v) := by
  rw [← w.perm.mem_iff]
  unfold Map.entries
  rw [List.mem_filterMap]
  constructor
  · rintro ⟨i, hi, h1⟩
    split at h1
    · exact ⟨i, List.mem_range.1 hi, h1⟩
    · simp at h1
  · rintro ⟨i, hi, h1⟩
    refine ⟨i, List.mem_range.2 hi, ?_⟩
    rw [if_pos ((w.occ i hi).2 (by simp [h1]))]; exact h1

theorem findLoop_some {m : Map K V} {b L : Nat} {k : K} : ∀ (fuel len i : Nat),
    m.findLoop b L k fuel len (tri len) = some i → ∃ j, len ≤ j ∧ j < L ∧ i = pos m.cap b j ∧ (m.tab i).val.map Prod.fst = some k
  | 0, _, _, h => by simp [Map.findLoop] at h
  | fuel + 1, len, i, h => by
    unfold Map.findLoop at h
    have e : m.masked (b + tri len) = pos m.cap b len := rfl
    simp only [e, ← tri_succ] at h
    split at h
    · rename_i hc
      split at h
      · rename_i hk
        simp at h; subst h
        exact ⟨len, le_refl _, hc.2, rfl, hk⟩
      · obtain ⟨j, h1, h2, h3⟩ := findLoop_some fuel (len + 1) i h
        exact ⟨j, by omega, h2, h3⟩
    · simp at h

theorem findLoop_none {m : Map K V} {b L : Nat} {k : K} : ∀ (fuel len : Nat), L < len + fuel →
    (∀ j, j < L → (m.tab (pos m.cap b j)).len ≠ 0) →
    m.findLoop b L k fuel len (tri len) = none → ∀ j, len ≤ j → j < L → (m.tab (pos m.cap b j)).val.map Prod.fst ≠ some k
  | 0, len, hl, _, _, j, h1, h2 => by omega
  | fuel + 1, len, hl, ho, h, j, h1, h2 => by
    unfold Map.findLoop at h
    have e : m.masked (b + tri len) = pos m.cap b len := rfl
    simp only [e, ← tri_succ] at h
    rw [if_pos ⟨ho len (by omega), by omega⟩] at h
    split at h
    · simp at h
    · rename_i hk
      rcases Nat.lt_or_eq_of_le h1 with h1 | rfl
      · exact findLoop_none fuel (len + 1) (by omega) ho h j h1 h2
      · exact hk

theorem find_spec {h : K → Nat} {m : Map K V} {c} (w : WF h m c) (k : K) :
    (∀ i, m.find h k = some i → i < m.cap ∧ ∃ v, (m.tab i).val = some (k, v) ∧ (k, v) ∈ c) ∧
    (m.find h k = none → ∀ v, (k, v) ∉ c) := by
  have hb : h k % m.cap < m.cap := Nat.mod_lt _ w.cap_pos
  unfold Map.find
  have e : m.masked (h k) = h k % m.cap := rfl
  simp only [e]
  constructor
  · intro i hi
    obtain ⟨j, h1, h2, h3, h4⟩ := findLoop_some _ 0 i hi
    have hic : i < m.cap := by rw [h3]; exact pos_lt' w _ _
    refine ⟨hic, ?_⟩
    cases hv : (m.tab i).val with
    | none => simp [hv] at h4
    | some p =>
      obtain ⟨k2, v⟩ := p
      simp [hv] at h4
      subst h4
      exact ⟨v, rfl, (mem_contents w _ v).2 ⟨i, hic, hv⟩⟩
  · intro hn v hv
    obtain ⟨i, hi, hvi⟩ := (mem_contents w k v).1 hv
    obtain ⟨j, hj, hji⟩ := w.home i hi k v hvi
    have := findLoop_none _ 0 (by omega) (w.chain _ hb) hn j (by omega) hj
    rw [hji, hvi] at this
    simp at this

/-- the loop of `insert_without_duplicates` -/
theorem probeKey_spec {m : Map K V} {b p : Nat} {k : K} (f : FirstFree m b p) : ∀ (fuel len : Nat), len ≤ p → p < len + fuel →
    (∃ j, len ≤ j ∧ j < p ∧ m.probeKey b k fuel len (tri len) = some (.inl (pos m.cap b j)) ∧
      (m.tab (pos m.cap b j)).val.map Prod.fst = some k) ∨
    ((∀ j, len ≤ j → j < p → (m.tab (pos m.cap b j)).val.map Prod.fst ≠ some k) ∧
      m.probeKey b k fuel len (tri len) = some (.inr (p, pos m.cap b p)))
  | 0, len, h1, h2 => by omega
  | fuel + 1, len, h1, h2 => by
    unfold Map.probeKey
    have e : m.masked (b + tri len) = pos m.cap b len := rfl
    simp only [e, ← tri_succ]
    rcases Nat.lt_or_eq_of_le h1 with h1 | rfl
    · rw [if_pos (f.before len h1)]
      by_cases hk : (m.tab (pos m.cap b len)).val.map Prod.fst = some k
      · rw [if_pos hk]
        exact .inl ⟨len, le_refl _, h1, rfl, hk⟩
      · rw [if_neg hk]
        rcases probeKey_spec f fuel (len + 1) h1 (by omega) with ⟨j, a1, a2, a3, a4⟩ | ⟨a1, a2⟩
        · exact .inl ⟨j, by omega, a2, a3, a4⟩
        · refine .inr ⟨?_, a2⟩
          intro j b1 b2
          rcases Nat.lt_or_eq_of_le b1 with b1 | rfl
          · exact a1 j b1 b2
          · exact hk
    · rw [if_neg (by simp [f.free])]
      exact .inr ⟨fun j a b => by omega, rfl⟩

end Mutable.HM
