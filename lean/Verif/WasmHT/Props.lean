import Verif.WasmHT.Chain

/-! # C46: hash tables, hash join and hash grouping of the WebAssembly backend -/

namespace Mutable.WasmHT

variable {K V : Type}

/-! ## Specification -/

/-- The two probing strategies of the code. -/
def IsStrategy (st : Probing) : Prop := st = linear ∨ st = quadratic

/-- SQL equality of two composite keys: all components are not NULL and equal. -/
def sqlEqual {α : Type} (eqv : α → α → Bool) : Key α → Key α → Bool
  | [], [] => true
  | some a :: as, some b :: bs => eqv a b && sqlEqual eqv as bs
  | _, _ => false

/-- A hash function is usable for keys compared by `eq`. -/
structure Respects (eq : K → K → Bool) (hash : K → Nat) : Prop where
  refl : ∀ a, eq a a = true
  symm : ∀ a b, eq a b = true → eq b a = true
  trans : ∀ a b d, eq a b = true → eq b d = true → eq a d = true
  hash : ∀ a b, eq a b = true → hash a = hash b

theorem Respects.good {c : Cfg K} (h : Respects c.eq c.hash) : Good c := ⟨h.refl, h.symm, h.trans, h.hash⟩

theorem lawful_of {st : Probing} (h : IsStrategy st) : Nonempty (Lawful st) := by
  rcases h with rfl | rfl
  · exact ⟨lawful_linear⟩
  · exact ⟨lawful_quadratic⟩

/-! ## Open addressing -/

/-- C46: for every sequence of insertions (up to 2^29, which fill the 32-bit address space) into a
fresh table of any initial capacity and load factor, with either probing strategy and any hash
function compatible with key equality: all loops terminate; enumerating the table gives exactly the
inserted entries; looking up a key gives exactly the entries with that key. -/
theorem C46_multimap (c : Cfg K) (hst : IsStrategy c.strat) (hc : Respects c.eq c.hash)
    (ic : Nat) (hic : ic < 2 ^ 31) (load : Nat × Nat) (es : List (K × V)) (hes : es.length ≤ 2 ^ 29) :
    ∃ t, OA.emplaces c ((OA.init ic).setHighWatermark load) es = some t ∧
      (OA.forEach t).Perm es ∧
      (∀ k, (OA.range c t k).Perm (es.filter fun e => c.eq e.1 k)) ∧
      (∀ k, OA.find c t k = none ↔ ∀ e ∈ es, c.eq e.1 k = false) ∧
      (∀ k e, OA.find c t k = some e → e ∈ es ∧ c.eq e.1 k = true) := by
  obtain ⟨L⟩ := lawful_of hst
  obtain ⟨hi, h0, hn, -⟩ := OA.inv_init (c := c) (L := L) (V := V) ic load hic
  obtain ⟨t, e1, i1, p1⟩ := hi.emplaces es (by omega)
  rw [h0, List.append_nil] at p1
  have hr : ∀ k, (OA.range c t k).Perm (es.filter fun e => c.eq e.1 k) := fun k =>
    (i1.toCore.range_perm hc.good k).trans (p1.filter _)
  refine ⟨t, e1, p1, hr, ?_, ?_⟩
  · intro k
    rw [i1.toCore.find_eq, List.head?_eq_none_iff]
    constructor
    · intro h e he
      rw [Bool.eq_false_iff]
      intro h1
      have := (hr k).mem_iff.2 (List.mem_filter.2 ⟨he, h1⟩)
      rw [h] at this; cases this
    · intro h
      rw [List.eq_nil_iff_forall_not_mem]
      intro e he
      have := List.mem_filter.1 ((hr k).mem_iff.1 he)
      rw [h e this.1] at this
      exact absurd this.2 (by simp)
  · intro k e he
    rw [i1.toCore.find_eq] at he
    have hm := (hr k).mem_iff.1 (List.mem_of_mem_head? he)
    simpa using List.mem_filter.1 hm

/-- C46: grouping by `try_emplace`: the table ends up with exactly one entry per group, carrying the
aggregate of all rows of that group in the order of the rows. -/
theorem C46_group (c : Cfg K) (hst : IsStrategy c.strat) (hc : Respects c.eq c.hash)
    (ic : Nat) (hic : ic < 2 ^ 31) (load : Nat × Nat) {X : Type} (init : X → V) (upd : X → V → V)
    (rows : List (K × X)) (hrows : rows.length ≤ 2 ^ 29) :
    ∃ t, OA.upserts c init upd ((OA.init ic).setHighWatermark load) rows = some t ∧
      (OA.forEach t).Pairwise (fun a b => c.eq a.1 b.1 = false) ∧
      (∀ e ∈ OA.forEach t, OA.groupValue c.eq init upd rows e.1 = some e.2) ∧
      (∀ r ∈ rows, ∃ e ∈ OA.forEach t, c.eq e.1 r.1 = true) := by
  obtain ⟨L⟩ := lawful_of hst
  obtain ⟨hi, h0, hn, -⟩ := OA.inv_init (c := c) (L := L) (V := V) ic load hic
  have hr0 : OA.Repr c (OA.forEach ((OA.init ic : OA K V).setHighWatermark load))
      (OA.groupValue c.eq init upd []) := by
    rw [h0]
    exact ⟨List.Pairwise.nil, by simp, by simp [OA.groupValue]⟩
  obtain ⟨t, e1, i1, r1⟩ := hi.upserts hc.good init upd rows [] (by omega) hr0
  rw [List.nil_append] at r1
  refine ⟨t, e1, r1.distinct, r1.sound, ?_⟩
  intro r hr
  cases hv : OA.groupValue c.eq init upd rows r.1 with
  | some v =>
    obtain ⟨e, he, h1, -⟩ := r1.complete _ _ hv
    exact ⟨e, he, h1⟩
  | none =>
    exfalso
    unfold OA.groupValue at hv
    have hm : r ∈ rows.filter fun x => c.eq x.1 r.1 := List.mem_filter.2 ⟨hr, hc.refl _⟩
    generalize (rows.filter fun x => c.eq x.1 r.1) = l at hv hm
    cases l with
    | nil => cases hm
    | cons => simp at hv

/-! ## Hash join -/

section Join
variable {α P : Type}

theorem equalKeys_notNull {eqv : α → α → Bool} : ∀ {a b : Key α}, keyNotNull a = true →
    (equalKeys eqv a b = sqlEqual eqv a b) := by
  intro a
  induction a with
  | nil => intro b _; cases b <;> rfl
  | cons x a ih =>
    intro b h
    cases b with
    | nil => cases x <;> rfl
    | cons y b =>
      simp only [keyNotNull, List.all_cons, Bool.and_eq_true] at h
      cases x with
      | none => simp at h
      | some x =>
        cases y with
        | none => simp [equalKeys, equalValue, sqlEqual]
        | some y => simp only [equalKeys, equalValue, sqlEqual]; rw [ih h.2]

theorem sqlEqual_notNull {eqv : α → α → Bool} : ∀ {a b : Key α}, sqlEqual eqv a b = true →
    keyNotNull a = true := by
  intro a
  induction a with
  | nil => intro b _; rfl
  | cons x a ih =>
    intro b h
    cases b with
    | nil => cases x <;> simp [sqlEqual] at h
    | cons y b =>
      cases x with
      | none => simp [sqlEqual] at h
      | some x =>
        cases y with
        | none => simp [sqlEqual] at h
        | some y =>
          simp only [sqlEqual, Bool.and_eq_true] at h
          have := ih h.2
          simpa [keyNotNull] using this

/-- The rows the build side contributes for a probe key. -/
theorem filter_build (eqv : α → α → Bool) (build : List (Key α × V)) (k : Key α) :
    ((build.filter fun r => keyNotNull r.1).filter fun e => equalKeys eqv e.1 k) =
      build.filter fun r => sqlEqual eqv r.1 k := by
  rw [List.filter_filter]
  apply List.filter_congr
  intro r _
  rw [Bool.eq_iff_iff, Bool.and_eq_true]
  constructor
  · rintro ⟨h1, h2⟩; rwa [equalKeys_notNull h2] at h1
  · intro h
    have h2 := sqlEqual_notNull h
    exact ⟨by rw [equalKeys_notNull h2]; exact h, h2⟩

/-- C46: the hash join produces, for every probe row in turn, every build row whose key is SQL-equal
(NULL matches nothing), each exactly once. -/
theorem C46_join (c : Cfg (Key α)) (eqv : α → α → Bool) (heq : c.eq = equalKeys eqv)
    (hst : IsStrategy c.strat) (hc : Respects c.eq c.hash) (ic : Nat) (hic : ic < 2 ^ 31)
    (load : Nat × Nat) (build : List (Key α × V)) (hb : build.length ≤ 2 ^ 29)
    (probe : List (Key α × P)) :
    ∃ out, join c false ic load build probe = some out ∧
      out.Perm (probe.flatMap fun p => (build.filter fun b => sqlEqual eqv b.1 p.1).map
        fun b => (b.2, p.2)) := by
  obtain ⟨t, e1, -, hr, -, -⟩ := C46_multimap c hst hc ic hic load
    (build.filter fun r => keyNotNull r.1) ((List.length_filter_le _ _).trans hb)
  unfold join joinBuild
  rw [e1]
  refine ⟨_, rfl, ?_⟩
  simp only [Bool.false_eq_true, if_false]
  apply List.Perm.flatMap_left
  intro p _
  have := hr p.1
  rw [heq, filter_build] at this
  exact this.map _

/-- C46: with a unique build side the lookup of the single match gives the same result. -/
theorem C46_join_unique (c : Cfg (Key α)) (eqv : α → α → Bool) (heq : c.eq = equalKeys eqv)
    (hst : IsStrategy c.strat) (hc : Respects c.eq c.hash) (ic : Nat) (hic : ic < 2 ^ 31)
    (load : Nat × Nat) (build : List (Key α × V)) (hb : build.length ≤ 2 ^ 29)
    (hu : build.Pairwise fun a b => sqlEqual eqv a.1 b.1 = false) (probe : List (Key α × P)) :
    join c true ic load build probe =
      some (probe.flatMap fun p => (build.filter fun b => sqlEqual eqv b.1 p.1).map
        fun b => (b.2, p.2)) := by
  obtain ⟨t, e1, -, hr, hnone, hsome⟩ := C46_multimap c hst hc ic hic load
    (build.filter fun r => keyNotNull r.1) ((List.length_filter_le _ _).trans hb)
  unfold join joinBuild
  rw [e1]
  simp only [Option.map_some, if_true]
  congr 1
  apply List.flatMap_congr
  intro p _
  have hf := filter_build (V := V) eqv build p.1
  rw [← heq] at hf
  have hmem : ∀ b, b ∈ (build.filter fun b => sqlEqual eqv b.1 p.1) ↔
      b ∈ (build.filter fun r => keyNotNull r.1) ∧ c.eq b.1 p.1 = true := by
    intro b; rw [← hf, List.mem_filter]
  have hpw : (build.filter fun b => sqlEqual eqv b.1 p.1).Pairwise fun a b => sqlEqual eqv a.1 b.1 = false :=
    hu.filter _
  have hle : ∀ a ∈ (build.filter fun b => sqlEqual eqv b.1 p.1),
      ∀ b ∈ (build.filter fun b => sqlEqual eqv b.1 p.1), sqlEqual eqv a.1 b.1 = true := by
    intro a ha b hb'
    have h1 := (hmem a).1 ha
    have h2 := (hmem b).1 hb'
    have h3 := hc.trans _ _ _ h1.2 (hc.symm _ _ h2.2)
    rw [heq, equalKeys_notNull (by simpa using (List.mem_filter.1 h1.1).2)] at h3
    exact h3
  cases hfd : OA.find c t p.1 with
  | none =>
    have := (hnone p.1).1 hfd
    have hnil : (build.filter fun b => sqlEqual eqv b.1 p.1) = [] := by
      rw [List.eq_nil_iff_forall_not_mem]
      intro b hb'
      have h1 := (hmem b).1 hb'
      rw [this b h1.1] at h1
      exact absurd h1.2 (by simp)
    rw [hnil]; rfl
  | some e =>
    have he := (hmem e).2 (hsome p.1 e hfd)
    generalize (build.filter fun b => sqlEqual eqv b.1 p.1) = l at he hpw hle
    cases l with
    | nil => cases he
    | cons a l =>
      have hl : l = [] := by
        cases l with
        | nil => rfl
        | cons b l =>
          have h1 := (List.pairwise_cons.1 hpw).1 b (by simp)
          rw [hle a (by simp) b (by simp)] at h1; cases h1
      subst hl
      rw [List.mem_singleton] at he
      subst he; rfl

/-- C46: `HashBasedGrouping`: one result row per group, NULL keys forming one group, with the
aggregate over the rows of the group. -/
theorem C46_grouping (c : Cfg (Key α)) (eqv : α → α → Bool) (heq : c.eq = equalKeys eqv)
    (hst : IsStrategy c.strat) (hc : Respects c.eq c.hash) (ic : Nat) (hic : ic < 2 ^ 31)
    (load : Nat × Nat) {X : Type} (init : X → V) (upd : X → V → V)
    (rows : List (Key α × X)) (hrows : rows.length ≤ 2 ^ 29) :
    ∃ out, group c ic load init upd rows = some out ∧
      out.Pairwise (fun a b => equalKeys eqv a.1 b.1 = false) ∧
      (∀ e ∈ out, OA.groupValue (equalKeys eqv) init upd rows e.1 = some e.2) ∧
      (∀ r ∈ rows, ∃ e ∈ out, equalKeys eqv e.1 r.1 = true) := by
  obtain ⟨t, e1, h1, h2, h3⟩ := C46_group c hst hc ic hic load init upd rows hrows
  rw [heq] at h1 h2 h3
  exact ⟨OA.forEach t, by rw [group, e1]; rfl, h1, h2, h3⟩

end Join

/-! ## Probing -/

/-- C46: both probing strategies reach, from every bucket of a table with `2 ^ n` slots, every slot
within the first `2 ^ n` steps; skipping `i` slots at once is the same as advancing `i` times (even
though the Gaussian sum is computed modulo `2 ^ 32`). -/
theorem C46_probing (st : Probing) (hst : IsStrategy st) (n b : Nat) (hn : n ≤ 31) (hb : b < 2 ^ n) :
    (∀ s, s < 2 ^ n → ∃ i, i < 2 ^ n ∧ st.skip (2 ^ n) b i = s) ∧
    (∀ i, i + 1 < 2 ^ n → st.next (2 ^ n) (st.skip (2 ^ n) b i) (i + 1) = st.skip (2 ^ n) b (i + 1)) ∧
    st.skip (2 ^ n) b 0 = b := by
  obtain ⟨L⟩ := lawful_of hst
  have hpos := Nat.two_pow_pos n
  refine ⟨?_, ?_, ?_⟩
  · intro s hs
    have hnd : ((List.range (2 ^ n)).map (L.P (2 ^ n) b)).Nodup := by
      apply List.Nodup.map_on _ List.nodup_range
      intro i hi j hj e
      rw [List.mem_range] at hi hj
      exact L.inj n b i j hb hi hj e
    have hsub : (List.range (2 ^ n)).map (L.P (2 ^ n) b) ⊆ List.range (2 ^ n) := by
      intro s hs
      obtain ⟨i, hi, rfl⟩ := List.mem_map.1 hs
      exact List.mem_range.2 (L.lt n b i hb)
    have hperm := (hnd.subperm hsub).perm_of_length_le (by simp)
    have := hperm.mem_iff.2 (List.mem_range.2 hs)
    obtain ⟨i, hi, he⟩ := List.mem_map.1 this
    rw [List.mem_range] at hi
    exact ⟨i, hi, by rw [L.skip n b i hn hb hi]; exact he⟩
  · intro i hi
    rw [L.skip n b i hn hb (by omega), L.skip n b (i + 1) hn hb hi, L.next n b i hb hi]
  · rw [L.skip n b 0 hn hb hpos, L.zero n b hb]

/-! ## Chaining -/

/-- C46 (chained table), what holds in general: whatever memory is read by rehashing, no entry is
lost and none is duplicated — but see `C46_chained_growth`. -/
theorem C46_chained_entries (c : Cfg K) (mem : Nat → Nat → K) (ic : Nat) (load : Nat × Nat)
    (es : List (K × V)) :
    (CH.forEach (CH.emplaces c mem ((CH.init ic).setHighWatermark load) es)).Perm es := by
  have hp : CH.Pow ((CH.init ic : CH K V).setHighWatermark load) := by
    unfold CH.setHighWatermark
    split
    · exact ⟨_, rfl⟩
    · exact ⟨_, rfl⟩
  have h0 : CH.forEach ((CH.init ic : CH K V).setHighWatermark load) = [] := by
    unfold CH.setHighWatermark
    have : ∀ n : Nat, (List.range n).flatMap (fun _ => ([] : List (K × V))) = [] := by
      intro n; rw [List.flatMap_eq_nil_iff]; intros; rfl
    split
    · exact this _
    · exact this _
  have := CH.emplaces_perm (c := c) mem es hp
  rwa [h0, List.append_nil] at this

/-- C46 for the chained table, proved only as long as the table does not have to grow: lookups give
exactly the inserted entries with that key.  Missing: tables that grow, for which it is false
(`C46_chained_growth`). -/
theorem C46_chained_multimap_partial (c : Cfg K) (hc : Respects c.eq c.hash) (mem : Nat → Nat → K)
    (ic : Nat) (load : Nat × Nat) (es : List (K × V))
    (hes : es.length ≤ ((CH.init ic : CH K V).setHighWatermark load).hwm) :
    let t := CH.emplaces c mem ((CH.init ic).setHighWatermark load) es
    (∀ k, (CH.range c t k).Perm (es.filter fun e => c.eq e.1 k)) ∧
    (∀ k, CH.find c t k = none ↔ ∀ e ∈ es, c.eq e.1 k = false) := by
  intro t
  have hp0 : CH.Pow ((CH.init ic : CH K V).setHighWatermark load) := by
    unfold CH.setHighWatermark
    split <;> exact ⟨_, rfl⟩
  have hh0 : CH.Home c ((CH.init ic : CH K V).setHighWatermark load) := by
    unfold CH.setHighWatermark
    split <;> (intro b e he; cases he)
  have hn0 : ((CH.init ic : CH K V).setHighWatermark load).num = 0 := by
    unfold CH.setHighWatermark
    split <;> rfl
  have hh : CH.Home c t := CH.emplaces_home mem es hh0 (by omega)
  have hp : CH.Pow t := by
    have : ∀ (es : List (K × V)) (t : CH K V), CH.Pow t → CH.Pow (CH.emplaces c mem t es) := by
      intro es
      induction es with
      | nil => intro t h; exact h
      | cons e es ih => intro t h; exact ih _ (CH.grow_perm (c := c) h _).1
    exact this es _ hp0
  have hperm : (CH.forEach t).Perm es := C46_chained_entries c mem ic load es
  have hr : ∀ k, (CH.range c t k).Perm (es.filter fun e => c.eq e.1 k) := by
    intro k
    rw [hh.range_eq hc.good hp]
    exact hperm.filter _
  refine ⟨hr, ?_⟩
  intro k
  rw [CH.find_eq, List.head?_eq_none_iff]
  constructor
  · intro h e he
    rw [Bool.eq_false_iff]
    intro h1
    have := (hr k).mem_iff.2 (List.mem_filter.2 ⟨he, h1⟩)
    rw [h] at this; cases this
  · intro h
    rw [List.eq_nil_iff_forall_not_mem]
    intro e he
    have := List.mem_filter.1 ((hr k).mem_iff.1 he)
    rw [h e this.1] at this
    exact absurd this.2 (by simp)

/-- C46 (grouping) for the chained table, proved only as long as there are no more rows than the table
holds without growing.  Missing: tables that grow (`C46_chained_growth`). -/
theorem C46_chained_group_partial (c : Cfg K) (hc : Respects c.eq c.hash) (mem : Nat → Nat → K)
    (ic : Nat) (load : Nat × Nat) {X : Type} (init : X → V) (upd : X → V → V) (rows : List (K × X))
    (hrows : rows.length ≤ ((CH.init ic : CH K V).setHighWatermark load).hwm) :
    let out := CH.forEach (CH.upserts c mem init upd ((CH.init ic).setHighWatermark load) rows)
    out.Pairwise (fun a b => c.eq a.1 b.1 = false) ∧
    (∀ e ∈ out, OA.groupValue c.eq init upd rows e.1 = some e.2) := by
  intro out
  have hp0 : CH.Pow ((CH.init ic : CH K V).setHighWatermark load) := by
    unfold CH.setHighWatermark
    split <;> exact ⟨_, rfl⟩
  have hh0 : CH.Home c ((CH.init ic : CH K V).setHighWatermark load) := by
    unfold CH.setHighWatermark
    split <;> (intro b e he; cases he)
  have hn0 : ((CH.init ic : CH K V).setHighWatermark load).num = 0 := by
    unfold CH.setHighWatermark
    split <;> rfl
  have h0 : CH.forEach ((CH.init ic : CH K V).setHighWatermark load) = [] := by
    have := C46_chained_entries (V := V) c mem ic load []
    exact List.Perm.eq_nil this
  have hr0 : OA.Repr c (CH.forEach ((CH.init ic : CH K V).setHighWatermark load))
      (OA.groupValue c.eq init upd []) := by
    rw [h0]
    exact ⟨List.Pairwise.nil, by simp, by simp [OA.groupValue]⟩
  have := CH.upserts_repr hc.good mem init upd rows [] hp0 hh0 (by omega) hr0
  rw [List.nil_append] at this
  exact ⟨this.distinct, this.sound⟩

/-- C46 is false of a chained table that grows: whatever the memory behind the bucket array holds and
whatever the hash function is, if two keys stored in one bucket belong into different buckets of
the doubled table, then after growing one of them is not found any more, and `try_emplace` inserts a
second entry for it. -/
theorem C46_chained_growth (c : Cfg K) (hc : Respects c.eq c.hash) (mem : Nat → K) (t : CH K V)
    (hfull : t.num = t.hwm) (hpow : ∃ n, t.cap = 2 ^ n)
    (hhome : ∀ b, ∀ e ∈ t.bk b, CH.bucket c t.cap e.1 = b)
    (b : Nat) (e1 e2 : K × V) (h1 : e1 ∈ t.bk b) (h2 : e2 ∈ t.bk b)
    (hdiff : CH.bucket c (2 * t.cap) e1.1 ≠ CH.bucket c (2 * t.cap) e2.1) (v : V) (upd : V → V) :
    ∃ e, (e = e1 ∨ e = e2) ∧ CH.find c (CH.grow c mem t) e.1 = none ∧
      (CH.upsert c mem t e.1 v upd).2 = true := by
  have hcap := CH.rehash_cap (c := c) (t := t) hpow mem
  have hg : (CH.grow c mem t).bk = (CH.rehash c mem t).bk ∧ (CH.grow c mem t).cap = 2 * t.cap := by
    unfold CH.grow; rw [if_pos hfull]; exact ⟨rfl, hcap⟩
  -- an entry found under the key of an entry of the old bucket `b` is in the new bucket of `mem b`
  have key : ∀ e, e ∈ t.bk b → ∀ x ∈ (CH.grow c mem t).bk (CH.bucket c (CH.grow c mem t).cap e.1),
      c.eq x.1 e.1 = true → CH.bucket c (2 * t.cap) e.1 = CH.bucket c (2 * t.cap) (mem b) := by
    intro e he x hx hxe
    rw [hg.2, hg.1] at hx
    obtain ⟨b', hb', hxb, hbb⟩ := CH.mem_rehash hx
    rw [hcap] at hbb
    have hsame : b' = b := by
      rw [← hhome b' x hxb, ← hhome b e he]
      unfold CH.bucket; rw [hc.hash _ _ hxe]
    rw [hbb, hsame]
  have main : ∀ e, e ∈ t.bk b → CH.bucket c (2 * t.cap) e.1 ≠ CH.bucket c (2 * t.cap) (mem b) →
      CH.find c (CH.grow c mem t) e.1 = none ∧ (CH.upsert c mem t e.1 v upd).2 = true := by
    intro e he hne
    have habs : ∀ x ∈ (CH.grow c mem t).bk (CH.bucket c (CH.grow c mem t).cap e.1),
        c.eq x.1 e.1 = false := by
      intro x hx
      rw [Bool.eq_false_iff]
      exact fun hxe => hne (key e he x hx hxe)
    constructor
    · unfold CH.find
      rw [List.find?_eq_none]
      intro x hx
      simp [habs x hx]
    · unfold CH.upsert
      simp only
      rcases CH.upsertList_spec (c := c) e.1 v upd
        ((CH.grow c mem t).bk (CH.bucket c (CH.grow c mem t).cap e.1)) with ⟨h, _⟩ | ⟨_, l1, x, l2, hl, hx, _⟩
      · exact h
      · exfalso
        have := habs x (by rw [hl]; simp)
        rw [this] at hx; cases hx
  by_cases hcase : CH.bucket c (2 * t.cap) e1.1 = CH.bucket c (2 * t.cap) (mem b)
  · exact ⟨e2, .inr rfl, main e2 h2 (fun h => hdiff (hcase.trans h.symm))⟩
  · exact ⟨e1, .inl rfl, main e1 h1 hcase⟩

/-! ## The hypotheses are met -/

/-- Keys are numbers, the hash is the identity. -/
def demo (st : Probing) : Cfg Nat := { eq := fun a b => a == b, hash := id, strat := st }

theorem demo_respects (st : Probing) : Respects (demo st).eq (demo st).hash :=
  ⟨by simp [demo], by simp only [demo, beq_iff_eq]; exact fun _ _ h => h.symm, by simp [demo], by simp [demo]⟩

/-- Seven entries, two of them with the same key, in a table that starts with four slots. -/
def demoEntries : List (Nat × String) :=
  [(3, "a"), (7, "b"), (3, "c"), (11, "d"), (0, "e"), (15, "f"), (16, "g")]

example : ((OA.emplaces (demo quadratic) ((OA.init 0).setHighWatermark (4, 5)) demoEntries).map
    fun t => (t.cap, OA.range (demo quadratic) t 3, (OA.find (demo quadratic) t 5).isSome)) =
    some (8, [(3, "c"), (3, "a")], false) := by decide +kernel

example : ((OA.emplaces (demo linear) ((OA.init 0).setHighWatermark (4, 5)) demoEntries).map
    OA.forEach) =
    some [(0, "e"), (15, "f"), (16, "g"), (3, "c"), (3, "a"), (11, "d"), (7, "b")] := by decide +kernel

/-- Counting rows per key. -/
example : ((OA.upserts (demo linear) (fun _ => 1) (fun _ v => v + 1) ((OA.init 0).setHighWatermark (4, 5))
    (demoEntries.map fun e => (e.1 % 4, e.2))).map OA.forEach) = some [(0, 2), (3, 5)] := by decide +kernel

/-- A join with NULLs on both sides. -/
def demoJoin : Cfg (Key Nat) :=
  { eq := equalKeys fun a b => a == b, hash := fun k => (k.map fun x => x.getD 9).sum, strat := linear }

theorem demoJoin_respects : Respects demoJoin.eq demoJoin.hash := by
  have h : ∀ a b : Key Nat, demoJoin.eq a b = true → a = b := by
    intro a
    induction a with
    | nil => intro b; cases b <;> simp [demoJoin, equalKeys]
    | cons x a ih =>
      intro b h
      cases b with
      | nil => simp [demoJoin, equalKeys] at h
      | cons y b =>
        simp only [demoJoin, equalKeys, Bool.and_eq_true] at h
        rw [ih b h.2]
        cases x <;> cases y <;> simp [equalValue] at h ⊢
        exact h.1
  have hrefl : ∀ a : Key Nat, demoJoin.eq a a = true := by
    intro a
    induction a with
    | nil => rfl
    | cons x a ih =>
      have : equalKeys (fun a b : Nat => a == b) a a = true := ih
      cases x <;> simp [demoJoin, equalKeys, equalValue, this]
  refine ⟨hrefl, ?_, ?_, ?_⟩
  · intro a b h1; rw [h a b h1]; exact hrefl b
  · intro a b d h1 h2; rw [h a b h1]; exact h2
  · intro a b h1; rw [h a b h1]

example : join demoJoin false 0 (4, 5)
      [([some 1, some 2], "x"), ([none, some 2], "null"), ([some 2, some 1], "y"), ([some 1, some 2], "z")]
      [([some 1, some 2], 10), ([none, some 2], 20), ([some 2, some 1], 30)] =
    some [("x", 10), ("z", 10), ("y", 30)] := by decide +kernel

/-- A chained table that holds six entries without growing. -/
example : demoEntries.dropLast.length ≤ ((CH.init 4 : CH Nat String).setHighWatermark (3, 2)).hwm := by
  decide +kernel

/-- A chained table with one bucket holding the keys 0 and 1, which belong to different buckets of
the doubled table. -/
example : let t := CH.emplaces (demo linear) (fun _ _ => 0) (CH.init 1) [(0, "zero")]
    t.num = t.hwm ∧ CH.find (demo linear) (CH.grow (demo linear) (fun _ => 1) t) 0 = none := by
  decide +kernel

example : let t : CH Nat String := ⟨1, fun _ => [(0, "zero"), (1, "one")], 2, 2, (2, 1)⟩
    CH.bucket (demo linear) (2 * t.cap) 0 ≠ CH.bucket (demo linear) (2 * t.cap) 1 := by decide

end Mutable.WasmHT
