import Verif.IndexScan.Main

/-!
# C50: index scans
-/
namespace Mutable.IScan

open Index

/-! ### Required attributes -/

theorem mem_union (x : Nat) : ∀ (l s : List Nat), x ∈ union s l ↔ x ∈ s ∨ x ∈ l := by
  intro l
  induction l with
  | nil => intro s; simp [union]
  | cons a l ih =>
    intro s
    rw [union, ih]
    by_cases h : a ∈ s
    · rw [if_pos h, List.mem_cons]
      constructor
      · rintro (h | h) <;> simp [h]
      · rintro (h' | rfl | h') <;> simp [*]
    · rw [if_neg h]; simp [or_assoc]

theorem nodup_union : ∀ (l s : List Nat), s.Nodup → (union s l).Nodup := by
  intro l
  induction l with
  | nil => intro s h; exact h
  | cons a l ih =>
    intro s h
    rw [union]
    apply ih
    by_cases ha : a ∈ s
    · rwa [if_pos ha]
    · rw [if_neg ha, List.nodup_append]
      refine ⟨h, by simp, ?_⟩
      rintro x hx y hy rfl
      rw [List.mem_singleton] at hy
      exact ha (hy ▸ hx)

theorem required_one {a : Nat} {cnf : Cnf} (ho : OnlyAttr a cnf) (hne : required cnf ≠ []) : required cnf = [a] := by
  have h1 : ∀ x ∈ required cnf, x = a := by
    intro x hx
    unfold required at hx
    rw [mem_union] at hx
    rcases hx with hx | hx
    · cases hx
    · obtain ⟨C, hC, hx⟩ := List.mem_flatMap.1 hx
      obtain ⟨p, hp, hx⟩ := List.mem_flatMap.1 hx
      exact ho C hC p hp x hx
  have h2 : (required cnf).Nodup := nodup_union _ _ (by simp)
  match h : required cnf with
  | [] => exact absurd h hne
  | [x] => rw [h] at h1; rw [h1 x (by simp)]
  | x :: y :: l =>
    rw [h] at h1 h2
    have := h1 x (by simp)
    have := h1 y (by simp)
    simp_all

theorem preCond_true {dbg : Bool} {db : DB} {m : Method} {t al : Nat} {cnf : Cnf} (h : preCond dbg db m t al cnf = some true) :
    (∃ a, (required cnf).filter (db.hasIndex m t) = [a]) ∧ check cnf false false = true ∧
      (dbg = true → cnf ≠ [] ∧ t = al) := by
  unfold preCond at h
  simp only [Option.bind_eq_bind, Option.bind_eq_some_iff] at h
  obtain ⟨_, h1, _, h2, h3⟩ := h
  have hreq : (required cnf).filter (db.hasIndex m t) ≠ [] → required cnf ≠ [] := by
    intro h e; rw [e] at h; simp at h
  generalize hl : (required cnf).filter (db.hasIndex m t) = l at *
  match l with
  | [] => cases h3
  | [a] =>
    refine ⟨⟨a, rfl⟩, by simpa using h3, ?_⟩
    intro hd
    subst hd
    have hr := hreq (by simp)
    constructor
    · rintro rfl; simp [insist] at h1
    · unfold insist at h2
      simp only [Bool.true_and] at h2
      have : (required cnf).isEmpty = false := by cases hq : required cnf <;> simp_all
      rw [this] at h2
      by_contra hne
      simp [hne] at h2
  | _ :: _ :: _ => simp at h3

/-! ### The theorem -/

theorem get_index {db : DB} {m : Method} {t a : Nat} (h : db.hasIndex m t a = true) :
    ∃ e ∈ db.idxs, db.getIndex m t a = some e ∧ e.valid = true ∧ e.table = t ∧ e.attr = a ∧ e.method = m := by
  unfold DB.hasIndex at h
  unfold DB.getIndex
  obtain ⟨e, he⟩ := Option.isSome_iff_exists.1 (List.find?_isSome.2 (by simpa using h) : (db.idxs.find? (·.matches t a m)).isSome = true)
  have h1 := List.find?_some he
  have h2 := List.mem_of_find?_eq_some he
  simp only [Entry.matches, Bool.and_eq_true, beq_iff_eq] at h1
  exact ⟨e, h2, he, h1.1.1.1, h1.1.1.2, h1.1.2, h1.2⟩

theorem valid_bits {ty : KTy} (h : ty.Valid) : 0 < ty.bits := by
  cases ty <;> simp only [KTy.Valid, KTy.bits] at * <;> omega

/-- Positions, rows selected and order of one bound. -/
theorem lo_ok (cfg : Cfg) {ty : KTy} (hv : ty.Valid) {e : Entry} {l} (h : Hist e.idx l) (hf : e.idx.finalized = true)
    (hp : ∀ k, e.method = .rmi → e.predict k < e.idx.entries.length)
    (hx : e.method = .rmi → cfg.strategy = .interpretation ∨ cfg.access = .callback)
    (hl : e.idx.entries.length < 2 ^ 32) (b : Bounds) (hb : ∀ x, b.lo = some x → BoundOK ty x) :
    ∃ (lo : Nat) (p : Int → Prop), loPos cfg ty e b = some lo ∧ IsFirst e.idx.entries p lo ∧
      (∀ z : Int, (∀ x, b.lo = some x → SatLo x b.incLo z) ↔ p z) ∧
      (∀ q, (∀ x, b.lo = some x → SatLo x b.incLo q) → ∀ k : Int, ¬ p k → (k : ℚ) < q) := by
  unfold loPos
  cases hlo : b.lo with
  | none => exact ⟨0, fun _ => True, rfl, first_true _, by simp, by simp⟩
  | some x =>
    obtain ⟨_, k, hk, hval⟩ := key_ok cfg hv (hb x hlo)
    obtain ⟨i, hi, hi2⟩ := seek_ok cfg h hf b.incLo k (hp k) hx hl
    refine ⟨i, Beyond b.incLo k, ?_, hi2, ?_, ?_⟩
    · simp only [hk, Option.bind_some]; exact hi
    · intro z
      simp only [Option.some.injEq, forall_eq', SatLo, hval, Beyond]
      cases b.incLo <;> simp [not_lt]
    · intro q hq k' hk'
      obtain ⟨v, hv1, hv2⟩ := hq x rfl
      rw [hval] at hv1; cases hv1
      simp only [Beyond] at hk'
      cases hinc : b.incLo <;> rw [hinc] at hv2 hk'
      · simp only [Bool.false_eq_true, if_false, not_lt] at hv2 hk'
        exact lt_of_le_of_lt (by exact_mod_cast hk') hv2
      · simp only [if_true, not_not] at hv2 hk'
        exact lt_of_lt_of_le (by exact_mod_cast hk') hv2

theorem hi_ok (cfg : Cfg) {ty : KTy} (hv : ty.Valid) {e : Entry} {l} (h : Hist e.idx l) (hf : e.idx.finalized = true)
    (hp : ∀ k, e.method = .rmi → e.predict k < e.idx.entries.length)
    (hx : e.method = .rmi → cfg.strategy = .interpretation ∨ cfg.access = .callback)
    (hl : e.idx.entries.length < 2 ^ 32) (b : Bounds) (hb : ∀ x, b.hi = some x → BoundOK ty x) :
    ∃ (hi : Nat) (p : Int → Prop), hiPos cfg ty e b = some hi ∧ IsFirst e.idx.entries p hi ∧
      (∀ z : Int, (∀ x, b.hi = some x → SatHi x b.incHi z) ↔ ¬ p z) ∧
      (∀ q, (∀ x, b.hi = some x → SatHi x b.incHi q) → ∀ k : Int, p k → q < (k : ℚ)) := by
  unfold hiPos
  cases hlo : b.hi with
  | none => exact ⟨_, fun _ => False, rfl, first_false _, by simp, by simp⟩
  | some x =>
    obtain ⟨_, k, hk, hval⟩ := key_ok cfg hv (hb x hlo)
    obtain ⟨i, hi, hi2⟩ := seek_ok cfg h hf (!b.incHi) k (hp k) hx hl
    refine ⟨i, Beyond (!b.incHi) k, ?_, hi2, ?_, ?_⟩
    · simp only [hk, Option.bind_some]; exact hi
    · intro z
      simp only [Option.some.injEq, forall_eq', SatHi, hval, Beyond]
      cases b.incHi <;> simp [not_lt]
    · intro q hq k' hk'
      obtain ⟨v, hv1, hv2⟩ := hq x rfl
      rw [hval] at hv1; cases hv1
      simp only [Beyond] at hk'
      cases hinc : b.incHi <;> rw [hinc] at hv2 hk'
      · simp only [Bool.not_false, Bool.false_eq_true, if_false, if_true, not_lt] at hv2 hk'
        exact lt_of_lt_of_le hv2 (by exact_mod_cast hk')
      · simp only [if_true, Bool.not_true, Bool.false_eq_true, if_false] at hv2 hk'
        exact lt_of_le_of_lt hv2 (by exact_mod_cast hk')

theorem mapM_rows (rows : List Row) : ∀ (ids : List Nat), (∀ i ∈ ids, i < rows.length) →
    ids.mapM (fun i => rows[i]?) = some (ids.map fun i => rows.getD i []) := by
  intro ids
  induction ids with
  | nil => intro _; rfl
  | cons i ids ih =>
    intro h
    have hi := h i (by simp)
    rw [List.mapM_cons, ih (fun j hj => h j (by simp [hj])), List.getElem?_eq_getElem hi]
    simp [List.getD_eq_getElem?_getD, hi]

/-- Sorted by the attribute. -/
def SortedBy (a : Nat) (rows : List Row) : Prop :=
  rows.Pairwise fun r s => ∀ x y, r.getD a none = some x → s.getD a none = some y → x ≤ y

open Classical in
/-- Whenever the optimizer may use an index scan for a condition on one attribute, compared to constants of the type of the
column, the scan returns exactly the rows the filter selects from the table, sorted by the attribute -- for every strategy,
access, batch size and build, after every sequence of statements that does not make an index stale. -/
theorem C50_index_scan_partial {db : DB} (hr : Reach db) (cfg : Cfg) {m : Method} {t al : Nat} {cnf : Cnf} {T : Table} {a : Nat}
    {ty : KTy} (hT : db.tables t = some T) (hty : T.tys[a]? = some ty) (ho : OnlyAttr a cnf)
    (hp : preCond cfg.dbg db m t al cnf = some true) (hb : BoundsOK ty cnf) (hlen : T.rows.length < 2 ^ 32)
    (hx : m = .rmi → cfg.strategy = .interpretation ∨ cfg.access = .callback)
    (hpred : m = .rmi → ∀ e ∈ db.idxs, ∀ k, e.predict k < e.idx.entries.length)
    (hsat : (∃ env, passes env cnf = true) ∨
      (cfg.dbg = false ∧ cfg.strategy ≠ .interpretation ∧ (cfg.access = .callback → cfg.batch ≠ 0))) :
    ∃ rows, indexScan cfg db m t cnf = some rows ∧ rows.Perm (scanFilter T cnf) ∧ SortedBy a rows := by
  have I := reach_inv hr
  obtain ⟨⟨a', ha'⟩, hchk, _⟩ := preCond_true hp
  have hreq : required cnf = [a] := required_one ho (by intro e; rw [e] at ha'; cases ha')
  have hne : cnf ≠ [] := by rintro rfl; cases hreq
  rw [hreq] at ha'
  have hhas : db.hasIndex m t a = true := by
    by_contra h
    rw [List.filter_cons_of_neg h] at ha'
    cases ha'
  obtain ⟨e, he, hget, hval, het, hea, hem⟩ := get_index hhas
  obtain ⟨T', ty', hT', hty', hist, hfin⟩ := I.idxs e he hval
  rw [het, hT] at hT'; cases hT'
  rw [hea, hty] at hty'; cases hty'
  rw [hea] at hist
  have hvalid : ty.Valid := (I.tables t T hT).1 ty (List.mem_of_getElem? hty)
  have hrows := (I.tables t T hT).2
  have hperm := hist_entries hist
  have hel : e.idx.entries.length < 2 ^ 32 := by
    rw [hperm.length_eq]
    exact lt_of_le_of_lt (pairs_length _ _ _ _) hlen
  obtain ⟨b, e1, e2, e3, e4, e5, e6, e7⟩ := extractLoop_ok (dbg := cfg.dbg) cnf { attr := a } ho hchk
  have hfrom : ∀ x, FromCnf cnf x → BoundOK ty x := by
    rintro x ⟨C, hC, p, hpC, r, y, z, h1, h2⟩
    exact hb C hC p hpC r y z h1 x h2
  have blo : ∀ x, b.lo = some x → BoundOK ty x := fun x h => by
    rcases e5 x h with h | h
    · cases h
    · exact hfrom x h
  have bhi : ∀ x, b.hi = some x → BoundOK ty x := fun x h => by
    rcases e6 x h with h | h
    · cases h
    · exact hfrom x h
  have hsome := e7 (Or.inr (Or.inr hne))
  have hscale : ty.scale = 0 := by
    rcases hsome with h | h
    · obtain ⟨x, hx⟩ := Option.isSome_iff_exists.1 h
      exact (key_ok cfg hvalid (blo x hx)).1
    · obtain ⟨x, hx⟩ := Option.isSome_iff_exists.1 h
      exact (key_ok cfg hvalid (bhi x hx)).1
  have hpred' : ∀ k, e.method = .rmi → e.predict k < e.idx.entries.length := fun k h => hpred (hem ▸ h) e he k
  have hx' : e.method = .rmi → cfg.strategy = .interpretation ∨ cfg.access = .callback := fun h => hx (hem ▸ h)
  obtain ⟨lo, plo, l1, l2, l3, l4⟩ := lo_ok cfg hvalid hist hfin hpred' hx' hel b blo
  obtain ⟨hi, phi, h1, h2, h3, h4⟩ := hi_ok cfg hvalid hist hfin hpred' hx' hel b bhi
  have sat0 : ∀ q, Sat { attr := a } q := fun q => ⟨by simp, by simp⟩
  have hle : lo ≤ hi ∨ (cfg.dbg = false ∧ cfg.strategy ≠ .interpretation) := by
    rcases hsat with ⟨env, henv⟩ | ⟨x, y, _⟩
    · left
      cases hq : env a with
      | none => rw [e4 env hq hne] at henv; cases henv
      | some q =>
        obtain ⟨s1, s2⟩ := (e3 env q hq).2 ⟨sat0 q, henv⟩
        by_contra hlt
        have hil : hi < e.idx.entries.length := by have := l2.1; omega
        have m1 : e.idx.entries[hi] ∈ e.idx.entries.take lo := List.mem_take_iff_getElem.2 ⟨hi, by omega, rfl⟩
        have m2 : e.idx.entries[hi] ∈ e.idx.entries.drop hi := List.mem_drop_iff_getElem.2 ⟨0, by omega, by simp⟩
        have a1 := l4 q s1 _ (l2.2.1 _ m1)
        have a2 := h4 q s2 _ (h2.2.2 _ m2)
        exact absurd (lt_trans a1 a2) (lt_irrefl _)
    · exact Or.inr ⟨x, y⟩
  have hins : insist cfg.dbg (decide (lo ≤ hi)) = some () := by
    rcases hle with h | ⟨h, _⟩
    · rw [decide_eq_true h, insist_true]
    · rw [h]; rfl
  have htup := tupleIds_ok cfg e (lo := lo) (hi := hi) h2.1 (by omega) (by
    rcases hle with h | ⟨_, h⟩
    · exact Or.inl h
    · exact Or.inr h) hx'
  rw [slice_filter l2 h2] at htup
  have hbits := valid_bits hvalid
  have hmem : ∀ p ∈ e.idx.entries, p.2 < T.rows.length ∧ ∃ r, T.rows[p.2]? = some r ∧ r.getD a none = some p.1 := by
    intro p hp
    obtain ⟨_, r, r1, r2⟩ := pairs_mem hty rfl hbits T.rows 0 hrows p (hperm.mem_iff.1 hp)
    rw [Nat.sub_zero] at r1
    exact ⟨(List.getElem?_eq_some_iff.1 r1).1, r, r1, r2⟩
  have hext : extract cfg.dbg cnf = some b := by
    unfold extract
    rw [hreq]
    have : (!cnf.isEmpty) = true := by cases cnf <;> simp_all
    rw [this]
    have h : (b.lo.isSome || b.hi.isSome) = true := by simpa using hsome
    simp [insist_true, e1, h]
  refine ⟨((e.idx.entries.filter fun e => decide (plo e.1) && !decide (phi e.1)).map Prod.snd).map (fun i => T.rows.getD i []), ?_, ?_, ?_⟩
  · unfold indexScan
    simp only [hT, hext, Option.bind_eq_bind, Option.bind_some, e2, hty, hget, l1, h1, hins, htup]
    apply mapM_rows
    intro i hi
    obtain ⟨p, hp, rfl⟩ := List.mem_map.1 hi
    exact (hmem p (List.mem_filter.1 hp).1).1
  · rw [List.map_map]
    refine ((hperm.filter _).map _).trans ?_
    unfold scanFilter
    have key := pairs_filter hty rfl hbits (fun z => decide (plo z) && !decide (phi z)) T.rows (fun r => passes (Row.env T.tys r) cnf) (by
      intro r hr
      have henv : Row.env T.tys r a = (r.getD a none).map fun z => (z : ℚ) := by
        unfold Row.env
        have : (T.tys.getD a .bool).scale = 0 := by rw [List.getD_eq_getElem?_getD, hty]; exact hscale
        rw [this]; simp
      cases hk : r.getD a none with
      | none =>
        rw [hk] at henv
        exact e4 _ henv hne
      | some z =>
        rw [hk] at henv
        have := e3 (Row.env T.tys r) z henv
        rw [Bool.eq_iff_iff]
        simp only [Option.elim, Bool.and_eq_true, decide_eq_true_eq, Bool.not_eq_true', decide_eq_false_iff_not]
        rw [← l3 z, ← h3 z]
        constructor
        · intro h; exact this.2 ⟨sat0 _, h⟩
        · intro h; exact (this.1 h).2) T.rows 0 hrows rfl
    rw [← key]
    exact List.Perm.refl _
  · unfold SortedBy
    rw [List.map_map, List.pairwise_map]
    have hs := (hist_sorted hist hfin).filter (fun e => decide (plo e.1) && !decide (phi e.1))
    refine hs.imp_of_mem ?_
    intro p p' hp hp' hle x y hx hy
    obtain ⟨_, r, r1, r2⟩ := hmem p (List.mem_filter.1 hp).1
    obtain ⟨_, r', r1', r2'⟩ := hmem p' (List.mem_filter.1 hp').1
    simp only [Function.comp, List.getD_eq_getElem?_getD (l := T.rows), r1, r1', Option.getD_some] at hx hy
    rw [r2] at hx; rw [r2'] at hy
    cases hx; cases hy; exact hle

/-! ### Indexes are up to date -/

theorem pairs_of_row {bits a : Nat} {tys : List KTy} {ty : KTy} (hty : tys[a]? = some ty) (hb : ty.bits = bits) (hpos : 0 < bits) :
    ∀ (rs : List Row) (id : Nat), (∀ r ∈ rs, RowOK tys r) → ∀ i r k, rs[i]? = some r → r.getD a none = some k →
      (k, id + i) ∈ pairs bits a rs id := by
  intro rs
  induction rs with
  | nil => intro id _ i r k h; simp at h
  | cons r0 rs ih =>
    intro id hr i r k h hk
    rw [pairs]
    cases i with
    | zero =>
      simp only [List.getElem?_cons_zero, Option.some.injEq] at h
      subst h
      obtain ⟨h1, h2⟩ := hr r0 (by simp) a ty k hty hk
      rw [hb] at h1 h2
      rw [hk]; simp [wrap_id hpos h1 h2]
    | succ i =>
      simp only [List.getElem?_cons_succ] at h
      have := ih (id + 1) (fun r h => hr r (by simp [h])) i r k h hk
      rw [show id + 1 + i = id + (i + 1) by omega] at this
      cases r0.getD a none <;> simp [this]

theorem pairs_nodup (bits a : Nat) : ∀ (rs : List Row) (id : Nat), ((pairs bits a rs id).map Prod.snd).Nodup ∧
    ∀ e ∈ pairs bits a rs id, id ≤ e.2 := by
  intro rs
  induction rs with
  | nil => intro id; simp [pairs]
  | cons r rs ih =>
    intro id
    obtain ⟨h1, h2⟩ := ih (id + 1)
    rw [pairs]
    cases r.getD a none with
    | none => exact ⟨h1, fun e he => by have := h2 e he; omega⟩
    | some k =>
      simp only [List.map_cons, List.nodup_cons, List.mem_cons]
      refine ⟨⟨?_, h1⟩, ?_⟩
      · intro h
        obtain ⟨e, he, heq⟩ := List.mem_map.1 h
        have := h2 e he; omega
      · rintro e (rfl | he)
        · exact le_rfl
        · have := h2 e he; omega

/-- After every sequence of statements that does not make an index stale, every valid index holds exactly one entry for
each row of its table whose key is not NULL -- the key and the number of the row -- sorted by key. -/
theorem C50_indexes_current_partial {db : DB} (hr : Reach db) (e : Entry) (he : e ∈ db.idxs) (hv : e.valid = true) :
    ∃ T, db.tables e.table = some T ∧ (e.idx.entries.map Prod.snd).Nodup ∧
      (∀ k id, (k, id) ∈ e.idx.entries ↔ ∃ r, T.rows[id]? = some r ∧ r.getD e.attr none = some k) ∧
      e.idx.entries.Pairwise (fun x y => x.1 ≤ y.1) := by
  have I := reach_inv hr
  obtain ⟨T, ty, hT, hty, hist, hfin⟩ := I.idxs e he hv
  have hvalid : ty.Valid := (I.tables _ T hT).1 ty (List.mem_of_getElem? hty)
  have hrows := (I.tables _ T hT).2
  have hperm := hist_entries hist
  have hbits := valid_bits hvalid
  refine ⟨T, hT, ?_, ?_, hist_sorted hist hfin⟩
  · rw [(hperm.map Prod.snd).nodup_iff]
    exact (pairs_nodup _ _ _ _).1
  · intro k id
    rw [hperm.mem_iff]
    constructor
    · intro h
      obtain ⟨_, r, r1, r2⟩ := pairs_mem hty rfl hbits T.rows 0 hrows _ h
      exact ⟨r, by simpa using r1, r2⟩
    · rintro ⟨r, r1, r2⟩
      have := pairs_of_row hty rfl hbits T.rows 0 hrows id r k r1 r2
      simpa using this

/-- After an `INSERT` that did not fail, and after `DROP TABLE`, no index on the table is used, until one is created. -/
theorem C50_invalidated {db db' : DB} {t : Nat} {rows : List Row} :
    (∀ T, db.tables t = some T → T.rows.length + rows.length ≤ T.cap → Step db (.insert t rows) db' →
      ∀ dbg m al cnf, preCond dbg db' m t al cnf ≠ some true) ∧
    (Step db (.dropTable t) db' → ∀ dbg m al cnf, preCond dbg db' m t al cnf ≠ some true) := by
  have none_true : ∀ db' : DB, (∀ m a, db'.hasIndex m t a = false) → ∀ dbg m al cnf, preCond dbg db' m t al cnf ≠ some true := by
    intro db' h dbg m al cnf hp
    obtain ⟨⟨a, ha⟩, _⟩ := preCond_true hp
    rw [List.filter_eq_nil_iff.2 (by intro x _; simp [h])] at ha
    cases ha
  constructor
  · intro T hT hcap h
    apply none_true
    intro m a
    cases h with
    | insert _ T' _ hT' =>
      rw [hT] at hT'; cases hT'
      have : (T.append rows).2 = true := by unfold Table.append; rw [if_pos hcap]
      rw [if_pos this]
      unfold DB.hasIndex
      rw [List.any_eq_false]
      intro e he
      obtain ⟨e0, _, he⟩ := List.mem_map.1 (show e ∈ List.map _ db.idxs from he)
      by_cases ht : e0.table = t
      · rw [if_pos ht] at he; subst he; simp [Entry.matches]
      · rw [if_neg ht] at he; subst he; simp [Entry.matches, ht]
  · intro h
    apply none_true
    intro m a
    cases h with
    | dropTable _ =>
      unfold DB.hasIndex
      rw [List.any_eq_false]
      intro e he
      obtain ⟨_, h2⟩ := List.mem_filter.1 (show e ∈ db.idxs.filter fun e => e.table != t from he)
      have h2 : e.table ≠ t := by simpa using h2
      simp [Entry.matches, h2]

/-- An `INSERT` into a table does not affect the indexes of other tables. -/
theorem C50_other_tables {db db' : DB} {t t' : Nat} {rows : List Row} (h : Step db (.insert t rows) db') (hne : t' ≠ t) (m : Method) (a : Nat) :
    db'.hasIndex m t' a = db.hasIndex m t' a ∧ db'.getIndex m t' a = db.getIndex m t' a ∧ db'.tables t' = db.tables t' := by
  cases h with
  | insert _ T _ hT =>
    by_cases hs : (T.append rows).2 = true
    · rw [if_pos hs]
      refine ⟨?_, ?_, setTable_other hne _⟩
      · show (db.idxs.map _).any _ = db.idxs.any _
        rw [List.any_map]
        congr 1
        funext e
        simp only [Function.comp]
        by_cases ht : e.table = t
        · rw [if_pos ht]; simp [Entry.matches, ht, hne.symm]
        · rw [if_neg ht]
      · show (db.idxs.map _).find? _ = db.idxs.find? _
        induction db.idxs with
        | nil => rfl
        | cons e l ih =>
          rw [List.map_cons]
          by_cases ht : e.table = t
          · rw [if_pos ht, List.find?_cons_of_neg (by simp [Entry.matches]), List.find?_cons_of_neg (by simp [Entry.matches, ht, hne.symm])]
            exact ih
          · rw [if_neg ht]
            cases hm : e.matches t' a m with
            | true => rw [List.find?_cons_of_pos (by simpa using hm), List.find?_cons_of_pos (by simpa using hm)]
            | false => rw [List.find?_cons_of_neg (by simp [hm]), List.find?_cons_of_neg (by simp [hm])]; exact ih
    · rw [if_neg hs]
      exact ⟨rfl, rfl, setTable_other hne _⟩

/-- When an index scan may be used, every clause of the condition is a single comparison, not negated and not `!=`, of an
attribute with a literal or a signed literal. -/
theorem C50_condition_shape {dbg : Bool} {db : DB} {m : Method} {t al : Nat} {cnf : Cnf} (h : preCond dbg db m t al cnf = some true) :
    ∀ C ∈ cnf, ∃ r x y, C = [(false, Pred.cmp r x y)] ∧ r ≠ .ne ∧
      ((x.isAttr = true ∧ y.isBound = true) ∨ (y.isAttr = true ∧ x.isBound = true)) := by
  obtain ⟨_, hc, _⟩ := preCond_true h
  have key : ∀ (cnf : Cnf) lo hi, check cnf lo hi = true → ∀ C ∈ cnf, ∃ r x y, C = [(false, Pred.cmp r x y)] ∧ r ≠ .ne ∧
      ((x.isAttr = true ∧ y.isBound = true) ∨ (y.isAttr = true ∧ x.isBound = true)) := by
    intro cnf
    induction cnf with
    | nil => intro lo hi _ C hC; cases hC
    | cons C cnf ih =>
      intro lo hi hc
      have main : (∃ r x y, C = [(false, Pred.cmp r x y)] ∧ r ≠ .ne ∧
          ((x.isAttr = true ∧ y.isBound = true) ∨ (y.isAttr = true ∧ x.isBound = true))) ∧ ∃ lo hi, check cnf lo hi = true := by
        rcases C with _ | ⟨⟨neg, p⟩, _ | ⟨d, D⟩⟩
        · cases hc
        · rw [check.eq_def] at hc
          simp only at hc
          cases neg with
          | true => cases hc
          | false =>
            cases p with
            | other _ _ => cases hc
            | cmp r x y =>
              simp only [Bool.false_eq_true, if_false] at hc
              cases hx : x.isAttr with
              | true =>
                simp only [hx, Bool.not_true, Bool.false_eq_true, if_false, if_true, Bool.true_and, Bool.false_and] at hc
                cases hy : y.isBound with
                | false => rw [hy] at hc; cases hc
                | true =>
                  simp only [hy, Bool.not_true, Bool.false_eq_true, if_false] at hc
                  refine ⟨⟨r, x, y, rfl, (by rintro rfl; cases hc), Or.inl ⟨hx, hy⟩⟩, ?_⟩
                  cases r <;> simp only at hc <;> first | exact absurd hc (by decide) | (split at hc <;> first | exact ⟨_, _, hc⟩ | cases hc)
              | false =>
                simp only [hx, Bool.not_false, Bool.false_eq_true, if_false, if_true, Bool.true_and, Bool.false_and] at hc
                cases hy : y.isAttr with
                | false => rw [hy] at hc; cases hc
                | true =>
                  cases hb : x.isBound with
                  | false => rw [hy, hb] at hc; cases hc
                  | true =>
                    simp only [hy, hb, Bool.not_true, Bool.false_eq_true, if_false] at hc
                    refine ⟨⟨r, x, y, rfl, (by rintro rfl; cases hc), Or.inr ⟨hy, hb⟩⟩, ?_⟩
                    cases r <;> simp only at hc <;> first | exact absurd hc (by decide) | (split at hc <;> first | exact ⟨_, _, hc⟩ | cases hc)
        · cases hc
      obtain ⟨h1, lo', hi', h2⟩ := main
      intro D hD
      rcases List.mem_cons.1 hD with rfl | hD
      · exact h1
      · exact ih lo' hi' h2 D hD
  exact key cnf _ _ hc

/-- In the release build the decision never aborts, and without an index on a required attribute it is negative. -/
theorem C50_fallback (db : DB) (m : Method) (t al : Nat) (cnf : Cnf) :
    (∃ b, preCond false db m t al cnf = some b) ∧
    ((∀ a ∈ required cnf, db.hasIndex m t a = false) → preCond false db m t al cnf = some false) := by
  unfold preCond
  simp only [insist, Bool.false_and, Bool.false_eq_true, if_false, Option.bind_eq_bind, Option.bind_some]
  constructor
  · split
    · exact ⟨_, rfl⟩
    · split <;> exact ⟨_, rfl⟩
  · intro h
    rw [List.filter_eq_nil_iff.2 (by intro x hx; simp [h x hx])]
    rfl

/-! ### A concrete case -/

/-- Executing statements one after the other. -/
inductive Steps : DB → List Stmt → DB → Prop where
  | nil (db) : Steps db [] db
  | cons {db db' db'' s l} : Step db s db' → Steps db' l db'' → Steps db (s :: l) db''

/-- `CREATE TABLE t (x INT(4), y INT(4))`, with three rows. -/
def demoRows : List Row := [[some 7, some 1], [none, some 2], [some 3, some 3]]
def demoT : Table := ⟨[.int 4, .int 4], demoRows, 100⟩
/-- The index on `x`. -/
def demoE : Entry := ⟨0, 0, 0, .array, ⟨[(3, 2), (7, 0)], true⟩, 0, fun _ => 0, true⟩
def demoDB : DB := ⟨fun i => if i = 0 then some demoT else none, [demoE]⟩
/-- `x > -4 AND x <= 7`. -/
def demoCnf : Cnf := [[(false, .cmp .gt (.attr 0) (.sign true (.int 4)))], [(false, .cmp .ge (.lit (.int 7)) (.attr 0))]]

theorem demo_reach : Reach demoDB := by
  have s1 : Reach _ := Reach.step (.createTable 0 [.int 4, .int 4] 100) Reach.init
    (by intro ty h; simp at h; subst h; simp [KTy.Valid]) (Step.createTable _ 0 _ 100 rfl)
  have s2 := Reach.step (.insert 0 demoRows) s1 (by
    intro T hT
    have : T = ⟨[.int 4, .int 4], [], 100⟩ := by
      have := hT.symm; simpa [DB.setTable] using this
    subst this
    refine ⟨?_, Or.inl (by decide)⟩
    intro r hr a ty v ha hv
    have hty : ty = .int 4 := by
      rcases a with _ | _ | a <;> simp at ha <;> exact ha.symm
    subst hty
    simp only [demoRows, List.mem_cons, List.not_mem_nil, or_false] at hr
    rcases hr with rfl | rfl | rfl <;> rcases a with _ | _ | a <;> simp at hv <;> subst hv <;> simp [KTy.bits]) (Step.insert _ 0 ⟨[.int 4, .int 4], [], 100⟩ demoRows rfl)
  have s3 := Reach.step (.createIndex 0 0 0 .array) s2 trivial
    (Step.createIndex _ 0 0 0 .array demoT (.int 4) ⟨[(3, 2), (7, 0)], true⟩ 0 (fun _ => 0) rfl rfl rfl
      ⟨List.Perm.swap _ _ _, by decide, rfl⟩)
  have e : demoDB = _ := rfl
  convert s3 using 1
  unfold demoDB
  congr 1
  funext i
  by_cases hi : i = 0 <;> simp [DB.setTable, DB.invalidate, Table.append, DB.init, demoT, demoRows, hi]

def compiled (dbg : Bool) : Cfg := ⟨dbg, .compilation, .exposed, 0, fun _ => 0⟩

example : preCond true demoDB .array 0 0 demoCnf = some true := by decide +kernel
example : indexScan (compiled true) demoDB .array 0 demoCnf = some [[some 3, some 3], [some 7, some 1]] := by decide +kernel
example : scanFilter demoT demoCnf = [[some 7, some 1], [some 3, some 3]] := by decide +kernel
example : OnlyAttr 0 demoCnf ∧ BoundsOK (.int 4) demoCnf ∧ ∃ env, passes env demoCnf = true := by
  refine ⟨?_, ?_, fun _ => some 0, by decide +kernel⟩
  · intro C hC p hp a ha
    simp only [demoCnf, List.mem_cons, List.not_mem_nil, or_false] at hC
    rcases hC with rfl | rfl <;> rw [List.mem_singleton] at hp <;> subst hp <;> simpa [Pred.req, Operand.req] using ha
  · intro C hC p hp r x y hxy b hb
    simp only [demoCnf, List.mem_cons, List.not_mem_nil, or_false] at hC
    rcases hC with rfl | rfl <;> rw [List.mem_singleton] at hp <;> subst hp <;> cases hxy <;>
      rcases hb with hb | hb <;> cases hb
    · exact ⟨4, true, rfl, by decide, by decide⟩
    · exact ⟨7, false, rfl, by decide, by decide⟩

/-! ### Where the full claim fails -/

/-- One table, with an index on its first column. -/
def mkDB (tys : List KTy) (rows : List Row) (m : Method) (es : List (Int × Nat)) : DB :=
  ⟨fun i => if i = 0 then some ⟨tys, rows, 100⟩ else none, [⟨0, 0, 0, m, ⟨es, true⟩, 0, fun _ => 0, true⟩]⟩

theorem mk_reach {tys : List KTy} {ty : KTy} (hty : tys[0]? = some ty) (hv : ∀ ty ∈ tys, ty.Valid) {rows : List Row}
    (hr : ∀ r ∈ rows, RowOK tys r) (hlen : rows.length ≤ 100) (m : Method) {es : List (Int × Nat)}
    (hp : es.Perm (bulk ty.bits 0 rows 0 Idx.init).entries) (hs : es.Pairwise fun a b => ¬ b.1 < a.1) : Reach (mkDB tys rows m es) := by
  have s1 : Reach _ := Reach.step (.createTable 0 tys 100) Reach.init hv (Step.createTable _ 0 _ 100 rfl)
  have hT : (DB.init.setTable 0 (some ⟨tys, [], 100⟩)).tables 0 = some ⟨tys, [], 100⟩ := rfl
  have s2 := Reach.step (.insert 0 rows) s1 (by
    intro T hT'
    rw [hT] at hT'; cases hT'
    exact ⟨hr, Or.inl (by simpa using hlen)⟩) (Step.insert _ 0 ⟨tys, [], 100⟩ rows hT)
  have happ : Table.append ⟨tys, [], 100⟩ rows = (⟨tys, rows, 100⟩, true) := by
    unfold Table.append; rw [if_pos (by simpa using hlen)]; simp
  rw [happ, if_pos rfl] at s2
  have s3 := Reach.step (.createIndex 0 0 0 m) s2 trivial
    (Step.createIndex _ 0 0 0 m ⟨tys, rows, 100⟩ ty ⟨es, true⟩ 0 (fun _ => 0) rfl hty rfl ⟨hp, hs, rfl⟩)
  convert s3 using 1
  unfold mkDB
  congr 1
  funext i
  by_cases hi : i = 0 <;> simp [DB.setTable, DB.invalidate, DB.init, hi]

theorem rowOK_of {tys : List KTy} {r : Row} (h : ((tys.zip r).all fun p => match p.2 with
    | some v => decide (-2 ^ (p.1.bits - 1) ≤ v ∧ v < 2 ^ (p.1.bits - 1))
    | none => true) = true) : RowOK tys r := by
  intro a ty v ht hv
  rw [List.all_eq_true] at h
  have hv : r[a]? = some (some v) := by
    rw [List.getD_eq_getElem?_getD] at hv
    cases hx : r[a]? with
    | none => rw [hx] at hv; cases hv
    | some y => rw [hx] at hv; simpa using hv
  have : (tys.zip r)[a]? = some (ty, some v) := by rw [List.getElem?_zip_eq_some]; exact ⟨ht, hv⟩
  have := h _ (List.mem_of_getElem? this)
  simpa using this

/-- `x = 5`. -/
def eq5 : Cnf := [[(false, .cmp .eq (.attr 0) (.lit (.int 5)))]]

/-- `IMPORT` leaves indexes behind that do not contain the imported rows: in both builds, `SELECT * FROM t WHERE x = 5` then
does not return the imported row. -/
theorem C50_import_stale : ∃ db T, Steps DB.init [.createTable 0 [.int 4] 100, .createIndex 0 0 0 .array, .importDSV 0 [[some 5]]] db ∧
    db.tables 0 = some T ∧ ∀ dbg, preCond dbg db .array 0 0 eq5 = some true ∧
      indexScan (compiled dbg) db .array 0 eq5 = some [] ∧ scanFilter T eq5 = [[some 5]] := by
  refine ⟨_, _, .cons (Step.createTable _ 0 _ 100 rfl) (.cons (Step.createIndex _ 0 0 0 .array ⟨[.int 4], [], 100⟩ (.int 4) ⟨[], true⟩ 0
    (fun _ => 0) rfl rfl rfl ⟨List.Perm.refl _, by decide, rfl⟩) (.cons (Step.importDSV _ 0 ⟨[.int 4], [], 100⟩ _ rfl) (.nil _))), rfl, ?_⟩
  intro dbg
  cases dbg <;> decide +kernel

/-- So does an `INSERT` that fails because the store is full after some rows have been inserted. -/
theorem C50_failed_insert_stale : ∃ db T, Steps DB.init [.createTable 0 [.int 4] 1, .createIndex 0 0 0 .array, .insert 0 [[some 5], [some 6]]] db ∧
    db.tables 0 = some T ∧ ∀ dbg, preCond dbg db .array 0 0 eq5 = some true ∧
      indexScan (compiled dbg) db .array 0 eq5 = some [] ∧ scanFilter T eq5 = [[some 5]] := by
  refine ⟨_, _, .cons (Step.createTable _ 0 _ 1 rfl) (.cons (Step.createIndex _ 0 0 0 .array ⟨[.int 4], [], 1⟩ (.int 4) ⟨[], true⟩ 0
    (fun _ => 0) rfl rfl rfl ⟨List.Perm.refl _, by decide, rfl⟩) (.cons (Step.insert _ 0 ⟨[.int 4], [], 1⟩ _ rfl) (.nil _))), rfl, ?_⟩
  intro dbg
  cases dbg <;> decide +kernel

/-- `x < 5 AND y > 3`. -/
def twoAttrs : Cnf := [[(false, .cmp .lt (.attr 0) (.lit (.int 5)))], [(false, .cmp .gt (.attr 1) (.lit (.int 3)))]]
def twoRows : List Row := [[some 4, some 0], [some 1, some 9]]
def twoDB : DB := mkDB [.int 4, .int 4] twoRows .array [(1, 1), (4, 0)]

/-- With an index on `x` only, the release build answers `x < 5 AND y > 3` with the rows where `3 < x < 5`; the debug build
aborts. -/
theorem C50_second_attribute : Reach twoDB ∧ (∀ dbg, preCond dbg twoDB .array 0 0 twoAttrs = some true) ∧
    scanFilter ⟨[.int 4, .int 4], twoRows, 100⟩ twoAttrs = [[some 1, some 9]] ∧
    indexScan (compiled false) twoDB .array 0 twoAttrs = some [[some 4, some 0]] ∧
    indexScan (compiled true) twoDB .array 0 twoAttrs = none := by
  refine ⟨mk_reach rfl (by intro ty h; simp at h; subst h; simp [KTy.Valid]) ?_ (by decide) _ (List.Perm.swap _ _ _) (by decide), ?_, ?_, ?_, ?_⟩
  · intro r hr
    simp only [twoRows, List.mem_cons, List.not_mem_nil, or_false] at hr
    rcases hr with rfl | rfl <;> exact rowOK_of (by decide)
  · intro dbg; cases dbg <;> decide +kernel
  all_goals decide +kernel

/-- `x DECIMAL(8,2)` with the value 5.00. -/
def decDB : DB := mkDB [.decimal 4 2] [[some 500]] .array [(500, 0)]

/-- Constants are not scaled: `x = 5` does not find 5.00, in either build. -/
theorem C50_decimal_not_scaled : Reach decDB ∧ ∀ dbg, preCond dbg decDB .array 0 0 eq5 = some true ∧
    scanFilter ⟨[.decimal 4 2], [[some 500]], 100⟩ eq5 = [[some 500]] ∧
    indexScan (compiled dbg) decDB .array 0 eq5 = some [] := by
  refine ⟨mk_reach rfl (by intro ty h; simp at h; subst h; simp [KTy.Valid]) ?_ (by decide) _ (List.Perm.refl _) (by decide), ?_⟩
  · intro r hr
    rw [List.mem_singleton] at hr; subst hr; exact rowOK_of (by decide)
  · intro dbg; cases dbg <;> decide +kernel

/-- `x INT(1)` with the values 2 and -100. -/
def smallRows : List Row := [[some 2], [some (-100)]]
def smallDB : DB := mkDB [.int 1] smallRows .array [(-100, 1), (2, 0)]

theorem small_reach : Reach smallDB := by
  refine mk_reach rfl (by intro ty h; simp at h; subst h; simp [KTy.Valid]) ?_ (by decide) _ (List.Perm.swap _ _ _) (by decide)
  intro r hr
  simp only [smallRows, List.mem_cons, List.not_mem_nil, or_false] at hr
  rcases hr with rfl | rfl <;> exact rowOK_of (by decide)

def lt1000 : Cnf := [[(false, .cmp .lt (.attr 0) (.lit (.int 1000)))]]
def geMin : Cnf := [[(false, .cmp .ge (.attr 0) (.sign true (.int 128)))]]
def lt2half : Cnf := [[(false, .cmp .lt (.attr 0) (.lit (.flt (5 / 2))))]]
def eqNull : Cnf := [[(false, .cmp .eq (.attr 0) (.lit .null))]]
def crossing : Cnf := [[(false, .cmp .gt (.attr 0) (.lit (.int 6)))], [(false, .cmp .lt (.attr 0) (.lit (.int 1)))]]

/-- Constants outside the range of the column: `x < 1000` becomes `x < -24` in the release build and aborts in the debug
build; `x >= -128` aborts in the debug build. -/
theorem C50_constant_range : Reach smallDB ∧ (∀ dbg, preCond dbg smallDB .array 0 0 lt1000 = some true ∧ preCond dbg smallDB .array 0 0 geMin = some true) ∧
    scanFilter ⟨[.int 1], smallRows, 100⟩ lt1000 = smallRows ∧
    indexScan (compiled false) smallDB .array 0 lt1000 = some [[some (-100)]] ∧
    indexScan (compiled true) smallDB .array 0 lt1000 = none ∧
    scanFilter ⟨[.int 1], smallRows, 100⟩ geMin = smallRows ∧
    indexScan (compiled true) smallDB .array 0 geMin = none := by
  refine ⟨small_reach, ?_, ?_, ?_, ?_, ?_, ?_⟩
  · intro dbg; cases dbg <;> decide +kernel
  all_goals decide +kernel

/-- The bits of 2.5. -/
def halfBits (q : ℚ) : Int := if q = 5 / 2 then 0x4004000000000000 else 0

/-- Floating-point constants: the release build reads the bits of the constant as an integer (those of 2.5 are
0x4004000000000000), the debug build aborts; `NULL` constants fail in both builds. -/
theorem C50_constant_type : Reach smallDB ∧
    (∀ dbg, preCond dbg smallDB .array 0 0 lt2half = some true ∧ preCond dbg smallDB .array 0 0 eqNull = some true) ∧
    scanFilter ⟨[.int 1], smallRows, 100⟩ lt2half = [[some 2], [some (-100)]] ∧
    indexScan { compiled false with dbits := halfBits } smallDB .array 0 lt2half = some [[some (-100)]] ∧
    indexScan { compiled true with dbits := halfBits } smallDB .array 0 lt2half = none ∧
    scanFilter ⟨[.int 1], smallRows, 100⟩ eqNull = [] ∧
    (∀ dbg, indexScan (compiled dbg) smallDB .array 0 eqNull = none) := by
  refine ⟨small_reach, ?_, ?_, ?_, ?_, ?_, ?_⟩
  · intro dbg; cases dbg <;> decide +kernel
  · decide +kernel
  · decide +kernel
  · decide +kernel
  · decide +kernel
  · intro dbg; cases dbg <;> decide +kernel

/-- A condition no value satisfies, such as `x > 6 AND x < 1`, has no rows; but the debug build aborts, and with the
strategy `INTERPRETATION` the host reads past the end of the index. -/
theorem C50_crossing_range : Reach smallDB ∧ (∀ dbg, preCond dbg smallDB .array 0 0 crossing = some true) ∧
    scanFilter ⟨[.int 1], smallRows, 100⟩ crossing = [] ∧
    indexScan (compiled false) smallDB .array 0 crossing = some [] ∧
    indexScan (compiled true) smallDB .array 0 crossing = none ∧
    indexScan ⟨false, .interpretation, .exposed, 0, fun _ => 0⟩ smallDB .array 0 crossing = none := by
  refine ⟨small_reach, ?_, by decide +kernel, by decide +kernel, by decide +kernel, ?_⟩
  · intro dbg; cases dbg <;> decide +kernel
  · have h : Hist (⟨[(-100, 1), (2, 0)], true⟩ : Idx Int) [(2, 0), (-100, 1)] :=
      Hist.finalize (.add _ _ (.add _ _ .init)) ⟨List.Perm.swap _ _ _, by decide, rfl⟩
    obtain ⟨i, e1, e2⟩ := C27_upper_bound h rfl 0 6
    obtain ⟨j, f1, f2⟩ := C27_lower_bound h rfl 0 1
    have hi : i = 2 := by
      have := e2.1; simp at this
      rcases (by omega : i = 0 ∨ i = 1 ∨ i = 2) with rfl | rfl | rfl
      · have := e2.2.2 (2, 0) (by simp); simp at this
      · have := e2.2.2 (2, 0) (by simp); simp at this
      · rfl
    have hj : j = 1 := by
      have := f2.1; simp at this
      rcases (by omega : j = 0 ∨ j = 1 ∨ j = 2) with rfl | rfl | rfl
      · have := f2.2.2 (-100, 1) (by simp); simp at this
      · rfl
      · have := f2.2.1 (2, 0) (by simp); simp at this
    subst hi hj
    have e : extract false crossing = some ⟨0, some ⟨.int 6, false⟩, some ⟨.int 1, false⟩, false, false⟩ := by rfl
    have k6 : ∀ cfg : Cfg, keyOf cfg (.int 1) ⟨.int 6, false⟩ = some 6 := fun cfg => by cases hd : cfg.dbg <;> simp [keyOf, insist, hd, KTy.bits, wrap] <;> decide
    have k1 : ∀ cfg : Cfg, keyOf cfg (.int 1) ⟨.int 1, false⟩ = some 1 := fun cfg => by cases hd : cfg.dbg <;> simp [keyOf, insist, hd, KTy.bits, wrap] <;> decide
    simp only [indexScan, e, smallDB, mkDB, if_true, Option.bind_eq_bind, Option.bind_some, List.getElem?_cons_zero, DB.getIndex]
    simp [Entry.matches, loPos, hiPos, k6, k1, seek, hostSeek, e1, f1, insist, tupleIds]

/-- With an alias (`FROM t AS s`), the debug build aborts while it looks for an index, for every condition on attributes. -/
theorem C50_alias_aborts (db : DB) (m : Method) (t al : Nat) (h : t ≠ al) (cnf : Cnf) (hr : required cnf ≠ []) : preCond true db m t al cnf = none := by
  unfold preCond
  have h1 : (required cnf).isEmpty = false := by cases hq : required cnf <;> simp_all
  simp only [h1, Bool.false_or, beq_eq_false_iff_ne.2 h]
  cases cnf with
  | nil => rfl
  | cons C l => simp [insist]

/-- Recursive model indexes are not accessible in memory: with `EXPOSED_MEMORY` every index scan on one fails, although it
may be chosen. -/
theorem C50_rmi_exposed (cfg : Cfg) (ha : cfg.access = .exposed) (hs : cfg.strategy ≠ .interpretation) (db : DB) (t : Nat) (cnf : Cnf) :
    indexScan cfg db .rmi t cnf = none := by
  by_contra hne
  obtain ⟨rows, h⟩ := Option.ne_none_iff_exists'.1 hne
  unfold indexScan at h
  simp only [Option.bind_eq_bind, Option.bind_eq_some_iff] at h
  obtain ⟨T, _, b, _, ty, _, e, he, lo, _, hi, _, _, _, ids, hids, _⟩ := h
  have hm := List.find?_some he
  simp only [Entry.matches, Bool.and_eq_true, beq_iff_eq] at hm
  unfold tupleIds at hids
  cases hq : cfg.strategy <;> simp_all

example : preCond true (mkDB [.int 4] [[some 5]] .rmi [(5, 0)]) .rmi 0 0 eq5 = some true := by decide +kernel

end Mutable.IScan
