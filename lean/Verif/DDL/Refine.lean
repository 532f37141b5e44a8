import Verif.DDL.Build
/-
The catalogue as finite maps; invariants; every statement refines its specification.
-/
namespace Mutable.DDL

/-! ### Abstraction -/

/-- The names behind a reference; none if the table is gone. -/
def absRef (D : Db) (r : Nat × Nat) : Option (Nat × Nat) :=
  (D.deref r.1).bind fun R => (R.attrs[r.2]?).map fun x => (R.name, x.name)

def absAttr (D : Db) (a : Attr) : SAttr := ⟨a.name, a.ty, a.unique, a.notNull, a.ref.bind (absRef D)⟩

def absTbl (D : Db) (T : Tbl) : STbl := ⟨T.attrs.map (absAttr D), pkNames T⟩

def absIdx (D : Db) (e : Idx) : Option (Nat × Nat × Method) := (absRef D (e.tbl, e.attr)).map fun r => (r.1, r.2, e.method)

def absDb (D : Db) : SDb := ⟨fun n => (D.table n).map (absTbl D), fun n => (D.idxs.find? (·.name = n)).bind (absIdx D)⟩

def absCat (c : Cat) : SCat := ⟨fun n => (c.db n).map absDb, c.inUse.bind fun a => (c.deref a).map (·.name)⟩

/-! ### Invariants -/

structure DbOk (next : Nat) (D : Db) : Prop where
  tnames : (D.tables.map (·.name)).Nodup
  taddrs : (D.tables.map (·.addr)).Nodup
  tlt : ∀ T ∈ D.tables, T.addr < next
  anames : ∀ T ∈ D.tables, (names T).Nodup
  pk : ∀ T ∈ D.tables, T.pk.length ≤ 1 ∧ ∀ i ∈ T.pk, i < T.attrs.length
  refs : ∀ T ∈ D.tables, ∀ a ∈ T.attrs, ∀ r, a.ref = some r → r.1 < next ∧ ∀ R ∈ D.tables, R.addr = r.1 → r.2 < R.attrs.length
  inames : (D.idxs.map (·.name)).Nodup
  itbl : ∀ e ∈ D.idxs, ∃ R ∈ D.tables, R.addr = e.tbl ∧ e.attr < R.attrs.length

structure CatOk (c : Cat) : Prop where
  names : (c.dbs.map (·.name)).Nodup
  addrs : (c.dbs.map (·.addr)).Nodup
  lt : ∀ D ∈ c.dbs, D.addr < c.next
  dbs : ∀ D ∈ c.dbs, DbOk c.next D
  inUse : ∀ a, c.inUse = some a → ∃ D ∈ c.dbs, D.addr = a

/-! ### Lists with distinct keys -/

theorem find_key {α : Type} {f : α → Nat} : ∀ {l : List α}, (l.map f).Nodup → ∀ {x}, x ∈ l → l.find? (fun y => decide (f y = f x)) = some x
  | [], _, x, h => by simp at h
  | y :: l, hn, x, h => by
    simp only [List.map_cons, List.nodup_cons] at hn
    rcases List.mem_cons.mp h with rfl | h
    · simp
    · have hne : f y ≠ f x := fun e => hn.1 (e ▸ List.mem_map_of_mem h)
      rw [List.find?_cons]
      simp only [hne, decide_false]
      exact find_key hn.2 h

theorem find_some {α : Type} {f : α → Nat} {l : List α} {n : Nat} {x : α} (h : l.find? (fun y => decide (f y = n)) = some x) : x ∈ l ∧ f x = n :=
  ⟨List.mem_of_find?_eq_some h, by simpa using List.find?_some h⟩

theorem find_none {α : Type} {f : α → Nat} {l : List α} {n : Nat} : l.find? (fun y => decide (f y = n)) = none ↔ ∀ x ∈ l, f x ≠ n := by
  simp [List.find?_eq_none]

theorem key_inj {α : Type} {f : α → Nat} {l : List α} (hn : (l.map f).Nodup) {x y : α} (hx : x ∈ l) (hy : y ∈ l) (h : f x = f y) : x = y := by
  have := find_key hn hx
  rw [h, find_key hn hy] at this
  exact (Option.some.inj this).symm

/-! ### Changing a database -/

theorem inUse_some {c : Cat} (h : CatOk c) {a : Nat} (ha : c.inUse = some a) : ∃ D ∈ c.dbs, c.deref a = some D ∧ (absCat c).inUse = some D.name ∧
    (absCat c).dbs D.name = some (absDb D) ∧ D.addr = a := by
  obtain ⟨D, hD, rfl⟩ := h.inUse a ha
  have h1 : c.deref D.addr = some D := find_key h.addrs hD
  have h2 : c.db D.name = some D := find_key h.names hD
  exact ⟨D, hD, h1, by simp [absCat, ha, h1], by simp [absCat, h2], rfl⟩

theorem set_abs {c : Cat} (h : CatOk c) {D D' : Db} (hD : D ∈ c.dbs) (hn : D'.name = D.name) (ha : D'.addr = D.addr) :
    absCat (c.set D.addr D') = { absCat c with dbs := upd (absCat c).dbs D.name (some (absDb D')) } := by
  have hmem : ∀ E ∈ c.dbs, (if E.addr = D.addr then D' else E).name = E.name ∧ (if E.addr = D.addr then D' else E).addr = E.addr := by
    intro E hE
    by_cases he : E.addr = D.addr
    · have := key_inj h.addrs hE hD he
      subst this
      simp [hn, ha]
    · simp [he]
  have hf : ∀ (p : Db → Bool) (q : Db → Bool), (∀ E ∈ c.dbs, p (if E.addr = D.addr then D' else E) = q E) →
      (c.set D.addr D').dbs.find? p = (c.dbs.find? q).map fun E => if E.addr = D.addr then D' else E := by
    intro p q hpq
    unfold Cat.set
    simp only
    generalize c.dbs = l at hpq
    induction l with
    | nil => rfl
    | cons E l ih =>
      rw [List.map_cons, List.find?_cons, List.find?_cons, hpq E (by simp)]
      split
      · rfl
      · exact ih (fun E hE => hpq E (by simp [hE]))
  have h1 : ∀ n, (c.set D.addr D').db n = (c.db n).map fun E => if E.addr = D.addr then D' else E :=
    fun n => hf _ _ (fun E hE => by rw [(hmem E hE).1])
  have h2 : ∀ a, (c.set D.addr D').deref a = (c.deref a).map fun E => if E.addr = D.addr then D' else E :=
    fun a => hf _ _ (fun E hE => by rw [(hmem E hE).2])
  unfold absCat
  simp only [SCat.mk.injEq]
  constructor
  · funext n
    simp only [h1, upd]
    by_cases hne : n = D.name
    · subst hne
      have : c.db D.name = some D := find_key h.names hD
      simp [this]
    · simp only [hne, if_false]
      cases he : c.db n with
      | none => rfl
      | some E =>
        obtain ⟨hE, hEn⟩ := find_some he
        have : E.addr ≠ D.addr := fun e => hne (by rw [← hEn, key_inj h.addrs hE hD e])
        simp [this]
  · change (c.inUse.bind fun a => ((c.set D.addr D').deref a).map (·.name)) = _
    cases hc : c.inUse with
    | none => rfl
    | some a =>
      simp only [Option.bind_some, h2]
      cases he : c.deref a with
      | none => rfl
      | some E =>
        simp only [Option.map_some, Option.some.injEq]
        exact (hmem E (find_some he).1).1

theorem set_ok {c : Cat} (h : CatOk c) {D D' : Db} (hD : D ∈ c.dbs) (hn : D'.name = D.name) (ha : D'.addr = D.addr) (hok : DbOk c.next D') :
    CatOk (c.set D.addr D') := by
  have hmem : ∀ E ∈ c.dbs, (if E.addr = D.addr then D' else E).name = E.name ∧ (if E.addr = D.addr then D' else E).addr = E.addr := by
    intro E hE
    by_cases he : E.addr = D.addr
    · have := key_inj h.addrs hE hD he
      subst this
      simp [hn, ha]
    · simp [he]
  constructor
  · have : ((c.set D.addr D').dbs.map (·.name)) = c.dbs.map (·.name) := by
      simp only [Cat.set, List.map_map]
      exact List.map_congr_left (fun E hE => (hmem E hE).1)
    rw [this]; exact h.names
  · have : ((c.set D.addr D').dbs.map (·.addr)) = c.dbs.map (·.addr) := by
      simp only [Cat.set, List.map_map]
      exact List.map_congr_left (fun E hE => (hmem E hE).2)
    rw [this]; exact h.addrs
  · intro E hE
    obtain ⟨E', hE', rfl⟩ := List.mem_map.mp hE
    rw [(hmem E' hE').2]
    exact h.lt E' hE'
  · intro E hE
    obtain ⟨E', hE', rfl⟩ := List.mem_map.mp hE
    by_cases he : E'.addr = D.addr
    · simp only [he, if_true]; exact hok
    · simp only [he, if_false]; exact h.dbs E' hE'
  · intro a hc
    obtain ⟨E, hE, rfl⟩ := h.inUse a hc
    exact ⟨_, List.mem_map_of_mem hE, (hmem E hE).2⟩

theorem DbOk.mono {n m : Nat} {D : Db} (h : DbOk n D) (hm : n ≤ m) : DbOk m D where
  tnames := h.tnames
  taddrs := h.taddrs
  tlt := fun T hT => Nat.lt_of_lt_of_le (h.tlt T hT) hm
  anames := h.anames
  pk := h.pk
  refs := fun T hT a ha r hr => ⟨Nat.lt_of_lt_of_le (h.refs T hT a ha r hr).1 hm, (h.refs T hT a ha r hr).2⟩
  inames := h.inames
  itbl := h.itbl

theorem next_ok {c : Cat} (h : CatOk c) : CatOk { c with next := c.next + 1 } :=
  ⟨h.names, h.addrs, fun D hD => Nat.lt_succ_of_lt (h.lt D hD), fun D hD => (h.dbs D hD).mono (Nat.le_succ _), h.inUse⟩

/-! ### Databases -/

/-- What a step has to do. -/
def Good (rmi : Nat → Bool) (c : Cat) (st : Stmt) : Prop :=
  ∃ c' e, step rmi c st = some (c', e) ∧ CatOk c' ∧ Spec (absCat c) st (absCat c') (decide (e = 0))

theorem good_createDatabase {rmi : Nat → Bool} {c : Cat} (h : CatOk c) (n : Nat) : Good rmi c (.createDatabase n) := by
  cases hc : c.db n with
  | some D => exact ⟨c, 1, by simp [step, hc], h, .createDatabase_exists (by simp [absCat, hc])⟩
  | none =>
    refine ⟨{ c with next := c.next + 1, dbs := c.dbs ++ [⟨c.next, n, [], []⟩] }, 0, by simp [step, hc], ?_, ?_⟩
    · have hnm : ∀ D ∈ c.dbs, D.name ≠ n := find_none.mp hc
      constructor
      · simp only [List.map_append, List.map_cons, List.map_nil]
        rw [List.nodup_append]
        exact ⟨h.names, by simp, by
          intro a ha b hb
          obtain ⟨D, hD, rfl⟩ := List.mem_map.mp ha
          obtain rfl := List.mem_singleton.mp hb
          exact hnm D hD⟩
      · simp only [List.map_append, List.map_cons, List.map_nil]
        rw [List.nodup_append]
        exact ⟨h.addrs, by simp, by
          intro a ha b hb
          obtain ⟨D, hD, rfl⟩ := List.mem_map.mp ha
          obtain rfl := List.mem_singleton.mp hb
          exact Nat.ne_of_lt (h.lt D hD)⟩
      · intro D hD
        rcases List.mem_append.mp hD with hD | hD
        · exact Nat.lt_succ_of_lt (h.lt D hD)
        · obtain rfl := List.mem_singleton.mp hD
          exact Nat.lt_succ_self _
      · intro D hD
        rcases List.mem_append.mp hD with hD | hD
        · exact (h.dbs D hD).mono (Nat.le_succ _)
        · obtain rfl := List.mem_singleton.mp hD
          constructor <;> simp
      · intro a ha
        obtain ⟨D, hD, e⟩ := h.inUse a ha
        exact ⟨D, List.mem_append_left _ hD, e⟩
    · have : absCat { c with next := c.next + 1, dbs := c.dbs ++ [⟨c.next, n, [], []⟩] }
          = { absCat c with dbs := upd (absCat c).dbs n (some ⟨fun _ => none, fun _ => none⟩) } := by
        unfold absCat
        simp only [SCat.mk.injEq]
        constructor
        · funext m
          simp only [Cat.db, List.find?_append, upd]
          by_cases hm : m = n
          · subst hm
            unfold Cat.db at hc
            rw [hc]
            simp [absDb, Db.table]
          · have : ¬n = m := fun e => hm e.symm
            simp [hm, this]
        · cases hu : c.inUse with
          | none => rfl
          | some a =>
            obtain ⟨D, hD, rfl⟩ := h.inUse a hu
            simp only [Option.bind_some, Cat.deref, List.find?_append]
            have := find_key (f := Db.addr) h.addrs hD
            rw [this]
            rfl
      rw [this]
      exact .createDatabase (by simp [absCat, hc])

theorem good_useDatabase {rmi : Nat → Bool} {c : Cat} (h : CatOk c) (n : Nat) : Good rmi c (.useDatabase n) := by
  cases hc : c.db n with
  | none => exact ⟨c, 1, by simp [step, hc], h, .useDatabase_missing (by simp [absCat, hc])⟩
  | some D =>
    obtain ⟨hD, hDn⟩ := find_some hc
    refine ⟨{ c with inUse := some D.addr }, 0, by simp [step, hc], ⟨h.names, h.addrs, h.lt, h.dbs, ?_⟩, ?_⟩
    · intro a ha
      simp only [Option.some.injEq] at ha
      exact ⟨D, hD, ha⟩
    · have : absCat { c with inUse := some D.addr } = { absCat c with inUse := some n } := by
        unfold absCat
        simp only [SCat.mk.injEq]
        refine ⟨rfl, ?_⟩
        have : ({ c with inUse := some D.addr } : Cat).deref D.addr = some D := find_key h.addrs hD
        simp [this, hDn]
      rw [this]
      exact .useDatabase (by simp [absCat, hc])

theorem good_dropDatabase {rmi : Nat → Bool} {c : Cat} (h : CatOk c) (n : Nat) (ie : Bool) : Good rmi c (.dropDatabase n ie) := by
  -- the test whether the database is in use
  obtain ⟨used, hu, hs⟩ : ∃ used, c.uses n = some used ∧ (used = true ↔ (absCat c).inUse = some n) := by
    cases hi : c.inUse with
    | none => exact ⟨false, by simp [Cat.uses, hi], by simp [absCat, hi]⟩
    | some a =>
      obtain ⟨D, _, h1, h2, _⟩ := inUse_some h hi
      refine ⟨decide (D.name = n), by simp [Cat.uses, hi, h1], ?_⟩
      rw [h2]
      simp
  cases used with
  | true => exact ⟨c, 1, by simp only [step, hu], h, .dropDatabase_used (hs.mp rfl)⟩
  | false =>
    have hnu : (absCat c).inUse ≠ some n := fun e => by simpa using hs.mpr e
    cases hc : c.db n with
    | none => exact ⟨c, if ie then 0 else 1, by simp [step, hu, hc], h, by
        have := Spec.dropDatabase_missing (s := absCat c) (n := n) (ie := ie) (by simp [absCat, hc]) hnu
        cases ie <;> simpa using this⟩
    | some E =>
      refine ⟨{ c with dbs := c.dbs.filter (·.name ≠ n) }, 0, by simp only [step, hu, hc]; simp, ?_, ?_⟩
      · constructor
        · exact (List.filter_sublist.map _).nodup h.names
        · exact (List.filter_sublist.map _).nodup h.addrs
        · exact fun D hD => h.lt D (List.mem_of_mem_filter hD)
        · exact fun D hD => h.dbs D (List.mem_of_mem_filter hD)
        · intro a ha
          obtain ⟨D, hD, _, h2, _, h4⟩ := inUse_some h ha
          refine ⟨D, List.mem_filter.mpr ⟨hD, ?_⟩, h4⟩
          simp only [decide_not, Bool.not_eq_eq_eq_not, Bool.not_true, decide_eq_false_iff_not]
          intro e
          exact hnu (by rw [h2, e])
      · have : absCat { c with dbs := c.dbs.filter (·.name ≠ n) } = { absCat c with dbs := upd (absCat c).dbs n none } := by
          unfold absCat
          simp only [SCat.mk.injEq]
          constructor
          · funext m
            simp only [Cat.db, upd, List.find?_filter]
            by_cases hm : m = n
            · subst hm
              simp only [if_true, Option.map_eq_none_iff]
              rw [List.find?_eq_none]
              intro D _
              simp
            · simp only [hm, if_false]
              congr 2
              funext D
              by_cases hd : D.name = m
              · subst hd; simp [hm]
              · simp [hd]
          · cases hi : c.inUse with
            | none => rfl
            | some a =>
              obtain ⟨D, hD, h1, h2, _, h4⟩ := inUse_some h hi
              subst h4
              simp only [Option.bind_some, h1]
              have : D.name ≠ n := fun e => hnu (by rw [h2, e])
              have hmem : D ∈ c.dbs.filter (·.name ≠ n) := List.mem_filter.mpr ⟨hD, by simpa using this⟩
              have := find_key (f := Db.addr) ((List.filter_sublist.map _).nodup h.addrs) hmem
              unfold Cat.deref
              simp only
              rw [this]
        rw [this]
        exact .dropDatabase (by simp [absCat, hc]) hnu

end Mutable.DDL
