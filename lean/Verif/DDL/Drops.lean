import Verif.DDL.Tables
/-
DROP TABLE, CREATE INDEX, DROP INDEX.
-/
namespace Mutable.DDL

/-! ### DROP TABLE -/

/-- The database without a table and its indexes. -/
def dropOne (D : Db) (n : Nat) : Db :=
  { D with idxs := D.idxs.filter (fun e => !decide ((D.deref e.tbl).map (·.name) = some n)), tables := D.tables.filter (·.name ≠ n) }

theorem dropIndexes_eq (D : Db) (n : Nat) : ∀ es : List Idx, (∀ e ∈ es, ∃ R, D.deref e.tbl = some R) →
    dropIndexes D n es = some (es.filter (fun e => !decide ((D.deref e.tbl).map (·.name) = some n)))
  | [], _ => rfl
  | e :: es, h => by
    obtain ⟨R, hR⟩ := h e (by simp)
    simp only [dropIndexes, hR, dropIndexes_eq D n es (fun x hx => h x (by simp [hx])), List.filter_cons, Option.map_some, Option.some.injEq]
    by_cases hn : R.name = n <;> simp [hn]

theorem dropOne_table {next : Nat} {D : Db} (_ : DbOk next D) (n m : Nat) : (dropOne D n).table m = if m = n then none else D.table m := by
  unfold dropOne Db.table
  simp only [List.find?_filter]
  by_cases hm : m = n
  · subst hm
    simp only [if_true]
    rw [List.find?_eq_none]
    intro T _
    simp
  · simp only [hm, if_false]
    congr 1
    funext T
    by_cases ht : T.name = m
    · subst ht; simp [hm]
    · simp [ht]

theorem dropOne_deref {next : Nat} {D : Db} (h : DbOk next D) (n a : Nat) :
    (dropOne D n).deref a = (D.deref a).filter (fun R => decide (R.name ≠ n)) := by
  cases ha : D.deref a with
  | none =>
    simp only [Option.filter_none]
    unfold Db.deref at ha ⊢
    rw [find_none (f := Tbl.addr)] at ha ⊢
    exact fun T hT => ha T (List.mem_of_mem_filter hT)
  | some R =>
    obtain ⟨hR, hRa⟩ := find_some ha
    subst hRa
    by_cases hn : R.name = n
    · have hf : Option.filter (fun R => decide (R.name ≠ n)) (some R) = none := by simp [Option.filter, hn]
      rw [hf]
      unfold Db.deref
      rw [find_none (f := Tbl.addr)]
      intro T hT he
      have := key_inj h.taddrs (List.mem_of_mem_filter hT) hR he
      subst this
      have := (List.mem_filter.mp hT).2
      simp [hn] at this
    · have hf : Option.filter (fun R => decide (R.name ≠ n)) (some R) = some R := by simp [Option.filter, hn]
      rw [hf]
      have hmem : R ∈ (dropOne D n).tables := List.mem_filter.mpr ⟨hR, by simpa using hn⟩
      exact find_key (f := Tbl.addr) ((List.filter_sublist.map _).nodup h.taddrs) hmem

theorem dropOne_ref {next : Nat} {D : Db} (h : DbOk next D) (n : Nat) (r : Nat × Nat) :
    absRef (dropOne D n) r = (absRef D r).filter (fun p => decide (p.1 ≠ n)) := by
  unfold absRef
  rw [dropOne_deref h]
  cases hd : D.deref r.1 with
  | none => rfl
  | some R =>
    by_cases hn : R.name = n
    · have hf : Option.filter (fun R => decide (R.name ≠ n)) (some R) = none := by simp [Option.filter, hn]
      rw [hf]
      cases hx : R.attrs[r.2]? <;> simp [hx, hn, Option.filter]
    · have hf : Option.filter (fun R => decide (R.name ≠ n)) (some R) = some R := by simp [Option.filter, hn]
      rw [hf]
      cases hx : R.attrs[r.2]? <;> simp [hx, hn, Option.filter]

theorem dropOne_ok {next : Nat} {D : Db} (h : DbOk next D) (n : Nat) : DbOk next (dropOne D n) where
  tnames := (List.filter_sublist.map _).nodup h.tnames
  taddrs := (List.filter_sublist.map _).nodup h.taddrs
  tlt := fun T hT => h.tlt T (List.mem_of_mem_filter hT)
  anames := fun T hT => h.anames T (List.mem_of_mem_filter hT)
  pk := fun T hT => h.pk T (List.mem_of_mem_filter hT)
  refs := fun T hT a ha r hr => ⟨(h.refs T (List.mem_of_mem_filter hT) a ha r hr).1,
    fun R hR => (h.refs T (List.mem_of_mem_filter hT) a ha r hr).2 R (List.mem_of_mem_filter hR)⟩
  inames := (List.filter_sublist.map _).nodup h.inames
  itbl := by
    intro e he
    obtain ⟨he, hn⟩ := List.mem_filter.mp he
    obtain ⟨R, hR, k1, k2⟩ := h.itbl e he
    have hd : D.deref e.tbl = some R := by rw [← k1]; exact find_key h.taddrs hR
    refine ⟨R, List.mem_filter.mpr ⟨hR, ?_⟩, k1, k2⟩
    simpa [hd] using hn

theorem absTbl_pk {D D' : Db} {T : Tbl} : (absTbl D' T).pk = (absTbl D T).pk := rfl

theorem dropOne_abs {next : Nat} {D : Db} (h : DbOk next D) (n : Nat) : absDb (dropOne D n) = (absDb D).drop [n] := by
  unfold absDb SDb.drop
  simp only [SDb.mk.injEq]
  constructor
  · funext m
    rw [dropOne_table h]
    simp only [List.mem_singleton]
    by_cases hm : m = n
    · simp [hm]
    · simp only [hm, if_false]
      cases ht : D.table m with
      | none => rfl
      | some T =>
        simp only [Option.map_some, Option.some.injEq, absTbl, STbl.forget, STbl.mk.injEq, and_true, List.map_map]
        apply List.map_congr_left
        intro x _
        simp only [Function.comp_apply, absAttr, SAttr.mk.injEq, true_and]
        cases hr : x.ref with
        | none => rfl
        | some r =>
          simp only [Option.bind_some, dropOne_ref h]
          congr 1
          funext p
          by_cases hp : p.1 = n <;> simp [hp]
  · funext m
    unfold dropOne
    simp only
    rw [List.find?_filter]
    cases hx : D.idxs.find? (·.name = m) with
    | none =>
      simp only [Option.bind_none, Option.filter_none]
      have := (find_none (f := Idx.name)).mp hx
      have h2 : D.idxs.find? (fun a => decide ((!decide ((D.deref a.tbl).map (·.name) = some n)) = true ∧ decide (a.name = m) = true)) = none := by
        rw [List.find?_eq_none]
        intro e he
        simp [this e he]
      rw [h2]
      rfl
    | some e =>
      obtain ⟨he, hm⟩ := find_some hx
      subst hm
      obtain ⟨R, hR, k1, k2⟩ := h.itbl e he
      have hd : D.deref e.tbl = some R := by rw [← k1]; exact find_key h.taddrs hR
      have hx' : R.attrs[e.attr]? = some R.attrs[e.attr] := List.getElem?_eq_getElem k2
      by_cases hn : R.name = n
      · have h2 : D.idxs.find? (fun a => decide ((!decide ((D.deref a.tbl).map (·.name) = some n)) = true ∧ decide (a.name = e.name) = true)) = none := by
          rw [List.find?_eq_none]
          intro e' he' hc
          simp only [decide_eq_true_eq] at hc
          have := key_inj h.inames he' he hc.2
          subst this
          simp [hd, hn] at hc
        rw [h2]
        simp [absIdx, absRef, hd, hx', hn, Option.filter]
      · have h2 : D.idxs.find? (fun a => decide ((!decide ((D.deref a.tbl).map (·.name) = some n)) = true ∧ decide (a.name = e.name) = true)) = some e := by
          have hmem : e ∈ D.idxs.filter (fun e => !decide ((D.deref e.tbl).map (·.name) = some n)) :=
            List.mem_filter.mpr ⟨he, by simp [hd, hn]⟩
          have := find_key (f := Idx.name) ((List.filter_sublist.map _).nodup h.inames) hmem
          rw [List.find?_filter] at this
          exact this
        rw [h2]
        have h3 : absRef ({ D with idxs := D.idxs.filter (fun e => !decide ((D.deref e.tbl).map (·.name) = some n)), tables := D.tables.filter (·.name ≠ n) } : Db) (e.tbl, e.attr)
            = (absRef D (e.tbl, e.attr)).filter (fun p => decide (p.1 ≠ n)) := dropOne_ref h n (e.tbl, e.attr)
        simp only [Option.bind_some, absIdx, h3]
        simp [absRef, hd, hx', hn, Option.filter]

theorem forget_forget (n : Nat) (ns : List Nat) (T : STbl) : STbl.forget ns (STbl.forget [n] T) = STbl.forget (n :: ns) T := by
  unfold STbl.forget
  simp only [List.map_map, STbl.mk.injEq, and_true]
  apply List.map_congr_left
  intro x _
  simp only [Function.comp_apply, SAttr.mk.injEq, true_and]
  cases x.ref with
  | none => rfl
  | some r => by_cases h1 : r.1 = n <;> by_cases h2 : r.1 ∈ ns <;> simp [Option.filter, h1, h2]

theorem drop_drop (D : SDb) (n : Nat) (ns : List Nat) : (D.drop [n]).drop ns = D.drop (n :: ns) := by
  unfold SDb.drop
  simp only [SDb.mk.injEq]
  constructor
  · funext m
    by_cases h1 : m ∈ ns
    · simp [h1]
    · by_cases h2 : m = n
      · simp [h2]
      · simp only [h1, if_false, List.mem_singleton, h2, List.mem_cons, or_self, Option.map_map]
        cases D.tables m with
        | none => rfl
        | some T => exact congrArg some (forget_forget n ns T)
  · funext m
    cases D.idxs m with
    | none => rfl
    | some e => by_cases h1 : e.1 = n <;> by_cases h2 : e.1 ∈ ns <;> simp [Option.filter, h1, h2]

theorem drop_nil (D : SDb) : D.drop [] = D := by
  unfold SDb.drop
  have h1 : STbl.forget [] = id := by
    funext T
    unfold STbl.forget
    have : (fun a : SAttr => { a with ref := a.ref.filter fun r => !([] : List Nat).contains r.1 }) = id := by
      funext a
      cases hr : a.ref with
      | none => cases a; simp only at hr; subst hr; rfl
      | some r => cases a; simp only at hr; subst hr; rfl
    rw [this]
    simp
  have h2 : (fun m => (D.idxs m).filter fun e => !([] : List Nat).contains e.1) = D.idxs := by
    funext m
    cases D.idxs m <;> rfl
  rw [h2, h1]
  simp

theorem dropTables_ok {next : Nat} : ∀ (ns : List Nat) (D : Db), DbOk next D → ns.Nodup → (∀ n ∈ ns, (D.table n).isSome) →
    ∃ D', dropTables D ns = some (D', 0) ∧ DbOk next D' ∧ D'.name = D.name ∧ D'.addr = D.addr ∧ absDb D' = (absDb D).drop ns
  | [], D, h, _, _ => ⟨D, rfl, h, rfl, rfl, (drop_nil _).symm⟩
  | n :: ns, D, h, hn, hs => by
    obtain ⟨T, hT⟩ := Option.isSome_iff_exists.mp (hs n (by simp))
    obtain ⟨hnn, hnd⟩ := List.nodup_cons.mp hn
    obtain ⟨D', e1, e2, e3, e4, e5⟩ := dropTables_ok ns (dropOne D n) (dropOne_ok h n) hnd (by
      intro m hm
      rw [dropOne_table h, if_neg (show m ≠ n from fun e => hnn (e ▸ hm))]
      exact hs m (by simp [hm]))
    refine ⟨D', ?_, e2, e3, e4, by rw [e5, dropOne_abs h, drop_drop]⟩
    simp only [dropTables, hT]
    rw [dropIndexes_eq D n D.idxs (fun e he => by
      obtain ⟨R, hR, k1, _⟩ := h.itbl e he
      exact ⟨R, by rw [← k1]; exact find_key h.taddrs hR⟩)]
    exact e1

theorem absRef_table {next : Nat} {D : Db} (h : DbOk next D) {r p : Nat × Nat} (hp : absRef D r = some p) : ∃ R, D.table p.1 = some R := by
  unfold absRef at hp
  cases hd : D.deref r.1 with
  | none => simp [hd] at hp
  | some R =>
    obtain ⟨hR, _⟩ := find_some hd
    simp only [hd, Option.bind_some, Option.map_eq_some_iff] at hp
    obtain ⟨x, _, rfl⟩ := hp
    exact ⟨R, find_key h.tnames hR⟩

/-- Names of tables that do not exist do not matter. -/
theorem drop_present {next : Nat} {D : Db} (h : DbOk next D) (ns : List Nat) :
    (absDb D).drop (ns.filter fun n => (D.table n).isSome) = (absDb D).drop ns := by
  have hmem : ∀ m R, D.table m = some R → (m ∈ ns.filter (fun n => (D.table n).isSome) ↔ m ∈ ns) := by
    intro m R hm
    rw [List.mem_filter]
    simp [hm]
  unfold SDb.drop
  simp only [SDb.mk.injEq]
  constructor
  · funext m
    simp only [absDb]
    cases ht : D.table m with
    | none => simp
    | some T =>
      simp only [Option.map_some]
      by_cases hm : m ∈ ns
      · rw [if_pos hm, if_pos ((hmem m T ht).mpr hm)]
      · rw [if_neg hm, if_neg (fun e => hm ((hmem m T ht).mp e))]
        congr 1
        unfold STbl.forget absTbl
        simp only [List.map_map, STbl.mk.injEq, and_true]
        apply List.map_congr_left
        intro x _
        simp only [Function.comp_apply, absAttr, SAttr.mk.injEq, true_and]
        cases hr : x.ref.bind (absRef D) with
        | none => rfl
        | some p =>
          obtain ⟨r, _, hp⟩ := Option.bind_eq_some_iff.mp hr
          obtain ⟨R, hR⟩ := absRef_table h hp
          have := hmem p.1 R hR
          by_cases hc : p.1 ∈ ns <;> simp [Option.filter, hc, hR]
  · funext m
    simp only [absDb]
    cases hx : (D.idxs.find? (·.name = m)).bind (absIdx D) with
    | none => rfl
    | some p =>
      obtain ⟨e, _, hp⟩ := Option.bind_eq_some_iff.mp hx
      unfold absIdx at hp
      obtain ⟨q, hq, rfl⟩ := Option.map_eq_some_iff.mp hp
      obtain ⟨R, hR⟩ := absRef_table h hq
      by_cases hc : q.1 ∈ ns <;> simp [Option.filter, hc, hR]

theorem abs_table_none {D : Db} {n : Nat} : (absDb D).tables n = none ↔ D.table n = none := by simp [absDb]

theorem good_dropTable {rmi : Nat → Bool} {c : Cat} (h : CatOk c) {ns : List Nat} (hns : ns.Nodup) (ie : Bool) : Good rmi c (.dropTable ns ie) := by
  cases hi : c.inUse with
  | none => exact ⟨c, 1, by simp [step, withDb, hi], h, .no_database (by simp [absCat, hi]) trivial⟩
  | some a =>
    obtain ⟨D, hD, h1, h2, h3, _⟩ := inUse_some h hi
    have hok := h.dbs D hD
    by_cases hm : (ns.filter fun n => (D.table n).isNone) ≠ [] ∧ ie = false
    · obtain ⟨hm1, rfl⟩ := hm
      obtain ⟨n, hn⟩ := List.exists_mem_of_ne_nil _ hm1
      obtain ⟨hn1, hn2⟩ := List.mem_filter.mp hn
      refine ⟨c, _, by simp only [step, withDb, hi, h1]; rw [if_pos ⟨hm1, trivial⟩], h, ?_⟩
      have : decide ((ns.filter fun n => (D.table n).isNone).length = 0) = false := by
        simp only [decide_eq_false_iff_not, List.length_eq_zero_iff]; exact hm1
      rw [this]
      exact .dropTable_missing h2 h3 hn1 (abs_table_none.mpr (by simpa using hn2))
    · obtain ⟨D', e1, e2, e3, e4, e5⟩ := dropTables_ok (ns.filter fun n => (D.table n).isSome) D hok (List.filter_sublist.nodup hns)
        (fun n hn => (List.mem_filter.mp hn).2)
      refine ⟨_, 0, by simp only [step, withDb, hi, h1]; rw [if_neg hm, e1], set_ok h hD e3 e4 e2, ?_⟩
      rw [set_abs h hD e3 e4, e5, drop_present hok]
      refine .dropTable h2 h3 ?_
      cases ie with
      | true => exact Or.inl rfl
      | false =>
        right
        intro n hn
        rw [Option.isSome_iff_ne_none]
        intro hnone
        refine hm ⟨List.ne_nil_of_mem (a := n) (List.mem_filter.mpr ⟨hn, ?_⟩), rfl⟩
        simp [abs_table_none.mp hnone]

/-! ### Indexes -/

theorem abs_idx_none {next : Nat} {D : Db} (h : DbOk next D) {n : Nat} : (absDb D).idxs n = none ↔ D.hasIndex n = false := by
  unfold absDb Db.hasIndex
  simp only
  cases hx : D.idxs.find? (·.name = n) with
  | none =>
    simp only [Option.bind_none, true_iff]
    have := (find_none (f := Idx.name)).mp hx
    rw [List.any_eq_false]
    intro e he
    simp [this e he]
  | some e =>
    obtain ⟨he, hn⟩ := find_some hx
    obtain ⟨R, hR, k1, k2⟩ := h.itbl e he
    have hd : D.deref e.tbl = some R := by rw [← k1]; exact find_key h.taddrs hR
    have h1 : (D.idxs.any (·.name = n)) = true := List.any_eq_true.mpr ⟨e, he, by simpa using hn⟩
    rw [h1]
    simp [absIdx, absRef, hd, List.getElem?_eq_getElem k2]

theorem abs_idx_some {next : Nat} {D : Db} (h : DbOk next D) {n : Nat} : ((absDb D).idxs n).isSome ↔ D.hasIndex n = true := by
  rw [Option.isSome_iff_ne_none, ne_eq, abs_idx_none h, Bool.not_eq_false]

theorem erase_filter {D : Db} (h : (D.idxs.map (·.name)).Nodup) (n : Nat) : D.idxs.eraseP (·.name = n) = D.idxs.filter (·.name ≠ n) := by
  generalize D.idxs = l at h
  induction l with
  | nil => rfl
  | cons e l ih =>
    simp only [List.map_cons, List.nodup_cons] at h
    rw [List.eraseP_cons, List.filter_cons]
    by_cases hn : e.name = n
    · subst hn
      simp only [decide_true, cond_true, ne_eq, not_true_eq_false, decide_false, Bool.false_eq_true, if_false]
      rw [List.filter_eq_self.mpr]
      intro x hx
      simp only [ne_eq, decide_not, Bool.not_eq_eq_eq_not, Bool.not_true, decide_eq_false_iff_not]
      exact fun he => h.1 (he ▸ List.mem_map_of_mem hx)
    · simp only [hn, decide_false, cond_false, ne_eq, not_false_eq_true, decide_true, if_true]
      rw [ih h.2]

theorem dropIdx_abs {D : Db} (n : Nat) (f : Nat → Option (Nat × Nat × Method)) (hf : (absDb D).idxs = f) :
    absDb { D with idxs := D.idxs.filter (·.name ≠ n) } = { absDb D with idxs := fun m => if m = n then none else f m } := by
  subst hf
  unfold absDb
  simp only [SDb.mk.injEq]
  refine ⟨rfl, ?_⟩
  funext m
  rw [List.find?_filter]
  by_cases hm : m = n
  · subst hm
    simp only [if_true]
    have : D.idxs.find? (fun a => decide (decide (a.name ≠ m) = true ∧ decide (a.name = m) = true)) = none := by
      rw [List.find?_eq_none]
      intro e _
      simp
    rw [this]
    rfl
  · simp only [hm, if_false]
    have : (fun a : Idx => decide (decide (a.name ≠ n) = true ∧ decide (a.name = m) = true)) = fun a => decide (a.name = m) := by
      funext e
      by_cases he : e.name = m
      · subst he; simp [hm]
      · simp [he]
    rw [this]
    rfl

theorem dropIdx_ok {next : Nat} {D : Db} (h : DbOk next D) (p : Idx → Bool) : DbOk next { D with idxs := D.idxs.filter p } where
  tnames := h.tnames
  taddrs := h.taddrs
  tlt := h.tlt
  anames := h.anames
  pk := h.pk
  refs := h.refs
  inames := (List.filter_sublist.map _).nodup h.inames
  itbl := fun e he => h.itbl e (List.mem_of_mem_filter he)

theorem dropIdxs_ok {next : Nat} : ∀ (ns : List Nat) (D : Db), DbOk next D → ns.Nodup → (∀ n ∈ ns, D.hasIndex n = true) →
    (dropIdxs D ns).2 = 0 ∧ DbOk next (dropIdxs D ns).1 ∧ (dropIdxs D ns).1.name = D.name ∧ (dropIdxs D ns).1.addr = D.addr ∧
    absDb (dropIdxs D ns).1 = { absDb D with idxs := fun m => if m ∈ ns then none else (absDb D).idxs m }
  | [], D, h, _, _ => ⟨rfl, h, rfl, rfl, by simp [dropIdxs]⟩
  | n :: ns, D, h, hn, hs => by
    obtain ⟨hnn, hnd⟩ := List.nodup_cons.mp hn
    have e : dropIdxs D (n :: ns) = dropIdxs { D with idxs := D.idxs.filter (·.name ≠ n) } ns := by
      rw [dropIdxs, if_pos (hs n (by simp)), erase_filter h.inames]
    rw [e]
    have hab := dropIdx_abs (D := D) n _ rfl
    obtain ⟨i1, i2, i3, i4, i5⟩ := dropIdxs_ok ns { D with idxs := D.idxs.filter (·.name ≠ n) } (dropIdx_ok h _) hnd (by
      intro m hm
      have hne : m ≠ n := fun e => hnn (e ▸ hm)
      obtain ⟨x, hx, hxn⟩ := List.any_eq_true.mp (hs m (by simp [hm]))
      simp only [decide_eq_true_eq] at hxn
      refine List.any_eq_true.mpr ⟨x, List.mem_filter.mpr ⟨hx, by simp [hxn, hne]⟩, by simpa using hxn⟩)
    refine ⟨i1, i2, i3, i4, ?_⟩
    rw [i5, hab]
    simp only [SDb.mk.injEq, true_and]
    funext m
    by_cases h1 : m ∈ ns
    · simp [h1]
    · by_cases h2 : m = n <;> simp [h1, h2]

theorem good_dropIndex {rmi : Nat → Bool} {c : Cat} (h : CatOk c) {ns : List Nat} (hns : ns.Nodup) (ie : Bool) : Good rmi c (.dropIndex ns ie) := by
  cases hi : c.inUse with
  | none => exact ⟨c, 1, by simp [step, withDb, hi], h, .no_database (by simp [absCat, hi]) trivial⟩
  | some a =>
    obtain ⟨D, hD, h1, h2, h3, _⟩ := inUse_some h hi
    have hok := h.dbs D hD
    by_cases hm : (ns.filter fun n => !D.hasIndex n) ≠ [] ∧ ie = false
    · obtain ⟨hm1, rfl⟩ := hm
      obtain ⟨n, hn⟩ := List.exists_mem_of_ne_nil _ hm1
      obtain ⟨hn1, hn2⟩ := List.mem_filter.mp hn
      refine ⟨c, _, by simp only [step, withDb, hi, h1]; rw [if_pos ⟨hm1, trivial⟩], h, ?_⟩
      have : decide ((ns.filter fun n => !D.hasIndex n).length = 0) = false := by
        simp only [decide_eq_false_iff_not, List.length_eq_zero_iff]; exact hm1
      rw [this]
      exact .dropIndex_missing h2 h3 hn1 ((abs_idx_none hok).mpr (by simpa using hn2))
    · obtain ⟨e1, e2, e3, e4, e5⟩ := dropIdxs_ok (ns.filter D.hasIndex) D hok (List.filter_sublist.nodup hns) (fun n hn => (List.mem_filter.mp hn).2)
      refine ⟨_, _, by simp only [step, withDb, hi, h1]; rw [if_neg hm], set_ok h hD e3 e4 e2, ?_⟩
      rw [set_abs h hD e3 e4, e5, e1]
      have hfun : (fun m => if m ∈ ns.filter D.hasIndex then none else (absDb D).idxs m) = fun m => if m ∈ ns then none else (absDb D).idxs m := by
        funext m
        simp only [List.mem_filter]
        by_cases hx : D.hasIndex m = true
        · simp [hx]
        · have := (abs_idx_none hok).mpr (by simpa using hx)
          simp [hx, this]
      rw [hfun]
      refine .dropIndex h2 h3 ?_
      cases ie with
      | true => exact Or.inl rfl
      | false =>
        right
        intro n hn
        rw [abs_idx_some hok]
        by_contra hc
        refine hm ⟨List.ne_nil_of_mem (a := n) (List.mem_filter.mpr ⟨hn, ?_⟩), rfl⟩
        simp only [Bool.not_eq_true] at hc
        rw [hc]; rfl

/-- The table's schema is defined, and its attribute's type has an index of the method. -/
def IndexOk (rmi : Nat → Bool) (D : Db) (t : Nat) (m : Method) (fs : List Field) : Prop :=
  fs ≠ [] ∧ ∀ T, D.table t = some T → (∃ es, D.schema T = some es) ∧ (m = .rmi → ∀ x ∈ T.attrs, fs = [.attr x.name] → rmi x.ty = true)

theorem good_createIndex {rmi : Nat → Bool} {c : Cat} (h : CatOk c) (u : Bool) (n : Option Nat) (ine : Bool) (t : Nat) (m : Method) (fs : List Field)
    (hix : ∀ a D, c.inUse = some a → c.deref a = some D → IndexOk rmi D t m fs) : Good rmi c (.createIndex u n ine t m fs) := by
  cases hi : c.inUse with
  | none => exact ⟨c, 1, by simp [step, withDb, hi], h, .no_database (by simp [absCat, hi]) trivial⟩
  | some a =>
    obtain ⟨D, hD, h1, h2, h3, _⟩ := inUse_some h hi
    have hok := h.dbs D hD
    obtain ⟨hfs, hT'⟩ := hix a D hi h1
    have hst : step rmi c (.createIndex u n ine t m fs) = createIndex rmi c D u n ine t m fs := by simp [step, withDb, hi, h1]
    unfold Good
    rw [hst]
    cases u with
    | true => exact ⟨c, 1, rfl, h, .createIndex_invalid h2 h3 (Or.inl rfl)⟩
    | false =>
      cases n with
      | none => exact ⟨c, 1, rfl, h, .createIndex_invalid h2 h3 (Or.inr (Or.inl rfl))⟩
      | some n =>
        by_cases hx : D.hasIndex n = true
        · refine ⟨c, if ine then 0 else 1, by simp [createIndex, hx], h, ?_⟩
          have : decide ((if ine = true then 0 else 1) = 0) = ine := by cases ine <;> rfl
          rw [this]
          exact .createIndex_exists h2 h3 ((abs_idx_some hok).mpr hx)
        · simp only [Bool.not_eq_true] at hx
          have hnone := (abs_idx_none hok).mpr hx
          have hinv : ((absDb D).tables t = none ∨ m = .other ∨ fs.length > 1 ∨ fs = [.other] ∨
              ∃ T a, (absDb D).tables t = some T ∧ fs = [.attr a] ∧ ∀ x ∈ T.attrs, x.name ≠ a) →
              Spec (absCat c) (.createIndex false (some n) ine t m fs) (absCat c) false := by
            intro hp
            exact .createIndex_invalid h2 h3 (Or.inr (Or.inr ⟨fun k hk => by obtain rfl := Option.some.inj hk; exact hnone, hp⟩))
          cases ht : D.table t with
          | none => exact ⟨c, 1, by simp [createIndex, hx, ht], h, hinv (Or.inl (abs_table_none.mpr ht))⟩
          | some T =>
            obtain ⟨hTm, hTn⟩ := find_some ht
            obtain ⟨⟨es, hes⟩, hr⟩ := hT' T ht
            by_cases hmo : m = .other
            · exact ⟨c, 1, by simp [createIndex, hx, ht, hmo], h, hinv (Or.inr (Or.inl hmo))⟩
            · match fs, hfs, hinv with
              | [], hfs, _ => exact absurd rfl hfs
              | _ :: _ :: _, _, hinv => exact ⟨c, 1, by simp [createIndex, hx, ht, hmo], h, hinv (Or.inr (Or.inr (Or.inl (by simp))))⟩
              | [.other], _, hinv => exact ⟨c, 1, by simp [createIndex, hx, ht, hmo], h, hinv (Or.inr (Or.inr (Or.inr (Or.inl rfl))))⟩
              | [.attr b], _, hinv =>
                have hat : (absDb D).tables t = some (absTbl D T) := by simp [absDb, ht]
                cases hid : T.idOf b with
                | none =>
                  refine ⟨c, 1, by simp [createIndex, hx, ht, hmo, hid], h, hinv (Or.inr (Or.inr (Or.inr (Or.inr ⟨_, b, hat, rfl, ?_⟩))))⟩
                  intro x hxm he
                  obtain ⟨y, hy, rfl⟩ := List.mem_map.mp hxm
                  exact idOf_none.mp hid (List.mem_map.mpr ⟨y, hy, he⟩)
                | some i =>
                  obtain ⟨x, hxi, hxn⟩ := idOf_some hid
                  have hxm := List.mem_of_getElem? hxi
                  have hil : i < T.attrs.length := (List.getElem?_eq_some_iff.mp hxi).1
                  have hrm : ¬(m = .rmi ∧ T.hasRmi rmi i = false) := by
                    rintro ⟨e1, e2⟩
                    simp only [Tbl.hasRmi, hxi] at e2
                    rw [hr e1 x hxm (by rw [hxn])] at e2
                    cases e2
                  have hnm : ∀ e ∈ D.idxs, e.name ≠ n := by
                    intro e he hen
                    rw [Db.hasIndex, List.any_eq_false] at hx
                    exact hx e he (by simpa using hen)
                  have hok' : DbOk c.next { D with idxs := D.idxs ++ [⟨n, T.addr, i, if m = .rmi then .rmi else .array⟩] } := by
                    refine ⟨hok.tnames, hok.taddrs, hok.tlt, hok.anames, hok.pk, hok.refs, ?_, ?_⟩
                    · simp only [List.map_append, List.map_cons, List.map_nil]
                      rw [List.nodup_append]
                      refine ⟨hok.inames, by simp, ?_⟩
                      intro x hx y hy
                      obtain ⟨e, he, rfl⟩ := List.mem_map.mp hx
                      obtain rfl := List.mem_singleton.mp hy
                      exact hnm e he
                    · intro e he
                      rcases List.mem_append.mp he with he | he
                      · exact hok.itbl e he
                      · obtain rfl := List.mem_singleton.mp he
                        exact ⟨T, hTm, rfl, hil⟩
                  have hab : absDb { D with idxs := D.idxs ++ [⟨n, T.addr, i, if m = .rmi then .rmi else .array⟩] } =
                      { absDb D with idxs := upd (absDb D).idxs n (some (t, b, if m = .rmi then .rmi else .array)) } := by
                    unfold absDb
                    simp only [SDb.mk.injEq]
                    refine ⟨rfl, ?_⟩
                    funext k
                    have := find_append_new (f := Idx.name) (l := D.idxs) (x := ⟨n, T.addr, i, if m = .rmi then .rmi else .array⟩) hnm k
                    rw [this]
                    unfold upd
                    by_cases hk : k = n
                    · simp only [hk, if_true, Option.bind_some, absIdx]
                      have hd : D.deref T.addr = some T := find_key hok.taddrs hTm
                      have hd' : ({ D with idxs := D.idxs ++ [⟨n, T.addr, i, if m = .rmi then .rmi else .array⟩] } : Db).deref T.addr = some T := hd
                      simp [absRef, hd', hxi, hTn, hxn]
                    · simp only [hk, if_false]
                      rfl
                  refine ⟨c.set D.addr { D with idxs := D.idxs ++ [⟨n, T.addr, i, if m = .rmi then .rmi else .array⟩] }, 0, ?_, set_ok h hD rfl rfl hok', ?_⟩
                  · simp only [createIndex, hx, ht, hmo, hid, hes, Bool.false_eq_true, if_false]
                    rw [if_neg hrm]
                  · rw [set_abs (D' := { D with idxs := D.idxs ++ [⟨n, T.addr, i, if m = .rmi then .rmi else .array⟩] }) h hD rfl rfl, hab]
                    exact .createIndex h2 h3 hnone hat hmo (List.mem_map.mpr ⟨x, hxm, rfl⟩) hxn

end Mutable.DDL
