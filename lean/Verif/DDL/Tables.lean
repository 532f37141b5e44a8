import Verif.DDL.Refine
/-
CREATE TABLE.
-/
namespace Mutable.DDL

theorem resolves_abs {next : Nat} {D : Db} (h : DbOk next D) {ty t a : Nat} :
    resolves D ty (t, a) ↔ ∃ R, (absDb D).tables t = some R ∧ R.has a ty = true := by
  unfold resolves absDb
  simp only [Option.map_eq_some_iff]
  constructor
  · rintro ⟨R, hR, j, x, hj, hx, hty⟩
    refine ⟨_, ⟨R, hR, rfl⟩, ?_⟩
    obtain ⟨y, hy, hyn⟩ := idOf_some hj
    rw [hx] at hy
    obtain rfl := Option.some.inj hy
    unfold STbl.has absTbl
    simp only [List.any_map, List.any_eq_true, Function.comp_apply, absAttr, Bool.and_eq_true]
    exact ⟨x, List.mem_of_getElem? hx, decide_eq_true hyn, decide_eq_true hty⟩
  · rintro ⟨_, ⟨R, hR, rfl⟩, hh⟩
    unfold STbl.has absTbl at hh
    simp only [List.any_map, List.any_eq_true, Function.comp_apply, absAttr, Bool.and_eq_true] at hh
    obtain ⟨x, hx, hn, hty⟩ := hh
    replace hn := of_decide_eq_true hn
    replace hty := of_decide_eq_true hty
    refine ⟨R, hR, ?_⟩
    cases hj : R.idOf a with
    | none => exact absurd (List.mem_map.mpr ⟨x, hx, hn⟩) (idOf_none.mp hj)
    | some j =>
      obtain ⟨y, hy, hyn⟩ := idOf_some hj
      refine ⟨j, y, rfl, hy, ?_⟩
      have := key_inj (f := Attr.name) (h.anames R (find_some hR).1) (List.mem_of_getElem? hy) hx (by rw [hyn, hn])
      rw [this, hty]

theorem analyze_valid {next : Nat} {D : Db} (h : DbOk next D) (addr n : Nat) (attrs : List AttrDef) :
    (analyzeTable D addr n attrs).errs = 0 ↔ (absDb D).valid n attrs := by
  obtain ⟨h1, _⟩ := attr_fold D attrs ⟨⟨addr, n, [], []⟩, false, if (D.table n).isSome then 1 else 0⟩ (by simp)
  have hle := fold_le D attrs ⟨⟨addr, n, [], []⟩, false, if (D.table n).isSome then 1 else 0⟩
  have ht : (absDb D).tables n = none ↔ D.table n = none := by simp [absDb]
  unfold analyzeTable SDb.valid
  rw [ht]
  simp only [names, List.map_nil, List.not_mem_nil, not_false_eq_true, implies_true, true_and] at h1
  have hok : ∀ d : AttrDef, okCons' D d.ty false d.cons ↔ (refsOf d.cons).length ≤ 1 ∧ (∀ e, Con.check e ∈ d.cons → e = 0) ∧
      ∀ t a, (t, a) ∈ refsOf d.cons → ∃ R, (absDb D).tables t = some R ∧ R.has a d.ty = true := by
    intro d
    unfold okCons'
    simp only [Bool.toNat_false, Nat.add_zero]
    constructor
    · rintro ⟨g1, g2, g3⟩
      exact ⟨by rcases g1 with g | g; exacts [g, by simp [g]], g2, fun t a ht => (resolves_abs h).mp (g3 (t, a) ht)⟩
    · rintro ⟨g1, g2, g3⟩
      exact ⟨Or.inl g1, g2, fun p hp => (resolves_abs h).mpr (g3 p.1 p.2 hp)⟩
  have hpk : okPk false (attrs.flatMap (·.cons)) ↔ (attrs.flatMap (·.cons)).count .primaryKey ≤ 1 := by
    simp only [okPk, Bool.toNat_false]; omega
  simp only [hok, hpk] at h1
  rw [← h1]
  cases ht' : D.table n with
  | none => simp [ht']
  | some T =>
    simp only [ht', Option.isSome_some, if_true, reduceCtorEq, false_and, iff_false] at hle ⊢
    omega

theorem find_append_new {α : Type} {f : α → Nat} {l : List α} {x : α} (h : ∀ y ∈ l, f y ≠ f x) (n : Nat) :
    (l ++ [x]).find? (fun y => decide (f y = n)) = if n = f x then some x else l.find? (fun y => decide (f y = n)) := by
  rw [List.find?_append]
  by_cases hn : n = f x
  · subst hn
    rw [find_none.mpr h]
    simp
  · have : ¬f x = n := fun e => hn e.symm
    simp [hn, this]

theorem good_createTable {rmi : Nat → Bool} {c : Cat} (h : CatOk c) (n : Nat) (attrs : List AttrDef) : Good rmi c (.createTable n attrs) := by
  cases hi : c.inUse with
  | none => exact ⟨c, 1, by simp [step, withDb, hi], h, .no_database (by simp [absCat, hi]) trivial⟩
  | some a =>
    obtain ⟨D, hD, h1, h2, h3, _⟩ := inUse_some h hi
    have hok := h.dbs D hD
    by_cases he : (analyzeTable D c.next n attrs).errs = 0
    · have hv := (analyze_valid hok c.next n attrs).mp he
      have ht : D.table n = none := by simpa [absDb] using hv.1
      obtain ⟨f1, f2⟩ := attr_fold D attrs ⟨⟨c.next, n, [], []⟩, false, if (D.table n).isSome then 1 else 0⟩ (by simp)
      simp only [ht, Option.isSome_none, Bool.false_eq_true, if_false] at f1 f2
      have he' := he
      unfold analyzeTable at he'
      simp only [ht, Option.isSome_none, Bool.false_eq_true, if_false] at he'
      obtain ⟨_, _, fpk, fcons⟩ := f1.mp he'
      obtain ⟨g1, g2, g3, g4, g5, g6⟩ := f2 he'
      have hb : attrs.foldl (addAttr D) ⟨⟨c.next, n, [], []⟩, false, 0⟩ = analyzeTable D c.next n attrs := by
        unfold analyzeTable; simp [ht]
      rw [hb] at g1 g2 g3 g4 g5 g6
      generalize hT : (analyzeTable D c.next n attrs).tbl = T at g1 g2 g3 g4 g5 g6
      simp only [List.nil_append, List.length_nil, Nat.zero_add] at g3 g6
      have hpk0 : pkNames ⟨c.next, n, [], []⟩ = [] := rfl
      rw [hpk0, List.nil_append] at g4
      have htn : ∀ R ∈ D.tables, R.name ≠ T.name := by rw [g2]; exact find_none.mp ht
      have hta : ∀ R ∈ D.tables, R.addr ≠ T.addr := by
        rw [g1]; exact fun R hR => Nat.ne_of_lt (hok.tlt R hR)
      have htab : ∀ m, ({ D with tables := D.tables ++ [T] } : Db).table m = if m = n then some T else D.table m := by
        intro m
        have := find_append_new (f := Tbl.name) htn m
        rw [g2] at this
        exact this
      have hder : ∀ b, ({ D with tables := D.tables ++ [T] } : Db).deref b = if b = c.next then some T else D.deref b := by
        intro b
        have := find_append_new (f := Tbl.addr) hta b
        rw [g1] at this
        exact this
      have href : ∀ r : Nat × Nat, r.1 < c.next → absRef { D with tables := D.tables ++ [T] } r = absRef D r := by
        intro r hr
        unfold absRef
        rw [hder, if_neg (Nat.ne_of_lt hr)]
      have hres : ∀ d ∈ attrs, ∀ r, (mk D d).ref = some r → ∃ p, (refsOf d.cons).head? = some p ∧ r.1 < c.next ∧
          (∃ R ∈ D.tables, R.addr = r.1 ∧ r.2 < R.attrs.length) ∧ absRef D r = some p := by
        intro d hd r hr
        simp only [mk, applyCons] at hr
        cases hp : (refsOf d.cons).head? with
        | none => simp [hp] at hr
        | some p =>
          rw [hp] at hr
          simp only at hr
          obtain ⟨R, hR, j, x, hj, hx, _⟩ := (fcons d hd).2.2 p (List.mem_of_head? hp)
          obtain ⟨hRm, hRn⟩ := find_some hR
          have hr' : r = (R.addr, j) := by simpa [resolve, hR, hj] using hr.symm
          subst hr'
          have hjl : j < R.attrs.length := (List.getElem?_eq_some_iff.mp hx).1
          refine ⟨p, rfl, hok.tlt R hRm, ⟨R, hRm, rfl, hjl⟩, ?_⟩
          obtain ⟨y, hy, hyn⟩ := idOf_some hj
          rw [hx] at hy
          obtain rfl := Option.some.inj hy
          have : D.deref R.addr = some R := find_key hok.taddrs hRm
          simp [absRef, this, hx, hRn, hyn]
      have hstep : step rmi c (.createTable n attrs) =
          some (({ c with next := c.next + 1 } : Cat).set D.addr { D with tables := D.tables ++ [T] }, 0) := by
        simp [step, withDb, hi, h1, he, ht, hT]
      have hok' : DbOk (c.next + 1) { D with tables := D.tables ++ [T] } := by
        constructor
        · simp only [List.map_append, List.map_cons, List.map_nil]
          rw [List.nodup_append]
          refine ⟨hok.tnames, by simp, ?_⟩
          intro x hx y hy
          obtain ⟨R, hR, rfl⟩ := List.mem_map.mp hx
          obtain rfl := List.mem_singleton.mp hy
          exact htn R hR
        · simp only [List.map_append, List.map_cons, List.map_nil]
          rw [List.nodup_append]
          refine ⟨hok.taddrs, by simp, ?_⟩
          intro x hx y hy
          obtain ⟨R, hR, rfl⟩ := List.mem_map.mp hx
          obtain rfl := List.mem_singleton.mp hy
          exact hta R hR
        · intro R hR
          rcases List.mem_append.mp hR with hR | hR
          · exact Nat.lt_succ_of_lt (hok.tlt R hR)
          · obtain rfl := List.mem_singleton.mp hR
            omega
        · intro R hR
          rcases List.mem_append.mp hR with hR | hR
          · exact hok.anames R hR
          · obtain rfl := List.mem_singleton.mp hR
            have : names R = attrs.map (·.name) := by
              unfold names; rw [g3, List.map_map]; rfl
            rw [this]
            exact hv.2.1
        · intro R hR
          rcases List.mem_append.mp hR with hR | hR
          · exact hok.pk R hR
          · obtain rfl := List.mem_singleton.mp hR
            refine ⟨?_, g5⟩
            rw [g6]
            have hv3 := hv.2.2.1
            clear * - hv3
            induction attrs with
            | nil => simp
            | cons d ds ih =>
              simp only [List.flatMap_cons, List.count_append] at hv3
              rw [List.filter_cons]
              split
              · rename_i hc
                have hpos : 0 < d.cons.count .primaryKey := List.count_pos_iff.mpr (by simpa using hc)
                have hz : (ds.flatMap (·.cons)).count .primaryKey = 0 := by omega
                have hnone : (ds.filter fun d => d.cons.contains .primaryKey) = [] := by
                  rw [List.filter_eq_nil_iff]
                  intro x hx hcx
                  exact List.count_eq_zero.mp hz (List.mem_flatMap.mpr ⟨x, hx, by simpa using hcx⟩)
                rw [hnone]
                simp
              · exact ih (by omega)
        · intro R hR x hx r hr
          rcases List.mem_append.mp hR with hR | hR
          · obtain ⟨k1, k2⟩ := hok.refs R hR x hx r hr
            refine ⟨Nat.lt_succ_of_lt k1, ?_⟩
            intro R' hR' hRa
            rcases List.mem_append.mp hR' with hR' | hR'
            · exact k2 R' hR' hRa
            · obtain rfl := List.mem_singleton.mp hR'
              omega
          · obtain rfl := List.mem_singleton.mp hR
            rw [g3] at hx
            obtain ⟨d, hd, rfl⟩ := List.mem_map.mp hx
            obtain ⟨p, _, k1, ⟨R'', hR'', k2, k3⟩, _⟩ := hres d hd r hr
            refine ⟨Nat.lt_succ_of_lt k1, ?_⟩
            intro R' hR' hRa
            rcases List.mem_append.mp hR' with hR' | hR'
            · rw [key_inj hok.taddrs hR' hR'' (by rw [hRa, k2])]
              exact k3
            · obtain rfl := List.mem_singleton.mp hR'
              omega
        · exact hok.inames
        · intro e he
          obtain ⟨R, hR, k⟩ := hok.itbl e he
          exact ⟨R, List.mem_append_left _ hR, k⟩
      have habs : absDb { D with tables := D.tables ++ [T] } = { absDb D with tables := upd (absDb D).tables n (some (declaredTable attrs)) } := by
        unfold absDb
        simp only [SDb.mk.injEq]
        constructor
        · funext m
          simp only [htab, upd]
          by_cases hm : m = n
          · simp only [hm, if_true, Option.map_some, Option.some.injEq]
            unfold absTbl declaredTable
            rw [g3, g4, List.map_map]
            congr 1
            apply List.map_congr_left
            intro d hd
            simp only [Function.comp_apply, absAttr, declared]
            have k1 : (mk D d).unique = d.cons.contains .unique := by simp [mk, applyCons]
            have k2 : (mk D d).notNull = d.cons.contains .notNull := by simp [mk, applyCons]
            have k3 : (mk D d).ref.bind (absRef { D with tables := D.tables ++ [T] }) = (refsOf d.cons).head? := by
              cases hr : (mk D d).ref with
              | some r =>
                obtain ⟨p, e1, e2, _, e3⟩ := hres d hd r hr
                simp only [Option.bind_some]
                rw [href r e2, e3, e1]
              | none =>
                simp only [Option.bind_none]
                cases hp : (refsOf d.cons).head? with
                | none => rfl
                | some p =>
                  obtain ⟨R, hR, j, x, hj, _⟩ := (fcons d hd).2.2 p (List.mem_of_head? hp)
                  simp [mk, applyCons, hp, resolve, hR, hj] at hr
            rw [k1, k2, k3]
            rfl
          · simp only [hm, if_false]
            cases hR : D.table m with
            | none => rfl
            | some R =>
              obtain ⟨hRm, _⟩ := find_some hR
              simp only [Option.map_some, Option.some.injEq, absTbl, STbl.mk.injEq, and_true]
              apply List.map_congr_left
              intro x hx
              simp only [absAttr, SAttr.mk.injEq, true_and]
              cases hr : x.ref with
              | none => rfl
              | some r =>
                simp only [Option.bind_some]
                exact href r (hok.refs R hRm x hx r hr).1
        · funext m
          cases hx : D.idxs.find? (·.name = m) with
          | none => rfl
          | some e =>
            obtain ⟨R, hR, k1, _⟩ := hok.itbl e (find_some hx).1
            simp only [Option.bind_some, absIdx]
            rw [href (e.tbl, e.attr) (by rw [← k1]; exact hok.tlt R hR)]
      refine ⟨_, 0, hstep, ?_, ?_⟩
      · exact set_ok (next_ok h) (D' := { D with tables := D.tables ++ [T] }) hD rfl rfl hok'
      · have := set_abs (next_ok h) (D := D) (D' := { D with tables := D.tables ++ [T] }) hD rfl rfl
        rw [this, habs]
        exact .createTable h2 h3 hv
    · refine ⟨{ c with next := c.next + 1 }, (analyzeTable D c.next n attrs).errs, by simp [step, withDb, hi, h1, he], next_ok h, ?_⟩
      have : absCat { c with next := c.next + 1 } = absCat c := rfl
      rw [this]
      simp only [he, decide_false]
      exact .createTable_invalid h2 h3 (fun hv => he ((analyze_valid hok c.next n attrs).mpr hv))

end Mutable.DDL
