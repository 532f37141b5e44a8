import Verif.DDL.Drops
import Mathlib.Data.List.Nodup
/-
References that never dangle; schemas; sequences of statements.
-/
namespace Mutable.DDL

def NoDangle (D : Db) : Prop := ∀ T ∈ D.tables, ∀ x ∈ T.attrs, ∀ r, x.ref = some r → ∃ R ∈ D.tables, R.addr = r.1

def NoDangles (c : Cat) : Prop := ∀ D ∈ c.dbs, NoDangle D

/-! ### Schemas -/

theorem mapM_some {α β : Type} {f : α → Option β} {g : α → β} : ∀ {l : List α}, (∀ x ∈ l, f x = some (g x)) → l.mapM f = some (l.map g)
  | [], _ => rfl
  | x :: l, h => by
    rw [List.mapM_cons, h x (by simp), mapM_some (fun y hy => h y (by simp [hy]))]
    rfl

theorem unique_abs {next : Nat} {D : Db} (h : DbOk next D) {T : Tbl} (hT : T ∈ D.tables) {i : Nat} {x : Attr} (hx : T.attrs[i]? = some x) :
    T.isUnique i = (absTbl D T).isUnique x.name := by
  have han := h.anames T hT
  obtain ⟨hpk, hlt⟩ := h.pk T hT
  have hxm := List.mem_of_getElem? hx
  unfold Tbl.isUnique STbl.isUnique
  rw [hx]
  simp only
  congr 1
  · simp only [absTbl, List.any_map]
    rw [Bool.eq_iff_iff, List.any_eq_true]
    simp only [Function.comp_apply, absAttr, Bool.and_eq_true]
    constructor
    · exact fun hu => ⟨x, hxm, by simp, hu⟩
    · rintro ⟨y, hy, hn, hu⟩
      have := key_inj (f := Attr.name) han hy hxm (of_decide_eq_true hn)
      rw [← this]
      exact hu
  · have hpn : (absTbl D T).pk = T.pk.filterMap fun i => (T.attrs[i]?).map (·.name) := rfl
    rw [hpn]
    generalize T.pk = l at hpk hlt
    match l, hpk, hlt with
    | [], _, _ => simp
    | [j], _, hlt =>
      have hj : j < T.attrs.length := hlt j (by simp)
      have hg : T.attrs[j]? = some T.attrs[j] := List.getElem?_eq_getElem hj
      rw [Bool.eq_iff_iff]
      simp only [List.length_singleton, decide_true, Bool.true_and, List.filterMap_cons, hg, Option.map_some, List.filterMap_nil, decide_eq_true_eq,
        List.contains_eq_mem, List.mem_singleton, List.cons.injEq, and_true]
      constructor
      · intro e
        subst e
        rw [hg] at hx
        rw [Option.some.inj hx]
      · intro e
        obtain ⟨hi, hxi⟩ := List.getElem?_eq_some_iff.mp hx
        have h1 : (names T)[i]'(by simpa [names] using hi) = (names T)[j]'(by simpa [names] using hj) := by
          simp only [names, List.getElem_map]
          rw [hxi, e]
        exact (han.getElem_inj_iff).mp h1

theorem schema_abs {next : Nat} {D : Db} (h : DbOk next D) (hd : NoDangle D) {T : Tbl} (hT : T ∈ D.tables) :
    D.schema T = some ((absDb D).entries (absTbl D T)) := by
  unfold Db.schema SDb.entries
  have hg : (absTbl D T).attrs = T.attrs.zipIdx.map fun p => absAttr D p.1 := by
    simp only [absTbl]
    have : T.attrs.zipIdx.map (absAttr D ∘ Prod.fst) = T.attrs.map (absAttr D) := by
      rw [← List.map_map, List.zipIdx_map_fst]
    exact this.symm
  rw [hg, List.map_map]
  apply mapM_some
  rintro ⟨x, i⟩ hp
  have hx : T.attrs[i]? = some x := List.mk_mem_zipIdx_iff_getElem?.mp hp
  have hxm := List.mem_of_getElem? hx
  simp only [Function.comp_apply]
  cases hr : x.ref with
  | none =>
    simp only [absAttr, hr, Option.bind_none, unique_abs h hT hx]
  | some r =>
    obtain ⟨R, hR, hRa⟩ := hd T hT x hxm r hr
    have hlt := (h.refs T hT x hxm r hr).2 R hR hRa
    have hder : D.deref r.1 = some R := by rw [← hRa]; exact find_key h.taddrs hR
    have hy : R.attrs[r.2]? = some R.attrs[r.2] := List.getElem?_eq_getElem hlt
    have htab : (absDb D).tables R.name = some (absTbl D R) := by
      have : D.table R.name = some R := find_key h.tnames hR
      simp [absDb, this]
    have habs : absRef D r = some (R.name, R.attrs[r.2].name) := by simp [absRef, hder, hy]
    simp only [absAttr, hr, Option.bind_some, habs, hder, htab, unique_abs h hT hx, unique_abs h hR hy]

/-! ### References stay valid -/

theorem new_refs {D : Db} (addr n : Nat) (attrs : List AttrDef) (he : (analyzeTable D addr n attrs).errs = 0) :
    ∀ x ∈ (analyzeTable D addr n attrs).tbl.attrs, ∀ r, x.ref = some r → ∃ R ∈ D.tables, R.addr = r.1 := by
  obtain ⟨f1, f2⟩ := attr_fold D attrs ⟨⟨addr, n, [], []⟩, false, if (D.table n).isSome then 1 else 0⟩ (by simp)
  have hle := fold_le D attrs ⟨⟨addr, n, [], []⟩, false, if (D.table n).isSome then 1 else 0⟩
  unfold analyzeTable at he ⊢
  simp only at f1 f2 hle
  rw [he] at f1 f2 hle
  have hz : 0 = if (D.table n).isSome = true then 1 else 0 := by omega
  obtain ⟨_, _, _, fcons⟩ := f1.mp hz
  obtain ⟨_, _, g3, _⟩ := f2 hz
  intro x hx r hr
  rw [g3, List.nil_append] at hx
  obtain ⟨d, hd, rfl⟩ := List.mem_map.mp hx
  simp only [mk, applyCons] at hr
  cases hp : (refsOf d.cons).head? with
  | none => simp [hp] at hr
  | some p =>
    rw [hp] at hr
    obtain ⟨R, hR, j, y, hj, _⟩ := (fcons d hd).2.2 p (List.mem_of_head? hp)
    have hr' : r = (R.addr, j) := by simpa [resolve, hR, hj] using hr.symm
    subst hr'
    exact ⟨R, (find_some hR).1, rfl⟩

theorem dropTables_tables : ∀ (ns : List Nat) (D D' : Db) (e : Nat), dropTables D ns = some (D', e) →
    D'.tables = D.tables.filter fun T => decide (T.name ∉ ns)
  | [], D, D', e, h => by
    simp only [dropTables, Option.some.injEq, Prod.mk.injEq] at h
    obtain ⟨rfl, _⟩ := h
    simp
  | n :: ns, D, D', e, h => by
    unfold dropTables at h
    cases ht : D.table n with
    | none =>
      rw [ht] at h
      simp only [Option.map_eq_some_iff, Prod.mk.injEq] at h
      obtain ⟨q, hq, rfl, _⟩ := h
      rw [dropTables_tables ns D q.1 q.2 hq]
      apply List.filter_congr
      intro T hT
      have : T.name ≠ n := (find_none (f := Tbl.name)).mp ht T hT
      simp [this]
    | some T =>
      rw [ht] at h
      simp only at h
      cases hi : dropIndexes D n D.idxs with
      | none => simp [hi] at h
      | some es =>
        rw [hi] at h
        simp only at h
        rw [dropTables_tables ns _ D' e h, List.filter_filter]
        apply List.filter_congr
        intro T hT
        by_cases h1 : T.name = n <;> by_cases h2 : T.name ∈ ns <;> simp [h1, h2]

theorem set_nodangle {c : Cat} (h : NoDangles c) (a : Nat) {D : Db} (hD : NoDangle D) : NoDangles (c.set a D) := by
  intro E hE
  obtain ⟨E', hE', rfl⟩ := List.mem_map.mp hE
  split
  · exact hD
  · exact h E' hE'

theorem step_nodangle {rmi : Nat → Bool} {c c' : Cat} {st : Stmt} {e : Nat} (h : CatOk c) (hn : NoDangles c) (hf : Fine rmi (absCat c) st)
    (hs : step rmi c st = some (c', e)) : NoDangles c' := by
  cases st with
  | createDatabase n =>
    simp only [step] at hs
    split at hs
    · cases hs; exact hn
    · cases hs
      intro D hD
      rcases List.mem_append.mp hD with hD | hD
      · exact hn D hD
      · obtain rfl := List.mem_singleton.mp hD
        intro T hT
        simp at hT
  | dropDatabase n ie =>
    simp only [step] at hs
    split at hs
    · cases hs
    · cases hs; exact hn
    · split at hs
      · cases hs
        exact fun D hD => hn D (List.mem_of_mem_filter hD)
      · cases hs; exact hn
  | useDatabase n =>
    simp only [step] at hs
    split at hs <;> (cases hs; exact hn)
  | createTable n attrs =>
    cases hi : c.inUse with
    | none => simp only [step, withDb, hi] at hs; cases hs; exact hn
    | some a =>
      obtain ⟨D, hD, h1, _⟩ := inUse_some h hi
      simp only [step, withDb, hi, h1] at hs
      split at hs
      · cases hs; exact hn
      · rename_i he
        split at hs
        · cases hs
        · cases hs
          refine set_nodangle (c := { c with next := c.next + 1 }) hn _ ?_
          intro T hT x hx r hr
          rcases List.mem_append.mp hT with hT | hT
          · obtain ⟨R, hR, k⟩ := hn D hD T hT x hx r hr
            exact ⟨R, List.mem_append_left _ hR, k⟩
          · obtain rfl := List.mem_singleton.mp hT
            obtain ⟨R, hR, k⟩ := new_refs c.next n attrs (by simpa using he) x hx r hr
            exact ⟨R, List.mem_append_left _ hR, k⟩
  | dropTable ns ie =>
    cases hi : c.inUse with
    | none => simp only [step, withDb, hi] at hs; cases hs; exact hn
    | some a =>
      obtain ⟨D, hD, h1, h2, h3, _⟩ := inUse_some h hi
      have hok := h.dbs D hD
      simp only [step, withDb, hi, h1] at hs
      split at hs
      · cases hs; exact hn
      · cases hd : dropTables D (ns.filter fun n => (D.table n).isSome) with
        | none => simp [hd] at hs
        | some q =>
          rw [hd] at hs
          cases hs
          apply set_nodangle hn
          have ht := dropTables_tables _ D q.1 q.2 hd
          intro T hT x hx r hr
          rw [ht] at hT ⊢
          obtain ⟨hT, hTn⟩ := List.mem_filter.mp hT
          obtain ⟨R, hR, k⟩ := hn D hD T hT x hx r hr
          refine ⟨R, List.mem_filter.mpr ⟨hR, ?_⟩, k⟩
          have hmem : ∀ S ∈ D.tables, (S.name ∈ ns.filter (fun n => (D.table n).isSome) ↔ S.name ∈ ns) := by
            intro S hS
            have : D.table S.name = some S := find_key hok.tnames hS
            simp [List.mem_filter, this]
          have hTn' : T.name ∉ ns := by
            rw [← hmem T hT]
            exact of_decide_eq_true hTn
          have htab : D.table T.name = some T := find_key hok.tnames hT
          have hlt := (hok.refs T hT x hx r hr).2 R hR k
          have hder : D.deref r.1 = some R := by rw [← k]; exact find_key hok.taddrs hR
          have hnot := hf.2 D.name (absDb D) h2 h3 T.name (absTbl D T) (by simp [absDb, htab]) hTn' (absAttr D x) (List.mem_map_of_mem hx)
            (R.name, R.attrs[r.2].name) (by simp [absAttr, hr, absRef, hder, List.getElem?_eq_getElem hlt])
          simp only at hnot
          rw [decide_eq_true_eq]
          intro hc
          exact hnot ((hmem R hR).mp hc)
  | createIndex u n ine t m fs =>
    cases hi : c.inUse with
    | none => simp only [step, withDb, hi] at hs; cases hs; exact hn
    | some a =>
      obtain ⟨D, hD, h1, _⟩ := inUse_some h hi
      simp only [step, withDb, hi, h1, createIndex] at hs
      have hnd : ∀ l, NoDangle { D with idxs := l } := fun _ => hn D hD
      repeat' split at hs
      all_goals first | (cases hs; exact hn) | (cases hs; exact set_nodangle hn _ (hnd _)) | cases hs
  | dropIndex ns ie =>
    cases hi : c.inUse with
    | none => simp only [step, withDb, hi] at hs; cases hs; exact hn
    | some a =>
      obtain ⟨D, hD, h1, _⟩ := inUse_some h hi
      simp only [step, withDb, hi, h1] at hs
      have htab : ∀ (ns : List Nat) (D : Db), (dropIdxs D ns).1.tables = D.tables := by
        intro ns
        induction ns with
        | nil => intro D; rfl
        | cons n ns ih =>
          intro D
          unfold dropIdxs
          split
          · exact ih _
          · exact ih D
      split at hs
      · cases hs; exact hn
      · cases hs
        apply set_nodangle hn
        intro T hT
        rw [htab] at hT ⊢
        exact hn D hD T hT

/-! ### Statements -/

theorem good_step {rmi : Nat → Bool} {c : Cat} (h : CatOk c) (hn : NoDangles c) {st : Stmt} (hf : Fine rmi (absCat c) st) : Good rmi c st := by
  cases st with
  | createDatabase n => exact good_createDatabase h n
  | dropDatabase n ie => exact good_dropDatabase h n ie
  | useDatabase n => exact good_useDatabase h n
  | createTable n attrs => exact good_createTable h n attrs
  | dropTable ns ie => exact good_dropTable h hf.1 ie
  | dropIndex ns ie => exact good_dropIndex h hf ie
  | createIndex u n ine t m fs =>
    apply good_createIndex h
    intro a D hi h1
    obtain ⟨D', hD, h1', h2, h3, _⟩ := inUse_some h hi
    rw [h1] at h1'
    obtain rfl := Option.some.inj h1'
    refine ⟨hf.1, fun T hT => ⟨⟨_, schema_abs (h.dbs D hD) (hn D hD) (find_some hT).1⟩, fun hm x hx hfs => ?_⟩⟩
    exact hf.2 hm D.name (absDb D) h2 h3 (absTbl D T) (by simp [absDb, hT]) (absAttr D x) (List.mem_map_of_mem hx) hfs

theorem good_run {rmi : Nat → Bool} : ∀ (sts : List Stmt) (c : Cat), CatOk c → NoDangles c → FineRun rmi (absCat c) sts →
    ∃ c' es, run rmi c sts = some (c', es) ∧ CatOk c' ∧ NoDangles c' ∧ Specs (absCat c) sts (absCat c') (es.map fun e => decide (e = 0))
  | [], c, h, hn, _ => ⟨c, [], rfl, h, hn, .nil⟩
  | st :: sts, c, h, hn, hf => by
    have hf1 : Fine rmi (absCat c) st := hf [] st sts _ [] rfl .nil
    obtain ⟨c1, e, k1, k2, k3⟩ := good_step h hn hf1
    have hn1 := step_nodangle h hn hf1 k1
    obtain ⟨c', es, i1, i2, i3, i4⟩ := good_run sts c1 k2 hn1 (by
      intro pre x post s' bs hx hs
      exact hf (st :: pre) x post s' (decide (e = 0) :: bs) (by rw [hx]; rfl) (.cons k3 hs))
    exact ⟨c', e :: es, by simp only [run, k1, i1]; rfl, i2, i3, .cons k3 i4⟩

theorem init_ok : CatOk Cat.init := by
  constructor <;> simp [Cat.init]

theorem cat_schema {c : Cat} (h : CatOk c) (hn : NoDangles c) {d : Nat} {D : SDb} (hi : (absCat c).inUse = some d) (hD : (absCat c).dbs d = some D) (n : Nat) :
    c.schema n = (D.tables n).map D.entries := by
  cases hc : c.inUse with
  | none => simp [absCat, hc] at hi
  | some a =>
    obtain ⟨E, hE, h1, h2, h3, _⟩ := inUse_some h hc
    rw [h2] at hi
    obtain rfl := Option.some.inj hi
    rw [h3] at hD
    obtain rfl := Option.some.inj hD
    simp only [Cat.schema, hc, h1]
    cases ht : E.table n with
    | none => simp [absDb, ht]
    | some T =>
      simp only
      rw [schema_abs (h.dbs E hE) (hn E hE) (find_some ht).1]
      simp [absDb, ht]

/-! ### The specification is a function -/

theorem spec_reject {s s' : SCat} {st : Stmt} (h : Spec s st s' false) : s' = s := by
  generalize hb : false = b at h
  cases h <;> first | rfl | cases hb

end Mutable.DDL
