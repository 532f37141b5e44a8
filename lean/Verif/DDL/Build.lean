import Verif.DDL.Spec
import Mathlib.Tactic.Common
/-
Semantic analysis of CREATE TABLE.
-/
namespace Mutable.DDL

/-- Where a reference points to. -/
def resolve (D : Db) (t r : Nat) : Option (Nat × Nat) :=
  (D.table t).bind fun R => (R.idOf r).map fun j => (R.addr, j)

/-- The referenced attribute exists and has the type. -/
def resolves (D : Db) (ty : Nat) (p : Nat × Nat) : Prop :=
  ∃ R, D.table p.1 = some R ∧ ∃ j x, R.idOf p.2 = some j ∧ R.attrs[j]? = some x ∧ x.ty = ty

/-- What constraints do to an attribute. -/
def applyCons (D : Db) (cons : List Con) (a : Attr) : Attr :=
  { a with unique := a.unique || cons.contains .unique, notNull := a.notNull || cons.contains .notNull,
           ref := match (refsOf cons).head? with | some p => resolve D p.1 p.2 | none => a.ref }

def names (T : Tbl) : List Nat := T.attrs.map (·.name)

theorem idOf_eq (T : Tbl) (n : Nat) : T.idOf n = (names T).findIdx? (· = n) := by
  unfold Tbl.idOf names
  rw [List.findIdx?_map]
  rfl

theorem idOf_some {T : Tbl} {n i : Nat} (h : T.idOf n = some i) : ∃ x, T.attrs[i]? = some x ∧ x.name = n := by
  unfold Tbl.idOf at h
  rw [List.findIdx?_eq_some_iff_getElem] at h
  obtain ⟨hi, hp, _⟩ := h
  exact ⟨T.attrs[i], List.getElem?_eq_getElem hi, by simpa using hp⟩

theorem idOf_none {T : Tbl} {n : Nat} : T.idOf n = none ↔ n ∉ names T := by
  unfold Tbl.idOf names
  rw [List.findIdx?_eq_none_iff]
  simp only [decide_eq_false_iff_not, List.mem_map, not_exists, not_and]

theorem names_modify {T : Tbl} {i : Nat} {f : Attr → Attr} (hf : ∀ a, (f a).name = a.name) : names (T.modify i f) = names T := by
  unfold names Tbl.modify
  apply List.ext_getElem?
  intro k
  simp only [List.getElem?_map, List.getElem?_modify]
  cases T.attrs[k]? with
  | none => rfl
  | some x =>
    simp only [Option.map_some]
    split <;> simp [hf]

theorem idOf_modify {T : Tbl} {i n : Nat} {f : Attr → Attr} (hf : ∀ a, (f a).name = a.name) : (T.modify i f).idOf n = T.idOf n := by
  rw [idOf_eq, names_modify hf, ← idOf_eq]

theorem modify_modify {T : Tbl} {i : Nat} {f g : Attr → Attr} : (T.modify i f).modify i g = T.modify i (g ∘ f) := by
  unfold Tbl.modify
  simp [List.modify_modify_eq]

theorem modify_id {T : Tbl} {i : Nat} {f : Attr → Attr} (h : ∀ a, f a = a) : T.modify i f = T := by
  have : f = id := funext h
  subst this
  unfold Tbl.modify
  simp

/-- The constraints of an attribute are valid. -/
def okCons (D : Db) (ty : Nat) (hasPk flag : Bool) (cons : List Con) : Prop :=
  cons.count .primaryKey + hasPk.toNat ≤ 1 ∨ cons.count .primaryKey = 0

def okCons' (D : Db) (ty : Nat) (flag : Bool) (cons : List Con) : Prop :=
  ((refsOf cons).length + flag.toNat ≤ 1 ∨ refsOf cons = []) ∧ (∀ e, .check e ∈ cons → e = 0) ∧ ∀ p ∈ refsOf cons, resolves D ty p

theorem okCons'_pk {D : Db} {ty : Nat} {flag : Bool} {cons : List Con} : okCons' D ty flag (.primaryKey :: cons) ↔ okCons' D ty flag cons := by
  simp [okCons', refsOf]

theorem con_fold (D : Db) (name ty i : Nat) : ∀ (cons : List Con) (b : Build) (flag : Bool), b.tbl.idOf name = some i →
    b.errs ≤ (cons.foldl (addCon D name ty) (b, flag)).1.errs ∧
    (((cons.foldl (addCon D name ty) (b, flag)).1.errs = b.errs) ↔
      (okCons D ty b.hasPk flag cons ∧ okCons' D ty flag cons)) ∧
    ((cons.foldl (addCon D name ty) (b, flag)).1.errs = b.errs →
      (cons.foldl (addCon D name ty) (b, flag)).1.hasPk = (b.hasPk || cons.contains .primaryKey) ∧
      (cons.foldl (addCon D name ty) (b, flag)).1.tbl =
        { b.tbl.modify i (applyCons D cons) with
          pk := if cons.contains .primaryKey ∧ i ∉ b.tbl.pk then b.tbl.pk ++ [i] else b.tbl.pk })
  | [], b, flag, hi => by
    refine ⟨Nat.le_refl _, ⟨fun _ => ⟨by simp [okCons], by simp [okCons', refsOf]⟩, fun _ => rfl⟩, fun _ => ⟨by simp, ?_⟩⟩
    simp only [List.foldl_nil, List.contains_nil, Bool.false_eq_true, false_and, if_false]
    rw [modify_id]
    intro a
    simp [applyCons, refsOf]
  | k :: cons, b, flag, hi => by
    rw [List.foldl_cons]
    have hgd : (b.tbl.idOf name).getD 0 = i := by rw [hi]; rfl
    cases k with
    | primaryKey =>
      have e : addCon D name ty (b, flag) .primaryKey = ({ tbl := { b.tbl with pk := if b.tbl.pk.contains i then b.tbl.pk else b.tbl.pk ++ [i] }, hasPk := true, errs := b.errs + (if b.hasPk then 1 else 0) }, flag) := by
        simp only [addCon, hgd]
      rw [e]
      obtain ⟨h1, h2, h3⟩ := con_fold D name ty i cons { tbl := { b.tbl with pk := if b.tbl.pk.contains i then b.tbl.pk else b.tbl.pk ++ [i] }, hasPk := true, errs := b.errs + (if b.hasPk then 1 else 0) } flag hi
      simp only at h1 h2 h3
      refine ⟨Nat.le_trans (Nat.le_add_right _ _) h1, ?_, ?_⟩
      · constructor
        · intro he
          have hp : b.hasPk = false := by
            cases hb : b.hasPk with
            | false => rfl
            | true => rw [hb] at h1 he; simp only [if_true] at h1 he; omega
          rw [hp] at he h2
          simp only [Bool.false_eq_true, if_false, Nat.add_zero] at he h2
          obtain ⟨g1, g2⟩ := h2.mp he
          refine ⟨?_, okCons'_pk.mpr g2⟩
          simp only [okCons, hp, Bool.toNat_true, Bool.toNat_false, List.count_cons_self] at g1 ⊢
          omega
        · rintro ⟨g1, g2⟩
          have hp : b.hasPk = false := by
            cases hb : b.hasPk with
            | false => rfl
            | true => simp [okCons, hb] at g1
          rw [hp] at h2 ⊢
          simp only [Bool.false_eq_true, if_false, Nat.add_zero] at h2 ⊢
          refine h2.mpr ⟨?_, okCons'_pk.mp g2⟩
          simp only [okCons, hp, Bool.toNat_true, Bool.toNat_false, List.count_cons_self] at g1 ⊢
          omega
      · intro he
        have hp : b.hasPk = false := by
          cases hb : b.hasPk with
          | false => rfl
          | true => rw [hb] at h1 he; simp only [if_true] at h1 he; omega
        rw [hp] at he h3 h2
        simp only [Bool.false_eq_true, if_false, Nat.add_zero] at he h3 h2
        obtain ⟨g1, g2⟩ := h3 he
        have hc : cons.contains Con.primaryKey = false := by
          have := (h2.mp he).1
          simp only [okCons, Bool.toNat_true] at this
          have : cons.count .primaryKey = 0 := by omega
          simpa using List.count_eq_zero.mp this
        rw [hp]
        simp only [Bool.false_eq_true, if_false, Nat.add_zero]
        refine ⟨by rw [g1]; simp, ?_⟩
        rw [g2]
        simp only [hc, Bool.false_eq_true, false_and, if_false, List.contains_cons, beq_self_eq_true, Bool.true_or, true_and]
        have ha : applyCons D (.primaryKey :: cons) = applyCons D cons := by
          funext a; simp [applyCons, refsOf]
        rw [ha]
        simp only [Tbl.modify]
        by_cases hm : i ∈ b.tbl.pk <;> simp [hm]
    | unique =>
      have e : addCon D name ty (b, flag) .unique = ({ b with tbl := b.tbl.modify i fun a => { a with unique := true } }, flag) := by
        simp only [addCon, hgd]
      rw [e]
      have hi' : (b.tbl.modify i fun a => { a with unique := true }).idOf name = some i := (by rw [idOf_modify]; exacts [hi, fun _ => rfl])
      obtain ⟨h1, h2, h3⟩ := con_fold D name ty i cons { b with tbl := b.tbl.modify i fun a => { a with unique := true } } flag hi'
      simp only at h1 h2 h3
      refine ⟨h1, ?_, ?_⟩
      · rw [h2]
        simp only [okCons, okCons', refsOf, List.filterMap_cons, List.mem_cons, reduceCtorEq, false_or, List.count_cons, beq_iff_eq, if_false, Nat.add_zero]
      · intro he
        obtain ⟨g1, g2⟩ := h3 he
        refine ⟨by rw [g1]; simp, ?_⟩
        rw [g2, modify_modify]
        have : applyCons D cons ∘ (fun a : Attr => { a with unique := true }) = applyCons D (.unique :: cons) := by
          funext a; simp [applyCons, refsOf]
        rw [this]
        simp [Tbl.modify]
    | notNull =>
      have e : addCon D name ty (b, flag) .notNull = ({ b with tbl := b.tbl.modify i fun a => { a with notNull := true } }, flag) := by
        simp only [addCon, hgd]
      rw [e]
      have hi' : (b.tbl.modify i fun a => { a with notNull := true }).idOf name = some i := (by rw [idOf_modify]; exacts [hi, fun _ => rfl])
      obtain ⟨h1, h2, h3⟩ := con_fold D name ty i cons { b with tbl := b.tbl.modify i fun a => { a with notNull := true } } flag hi'
      simp only at h1 h2 h3
      refine ⟨h1, ?_, ?_⟩
      · rw [h2]
        simp only [okCons, okCons', refsOf, List.filterMap_cons, List.mem_cons, reduceCtorEq, false_or, List.count_cons, beq_iff_eq, if_false, Nat.add_zero]
      · intro he
        obtain ⟨g1, g2⟩ := h3 he
        refine ⟨by rw [g1]; simp, ?_⟩
        rw [g2, modify_modify]
        have : applyCons D cons ∘ (fun a : Attr => { a with notNull := true }) = applyCons D (.notNull :: cons) := by
          funext a; simp [applyCons, refsOf]
        rw [this]
        simp [Tbl.modify]
    | check n =>
      have e : addCon D name ty (b, flag) (.check n) = ({ b with errs := b.errs + n }, flag) := rfl
      rw [e]
      obtain ⟨h1, h2, h3⟩ := con_fold D name ty i cons { b with errs := b.errs + n } flag hi
      simp only at h1 h2 h3
      refine ⟨by omega, ?_, ?_⟩
      · constructor
        · intro he
          have hn : n = 0 := by omega
          subst hn
          obtain ⟨g1, g2⟩ := h2.mp he
          refine ⟨?_, ?_⟩
          · simpa [okCons, List.count_cons] using g1
          · obtain ⟨k1, k2, k3⟩ := g2
            refine ⟨k1, ?_, k3⟩
            intro e' hm
            rcases List.mem_cons.mp hm with hm | hm
            · cases hm; rfl
            · exact k2 e' hm
        · rintro ⟨g1, k1, k2, k3⟩
          have hn : n = 0 := k2 n (by simp)
          subst hn
          refine h2.mpr ⟨?_, k1, fun e' hm => k2 e' (by simp [hm]), k3⟩
          simpa [okCons, List.count_cons] using g1
      · intro he
        have hn : n = 0 := by omega
        subst hn
        obtain ⟨g1, g2⟩ := h3 he
        refine ⟨by rw [g1]; simp, ?_⟩
        rw [g2]
        have : applyCons D (.check 0 :: cons) = applyCons D cons := by
          funext a; simp [applyCons, refsOf]
        rw [this]
        simp [Tbl.modify]
    | references t r =>
      by_cases hgood : flag = false ∧ resolves D ty (t, r)
      · obtain ⟨hf, R, hR, j, x, hj, hx, hty⟩ := hgood
        simp only at hR hj
        subst hf
        have e : addCon D name ty (b, false) (.references t r) = ({ b with tbl := b.tbl.modify i fun a => { a with ref := some (R.addr, j) } }, true) := by
          simp only [addCon, hgd, hR, hj, hx]
          simp [hty]
        rw [e]
        have hi' : (b.tbl.modify i fun a => { a with ref := some (R.addr, j) }).idOf name = some i := (by rw [idOf_modify]; exacts [hi, fun _ => rfl])
        obtain ⟨h1, h2, h3⟩ := con_fold D name ty i cons { b with tbl := b.tbl.modify i fun a => { a with ref := some (R.addr, j) } } true hi'
        simp only at h1 h2 h3
        have hrefs : refsOf (.references t r :: cons) = (t, r) :: refsOf cons := rfl
        have hres : resolve D t r = some (R.addr, j) := by simp [resolve, hR, hj]
        refine ⟨h1, ?_, ?_⟩
        · rw [h2]
          simp only [okCons, okCons', hrefs, List.length_cons, Bool.toNat_true, Bool.toNat_false, List.mem_cons, reduceCtorEq, false_or, List.count_cons,
            beq_iff_eq, if_false, Nat.add_zero, forall_eq_or_imp]
          have hr : resolves D ty (t, r) := ⟨R, hR, j, x, hj, hx, hty⟩
          constructor
          · rintro ⟨g1, g2, g3, g4⟩
            refine ⟨g1, Or.inl ?_, g3, hr, g4⟩
            rcases g2 with g2 | g2
            · omega
            · simp [g2]
          · rintro ⟨g1, g2, g3, _, g4⟩
            refine ⟨g1, Or.inr ?_, g3, g4⟩
            rcases g2 with g2 | g2
            · exact List.eq_nil_of_length_eq_zero (by omega)
            · simp at g2
        · intro he
          obtain ⟨g1, g2⟩ := h3 he
          have hnil : refsOf cons = [] := by
            have := (h2.mp he).2.1
            simp only [Bool.toNat_true] at this
            rcases this with g | g
            · exact List.eq_nil_of_length_eq_zero (by omega)
            · exact g
          refine ⟨by rw [g1]; simp, ?_⟩
          rw [g2, modify_modify]
          have : applyCons D cons ∘ (fun a : Attr => { a with ref := some (R.addr, j) }) = applyCons D (.references t r :: cons) := by
            funext a; simp [applyCons, hrefs, hnil, hres]
          rw [this]
          simp [Tbl.modify]
      · -- an error is counted
        obtain ⟨b', hb', hlt, hid⟩ : ∃ b' : Build, addCon D name ty (b, flag) (.references t r) = (b', true) ∧ b.errs < b'.errs ∧ b'.tbl.idOf name = some i := by
          simp only [addCon, hgd]
          cases hR : D.table t with
          | none => exact ⟨_, rfl, by simp only; omega, hi⟩
          | some R =>
            simp only
            cases hj : R.idOf r with
            | none => exact ⟨_, rfl, by simp only; omega, hi⟩
            | some j =>
              refine ⟨_, rfl, ?_, ?_⟩
              · simp only
                obtain ⟨x, hx, _⟩ := idOf_some hj
                rw [hx]
                simp only
                cases flag with
                | true => simp only [if_true]; omega
                | false =>
                  have : x.ty ≠ ty := fun h => hgood ⟨rfl, R, hR, j, x, hj, hx, h⟩
                  simp [this]
              · simp only
                rw [idOf_modify]; exacts [hi, fun _ => rfl]
        rw [hb']
        obtain ⟨h1, h2, h3⟩ := con_fold D name ty i cons b' true hid
        refine ⟨by omega, ⟨fun he => by omega, ?_⟩, fun he => by omega⟩
        rintro ⟨_, k1, _, k3⟩
        exfalso
        apply hgood
        have hrefs : refsOf (.references t r :: cons) = (t, r) :: refsOf cons := rfl
        rw [hrefs] at k1 k3
        refine ⟨?_, k3 (t, r) (by simp)⟩
        rcases k1 with k1 | k1
        · cases flag with
          | false => rfl
          | true => simp at k1
        · simp at k1

/-! ### All attributes -/

/-- The attribute that analysis makes of a definition. -/
def mk (D : Db) (d : AttrDef) : Attr := applyCons D d.cons ⟨d.name, d.ty, false, false, none⟩

/-- The names of the attributes of the primary key. -/
def pkNames (T : Tbl) : List Nat := T.pk.filterMap fun i => (T.attrs[i]?).map (·.name)

/-- There is at most one PRIMARY KEY. -/
def okPk (hasPk : Bool) (cons : List Con) : Prop := cons.count .primaryKey + hasPk.toNat ≤ 1 ∨ cons.count .primaryKey = 0

theorem filterMap_append_lt {l : List Nat} {xs ys : List Attr} (h : ∀ i ∈ l, i < xs.length) :
    (l.filterMap fun i => ((xs ++ ys)[i]?).map (·.name)) = l.filterMap fun i => (xs[i]?).map (·.name) := by
  apply List.filterMap_congr
  intro i hi
  rw [List.getElem?_append_left (h i hi)]

theorem add_new (D : Db) (b : Build) (d : AttrDef) (hpk : ∀ i ∈ b.tbl.pk, i < b.tbl.attrs.length) (hn : d.name ∉ names b.tbl) :
    b.errs ≤ (addAttr D b d).errs ∧
    ((addAttr D b d).errs = b.errs ↔ okPk b.hasPk d.cons ∧ okCons' D d.ty false d.cons) ∧
    ((addAttr D b d).errs = b.errs →
      (addAttr D b d).hasPk = (b.hasPk || d.cons.contains .primaryKey) ∧ (addAttr D b d).tbl.addr = b.tbl.addr ∧
      (addAttr D b d).tbl.name = b.tbl.name ∧ (addAttr D b d).tbl.attrs = b.tbl.attrs ++ [mk D d] ∧
      pkNames (addAttr D b d).tbl = pkNames b.tbl ++ (if d.cons.contains .primaryKey then [d.name] else []) ∧
      (∀ i ∈ (addAttr D b d).tbl.pk, i < (addAttr D b d).tbl.attrs.length) ∧
      (addAttr D b d).tbl.pk.length = b.tbl.pk.length + (if d.cons.contains .primaryKey then 1 else 0)) := by
  have hid : b.tbl.idOf d.name = none := idOf_none.mpr hn
  have e : addAttr D b d = (d.cons.foldl (addCon D d.name d.ty)
      ({ b with tbl := { b.tbl with attrs := b.tbl.attrs ++ [⟨d.name, d.ty, false, false, none⟩] } }, false)).1 := by
    simp only [addAttr, hid]
  have hi : ({ b.tbl with attrs := b.tbl.attrs ++ [⟨d.name, d.ty, false, false, none⟩] } : Tbl).idOf d.name = some b.tbl.attrs.length := by
    unfold Tbl.idOf
    rw [List.findIdx?_append]
    unfold Tbl.idOf at hid
    rw [hid]
    simp [List.findIdx?_cons]
  obtain ⟨h1, h2, h3⟩ := con_fold D d.name d.ty b.tbl.attrs.length d.cons
    { b with tbl := { b.tbl with attrs := b.tbl.attrs ++ [⟨d.name, d.ty, false, false, none⟩] } } false hi
  rw [← e] at h1 h2 h3
  simp only at h1 h2 h3
  refine ⟨h1, h2, fun he => ?_⟩
  obtain ⟨g1, g2⟩ := h3 he
  have ha : (addAttr D b d).tbl.attrs = b.tbl.attrs ++ [mk D d] := by
    rw [g2]
    simp only [Tbl.modify]
    apply List.ext_getElem?
    intro k
    rw [List.getElem?_modify]
    rcases Nat.lt_trichotomy k b.tbl.attrs.length with hk | hk | hk
    · rw [List.getElem?_append_left hk, List.getElem?_append_left hk]
      have hne : ¬b.tbl.attrs.length = k := by omega
      simp [hne]
    · subst hk
      simp [mk]
    · have h1 : (b.tbl.attrs ++ [(⟨d.name, d.ty, false, false, none⟩ : Attr)])[k]? = none := by
        rw [List.getElem?_eq_none_iff]; simp; omega
      have h2 : (b.tbl.attrs ++ [mk D d])[k]? = none := by
        rw [List.getElem?_eq_none_iff]; simp; omega
      rw [h1, h2]
      rfl
  have hnot : b.tbl.attrs.length ∉ b.tbl.pk := fun hm => Nat.lt_irrefl _ (hpk _ hm)
  have hp : (addAttr D b d).tbl.pk = b.tbl.pk ++ (if d.cons.contains .primaryKey then [b.tbl.attrs.length] else []) := by
    rw [g2]
    by_cases hc : d.cons.contains .primaryKey = true
    · simp only [hc, hnot, not_false_eq_true, and_self, if_true]
    · simp only [hc, Bool.false_eq_true, false_and, if_false, List.append_nil]
  refine ⟨g1, by rw [g2]; rfl, by rw [g2]; rfl, ha, ?_, ?_, ?_⟩
  · unfold pkNames
    rw [ha, hp, List.filterMap_append, filterMap_append_lt hpk]
    congr 1
    split
    · simp [mk, applyCons]
    · rfl
  · rw [ha, hp]
    intro i hm
    rw [List.length_append, List.length_singleton]
    rcases List.mem_append.mp hm with hm | hm
    · have := hpk i hm; omega
    · split at hm
      · obtain rfl := List.mem_singleton.mp hm; omega
      · simp at hm
  · rw [hp, List.length_append]
    split <;> rfl

theorem add_dup (D : Db) (b : Build) (d : AttrDef) (hn : d.name ∈ names b.tbl) : b.errs < (addAttr D b d).errs := by
  cases hid : b.tbl.idOf d.name with
  | none => exact absurd hn (idOf_none.mp hid)
  | some i =>
    have e : addAttr D b d = (d.cons.foldl (addCon D d.name d.ty) ({ b with errs := b.errs + 1 }, false)).1 := by
      simp only [addAttr, hid]
    rw [e]
    exact Nat.lt_of_lt_of_le (Nat.lt_succ_self _) (con_fold D d.name d.ty i d.cons { b with errs := b.errs + 1 } false hid).1

theorem add_le (D : Db) (b : Build) (d : AttrDef) : b.errs ≤ (addAttr D b d).errs := by
  cases hid : b.tbl.idOf d.name with
  | none =>
    have hi : ({ b.tbl with attrs := b.tbl.attrs ++ [⟨d.name, d.ty, false, false, none⟩] } : Tbl).idOf d.name = some b.tbl.attrs.length := by
      unfold Tbl.idOf
      rw [List.findIdx?_append]
      unfold Tbl.idOf at hid
      rw [hid]
      simp [List.findIdx?_cons]
    have e : addAttr D b d = (d.cons.foldl (addCon D d.name d.ty)
        ({ b with tbl := { b.tbl with attrs := b.tbl.attrs ++ [⟨d.name, d.ty, false, false, none⟩] } }, false)).1 := by
      simp only [addAttr, hid]
    rw [e]
    exact (con_fold D d.name d.ty b.tbl.attrs.length d.cons
      { b with tbl := { b.tbl with attrs := b.tbl.attrs ++ [⟨d.name, d.ty, false, false, none⟩] } } false hi).1
  | some i => exact Nat.le_of_lt (add_dup D b d (by
      obtain ⟨x, hx, hxn⟩ := idOf_some hid
      exact List.mem_map.mpr ⟨x, List.mem_of_getElem? hx, hxn⟩))

theorem fold_le (D : Db) : ∀ (attrs : List AttrDef) (b : Build), b.errs ≤ (attrs.foldl (addAttr D) b).errs
  | [], _ => Nat.le_refl _
  | d :: ds, b => by
    rw [List.foldl_cons]
    exact Nat.le_trans (add_le D b d) (fold_le D ds _)

theorem attr_fold (D : Db) : ∀ (attrs : List AttrDef) (b : Build), (∀ i ∈ b.tbl.pk, i < b.tbl.attrs.length) →
    ((attrs.foldl (addAttr D) b).errs = b.errs ↔ (attrs.map (·.name)).Nodup ∧ (∀ d ∈ attrs, d.name ∉ names b.tbl) ∧
      okPk b.hasPk (attrs.flatMap (·.cons)) ∧ ∀ d ∈ attrs, okCons' D d.ty false d.cons) ∧
    ((attrs.foldl (addAttr D) b).errs = b.errs →
      (attrs.foldl (addAttr D) b).tbl.addr = b.tbl.addr ∧ (attrs.foldl (addAttr D) b).tbl.name = b.tbl.name ∧
      (attrs.foldl (addAttr D) b).tbl.attrs = b.tbl.attrs ++ attrs.map (mk D) ∧
      pkNames (attrs.foldl (addAttr D) b).tbl = pkNames b.tbl ++ (attrs.filter fun d => d.cons.contains .primaryKey).map (·.name) ∧
      (∀ i ∈ (attrs.foldl (addAttr D) b).tbl.pk, i < (attrs.foldl (addAttr D) b).tbl.attrs.length) ∧
      (attrs.foldl (addAttr D) b).tbl.pk.length = b.tbl.pk.length + (attrs.filter fun d => d.cons.contains .primaryKey).length)
  | [], b, hpk => by
    refine ⟨⟨fun _ => ⟨by simp, by simp, by simp [okPk], by simp⟩, fun _ => rfl⟩, fun _ => ⟨rfl, rfl, by simp, by simp, hpk, by simp⟩⟩
  | d :: ds, b, hpk => by
    rw [List.foldl_cons]
    by_cases hn : d.name ∈ names b.tbl
    · have h := Nat.lt_of_lt_of_le (add_dup D b d hn) (fold_le D ds _)
      refine ⟨⟨fun he => by omega, ?_⟩, fun he => by omega⟩
      rintro ⟨_, h2, _⟩
      exact absurd hn (h2 d (by simp))
    · obtain ⟨a1, a2, a3⟩ := add_new D b d hpk hn
      have hle := fold_le D ds (addAttr D b d)
      by_cases hs : (addAttr D b d).errs = b.errs
      · obtain ⟨g1, g2, g3, g4, g5, g6, g7⟩ := a3 hs
        obtain ⟨o1, o2⟩ := a2.mp hs
        obtain ⟨i1, i2⟩ := attr_fold D ds (addAttr D b d) g6
        rw [hs] at i1 i2
        have hnames : names (addAttr D b d).tbl = names b.tbl ++ [d.name] := by
          unfold names
          rw [g4]
          simp [mk, applyCons]
        constructor
        · rw [i1, hnames, g1]
          simp only [List.map_cons, List.nodup_cons, List.flatMap_cons, List.mem_map, not_exists, not_and, List.mem_cons, forall_eq_or_imp, okPk,
            List.count_append, List.mem_append, List.not_mem_nil, or_false, not_or]
          simp only [okPk] at o1
          constructor
          · rintro ⟨k1, k2, k3, k4⟩
            refine ⟨⟨fun x hx he => (k2 x hx).2 he, k1⟩, ⟨hn, fun x hx => (k2 x hx).1⟩, ?_, o2, k4⟩
            by_cases hc : d.cons.count .primaryKey = 0
            · have : d.cons.contains Con.primaryKey = false := by simpa using List.count_eq_zero.mp hc
              rw [this, Bool.or_false] at k3
              omega
            · have : d.cons.contains Con.primaryKey = true := by
                simpa using List.count_pos_iff.mp (Nat.pos_of_ne_zero hc)
              rw [this, Bool.or_true, Bool.toNat_true] at k3
              omega
          · rintro ⟨⟨k1, k2⟩, ⟨_, k3⟩, k4, _, k5⟩
            refine ⟨k2, fun x hx => ⟨k3 x hx, fun he => k1 x hx he⟩, ?_, k5⟩
            by_cases hc : d.cons.count .primaryKey = 0
            · have : d.cons.contains Con.primaryKey = false := by simpa using List.count_eq_zero.mp hc
              rw [this, Bool.or_false]
              omega
            · have : d.cons.contains Con.primaryKey = true := by
                simpa using List.count_pos_iff.mp (Nat.pos_of_ne_zero hc)
              rw [this, Bool.or_true, Bool.toNat_true]
              omega
        · intro he
          obtain ⟨j1, j2, j3, j4, j5, j6⟩ := i2 he
          refine ⟨j1.trans g2, j2.trans g3, ?_, ?_, j5, ?_⟩
          · rw [j3, g4]; simp
          · rw [j4, g5, List.filter_cons]
            split <;> simp_all
          · rw [j6, g7, List.filter_cons]
            split <;> simp_all <;> omega
      · have hlt : b.errs < (addAttr D b d).errs := by omega
        refine ⟨⟨fun he => by omega, ?_⟩, fun he => by omega⟩
        rintro ⟨_, _, k3, k4⟩
        exfalso
        apply hs
        refine a2.mpr ⟨?_, k4 d (by simp)⟩
        simp only [okPk, List.flatMap_cons, List.count_append] at k3 ⊢
        omega

end Mutable.DDL
