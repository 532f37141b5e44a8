import Verif.Insert.Main

/-!
# C49: INSERT

An `INSERT` appends, to what a scan of the table returns, one row per tuple with the values of its expressions converted
to the columns' types, leaves all other rows alone, and does nothing if it is rejected.  This is false of the code in
general; `C49_insert_partial` proves it under the restrictions of `Verif.Insert.Spec`, and the counterexamples below show
that the restrictions are needed.
-/
namespace Mutable.Ins

open SM Layout

theorem accepted_mem {cols : List Col} {tuples : List (List Item)} (h : accepted cols tuples = true) {its : List Item}
    (hm : its ∈ tuples) : its.length = (visible cols).length ∧
      ∀ (j : Nat) c it, (visible cols)[j]? = some c → its[j]? = some it → valueOK c it = true := by
  rw [accepted, List.all_eq_true] at h
  have := h its hm
  simp only [Bool.and_eq_true, beq_iff_eq, List.all_eq_true] at this
  obtain ⟨-, h1, h2⟩ := this
  refine ⟨h1, fun j c it hc hit => ?_⟩
  refine h2 (c, it) ?_
  rw [List.mem_iff_getElem?]
  refine ⟨j, ?_⟩
  rw [List.getElem?_zip_eq_some]
  exact ⟨hc, hit⟩

theorem vcount_user {cols : List Col} (h : ∀ c ∈ cols, c.kind = .user) {p : Nat} (hp : p ≤ cols.length) : vcount cols p = p := by
  unfold vcount
  rw [List.countP_eq_length.2]
  · simpa using hp
  · intro c hc
    have := (hidden_iff c).2 (h c (List.mem_of_mem_take hc))
    rw [this]; rfl

/-- A division by NULL or zero somewhere in the statement. -/
def DivSomewhere (like : Str → Str → Bool) (tuples : List (List Item)) : Prop :=
  ∃ its ∈ tuples, ∃ e dt, Item.expr e dt ∈ its ∧ ∃ x ∈ subs e, DivBad like (fun _ _ => none) x

theorem clean_of {like : Str → Str → Bool} {cols : List Col} {tuples : List (List Item)}
    (ha : accepted cols tuples = true) (ht : ∀ its ∈ tuples, TupleOK like cols its) (hn : NullsOK cols tuples)
    {its : List Item} (hm : its ∈ tuples) : Clean like (DivSomewhere like tuples) cols its := by
  obtain ⟨hlen, hval⟩ := accepted_mem ha hm
  have hT := ht its hm
  refine ⟨hlen, ?_, ?_, hT.consts⟩
  · intro p hp hv it hit
    have hvis := vcount_visible hp hv
    refine ⟨hval _ _ _ hvis hit, ?_, ?_⟩
    · rintro rfl
      rcases hn with h | h
      · exact vcount_user h hp.le
      · exact absurd (List.mem_of_getElem? hit) (h its hm)
    · rintro e dt rfl
      exact ⟨hT.expr _ _ _ _ hvis hit, fun v hsv => hT.fits _ _ _ _ _ hvis hit hsv,
        fun x hx hb => ⟨its, hm, e, dt, List.mem_of_getElem? hit, x, hx, hb⟩⟩
  · intro p hp hv hnn it hit
    exact hT.notNull _ _ _ (vcount_visible hp hv) hit hnn

/-- **C49** (partial).  An accepted `INSERT` whose tuples satisfy the restrictions of `Verif.Insert.Spec` either succeeds,
and then the table contains what it contained before followed by the rows the tuples denote; or it fails because the
store is full, because of a signed overflow in the evaluation of an expression, or because of a division by zero or NULL
in one, and then the rows of the tuples before the failing one have been appended.

Missing: the restrictions (each is needed, see below): `NULL` in a multi-versioned table, `DEFAULT` after a value, values
that do not fit the column, NULL for a column that is not nullable. -/
theorem C49_insert_partial {E : Env} (hre : E.re = E.like) {o : Opts} {T : Table} (hT : T.OK o) (hc : TableCols T.cols)
    (h64 : T.cols.length ≤ 64) {start : Int} (hs : -2 ^ 63 ≤ start ∧ start < 2 ^ 63) (st : Store)
    (tuples : List (List Item)) (ha : accepted T.cols tuples = true) (ht : ∀ its ∈ tuples, TupleOK E.like T.cols its)
    (hd : DefaultsOK tuples) (hn : NullsOK T.cols tuples) :
    match insert E T start st tuples with
    | (st', none) => contents T st' = contents T st ++ tuples.map (specRow E.like start T.cols) ∧
        st'.rows = st.rows + tuples.length ∧ st'.cap = st.cap
    | (st', some f) =>
        (f = .capacity ∨ f = .machine .overflow ∨ (f = .machine .divZero ∧ DivSomewhere E.like tuples)) ∧
        (f = .capacity → st'.rows = st.cap) ∧ st'.cap = st.cap ∧
        ∃ k < tuples.length, contents T st' = contents T st ++ (tuples.take k).map (specRow E.like start T.cols) := by
  unfold insert
  rw [if_pos ha]
  exact loop_ok hre (geo_of_ok hT) hc h64 hs tuples st none (Tup.init T.cols) (fun its hm => clean_of ha ht hn hm) hd
    (by rintro x ⟨⟩) (fun _ _ _ _ _ _ => rfl)

/-- A statement rejected by the semantic analysis changes nothing. -/
theorem C49_rejected (E : Env) (T : Table) (start : Int) (st : Store) (tuples : List (List Item))
    (ha : accepted T.cols tuples = false) : insert E T start st tuples = (st, none) := by
  unfold insert
  rw [ha]; rfl

theorem valueOK_iff (c : Col) (it : Item) : valueOK c it = true ↔ Acceptable c it := by
  constructor
  · intro h
    cases it with
    | null => exact .null h
    | dflt => exact .dflt
    | expr e dt =>
      unfold valueOK at h
      simp only at h
      split at h
      · next h1 h2 => exact .bool h2 h1
      · next h1 h2 => exact .str h2 h1
      · next h1 h2 => cases dt with
        | false => exact .date h2 h1
        | true => cases h
      · next h1 h2 => cases dt with
        | true => exact .datetime h2 h1
        | false => cases h
      · next h1 h2 => exact .int h2 h1
      · next h1 h2 => exact .decimal h2 h1
      · cases h
  · intro h
    cases h <;> simp_all [valueOK]

/-- `INSERT` is accepted iff every tuple is not empty and has one acceptable value for every column the user declared. -/
theorem C49_accepted_iff (cols : List Col) (tuples : List (List Item)) :
    accepted cols tuples = true ↔ ∀ t ∈ tuples, t ≠ [] ∧ List.Forall₂ Acceptable (visible cols) t := by
  have key : ∀ (cs : List Col) (t : List Item), (t.length == cs.length && (cs.zip t).all (fun p => valueOK p.1 p.2)) = true ↔
      List.Forall₂ Acceptable cs t := by
    intro cs
    induction cs with
    | nil => intro t; cases t <;> simp
    | cons c cs ih =>
      intro t
      cases t with
      | nil => simp
      | cons it t =>
        rw [List.forall₂_cons, ← ih, ← valueOK_iff]
        simp only [List.length_cons, List.zip_cons_cons, List.all_cons, Bool.and_eq_true, beq_iff_eq]
        constructor
        · rintro ⟨h1, h2, h3⟩; exact ⟨h2, by omega, h3⟩
        · rintro ⟨h1, h2, h3⟩; exact ⟨by omega, h1, h3⟩
  unfold accepted
  rw [List.all_eq_true]
  refine forall₂_congr fun t _ => ?_
  rw [Bool.and_eq_true, key]
  cases t <;> simp [visible]

/-- In particular, a literal `NULL` is not accepted for a column declared `NOT NULL`. -/
theorem C49_null_rejected (E : Env) (T : Table) (start : Int) (st : Store) (tuples : List (List Item))
    (t : List Item) (ht : t ∈ tuples) (i : Nat) (c : Col) (hc : (visible T.cols)[i]? = some c) (hn : c.nullable = false)
    (hi : t[i]? = some .null) : insert E T start st tuples = (st, none) := by
  apply C49_rejected
  by_contra h
  obtain ⟨_, h⟩ := (C49_accepted_iff T.cols tuples).1 (by simpa using h) t ht
  obtain ⟨h1, h2⟩ := List.forall₂_iff_get.1 h
  obtain ⟨a1, a2⟩ := List.getElem?_eq_some_iff.1 hc
  obtain ⟨b1, b2⟩ := List.getElem?_eq_some_iff.1 hi
  have := h2 i a1 b1
  simp only [List.get_eq_getElem, a2, b2] at this
  cases this with
  | null h => rw [hn] at h; cases h

theorem loop_preserves {E : Env} {T : Table} (G : Geo T) {start : Int} : ∀ (tuples : List (List Item)) (st : Store)
    (w : Option Cursor) (t : Tup), (∀ x, w = some x → At T x st.rows) → st.rows ≤ st.cap →
    let r := insertLoop E T start st w t tuples
    contents T st <+: contents T r.1 ∧ r.1.rows ≤ st.rows + tuples.length ∧ r.1.rows ≤ st.cap ∧ r.1.cap = st.cap ∧
      (r.2 = none → r.1.rows = st.rows + tuples.length) := by
  intro tuples
  induction tuples with
  | nil => intro st w t _ hcap; simp [insertLoop, hcap]
  | cons its rest ih =>
    intro st w t hw hcap
    simp only
    rw [insertLoop]
    cases fillTuple E T.cols its t with
    | error e => simp [hcap]
    | ok t1 =>
      simp only
      cases ha : append T st w (setTs T.cols start t1) with
      | none => simp [hcap]
      | some r =>
        obtain ⟨st1, w1⟩ := r
        have h : At T w1 st1.rows ∧ st1.rows = st.rows + 1 ∧ st1.cap = st.cap ∧ st1.rows ≤ st.cap ∧
            contents T st <+: contents T st1 := by
          unfold append at ha
          split at ha
          · cases ha
          · rename_i hne
            obtain ⟨w0, hw0, ha⟩ : ∃ w0, At T w0 st.rows ∧
                some (Store.mk (storeRow T w0 (setTs T.cols start t1) st.mem) (st.rows + 1) st.cap, w0.next T) = some (st1, w1) := by
              cases w with
              | none => exact ⟨_, at_start T _, by simpa using ha⟩
              | some x => exact ⟨x, hw x rfl, by simpa using ha⟩
            simp only [Option.some.injEq, Prod.mk.injEq] at ha
            obtain ⟨rfl, rfl⟩ := ha
            refine ⟨hw0.next, rfl, rfl, by show st.rows + 1 ≤ st.cap; omega, ?_⟩
            rw [contents_eq G, contents_eq G]
            simp only
            rw [List.range_succ, List.map_append]
            refine ⟨_, congrArg (· ++ _) (List.map_congr_left ?_)⟩
            intro r hr'
            have := List.mem_range.1 hr'
            rw [storeRow_other G hw0 _ _ (by omega)]
        obtain ⟨h1, h2, h3, h4, h5⟩ := h
        obtain ⟨i1, i2, i3, i4, i5⟩ := ih st1 (some w1) (setTs T.cols start t1) (by rintro x ⟨⟩; exact h1) (h3 ▸ h4)
        simp only
        refine ⟨h5.trans i1, ?_, h3 ▸ i3, i4.trans h3, fun h => ?_⟩
        · rw [List.length_cons]; omega
        · rw [List.length_cons]; have := i5 h; omega

/-- Whatever the statement (no restriction on its values) and however it ends, the rows that were in the table are still
there and unchanged, in front of the new ones; there is at most one new row per tuple, exactly one if no fault is
reported; and the store's capacity is respected. -/
theorem C49_preserves (E : Env) {o : Opts} {T : Table} (hT : T.OK o) (start : Int) (st : Store) (hcap : st.rows ≤ st.cap)
    (tuples : List (List Item)) :
    contents T st <+: contents T (insert E T start st tuples).1 ∧
    (insert E T start st tuples).1.rows ≤ st.rows + tuples.length ∧
    (insert E T start st tuples).1.rows ≤ st.cap ∧
    (insert E T start st tuples).1.cap = st.cap ∧
    ((insert E T start st tuples).2 = none → accepted T.cols tuples = true →
      (insert E T start st tuples).1.rows = st.rows + tuples.length) := by
  unfold insert
  split
  · obtain ⟨h1, h2, h3, h4, h5⟩ := loop_preserves (E := E) (geo_of_ok hT) (start := start) tuples st none (Tup.init T.cols) (by rintro x ⟨⟩) hcap
    exact ⟨h1, h2, h3, h4, fun h _ => h5 h⟩
  · rename_i hna
    exact ⟨List.prefix_refl _, Nat.le_add_right _ _, hcap, rfl, fun _ h => absurd h hna⟩

/-! ### Counterexamples -/

/-- A machine environment without pattern matching. -/
def demoEnv : Env := ⟨fun _ => false, fun _ _ => false, fun _ _ => false⟩

/-- An integer constant. -/
def int (z : Int) : Item := .expr (.const (.i z) (.num false 0)) false

/-- A multi-versioned table `(a INT(8), b INT(8), c INT(8))` in a row layout; its columns are the two timestamps, and
`a`, `b`, `c`. -/
def mvT : Table := ⟨mvCols ++ [⟨.int 8, 0, true, .user⟩, ⟨.int 8, 0, true, .user⟩, ⟨.int 8, 0, true, .user⟩],
  rowLayout {} [.int 8, .int 8, .int 8, .int 8, .int 8]⟩

/-- An empty store. -/
def empty : Store := ⟨fun _ => false, 0, 100⟩

/-- The row layout of `mvT`, computed. -/
def mvL : Layout := ⟨1, 384, [⟨0, 64, 0, 0⟩, ⟨1, 64, 64, 0⟩, ⟨2, 64, 128, 0⟩, ⟨3, 64, 192, 0⟩, ⟨4, 64, 256, 0⟩, ⟨5, 5, 320, 0⟩]⟩

theorem mvL_eq : rowLayout {} [.int 8, .int 8, .int 8, .int 8, .int 8] = mvL := by
  have ho : order {} [Ty.int 8, .int 8, .int 8, .int 8, .int 8] = List.range 5 :=
    order_of_sorted (ts := [Ty.int 8, .int 8, .int 8, .int 8, .int 8]) (by decide +kernel)
  simp only [rowLayout, ho]; rfl

theorem mvT_ok : mvT.OK {} where
  layout := Or.inl rfl
  types := by
    intro c hc
    simp only [mvT, mvCols, List.cons_append, List.nil_append, List.mem_cons, List.not_mem_nil, or_false] at hc
    rcases hc with rfl | rfl | rfl | rfl | rfl <;> exact Or.inr (Or.inr (Or.inr rfl))
  nulls := by intro h; cases h

theorem mvT_cols : TableCols mvT.cols := ⟨_, by decide, Or.inr rfl⟩

/-- `INSERT INTO t VALUES (5, 6, NULL)` inserts `(NULL, 6, NULL)`: `NULL` is stored at the position of the value in the
tuple, without regard to the hidden columns in front (src/catalog/DatabaseCommand.cpp:160). -/
theorem C49_null_wrong_column :
    accepted mvT.cols [[int 5, int 6, .null]] = true ∧
    (insert demoEnv mvT 7 empty [[int 5, int 6, .null]]).2 = none ∧
    scanTable mvT (insert demoEnv mvT 7 empty [[int 5, int 6, .null]]).1 =
      [[some (.i 7), some (.i (-1)), none, some (.i 6), none]] := by
  unfold mvT
  rw [mvL_eq]
  decide +kernel

/-- `INSERT INTO t VALUES (1, 2, 3), (NULL, 4, 5)` inserts `(1, 4, 5)` for the second tuple: the tuple is not reset. -/
theorem C49_null_keeps_previous :
    (insert demoEnv mvT 7 empty [[int 1, int 2, int 3], [.null, int 4, int 5]]).2 = none ∧
    scanTable mvT (insert demoEnv mvT 7 empty [[int 1, int 2, int 3], [.null, int 4, int 5]]).1 =
      [[some (.i 7), some (.i (-1)), some (.i 1), some (.i 2), some (.i 3)],
       [some (.i 7), some (.i (-1)), some (.i 1), some (.i 4), some (.i 5)]] := by
  unfold mvT
  rw [mvL_eq]
  decide +kernel

/-- A table `(a INT(8) NOT NULL, b INT(1))` without hidden columns. -/
def plainT : Table := ⟨[⟨.int 8, 0, false, .user⟩, ⟨.int 1, 0, true, .user⟩], rowLayout {} [.int 8, .int 1]⟩

def plainL : Layout := ⟨1, 128, [⟨0, 64, 0, 0⟩, ⟨1, 8, 64, 0⟩, ⟨2, 2, 72, 0⟩]⟩

theorem plainL_eq : rowLayout {} [.int 8, .int 1] = plainL := by
  have ho : order {} [Ty.int 8, .int 1] = List.range 2 := order_of_sorted (ts := [Ty.int 8, .int 1]) (by decide +kernel)
  simp only [rowLayout, ho]; rfl

theorem plainT_ok : plainT.OK {} where
  layout := Or.inl rfl
  types := by
    intro c hc
    simp only [plainT, List.mem_cons, List.not_mem_nil, or_false] at hc
    rcases hc with rfl | rfl
    · exact Or.inr (Or.inr (Or.inr rfl))
    · exact Or.inl rfl
  nulls := by intro h; cases h

/-- `DEFAULT` repeats the value of the previous tuple: `INSERT INTO t VALUES (1, 2), (3, DEFAULT)` inserts `(3, 2)`. -/
theorem C49_default_keeps_previous :
    (insert demoEnv plainT 7 empty [[int 1, int 2], [int 3, .dflt]]).2 = none ∧
    scanTable plainT (insert demoEnv plainT 7 empty [[int 1, int 2], [int 3, .dflt]]).1 =
      [[some (.i 1), some (.i 2)], [some (.i 3), some (.i 2)]] := by
  unfold plainT
  rw [plainL_eq]
  decide +kernel

/-- `DEFAULT` is accepted for a column declared `NOT NULL` that has no default: the row then contains whatever was in memory. -/
theorem C49_not_null_garbage :
    accepted plainT.cols [[.dflt, int 2]] = true ∧
    scanTable plainT (insert demoEnv plainT 7 empty [[.dflt, int 2]]).1 = [[some (.i 0), some (.i 2)]] ∧
    scanTable plainT (insert demoEnv plainT 7 { empty with mem := fun _ => true } [[.dflt, int 2]]).1 =
      [[some (.i (-1)), some (.i 2)]] := by
  unfold plainT
  rw [plainL_eq]
  decide +kernel

/-- A value that does not fit is silently reduced: `INSERT INTO t VALUES (1, 300)` inserts `(1, 44)`. -/
theorem C49_out_of_range :
    accepted plainT.cols [[int 1, int 300]] = true ∧
    (insert demoEnv plainT 7 empty [[int 1, int 300]]).2 = none ∧
    scanTable plainT (insert demoEnv plainT 7 empty [[int 1, int 300]]).1 = [[some (.i 1), some (.i 44)]] := by
  unfold plainT
  rw [plainL_eq]
  decide +kernel

/-- `INSERT` is not atomic: when the store is full the rows before have been inserted. -/
theorem C49_not_atomic :
    insert demoEnv plainT 7 { empty with cap := 1 } [[int 1, int 2], [int 3, int 4]] =
      ((insert demoEnv plainT 7 { empty with cap := 1 } [[int 1, int 2]]).1, some .capacity) ∧
    scanTable plainT (insert demoEnv plainT 7 { empty with cap := 1 } [[int 1, int 2], [int 3, int 4]]).1 =
      [[some (.i 1), some (.i 2)]] := by
  constructor
  · rfl
  · unfold plainT
    rw [plainL_eq]
    decide +kernel

/-! ### The hypotheses are met -/

/-- `INSERT INTO t VALUES (1, DEFAULT), (3, NULL), (4, DEFAULT)`. -/
def demoIns : List (List Item) := [[int 1, .dflt], [int 3, .null], [int 4, .dflt]]

theorem exprOK_int (like : Str → Str → Bool) (c : Col) (hc : c.digits ≤ 18) (z : Int) :
    ExprOK like c (.const (.i z) (.num false 0)) where
  wt := by simp [WT]
  int := rfl
  noAttr := by intro x hx; simp [subs] at hx; subst hx; simp
  scale := by intro x hx; simp [subs] at hx; subst hx; simp [ScaleOK]
  cat := by intro x hx; simp [subs] at hx; subst hx; simp [CatOK]
  cast := by simp [E.ty, ETy.scale, hc]

example : accepted plainT.cols demoIns = true := by decide

example : TableCols plainT.cols := ⟨_, by decide, Or.inl rfl⟩

example : NullsOK plainT.cols demoIns := Or.inl (by decide)

example : DefaultsOK demoIns := by
  unfold DefaultsOK demoIns
  simp only [List.pairwise_cons, List.mem_cons, List.not_mem_nil, or_false, forall_eq_or_imp, forall_eq]
  refine ⟨⟨?_, ?_⟩, ?_, by simp, List.Pairwise.nil⟩ <;>
  · intro j h
    match j with
    | 0 => simp [int] at h
    | 1 => simp
    | j + 2 => simp at h

theorem tuple_plain (like : Str → Str → Bool) (z : Int) (hz : -2 ^ 63 ≤ z ∧ z < 2 ^ 63) (it : Item) (hit : it = .null ∨ it = .dflt) :
    TupleOK like plainT.cols [int z, it] where
  expr := by
    intro j c e dt hc he
    match j with
    | 0 =>
      simp only [int, List.getElem?_cons_zero, Option.some.injEq, Item.expr.injEq] at he
      obtain ⟨rfl, rfl⟩ := he
      simp only [visible, plainT, Col.hidden] at hc
      have hc : c = ⟨.int 8, 0, false, .user⟩ := by simpa using hc.symm
      subst hc
      exact exprOK_int _ _ (by decide) _
    | 1 => rcases hit with rfl | rfl <;> simp at he
    | j + 2 => simp at he
  fits := by
    intro j c e dt v hc he hv
    match j with
    | 0 =>
      simp only [int, List.getElem?_cons_zero, Option.some.injEq, Item.expr.injEq] at he
      obtain ⟨rfl, rfl⟩ := he
      have hc : c = ⟨.int 8, 0, false, .user⟩ := by simpa [visible, plainT, Col.hidden] using hc.symm
      subst hc
      simp [sem] at hv
      subst hv
      simpa [Fits, Ty.size, Col.digits, tr] using hz
    | 1 => rcases hit with rfl | rfl <;> simp at he
    | j + 2 => simp at he
  notNull := by
    intro j c i hc he hn
    match j with
    | 0 =>
      simp only [int, List.getElem?_cons_zero, Option.some.injEq] at he
      subst he
      simp [itemVal, sem]
    | 1 =>
      have hc : c = ⟨.int 1, 0, true, .user⟩ := by simpa [visible, plainT, Col.hidden] using hc.symm
      subst hc
      cases hn
    | j + 2 => simp at he
  consts := by
    rcases hit with rfl | rfl <;> simp [emitItems, emitItem, int, plainT, convertId, convertLoop, noCol, Col.hidden, Col.ety, E.ty, compile, emitCast, CS.load, CS.emit]

example : ∀ its ∈ demoIns, TupleOK demoEnv.like plainT.cols its := by
  intro its h
  simp only [demoIns, List.mem_cons, List.not_mem_nil, or_false] at h
  rcases h with rfl | rfl | rfl
  · exact tuple_plain _ _ (by norm_num) _ (Or.inr rfl)
  · exact tuple_plain _ _ (by norm_num) _ (Or.inl rfl)
  · exact tuple_plain _ _ (by norm_num) _ (Or.inr rfl)

/-- and the statement has the expected effect. -/
example : scanTable plainT (insert demoEnv plainT 7 empty demoIns).1 =
    [[some (.i 1), none], [some (.i 3), none], [some (.i 4), none]] := by
  unfold plainT
  rw [plainL_eq]
  decide +kernel

/-- A multi-versioned table without `NULL`. -/
example : mvT.OK {} ∧ TableCols mvT.cols ∧ NullsOK mvT.cols [[int 1, int 2, .dflt]] ∧
    scanTable mvT (insert demoEnv mvT 7 empty [[int 1, int 2, .dflt]]).1 =
      [[some (.i 7), some (.i (-1)), some (.i 1), some (.i 2), none]] := by
  refine ⟨mvT_ok, mvT_cols, Or.inr (by simp [int]), ?_⟩
  unfold mvT
  rw [mvL_eq]
  decide +kernel

end Mutable.Ins
