import Verif.Insert.Exec

namespace Mutable.Ins

open SM Layout

/-! ### Storing and reading back a value -/

theorem num_repr {z : ℤ} {k : Nat} {q : ℚ} (h : truncTo k q = (z : ℚ) / 10 ^ k) : z = tr (q * 10 ^ k) := by
  unfold truncTo at h
  have p : (10 : ℚ) ^ k ≠ 0 := by positivity
  rw [div_left_inj' p] at h
  exact_mod_cast h.symm

theorem size_pos {t : Ty} (h : Storable t) (hn : ∀ n v, t ≠ .char n v) : 0 < t.size := by
  cases t with
  | bool => decide
  | int p => rcases h with rfl | rfl | rfl | rfl <;> decide
  | decimal p => rcases decimal_size h.1 h.2 with e | e | e | e <;> omega
  | char n v => exact absurd rfl (hn n v)
  | date => decide
  | datetime => decide
  | _ => exact absurd h (by simp [Storable])

/-- A value that fits is read back as it was stored. -/
theorem read_back {c : Col} (hc : Storable c.ty) {v : RVal} {x : SVal} (hf : Fits c x)
    (h : Holds c.ety (v, false) (some (convert c x))) :
    toS c (dec c.ty (enc c.ty v)) = some (convert c x) := by
  obtain ⟨-, h2⟩ := h
  unfold Col.ety at h2
  have numcase : ∀ n : Nat, n = c.ty.size → 0 < n → ∀ (z : ℤ) (q : ℚ), x = .num q → convert c x = .num (z / 10 ^ c.digits) →
      decInt n (encInt n z) = z := by
    intro n hn h0 z q hx hz
    subst hx
    rw [decInt_encInt]
    simp only [convert, SVal.num.injEq] at hz
    have hz' := num_repr hz
    obtain ⟨f1, f2⟩ := hf
    rw [← hn, ← hz'] at f1 f2
    exact wrapN_of_range h0 f1 f2
  have datecase : ∀ n : Nat, n = c.ty.size → 0 < n → ∀ z, convert c x = .date z → decInt n (encInt n z) = z := by
    intro n hn h0 z hz
    cases x with
    | date d =>
      simp only [convert, SVal.date.injEq] at hz
      subst hz
      obtain ⟨f1, f2⟩ := hf
      rw [← hn] at f1 f2
      rw [decInt_encInt]
      exact wrapN_of_range h0 f1 f2
    | _ => simp [convert] at hz
  have isnum : ∀ w, convert c x = .num w → ∃ q, x = .num q := by
    intro w hw
    cases x with
    | num q => exact ⟨q, rfl⟩
    | _ => simp [convert] at hw
  cases ht : c.ty with
  | bool =>
    rw [ht] at h2
    obtain ⟨b, hb, e⟩ := h2 _ rfl
    simp only at hb
    subst hb
    rw [e]
    rfl
  | int p =>
    rw [ht] at h2
    obtain ⟨z, hz, e⟩ := h2
    have e := e _ rfl
    simp only at hz
    subst hz
    obtain ⟨q, hq⟩ := isnum _ e
    have hd : c.digits = 0 := by simp [Col.digits, ht]
    have := numcase (8 * p) (by rw [ht]; rfl) (by have := size_pos hc (by rw [ht]; simp); rw [ht] at this; exact this) z q hq
      (by rw [hd]; exact e)
    simp only [enc, dec, this, toS, ht, e]
    simp
  | decimal p =>
    rw [ht] at h2
    obtain ⟨z, hz, e⟩ := h2
    have e := e _ rfl
    simp only at hz
    subst hz
    obtain ⟨q, hq⟩ := isnum _ e
    have hd : c.digits = c.scale := by simp [Col.digits, ht]
    have := numcase (Ty.decimal p).size (by rw [ht]) (by have := size_pos hc (by rw [ht]; simp); rw [ht] at this; exact this) z q hq
      (by rw [hd]; exact e)
    simp only [enc, dec, this, toS, ht, e]
  | char n var =>
    rw [ht] at h2
    obtain ⟨s, hs, e⟩ := h2
    have e := e _ rfl
    simp only at hs
    subst hs
    cases x with
    | str s' =>
      simp only [convert, SVal.str.injEq] at e
      subst e
      obtain ⟨f1, f2⟩ := hf
      have hl := f2 n var ht
      simp only [enc, dec, toS, convert]
      rw [decStr_encStr (by split <;> omega) f1, List.take_of_length_le hl]
    | _ => simp [convert] at e
  | date =>
    rw [ht] at h2
    obtain ⟨z, hz, e⟩ := h2
    have e := e _ rfl
    simp only at hz
    subst hz
    have := datecase 32 (by rw [ht]; rfl) (by decide) z e
    simp only [enc, dec, this, toS, ht, e]
  | datetime =>
    rw [ht] at h2
    obtain ⟨z, hz, e⟩ := h2
    have e := e _ rfl
    simp only at hz
    subst hz
    have := datecase 64 (by rw [ht]; rfl) (by decide) z e
    simp only [enc, dec, this, toS, ht, e]
  | none => rw [ht] at hc; exact hc.elim
  | bitmap n => rw [ht] at hc; exact hc.elim
  | float p => rw [ht] at hc; exact hc.elim

/-! ### Rows by position -/

/-- Column `p` of the row for a tuple. -/
noncomputable def specAt (like : Str → Str → Bool) (start : Int) (cols : List Col) (its : List Item) (p : Nat) : Option SVal :=
  match (cols.getD p noCol).kind with
  | .tsBegin => some (.num start)
  | .tsEnd => some (.num (-1))
  | .user =>
    match its[vcount cols p]? with
    | some it => itemVal like (cols.getD p noCol) it
    | none => none

theorem specRow_eq (like : Str → Str → Bool) (start : Int) (cols : List Col) (its : List Item) :
    specRow like start cols its = (List.range cols.length).map (specAt like start cols its) := by
  induction cols generalizing its with
  | nil => simp [specRow]
  | cons c cs ih =>
    rw [List.length_cons, List.range_succ_eq_map, List.map_cons, List.map_map]
    have key : ∀ its', (∀ p, its'[vcount cs p]? = its[(if c.hidden then 0 else 1) + vcount cs p]?) →
        (List.range cs.length).map (specAt like start (c :: cs) its ∘ Nat.succ) =
          (List.range cs.length).map (specAt like start cs its') := by
      intro its' h
      apply List.map_congr_left
      intro p _
      simp only [Function.comp, Nat.succ_eq_add_one, specAt, List.getD_cons_succ]
      rw [vcount_cons, h p]
    cases hk : c.kind with
    | tsBegin =>
      rw [key its (by intro p; simp [Col.hidden, hk]), ← ih its]
      simp [specRow, hk, specAt]
    | tsEnd =>
      rw [key its (by intro p; simp [Col.hidden, hk]), ← ih its]
      simp [specRow, hk, specAt]
    | user =>
      cases its with
      | nil =>
        rw [key [] (by intro p; simp), ← ih []]
        simp [specRow, hk, specAt]
      | cons it its =>
        rw [key its (by intro p; simp [Col.hidden, hk, Nat.add_comm 1]), ← ih its]
        simp [specRow, hk, specAt, vcount_zero]

theorem zipWith_range {α β : Type} (f : Col → α → β) (cols : List Col) (g : Nat → α) :
    List.zipWith f cols ((List.range cols.length).map g) =
      (List.range cols.length).map (fun i => f (cols.getD i noCol) (g i)) := by
  apply List.ext_getElem
  · simp
  · intro i h1 h2
    have hi : i < cols.length := by simpa using h2
    simp [List.getD_eq_getElem?_getD, hi]

theorem contents_eq {T : Table} (G : Geo T) (st : Store) : contents T st =
    (List.range st.rows).map (fun r => List.zipWith (fun c v => v.bind (toS c)) T.cols (rowAt T st.mem r)) := by
  unfold contents
  rw [scanTable_eq G, List.map_map]; rfl

/-! ### Timestamps -/

theorem hidden_iff (c : Col) : c.hidden = false ↔ c.kind = .user := by
  unfold Col.hidden; cases c.kind <;> decide

theorem findIdx_user {user : List Col} (h : ∀ c ∈ user, c.kind = .user) (k : Kind) (hk : k ≠ .user) :
    user.findIdx? (fun c => c.kind == k) = none := by
  rw [List.findIdx?_eq_none_iff]
  intro c hc
  rw [h c hc]
  cases k <;> simp_all

/-- What `setTs` does. -/
theorem setTs_spec {cols : List Col} (hc : TableCols cols) (start : Int) (t : Tup) : ∀ p < cols.length,
    match (cols.getD p noCol).kind with
    | .user => slot (setTs cols start t) p = slot t p
    | .tsBegin => slot (setTs cols start t) p = (.i start, false) ∧ (cols.getD p noCol).ty = .int 8
    | .tsEnd => slot (setTs cols start t) p = (.i (-1), false) ∧ (cols.getD p noCol).ty = .int 8 := by
  obtain ⟨user, hu, rfl | rfl⟩ := hc
  · intro p hp
    rw [hu _ (getD_mem hp)]
    unfold setTs
    rw [findIdx_user hu .tsBegin (by decide)]
  · intro p hp
    have e : setTs (mvCols ++ user) start t = (t.set 0 (.i start) false).set 1 (.i (-1)) false := by
      unfold setTs
      simp [mvCols, List.findIdx?_cons]
    rw [e]
    match p with
    | 0 =>
      show slot _ 0 = _ ∧ _
      rw [slot_set_other _ (by decide), slot_set_same]
      exact ⟨rfl, rfl⟩
    | 1 =>
      show slot _ 1 = _ ∧ _
      rw [slot_set_same]
      exact ⟨rfl, rfl⟩
    | p + 2 =>
      have : (mvCols ++ user).getD (p + 2) noCol = user.getD p noCol := by simp [mvCols, List.getD_eq_getElem?_getD]
      rw [this, hu _ (getD_mem (by simpa [mvCols] using hp))]
      show slot _ _ = _
      rw [slot_set_other _ (by omega), slot_set_other _ (by omega)]

/-! ### One tuple -/

/-- Everything known about the tuples of a statement. -/
structure Clean (like : Str → Str → Bool) (B : Prop) (cols : List Col) (its : List Item) : Prop where
  len : its.length = (visible cols).length
  item : ∀ p < cols.length, (cols.getD p noCol).hidden = false → ∀ it, its[vcount cols p]? = some it → ItemOK like B cols p it
  notNull : ∀ p < cols.length, (cols.getD p noCol).hidden = false → (cols.getD p noCol).nullable = false →
    ∀ it, its[vcount cols p]? = some it → itemVal like (cols.getD p noCol) it ≠ none
  ctx : (emitItems cols ⟨[], []⟩ 0 its).ctx.length ≤ 256

theorem vcount_lt {cols : List Col} {p : Nat} (hp : p < cols.length) (hv : (cols.getD p noCol).hidden = false) :
    vcount cols p < (visible cols).length := by
  have := vcount_visible hp hv
  rw [List.getElem?_eq_some_iff] at this
  exact this.1

/-- The row written for a tuple. -/
theorem row_ok {E : Env} {B : Prop} {T : Table} (G : Geo T) (hc : TableCols T.cols) {start : Int} (hs : -2 ^ 63 ≤ start ∧ start < 2 ^ 63)
    {its : List Item} (hcl : Clean E.like B T.cols its) {t t1 : Tup} (heff : Eff E.like T.cols 0 its t t1)
    (hd : ∀ p < T.cols.length, (T.cols.getD p noCol).hidden = false → its[vcount T.cols p]? = some .dflt → t.null p = true) :
    ∀ p < T.cols.length, ((T.cols.getD p noCol).nullable = false → (setTs T.cols start t1).null p = false ∨
        ∃ k, (T.cols.getD p noCol).kind = k ∧ k = .user ∧ (setTs T.cols start t1).null p = false) ∧
      (stored (T.cols.getD p noCol) ((setTs T.cols start t1).vals p) ((setTs T.cols start t1).null p)).bind (toS (T.cols.getD p noCol))
        = specAt E.like start T.cols its p := by
  intro p hp
  have hts := setTs_spec hc start t1 p hp
  have hst := G.types _ (getD_mem hp)
  set c := T.cols.getD p noCol with hcdef
  have tsz : ∀ z : Int, -2 ^ 63 ≤ z → z < 2 ^ 63 → c.ty = .int 8 →
      (stored c (.i z) false).bind (toS c) = some (.num z) := by
    intro z h1 h2 hty
    unfold stored
    simp only [Bool.false_eq_true, if_false, Option.bind_some, hty, enc, dec]
    rw [decInt_encInt, wrapN_of_range (by decide) (by simpa using h1) (by simpa using h2)]
    simp [toS, hty]
  cases hk : c.kind with
  | tsBegin =>
    rw [hk] at hts
    obtain ⟨h1, h2⟩ := hts
    have hv : (setTs T.cols start t1).vals p = .i start := congrArg Prod.fst h1
    have hn : (setTs T.cols start t1).null p = false := congrArg Prod.snd h1
    refine ⟨fun _ => Or.inl hn, ?_⟩
    rw [hv, hn, tsz start hs.1 hs.2 h2]
    unfold specAt
    rw [← hcdef, hk]
  | tsEnd =>
    rw [hk] at hts
    obtain ⟨h1, h2⟩ := hts
    have hv : (setTs T.cols start t1).vals p = .i (-1) := congrArg Prod.fst h1
    have hn : (setTs T.cols start t1).null p = false := congrArg Prod.snd h1
    refine ⟨fun _ => Or.inl hn, ?_⟩
    rw [hv, hn, tsz (-1) (by norm_num) (by norm_num) h2]
    unfold specAt
    rw [← hcdef, hk]
    norm_num
  | user =>
    rw [hk] at hts
    have hvis : c.hidden = false := (hidden_iff c).2 hk
    have hlt := vcount_lt hp hvis
    rw [← hcl.len] at hlt
    obtain ⟨it, hit⟩ : ∃ it, its[vcount T.cols p]? = some it := ⟨_, List.getElem?_eq_getElem hlt⟩
    have hv : (setTs T.cols start t1).vals p = t1.vals p := congrArg Prod.fst hts
    have hn : (setTs T.cols start t1).null p = t1.null p := congrArg Prod.snd hts
    rw [hv, hn]
    have hrep := (heff p hp).1 it hvis (Nat.zero_le _) (by simpa using hit)
    have hspec : specAt E.like start T.cols its p = itemVal E.like c it := by
      unfold specAt
      rw [← hcdef, hk, hit]
    rw [hspec]
    have hnull : t1.null p = (itemVal E.like c it).isNone := by
      cases it with
      | null => exact hrep
      | dflt =>
        have : slot t1 p = slot t p := hrep
        have : t1.null p = t.null p := congrArg Prod.snd this
        rw [this, hd p hp hvis hit]; rfl
      | expr e dt => exact hrep.1
    refine ⟨fun hnn => Or.inl ?_, ?_⟩
    · have := hcl.notNull p hp hvis hnn it hit
      rw [hnull]
      cases h : itemVal E.like c it with
      | none => exact absurd h this
      | some v => rfl
    · cases hval : itemVal E.like c it with
      | none => rw [hnull, hval]; simp [stored]
      | some x =>
        have hn0 : t1.null p = false := by rw [hnull, hval]; rfl
        cases it with
        | null => simp [itemVal] at hval
        | dflt => simp [itemVal] at hval
        | expr e dt =>
          have hh := hrep.2 x hval
          obtain ⟨-, hfit, -⟩ := (hcl.item p hp hvis _ hit).expr e dt rfl
          simp only [itemVal, Option.map_eq_some_iff] at hval
          obtain ⟨y, hy, rfl⟩ := hval
          unfold slot at hh
          rw [hn0] at hh ⊢
          simp only [stored, Bool.false_eq_true, if_false, Option.bind_some]
          exact read_back hst (hfit y hy) hh

/-- Appending it. -/
theorem append_ok {E : Env} {B : Prop} {T : Table} (G : Geo T) (hc : TableCols T.cols) {start : Int} (hs : -2 ^ 63 ≤ start ∧ start < 2 ^ 63)
    {its : List Item} (hcl : Clean E.like B T.cols its) {t t1 : Tup} (heff : Eff E.like T.cols 0 its t t1)
    (hd : ∀ p < T.cols.length, (T.cols.getD p noCol).hidden = false → its[vcount T.cols p]? = some .dflt → t.null p = true)
    {st st' : Store} {w : Option Cursor} {w' : Cursor} (hw : ∀ x, w = some x → At T x st.rows)
    (ha : append T st w (setTs T.cols start t1) = some (st', w')) :
    contents T st' = contents T st ++ [specRow E.like start T.cols its] ∧ At T w' st'.rows ∧ st'.cap = st.cap ∧
      st'.rows = st.rows + 1 := by
  unfold append at ha
  split at ha
  · cases ha
  · obtain ⟨w0, hw0, ha⟩ : ∃ w0, At T w0 st.rows ∧
        some (Store.mk (storeRow T w0 (setTs T.cols start t1) st.mem) (st.rows + 1) st.cap, w0.next T) = some (st', w') := by
      cases w with
      | none => exact ⟨_, at_start T _, by simpa using ha⟩
      | some x => exact ⟨x, hw x rfl, by simpa using ha⟩
    simp only [Option.some.injEq, Prod.mk.injEq] at ha
    obtain ⟨rfl, rfl⟩ := ha
    have hr := row_ok G hc hs hcl heff hd
    refine ⟨?_, hw0.next, rfl, rfl⟩
    rw [contents_eq G, contents_eq G]
    simp only
    rw [List.range_succ, List.map_append, List.map_cons, List.map_nil]
    congr 1
    · apply List.map_congr_left
      intro r hr'
      have := List.mem_range.1 hr'
      rw [storeRow_other G hw0 _ _ (by omega)]
    · congr 1
      rw [storeRow_row G hw0 _ _ (fun p hp hn => by
        rcases (hr p hp).1 hn with h | ⟨_, _, _, h⟩ <;> exact h)]
      rw [zipWith_range, specRow_eq]
      apply List.map_congr_left
      intro p hp
      exact (hr p (List.mem_range.1 hp)).2

/-- The loop over the tuples. -/
theorem loop_ok {E : Env} (hre : E.re = E.like) {B : Prop} {T : Table} (G : Geo T) (hc : TableCols T.cols) (h64 : T.cols.length ≤ 64)
    {start : Int} (hs : -2 ^ 63 ≤ start ∧ start < 2 ^ 63) : ∀ (tuples : List (List Item)) (st : Store) (w : Option Cursor) (t : Tup),
    (∀ its ∈ tuples, Clean E.like B T.cols its) → DefaultsOK tuples → (∀ x, w = some x → At T x st.rows) →
    (∀ its ∈ tuples, ∀ p < T.cols.length, (T.cols.getD p noCol).hidden = false → its[vcount T.cols p]? = some .dflt → t.null p = true) →
    match insertLoop E T start st w t tuples with
    | (st', none) => contents T st' = contents T st ++ tuples.map (specRow E.like start T.cols) ∧
        st'.rows = st.rows + tuples.length ∧ st'.cap = st.cap
    | (st', some f) => (f = .capacity ∨ f = .machine .overflow ∨ (f = .machine .divZero ∧ B)) ∧
        (f = .capacity → st'.rows = st.cap) ∧ st'.cap = st.cap ∧
        ∃ k < tuples.length, contents T st' = contents T st ++ (tuples.take k).map (specRow E.like start T.cols) := by
  intro tuples
  induction tuples with
  | nil => intro st w t _ _ _ _; simp [insertLoop]
  | cons its rest ih =>
    intro st w t hcl hdf hw hd
    have hcl0 := hcl its (by simp)
    have hf := fill_run (E := E) hre (B := B) h64 hcl0.len hcl0.ctx hcl0.item t
    rw [insertLoop]
    cases hft : fillTuple E T.cols its t with
    | error e =>
      rw [hft] at hf
      simp only
      refine ⟨?_, by rintro ⟨⟩, trivial, 0, by simp, by simp⟩
      rcases hf with rfl | ⟨rfl, h⟩
      · exact Or.inr (Or.inl rfl)
      · exact Or.inr (Or.inr ⟨rfl, h⟩)
    | ok t1 =>
      rw [hft] at hf
      simp only at hf ⊢
      cases ha : append T st w (setTs T.cols start t1) with
      | none =>
        refine ⟨Or.inl rfl, fun _ => ?_, rfl, 0, by simp, by simp⟩
        unfold append at ha
        split at ha
        · assumption
        · cases ha
      | some r =>
        obtain ⟨st1, w1⟩ := r
        obtain ⟨c1, c2, c3, c4⟩ := append_ok G hc hs hcl0 hf (hd its (by simp)) hw ha
        rw [DefaultsOK, List.pairwise_cons] at hdf
        have hd' : ∀ its' ∈ rest, ∀ p < T.cols.length, (T.cols.getD p noCol).hidden = false →
            its'[vcount T.cols p]? = some .dflt → (setTs T.cols start t1).null p = true := by
          intro its' hm p hp hv hdflt
          have hts := setTs_spec hc start t1 p hp
          rw [(hidden_iff _).1 hv] at hts
          have hn : (setTs T.cols start t1).null p = t1.null p := congrArg Prod.snd hts
          rw [hn]
          rcases hdf.1 its' hm _ hdflt with h | h
          · have hrep := (hf p hp).1 _ hv (Nat.zero_le _) (by simpa using h)
            have h1 : slot t1 p = slot t p := hrep
            have h2 : t1.null p = t.null p := congrArg Prod.snd h1
            rw [h2]
            exact hd its (by simp) p hp hv h
          · exact (hf p hp).1 _ hv (Nat.zero_le _) (by simpa using h)
        have := ih st1 (some w1) (setTs T.cols start t1) (fun x hx => hcl x (by simp [hx])) hdf.2
          (by rintro x ⟨⟩; exact c2) hd'
        simp only
        generalize insertLoop E T start st1 (some w1) (setTs T.cols start t1) rest = r at this ⊢
        obtain ⟨st', f⟩ := r
        cases f with
        | none =>
          obtain ⟨d1, d2, d3⟩ := this
          refine ⟨?_, ?_, ?_⟩
          · rw [d1, c1, List.map_cons, List.append_assoc]; rfl
          · rw [d2, c4, List.length_cons]; omega
          · rw [d3, c3]
        | some f =>
          obtain ⟨d1, d2, d3, k, hk, d4⟩ := this
          refine ⟨d1, fun h => by rw [d2 h, c3], by rw [d3, c3], k + 1, by simpa using hk, ?_⟩
          rw [d4, c1, List.take_succ_cons, List.map_cons, List.append_assoc]; rfl

end Mutable.Ins
