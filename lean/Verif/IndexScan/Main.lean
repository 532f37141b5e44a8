import Verif.IndexScan.Lemmas

namespace Mutable.IScan

open Index

/-! ### Looking up bounds -/

theorem wasmSearch_spec {p : Nat → Bool} : ∀ (f first count m : Nat), Split p first (first + count) m → count ≤ f →
    wasmSearch p f first count = some m := by
  intro f
  induction f with
  | zero =>
    intro first count m S h
    have := S.ge; have := S.le
    rw [wasmSearch, if_neg (by omega)]
    congr 1; omega
  | succ f ih =>
    intro first count m S h
    have h1 := S.ge; have h2 := S.le
    rw [wasmSearch]
    by_cases hc : count > 0
    · rw [if_pos hc]
      simp only
      cases hp : p (first + count / 2) with
      | true =>
        rw [if_pos rfl]
        have hm : first + count / 2 < m := by
          by_contra hle
          have := S.right (first + count / 2) (by omega) (by omega)
          rw [hp] at this; cases this
        exact ih _ _ m ⟨by omega, by omega, fun i a b => S.left i (by omega) b, fun i a b => S.right i a (by omega)⟩ (by omega)
      | false =>
        rw [if_neg (by simp)]
        have hm : m ≤ first + count / 2 := by
          by_contra hle
          have := S.left (first + count / 2) (by omega) (by omega)
          rw [hp] at this; cases this
        exact ih _ _ m ⟨h1, hm, S.left, fun i a b => S.right i a (by omega)⟩ (by omega)
    · rw [if_neg hc]
      congr 1; omega

/-- The keys behind a bound looked up. -/
def Beyond (lower : Bool) (k k' : Int) : Prop := if lower then ¬ k' < k else k < k'

theorem hostSeek_ok {e : Entry} {l} (h : Hist e.idx l) (hf : e.idx.finalized = true) (lower : Bool) (k : Int)
    (hp : e.method = .rmi → e.predict k < e.idx.entries.length) :
    ∃ i, hostSeek e lower k = some i ∧ IsFirst e.idx.entries (Beyond lower k) i := by
  unfold hostSeek Beyond
  cases hm : e.method with
  | array =>
    cases lower with
    | true => exact C27_lower_bound h hf e.junk k
    | false => exact C27_upper_bound h hf e.junk k
  | rmi =>
    obtain ⟨e1, e2⟩ := C28_rmi_equals_array_partial h hf e.junk e.predict k (hp hm)
    cases lower with
    | true => simp only; rw [e1]; exact C27_lower_bound h hf e.junk k
    | false => simp only; rw [e2]; exact C27_upper_bound h hf e.junk k

theorem seek_ok (cfg : Cfg) {e : Entry} {l} (h : Hist e.idx l) (hf : e.idx.finalized = true) (lower : Bool) (k : Int)
    (hp : e.method = .rmi → e.predict k < e.idx.entries.length)
    (hx : e.method = .rmi → cfg.strategy = .interpretation ∨ cfg.access = .callback)
    (hl : e.idx.entries.length < 2 ^ 32) :
    ∃ i, seek cfg e lower k = some i ∧ IsFirst e.idx.entries (Beyond lower k) i := by
  obtain ⟨i, e1, e2⟩ := hostSeek_ok h hf lower k hp
  have hi : i < 2 ^ 32 := lt_of_le_of_lt e2.1 hl
  unfold seek
  cases hs : cfg.strategy with
  | interpretation => exact ⟨i, e1, e2⟩
  | hybrid => exact ⟨i, e1, e2⟩
  | compilation =>
    cases ha : cfg.access with
    | callback =>
      refine ⟨i, ?_, e2⟩
      simp only [e1, Option.bind_eq_bind, Option.bind_some, decide_eq_true hi, insist_true, Nat.mod_eq_of_lt hi]
      rfl
    | exposed =>
      cases hm : e.method with
      | rmi => rcases hx hm with h | h <;> simp_all
      | array =>
        refine ⟨i, ?_, e2⟩
        simp only
        apply wasmSearch_spec _ _ _ _ _ le_rfl
        cases lower with
        | true =>
          have := split_of_first (junk := e.junk) (q := fun k' => ¬ k' < k) e2
          simpa using this
        | false =>
          have := split_of_first (junk := e.junk) (q := fun k' => k < k') e2
          simpa [not_lt] using this

/-! ### The range of entries -/

theorem slice_filter {es : List (Int × Nat)} {p q : Int → Prop} [DecidablePred p] [DecidablePred q] {lo hi : Nat}
    (h1 : IsFirst es p lo) (h2 : IsFirst es q hi) :
    (es.drop lo).take (hi - lo) = es.filter fun e => decide (p e.1) && !decide (q e.1) := by
  obtain ⟨a1, a2, a3⟩ := h1
  obtain ⟨b1, b2, b3⟩ := h2
  rcases Nat.lt_or_ge hi lo with hlt | hle
  · have : hi - lo = 0 := by omega
    rw [this, List.take_zero]
    symm
    rw [List.filter_eq_nil_iff]
    intro e he
    rw [← List.take_append_drop lo es, List.mem_append] at he
    rcases he with he | he
    · simp [a2 e he]
    · have : e ∈ es.drop hi := by
        have h : lo = hi + (lo - hi) := by omega
        rw [h, ← List.drop_drop] at he
        exact List.mem_of_mem_drop he
      simp [b3 e this]
  · have e1 : es = es.take lo ++ ((es.drop lo).take (hi - lo) ++ es.drop hi) := by
      conv_lhs => rw [← List.take_append_drop lo es, ← List.take_append_drop (hi - lo) (es.drop lo), List.drop_drop]
      rw [Nat.add_sub_cancel' hle]
    conv_rhs => rw [e1]
    rw [List.filter_append, List.filter_append]
    have f1 : (es.take lo).filter (fun e => decide (p e.1) && !decide (q e.1)) = [] := by
      rw [List.filter_eq_nil_iff]; intro e he; simp [a2 e he]
    have f3 : (es.drop hi).filter (fun e => decide (p e.1) && !decide (q e.1)) = [] := by
      rw [List.filter_eq_nil_iff]; intro e he; simp [b3 e he]
    have f2 : ((es.drop lo).take (hi - lo)).filter (fun e => decide (p e.1) && !decide (q e.1)) = (es.drop lo).take (hi - lo) := by
      rw [List.filter_eq_self]
      intro e he
      have m1 := a3 e (List.mem_of_mem_take he)
      have m2 : e ∈ es.take hi := by
        have : es.take hi = es.take lo ++ (es.drop lo).take (hi - lo) := by
          rw [← List.take_add, Nat.add_sub_cancel' hle]
        rw [this]; exact List.mem_append_right _ he
      simp [m1, b2 e m2]
    rw [f1, f2, f3]; simp

theorem first_true (es : List (Int × Nat)) : IsFirst es (fun _ => True) 0 := ⟨by omega, by simp, by simp⟩
theorem first_false (es : List (Int × Nat)) : IsFirst es (fun _ => False) es.length := ⟨le_rfl, by simp, by simp⟩

/-! ### Loops -/

theorem fetch_ok (es : List (Int × Nat)) : ∀ n off, off + n ≤ es.length → fetch es off n = some (((es.drop off).take n).map Prod.snd) := by
  intro n off h
  unfold fetch
  have key : ∀ (l : List Nat), (∀ i ∈ l, off + i < es.length) →
      l.mapM (fun i => (es[off + i]?).map Prod.snd) = some (l.map fun i => (es.getD (off + i) (0, 0)).2) := by
    intro l
    induction l with
    | nil => intro _; rfl
    | cons i l ih =>
      intro hl
      have hi := hl i (by simp)
      rw [List.mapM_cons, ih (fun j hj => hl j (by simp [hj]))]
      rw [List.getElem?_eq_getElem hi]
      simp [List.getD_eq_getElem?_getD, hi]
  rw [key _ (by simp; omega)]
  congr 1
  apply List.ext_getElem
  · simp; omega
  · intro i h1 h2
    simp only [List.length_map, List.length_range] at h1
    simp [List.getD_eq_getElem?_getD, List.getElem?_eq_getElem (show off + i < es.length by omega)]

theorem sub64_le {a b : Nat} (h : b ≤ a) (ha : a < 2 ^ 64) : sub64 a b = a - b := by
  unfold sub64; omega

theorem batches_ok (es : List (Int × Nat)) (alloc hi : Nat) (hl : hi ≤ es.length) (h64 : es.length < 2 ^ 64) :
    ∀ f lo, hi - lo ≤ f → (lo < hi → 0 < alloc) → batches es alloc hi f lo = some (((es.drop lo).take (hi - lo)).map Prod.snd) := by
  intro f
  induction f with
  | zero =>
    intro lo h _
    rw [batches, if_neg (by omega), show hi - lo = 0 by omega]; rfl
  | succ f ih =>
    intro lo h ha
    rw [batches]
    by_cases hlt : lo < hi
    · rw [if_pos hlt, sub64_le (by omega) (by omega)]
      have ha := ha hlt
      obtain ⟨n, hn, hn2, hn3⟩ : ∃ n, (if hi - lo > alloc then alloc else hi - lo) = n ∧ 0 < n ∧ n ≤ hi - lo := by
        refine ⟨_, rfl, ?_, ?_⟩ <;> split <;> omega
      simp only [hn]
      rw [fetch_ok es n lo (by omega), ih (lo + n) (by omega) (fun _ => ha)]
      simp only [Option.bind_eq_bind, Option.bind_some, Option.pure_def, ← List.map_append]
      congr 2
      rw [← List.drop_drop, show hi - lo = n + (hi - (lo + n)) by omega, List.take_add]
    · rw [if_neg hlt, show hi - lo = 0 by omega]; rfl

theorem exposed_ok (es : List (Int × Nat)) (hi : Nat) (hl : hi ≤ es.length) :
    ∀ f lo, hi - lo ≤ f → exposedIds es hi f lo = some (((es.drop lo).take (hi - lo)).map Prod.snd) := by
  intro f
  induction f with
  | zero =>
    intro lo h
    rw [exposedIds, if_neg (by omega), show hi - lo = 0 by omega]; rfl
  | succ f ih =>
    intro lo h
    rw [exposedIds]
    by_cases hlt : lo < hi
    · rw [if_pos hlt, ih (lo + 1) (by omega), List.getElem?_eq_getElem (by omega)]
      simp only [Option.bind_eq_bind, Option.bind_some, Option.pure_def]
      rw [List.drop_eq_getElem_cons (by omega : lo < es.length), show hi - lo = (hi - (lo + 1)) + 1 by omega, List.take_succ_cons,
        List.map_cons]
    · rw [if_neg hlt, show hi - lo = 0 by omega]; rfl

theorem tupleIds_ok (cfg : Cfg) (e : Entry) {lo hi : Nat} (h1 : hi ≤ e.idx.entries.length) (h64 : e.idx.entries.length < 2 ^ 64)
    (hc : lo ≤ hi ∨ cfg.strategy ≠ .interpretation) (hx : e.method = .rmi → cfg.strategy = .interpretation ∨ cfg.access = .callback) :
    tupleIds cfg e lo hi = some (((e.idx.entries.drop lo).take (hi - lo)).map Prod.snd) := by
  have cb : callbackIds cfg.batch e.idx.entries lo hi = some (((e.idx.entries.drop lo).take (hi - lo)).map Prod.snd) := by
    unfold callbackIds
    apply batches_ok _ _ _ h1 h64 _ _ (by omega)
    intro hlt
    rw [sub64_le (by omega) (by omega)]
    by_cases hb : cfg.batch = 0
    · rw [if_pos hb]; split <;> omega
    · rw [if_neg hb]; split <;> omega
  have ex : e.method = .array → (match e.method with
    | .array => exposedIds e.idx.entries hi hi lo
    | .rmi => none) = some (((e.idx.entries.drop lo).take (hi - lo)).map Prod.snd) := by
    intro hm; rw [hm]; exact exposed_ok _ _ h1 _ _ (by omega)
  have hm : e.method = .array ∨ e.method = .rmi := by cases e.method <;> simp
  unfold tupleIds
  cases hs : cfg.strategy with
  | interpretation =>
    simp only
    rcases hc with hc | hc
    · rw [if_pos hc]; exact fetch_ok _ _ _ (by omega)
    · exact absurd hs hc
  | compilation =>
    cases ha : cfg.access with
    | callback => exact cb
    | exposed => rcases hm with hm | hm
                 · exact ex hm
                 · rcases hx hm with h | h <;> simp_all
  | hybrid =>
    cases ha : cfg.access with
    | callback => exact cb
    | exposed => rcases hm with hm | hm
                 · exact ex hm
                 · rcases hx hm with h | h <;> simp_all

/-! ### Contents of indexes -/

/-- The entries of an index: key and row number, for the rows whose key is not NULL. -/
def pairs (bits a : Nat) : List Row → Nat → List (Int × Nat)
  | [], _ => []
  | r :: rs, id =>
    match r.getD a none with
    | some k => (wrap bits k, id) :: pairs bits a rs (id + 1)
    | none => pairs bits a rs (id + 1)

theorem bulk_hist (bits a : Nat) : ∀ (rs : List Row) (id : Nat) (s : Idx Int) (l : List (Int × Nat)), Hist s l →
    Hist (bulk bits a rs id s) (l ++ pairs bits a rs id) := by
  intro rs
  induction rs with
  | nil => intro id s l h; simpa [bulk, pairs] using h
  | cons r rs ih =>
    intro id s l h
    rw [bulk, pairs]
    cases r.getD a none with
    | none => exact ih _ _ _ h
    | some k =>
      have := ih (id + 1) _ _ (Hist.add (wrap bits k) id h)
      simpa using this

theorem pairs_length (bits a : Nat) : ∀ (rs : List Row) (id : Nat), (pairs bits a rs id).length ≤ rs.length := by
  intro rs
  induction rs with
  | nil => intro id; simp [pairs]
  | cons r rs ih =>
    intro id
    rw [pairs]
    have := ih (id + 1)
    cases r.getD a none <;> simp <;> omega

theorem pairs_mem {bits a : Nat} {tys : List KTy} {ty : KTy} (hty : tys[a]? = some ty) (hb : ty.bits = bits) (hpos : 0 < bits) :
    ∀ (rs : List Row) (id : Nat), (∀ r ∈ rs, RowOK tys r) → ∀ e ∈ pairs bits a rs id,
      id ≤ e.2 ∧ ∃ r, rs[e.2 - id]? = some r ∧ r.getD a none = some e.1 := by
  intro rs
  induction rs with
  | nil => intro id _ e he; simp [pairs] at he
  | cons r rs ih =>
    intro id hr e he
    have ih := ih (id + 1) (fun r h => hr r (by simp [h])) e
    have step : e ∈ pairs bits a rs (id + 1) → id ≤ e.2 ∧ ∃ r', (r :: rs)[e.2 - id]? = some r' ∧ r'.getD a none = some e.1 := by
      intro he
      obtain ⟨h1, r', h2, h3⟩ := ih he
      refine ⟨by omega, r', ?_, h3⟩
      rw [show e.2 - id = (e.2 - (id + 1)) + 1 by omega]
      simpa using h2
    rw [pairs] at he
    cases hk : r.getD a none with
    | none => rw [hk] at he; exact step he
    | some k =>
      rw [hk] at he
      rcases List.mem_cons.1 he with rfl | he
      · refine ⟨le_rfl, r, by simp, ?_⟩
        obtain ⟨h1, h2⟩ := hr r (by simp) a ty k hty hk
        rw [hb] at h1 h2
        rw [hk, wrap_id hpos h1 h2]
      · exact step he

/-- Filtering the entries by key is filtering the rows. -/
theorem pairs_filter {bits a : Nat} {tys : List KTy} {ty : KTy} (hty : tys[a]? = some ty) (hb : ty.bits = bits) (hpos : 0 < bits)
    (f : Int → Bool) (rows : List Row) (P : Row → Bool)
    (hP : ∀ r ∈ rows, P r = (r.getD a none).elim false f) :
    ∀ (rs : List Row) (id : Nat), (∀ r ∈ rs, RowOK tys r) → rows.drop id = rs →
      ((pairs bits a rs id).filter (fun e => f e.1)).map (fun e => rows.getD e.2 []) = rs.filter P := by
  intro rs
  induction rs with
  | nil => intro id _ _; simp [pairs]
  | cons r rs ih =>
    intro id hr hd
    have hid : id < rows.length := by
      by_contra hle
      rw [List.drop_eq_nil_of_le (by omega)] at hd; cases hd
    rw [List.drop_eq_getElem_cons hid] at hd
    obtain ⟨hr0, hd'⟩ := List.cons.inj hd
    have ih := ih (id + 1) (fun r h => hr r (by simp [h])) hd'
    have hPr := hP r (by rw [← hr0]; exact List.getElem_mem hid)
    rw [pairs]
    cases hk : r.getD a none with
    | none =>
      rw [hk] at hPr
      simp only [Option.elim] at hPr
      simp only
      rw [ih, List.filter_cons_of_neg (by simp [hPr])]
    | some k =>
      obtain ⟨h1, h2⟩ := hr r (by simp) a ty k hty hk
      rw [hb] at h1 h2
      rw [hk] at hPr
      simp only [Option.elim] at hPr
      simp only [wrap_id hpos h1 h2]
      cases hf : f k with
      | true =>
        rw [List.filter_cons_of_pos (by simpa using hf), List.filter_cons_of_pos (by rw [hPr, hf]), List.map_cons, ih]
        congr 1
        simp [List.getD_eq_getElem?_getD, hid, hr0]
      | false =>
        rw [List.filter_cons_of_neg (by simp [hf]), List.filter_cons_of_neg (by simp [hPr, hf]), ih]

/-! ### Databases -/

/-- Column types exist, rows fit them. -/
def TablesOK (db : DB) : Prop := ∀ t T, db.tables t = some T → (∀ ty ∈ T.tys, ty.Valid) ∧ ∀ r ∈ T.rows, RowOK T.tys r

/-- Valid indexes are up to date. -/
def EntryOK (db : DB) (e : Entry) : Prop :=
  ∃ T ty, db.tables e.table = some T ∧ T.tys[e.attr]? = some ty ∧ Hist e.idx (pairs ty.bits e.attr T.rows 0) ∧ e.idx.finalized = true

structure Inv (db : DB) : Prop where
  tables : TablesOK db
  idxs : ∀ e ∈ db.idxs, e.valid = true → EntryOK db e

theorem setTable_other {db : DB} {t t' : Nat} (h : t' ≠ t) (T) : (db.setTable t T).tables t' = db.tables t' := by
  simp [DB.setTable, h]

theorem setTable_same (db : DB) (t : Nat) (T) : (db.setTable t T).tables t = T := by simp [DB.setTable]

theorem entry_other {db : DB} {e : Entry} {t : Nat} (h : e.table ≠ t) (T) (he : EntryOK db e) : EntryOK (db.setTable t T) e := by
  obtain ⟨T', ty, h1, r⟩ := he
  exact ⟨T', ty, by rw [setTable_other h]; exact h1, r⟩

theorem append_tys (T : Table) (rows) : (T.append rows).1.tys = T.tys := by unfold Table.append; split <;> rfl

theorem append_ok {T : Table} {rows : List Row} (h1 : ∀ r ∈ T.rows, RowOK T.tys r) (h2 : ∀ r ∈ rows, RowOK T.tys r) :
    ∀ r ∈ (T.append rows).1.rows, RowOK (T.append rows).1.tys r := by
  rw [append_tys]
  intro r hr
  unfold Table.append at hr
  split at hr
  · rcases List.mem_append.1 hr with h | h
    · exact h1 r h
    · exact h2 r h
  · rcases List.mem_append.1 hr with h | h
    · exact h1 r h
    · exact h2 r (List.mem_of_mem_take h)

theorem tables_set {db : DB} (h : TablesOK db) (t : Nat) (T : Option Table)
    (hT : ∀ T', T = some T' → (∀ ty ∈ T'.tys, ty.Valid) ∧ ∀ r ∈ T'.rows, RowOK T'.tys r) : TablesOK (db.setTable t T) := by
  intro t' T' ht
  by_cases e : t' = t
  · subst e; rw [setTable_same] at ht; exact hT T' ht
  · rw [setTable_other e] at ht; exact h t' T' ht

theorem inv_step {db db' : DB} {s : Stmt} (I : Inv db) (hc : Careful db s) (h : Step db s db') : Inv db' := by
  have app : ∀ t T rows, db.tables t = some T → (∀ r ∈ rows, RowOK T.tys r) → TablesOK (db.setTable t (some (T.append rows).1)) := by
    intro t T rows hT hr
    apply tables_set I.tables
    rintro T' ⟨⟩
    exact ⟨by rw [append_tys]; exact (I.tables t T hT).1, append_ok (I.tables t T hT).2 hr⟩
  cases h with
  | createTable t tys cap hn =>
    refine ⟨tables_set I.tables _ _ (by rintro T' ⟨⟩; exact ⟨hc, by simp⟩), ?_⟩
    intro e he hv
    have ok := I.idxs e he hv
    apply entry_other _ _ ok
    rintro rfl
    obtain ⟨T, ty, h1, _⟩ := ok
    rw [hn] at h1; cases h1
  | dropTable t =>
    refine ⟨tables_set I.tables _ _ (by rintro T' ⟨⟩), ?_⟩
    intro e he hv
    have he : e ∈ db.idxs.filter fun e => e.table != t := he
    obtain ⟨h1, h2⟩ := List.mem_filter.1 he
    obtain ⟨T, ty, h3, r⟩ := I.idxs e h1 hv
    exact entry_other (by simpa using h2) none ⟨T, ty, h3, r⟩
  | insert t T rows hT =>
    obtain ⟨hr, hcap⟩ := hc T hT
    have tok := app t T rows hT hr
    by_cases hlen : T.rows.length + rows.length ≤ T.cap
    · have : (T.append rows).2 = true := by unfold Table.append; rw [if_pos hlen]
      rw [if_pos this]
      refine ⟨tok, ?_⟩
      intro e he hv
      obtain ⟨e0, h0, he⟩ := List.mem_map.1 (show e ∈ List.map _ db.idxs from he)
      by_cases ht : e0.table = t
      · rw [if_pos ht] at he; subst he; cases hv
      · rw [if_neg ht] at he; subst he
        obtain ⟨T', ty, h1, r⟩ := entry_other ht (some (T.append rows).1) (I.idxs e0 h0 hv)
        exact ⟨T', ty, h1, r⟩
    · have : (T.append rows).2 = false := by unfold Table.append; rw [if_neg hlen]
      rw [if_neg (by simp [this])]
      refine ⟨tok, ?_⟩
      intro e he hv
      apply entry_other _ _ (I.idxs e he hv)
      intro ht
      rcases hcap with h | h
      · exact hlen h
      · exact h ⟨e, he, hv, ht⟩
  | importDSV t T rows hT =>
    obtain ⟨hr, hcap⟩ := hc T hT
    refine ⟨app t T rows hT hr, ?_⟩
    intro e he hv
    apply entry_other _ _ (I.idxs e he hv)
    intro ht
    exact hcap ⟨e, he, hv, ht⟩
  | createIndex n t a m T ty idx junk predict hT hty hn hf =>
    refine ⟨I.tables, ?_⟩
    intro e he hv
    rcases List.mem_append.1 he with he | he
    · exact I.idxs e he hv
    · rw [List.mem_singleton] at he; subst he
      refine ⟨T, ty, hT, hty, ?_, hf.2.2⟩
      have := bulk_hist ty.bits a T.rows 0 Idx.init [] Hist.init
      exact Hist.finalize (by simpa using this) hf
  | dropIndex n =>
    refine ⟨I.tables, ?_⟩
    intro e he hv
    exact I.idxs e (List.mem_of_mem_eraseP he) hv

theorem reach_inv {db : DB} (h : Reach db) : Inv db := by
  induction h with
  | init => exact ⟨by rintro t T ⟨⟩, by rintro e ⟨⟩⟩
  | step s _ hc hs ih => exact inv_step ih hc hs

end Mutable.IScan
