import Verif.DSV.Lemmas
import Mathlib.Data.List.Forall2
/-!
# C38: import of delimited files
-/
namespace Mutable.DSV

/-- The tuple after a row: the values of the columns that are attributes are stored (a later column wins). -/
def place : List (Option (Nat × Ty)) → List (Val × Str) → List Val → List Val
  | some (id, _) :: cols, c :: cells, tup => place cols cells (tup.set id c.1)
  | none :: cols, _ :: cells, tup => place cols cells tup
  | _, _, tup => tup

/-- The text after the first cell. -/
def tailText (cfg : Config) (ts : List Str) : Str := ts.flatMap fun t => cfg.delimiter :: t

theorem rowText_cons (cfg : Config) (t : Str) (ts : List Str) : rowText cfg (t :: ts) = t ++ tailText cfg ts := by
  induction ts generalizing t with
  | nil => simp [rowText, tailText]
  | cons u ts ih => simp only [rowText, ih]; simp [tailText]

/-- The row ends here: with a newline, or with the file if the last cell is not empty. -/
def RowEnd (cells : List (Val × Str)) (rest : Str) : Prop := cur rest = NL ∨ (rest = [] ∧ ∀ c ∈ cells.getLast?, c.2 ≠ [])

theorem RowEnd.stop {cfg : Config} {cells : List (Val × Str)} {rest : Str} (h : RowEnd cells rest) (ts : List Str) : Stop cfg (tailText cfg ts ++ rest) := by
  unfold Stop
  rw [isEnd_iff]
  cases ts with
  | nil =>
    rcases h with h | ⟨rfl, -⟩
    · right; left; simpa [tailText] using h
    · left; rfl
  | cons t ts => right; right; simp [tailText, cur]

theorem RowEnd.tail {c : Val × Str} {cells : List (Val × Str)} {rest : Str} (h : RowEnd (c :: cells) rest) : RowEnd cells rest := by
  rcases h with h | ⟨h1, h2⟩
  · exact Or.inl h
  · right
    refine ⟨h1, ?_⟩
    intro x hx
    cases cells with
    | nil => simp at hx
    | cons d cells => exact h2 x (by rw [List.getLast?_cons_cons]; exact hx)

/-- The tuple after a cell. -/
def setCol (col : Option (Nat × Ty)) (v : Val) (tup : List Val) : List Val :=
  match col with
  | some (id, _) => tup.set id v
  | none => tup

theorem Writes.null_of_empty {cfg : Config} {isNum : Str → Bool} {ty : Ty} {v : Val} {t : Str} (h : Writes cfg isNum ty v t) (ht : t = []) : v = .null := by
  cases h with
  | null => rfl
  | date _ hm => have := hm.length_eq; simp_all [dateForm]
  | datetime _ hm => have := hm.length_eq; simp_all [datetimeForm]
  | _ => simp_all

/-- One cell. -/
theorem readCol_spec {cfg : Config} (hv : Valid cfg) {isNum : Str → Bool} {col : Option (Nat × Ty)} {c : Val × Str}
    {cells : List (Val × Str)} (hc : WritesCol cfg isNum col c) {rest : Str} (hr : RowEnd (c :: cells) rest)
    (s : R) (hs : s.inp = c.2 ++ (tailText cfg (cells.map Prod.snd) ++ rest)) :
    readCol cfg isNum cells.isEmpty col s =
      { inp := tailText cfg (cells.map Prod.snd) ++ rest, tup := setCol col c.1 s.tup, errs := s.errs } := by
  have hstop := hr.stop (cfg := cfg) (cells.map Prod.snd)
  cases col with
  | none =>
    simp only [readCol, setCol]
    rw [hs, discard_ignorable hv hc hstop]
  | some ci =>
    obtain ⟨id, ty⟩ := ci
    have hw : Writes cfg isNum ty c.1 c.2 := hc
    simp only [readCol, setCol]
    by_cases hne : c.2 = []
    · rw [if_pos]
      · rw [hw.null_of_empty hne]
        cases s
        simp only at hs
        rw [hs, hne, List.nil_append]
      · rw [hs, hne, List.nil_append]
        cases cells with
        | nil =>
          left
          refine ⟨rfl, ?_⟩
          rcases hr with hr | ⟨-, hr⟩
          · simpa [tailText] using hr
          · exact absurd hne (hr c (by simp))
        | cons d cells =>
          right
          exact ⟨rfl, by simp [tailText, cur]⟩
    · have hh := hw.head hv hne (tailText cfg (cells.map Prod.snd) ++ rest)
      rw [if_neg (by rw [hs]; rintro (⟨-, h⟩ | ⟨-, h⟩); exact hh.2 h; exact hh.1 h)]
      rw [readTy_spec hv hw hne hstop id s hs]
      simp only
      rw [discard_stop hv hstop]

theorem isEmpty_eq {cfg : Config} {isNum : Str → Bool} {cols : List (Option (Nat × Ty))} {cells : List (Val × Str)}
    (h : List.Forall₂ (WritesCol cfg isNum) cols cells) : cols.isEmpty = cells.isEmpty := by
  cases h <;> rfl

theorem place_cons (col : Option (Nat × Ty)) (cols : List (Option (Nat × Ty))) (c : Val × Str) (cells : List (Val × Str)) (tup : List Val) :
    place (col :: cols) (c :: cells) tup = place cols cells (setCol col c.1 tup) := by
  cases col <;> rfl

theorem readCells_tail {cfg : Config} (hv : Valid cfg) {isNum : Str → Bool} {cols : List (Option (Nat × Ty))} {cells : List (Val × Str)}
    (h : List.Forall₂ (WritesCol cfg isNum) cols cells) {rest : Str} (hr : RowEnd cells rest)
    (s : R) (hs : s.inp = tailText cfg (cells.map Prod.snd) ++ rest) :
    readCells cfg isNum false cols s = (true, { inp := rest, tup := place cols cells s.tup, errs := s.errs }) := by
  induction h generalizing s with
  | nil =>
    cases s; simp only [List.map_nil, tailText, List.flatMap_nil, List.nil_append] at hs
    simp [readCells, place, hs]
  | @cons col c cols cells hc hcs ih =>
    unfold readCells
    have hcur : cur s.inp = cfg.delimiter := by rw [hs]; simp [tailText, cur]
    rw [if_neg (by simp [hcur])]
    have hstep : step s.inp = c.2 ++ (tailText cfg (cells.map Prod.snd) ++ rest) := by
      rw [hs]; simp [tailText, step]
    rw [if_neg (by simp), isEmpty_eq hcs, readCol_spec hv hc hr { s with inp := step s.inp } hstep, ih hr.tail _ rfl, place_cons]

/-- A row. -/
theorem readCells_spec {cfg : Config} (hv : Valid cfg) {isNum : Str → Bool} {cols : List (Option (Nat × Ty))} {cells : List (Val × Str)}
    (h : List.Forall₂ (WritesCol cfg isNum) cols cells) {rest : Str} (hr : RowEnd cells rest)
    (s : R) (hs : s.inp = rowText cfg (cells.map Prod.snd) ++ rest) :
    readCells cfg isNum true cols s = (true, { inp := rest, tup := place cols cells s.tup, errs := s.errs }) := by
  cases h with
  | nil =>
    cases s; simp only [List.map_nil, rowText, List.nil_append] at hs
    simp [readCells, place, hs]
  | @cons col c cols cells hc hcs =>
    unfold readCells
    rw [if_neg (by simp), if_pos rfl]
    rw [List.map_cons, rowText_cons, List.append_assoc] at hs
    rw [isEmpty_eq hcs, readCol_spec hv hc hr s hs, readCells_tail hv hcs hr.tail _ rfl, place_cons]

/-! ### Rows -/

theorem place_place {cols : List (Option (Nat × Ty))} {c1 c2 : List (Val × Str)} (h2 : c2.length = cols.length) (t : List Val) :
    place cols c2 (place cols c1 t) = place cols c2 t := by
  -- `place` overwrites: describe the result by positions
  have key : ∀ (cols : List (Option (Nat × Ty))) (c : List (Val × Str)) (t t' : List Val), c.length = cols.length → t.length = t'.length →
      (∀ i, (∀ ty, some (i, ty) ∉ cols) → t[i]? = t'[i]?) → place cols c t = place cols c t' := by
    intro cols
    induction cols with
    | nil =>
      intro c t t' _ hl hi
      cases c <;> simp only [place] <;> exact List.ext_getElem? fun i => hi i (by simp)
    | cons col cols ih =>
      intro c t t' hc hl hi
      cases c with
      | nil => simp at hc
      | cons x c =>
        cases col with
        | none =>
          simp only [place]
          apply ih c t t' (by simpa using hc) hl
          intro i hi'
          apply hi
          intro ty; simp only [List.mem_cons, not_or]; exact ⟨by simp, hi' ty⟩
        | some ci =>
          obtain ⟨id, ty0⟩ := ci
          simp only [place]
          apply ih c _ _ (by simpa using hc) (by simpa using hl)
          intro i hi'
          by_cases hid : id = i
          · subst hid
            rw [List.getElem?_set_self', List.getElem?_set_self']
            by_cases hlt : id < t.length
            · rw [List.getElem?_eq_getElem hlt, List.getElem?_eq_getElem (by omega)]; rfl
            · rw [List.getElem?_eq_none (by omega), List.getElem?_eq_none (by omega)]
          · rw [List.getElem?_set_ne hid, List.getElem?_set_ne hid]
            apply hi
            intro ty; simp only [List.mem_cons, not_or]
            exact ⟨by simp; intro h; exact absurd h.symm hid, hi' ty⟩
  have other : ∀ (cols : List (Option (Nat × Ty))) (c : List (Val × Str)) (t : List Val) (i : Nat), (∀ ty, some (i, ty) ∉ cols) → (place cols c t)[i]? = t[i]? := by
    intro cols
    induction cols with
    | nil => intro c t i _; cases c <;> rfl
    | cons col cols ih =>
      intro c t i hi
      cases c with
      | nil => cases col <;> rfl
      | cons x c =>
        have hi' : ∀ ty, some (i, ty) ∉ cols := fun ty h => hi ty (by simp [h])
        cases col with
        | none => exact ih c t i hi'
        | some ci =>
          obtain ⟨id, ty0⟩ := ci
          simp only [place]
          rw [ih c _ i hi', List.getElem?_set_ne]
          rintro rfl
          exact hi ty0 (by simp)
  have len : ∀ (cols : List (Option (Nat × Ty))) (c : List (Val × Str)) (t : List Val), (place cols c t).length = t.length := by
    intro cols
    induction cols with
    | nil => intro c t; cases c <;> rfl
    | cons col cols ih =>
      intro c t
      cases c with
      | nil => cases col <;> rfl
      | cons x c =>
        cases col with
        | none => exact ih c t
        | some ci => obtain ⟨id, ty0⟩ := ci; simp only [place]; rw [ih]; simp
  exact key cols c2 _ _ h2 (len cols c1 t) (fun i hi => other cols c1 t i hi)

/-- The rows, the last of which may lack the newline. -/
def fileText' (cfg : Config) (rows : List (List (Val × Str))) (last : Option (List (Val × Str))) : Str :=
  fileText cfg rows ++ (last.elim [] fun r => rowText cfg (r.map Prod.snd))

theorem readRows_spec {cfg : Config} (hv : Valid cfg) {isNum : Str → Bool} {cols : List (Option (Nat × Ty))} (base : List Val)
    {rows : List (List (Val × Str))} (h : ∀ r ∈ rows, List.Forall₂ (WritesCol cfg isNum) cols r)
    {last : Option (List (Val × Str))} (hlast : ∀ r ∈ last, List.Forall₂ (WritesCol cfg isNum) cols r ∧ (∀ c ∈ r.getLast?, c.2 ≠ []) ∧ rowText cfg (r.map Prod.snd) ≠ [])
    (fuel idx : Nat) (s : R) (st : Store) (hs : s.inp = fileText' cfg rows last) (hf : s.inp.length < fuel)
    (htup : ∀ c : List (Val × Str), c.length = cols.length → place cols c s.tup = place cols c base) :
    (readRows cfg isNum cols fuel idx s st).2 =
      ⟨st.written ++ ((rows ++ last.toList).map fun r => place cols r base).take (cfg.numRows - idx),
       st.numRows + ((rows ++ last.toList).take (cfg.numRows - idx)).length⟩ ∧
      (readRows cfg isNum cols fuel idx s st).1.errs = s.errs := by
  induction rows generalizing fuel idx s st with
  | nil =>
    cases fuel with
    | zero => omega
    | succ fuel =>
      unfold readRows
      cases last with
      | none =>
        have : s.inp = [] := by rw [hs]; rfl
        rw [if_neg (by simp [this])]
        simp
      | some r =>
        have hinp : s.inp = rowText cfg (r.map Prod.snd) ++ [] := by rw [hs]; simp [fileText', fileText]
        obtain ⟨g1, g2, he⟩ := hlast r rfl
        · by_cases hn : idx < cfg.numRows
          · rw [if_pos ⟨by rw [hinp]; simpa using he, hn⟩]
            have hrow := readCells_spec hv g1 (rest := []) (Or.inr ⟨rfl, g2⟩) s hinp
            simp only [hrow, if_true]
            rw [if_neg (by simp [cur])]
            have hrest : ∀ (f i : Nat) (s : R) (st : Store), s.inp = [] → readRows cfg isNum cols f i s st = (s, st) := by
              intro f i s st h
              cases f with
              | zero => rfl
              | succ f => unfold readRows; rw [if_neg (by simp [h])]
            rw [hrest _ _ _ _ rfl]
            simp only [List.nil_append, Option.toList, List.map_cons, List.map_nil]
            rw [htup r g1.length_eq.symm]
            obtain ⟨k, hk⟩ : ∃ k, cfg.numRows - idx = k + 1 := ⟨cfg.numRows - idx - 1, by omega⟩
            rw [hk]
            simp
          · rw [if_neg (by tauto), Nat.sub_eq_zero_of_le (by omega)]
            simp
  | cons r rows ih =>
    cases fuel with
    | zero => omega
    | succ fuel =>
      have hinp : s.inp = rowText cfg (r.map Prod.snd) ++ (NL :: fileText' cfg rows last) := by rw [hs]; simp [fileText', fileText]
      unfold readRows
      by_cases hn : idx < cfg.numRows
      · have g1 := h r (by simp)
        rw [if_pos ⟨by rw [hinp]; simp, hn⟩]
        have hrow := readCells_spec hv g1 (rest := NL :: fileText' cfg rows last) (Or.inl rfl) s hinp
        simp only [hrow, if_true]
        rw [if_neg (by simp [cur])]
        obtain ⟨k, hk⟩ : ∃ k, cfg.numRows - idx = k + 1 := ⟨cfg.numRows - idx - 1, by omega⟩
        have hk' : cfg.numRows - (idx + 1) = k := by omega
        have := ih (fun x hx => h x (by simp [hx])) fuel (idx + 1)
          { inp := step (NL :: fileText' cfg rows last), tup := place cols r s.tup, errs := s.errs } ⟨st.written ++ [place cols r s.tup], st.numRows + 1⟩ rfl
          (by rw [hinp] at hf; simp [step] at hf ⊢; omega)
          (fun c hc => by rw [place_place hc]; exact htup c hc)
        obtain ⟨i1, i2⟩ := this
        rw [i1, i2, hk, hk', htup r g1.length_eq.symm]
        refine ⟨?_, rfl⟩
        simp
        omega
      · rw [if_neg (by tauto), Nat.sub_eq_zero_of_le (by omega)]
        simp

/-! ### Files -/

/-- Without a header, the columns are the attributes in order. -/
def plainCols (attrs : List (Str × Ty)) : List (Option (Nat × Ty)) := attrs.zipIdx.map fun a => some (a.2, a.1.2)

theorem place_append (pre vs : List Val) (attrs : List (Str × Ty)) (cells : List (Val × Str)) (hl : cells.length = attrs.length) (hvs : vs.length = attrs.length) :
    place ((attrs.zipIdx pre.length).map fun a => some (a.2, a.1.2)) cells (pre ++ vs) = pre ++ cells.map Prod.fst := by
  induction attrs generalizing pre vs cells with
  | nil =>
    cases cells with
    | nil => cases vs with
      | nil => simp [place]
      | cons v vs => simp at hvs
    | cons c cells => simp at hl
  | cons a attrs ih =>
    cases cells with
    | nil => simp at hl
    | cons c cells =>
      cases vs with
      | nil => simp at hvs
      | cons v vs =>
        simp only [List.zipIdx_cons, List.map_cons, place]
        have hset : (pre ++ v :: vs).set pre.length c.1 = (pre ++ [c.1]) ++ vs := by simp [List.set_append]
        rw [hset]
        have := ih (pre ++ [c.1]) vs cells (by simpa using hl) (by simpa using hvs)
        rw [List.length_append, List.length_singleton] at this
        rw [this]; simp

theorem plainCols_writes {cfg : Config} {isNum : Str → Bool} {attrs : List (Str × Ty)} {r : List (Val × Str)}
    (h : List.Forall₂ (fun a c => Writes cfg isNum a.2 c.1 c.2) attrs r) : List.Forall₂ (WritesCol cfg isNum) (plainCols attrs) r := by
  unfold plainCols
  have : ∀ k, List.Forall₂ (WritesCol cfg isNum) ((attrs.zipIdx k).map fun a => some (a.2, a.1.2)) r := by
    induction h with
    | nil => intro k; exact .nil
    | cons ha _ ih => intro k; exact .cons ha (ih (k + 1))
  exact this 0

theorem readPlain {cfg : Config} (hv : Valid cfg) (isNum : Str → Bool)
    {attrs : List (Str × Ty)} {rows : List (List (Val × Str))} (h : ∀ r ∈ rows, List.Forall₂ (fun a c => Writes cfg isNum a.2 c.1 c.2) attrs r)
    {last : Option (List (Val × Str))} (hlast : ∀ r ∈ last, List.Forall₂ (fun a c => Writes cfg isNum a.2 c.1 c.2) attrs r ∧
      (∀ c ∈ r.getLast?, c.2 ≠ []) ∧ rowText cfg (r.map Prod.snd) ≠ []) :
    let all := (rows ++ last.toList).take cfg.numRows
    let res := readRows cfg isNum (plainCols attrs) ((fileText' cfg rows last).length + 1) 0 { inp := fileText' cfg rows last, tup := attrs.map fun _ => .null } {}
    res.2 = ⟨all.map fun r => r.map Prod.fst, all.length⟩ ∧ res.1.errs = 0 := by
  simp only
  have hpl : ∀ r : List (Val × Str), r.length = attrs.length → place (plainCols attrs) r (attrs.map fun _ => Val.null) = r.map Prod.fst := by
    intro r hr
    have := place_append [] (attrs.map fun _ => Val.null) attrs r hr (by simp)
    simpa [plainCols] using this
  obtain ⟨g1, g2⟩ := readRows_spec hv (cols := plainCols attrs) (attrs.map fun _ => Val.null) (rows := rows) (fun r hr => plainCols_writes (h r hr)) (last := last)
    (fun r hr => ⟨plainCols_writes (hlast r hr).1, (hlast r hr).2⟩) ((fileText' cfg rows last).length + 1) 0
    { inp := fileText' cfg rows last, tup := attrs.map fun _ => Val.null } {} rfl (Nat.lt_succ_self _) (fun c _ => rfl)
  refine ⟨?_, g2⟩
  rw [g1]
  simp only [List.nil_append, Nat.sub_zero, Nat.zero_add, ← List.map_take, Store.mk.injEq, and_true]
  apply List.map_congr_left
  intro r hr
  apply hpl
  rcases List.mem_append.1 (List.mem_of_mem_take hr) with hr | hr
  · exact (h r hr).length_eq.symm
  · exact (hlast r (by simpa using hr)).1.length_eq.symm

/-- Without a header: the table is read exactly as it was written, without an error.  (At most `numRows` rows are read; the
newline after the last row may be missing if the last cell is not empty.) -/
theorem C38_round_trip_partial {cfg : Config} (hv : Valid cfg) (hh : cfg.hasHeader = false) (hsk : cfg.skipHeader = false) (isNum : Str → Bool)
    {attrs : List (Str × Ty)} {rows : List (List (Val × Str))} (h : ∀ r ∈ rows, List.Forall₂ (fun a c => Writes cfg isNum a.2 c.1 c.2) attrs r)
    {last : Option (List (Val × Str))} (hlast : ∀ r ∈ last, List.Forall₂ (fun a c => Writes cfg isNum a.2 c.1 c.2) attrs r ∧
      (∀ c ∈ r.getLast?, c.2 ≠ []) ∧ rowText cfg (r.map Prod.snd) ≠ []) :
    let all := (rows ++ last.toList).take cfg.numRows
    (read cfg isNum attrs (fileText' cfg rows last)).2 = ⟨all.map fun r => r.map Prod.fst, all.length⟩ ∧
    (read cfg isNum attrs (fileText' cfg rows last)).1.errs = 0 := by
  have hcols : (attrs.zipIdx.map fun a => (a.1.1, (a.2, a.1.2))).map (fun a => some a.2) = plainCols attrs := by
    unfold plainCols; rw [List.map_map]; rfl
  simp only
  unfold read
  rw [hh, hsk]
  simp only [Bool.false_eq_true, false_and, if_false, hcols]
  exact readPlain hv isNum h hlast

/-! ### Headers -/

/-- The columns that the names of a header denote. -/
def headerCols (attrs : List (Str × Ty)) (names : List Str) : List (Option (Nat × Ty)) :=
  names.map fun n => ((attrs.zipIdx.map fun a => (a.1.1, (a.2, a.1.2))).find? fun a => a.1 == n).map Prod.snd

theorem readHeader_spec {cfg : Config} (hv : Valid cfg) {names : List Str} (h : ∀ n ∈ names, n ≠ [] ∧ Plain cfg n ∧ 0 ∉ n) (rest : Str) (fuel : Nat)
    (hf : (rowText cfg names).length < fuel) : readHeader cfg fuel (rowText cfg names ++ NL :: rest) = (names, NL :: rest) := by
  have hnil : ∀ fuel, readHeader cfg fuel (NL :: rest) = ([], NL :: rest) := by
    intro fuel
    cases fuel with
    | zero => rfl
    | succ f => unfold readHeader; rw [if_neg (by simp [cur])]
  induction names generalizing fuel with
  | nil => exact hnil fuel
  | cons n ns ih =>
    obtain ⟨h1, h2, h3⟩ := h n (by simp)
    cases fuel with
    | zero => omega
    | succ fuel =>
      have hstop : Stop cfg (tailText cfg ns ++ NL :: rest) := by
        unfold Stop; rw [isEnd_iff]
        cases ns with
        | nil => right; left; rfl
        | cons m ns => right; right; simp [tailText, cur]
      have hcur : cur (n ++ (tailText cfg ns ++ NL :: rest)) ≠ EOF ∧ cur (n ++ (tailText cfg ns ++ NL :: rest)) ≠ NL := by
        cases n with
        | nil => exact absurd rfl h1
        | cons c n => obtain ⟨g1, -, g3⟩ := h2 c (by simp); exact ⟨g3, g1⟩
      rw [rowText_cons, List.append_assoc]
      unfold readHeader
      rw [if_pos hcur]
      simp only [take_plain h2 hstop, skip_plain h2 hstop, pooled_eq h3]
      cases ns with
      | nil =>
        have : (NL = cfg.delimiter) = False := by simp [Ne.symm hv.dn]
        simp only [tailText, List.flatMap_nil, List.nil_append, cur, List.headD_cons, this, if_false, hnil]
      | cons m ns =>
        have ht : tailText cfg (m :: ns) ++ NL :: rest = cfg.delimiter :: (rowText cfg (m :: ns) ++ NL :: rest) := by
          rw [rowText_cons]; simp [tailText]
        rw [ht]
        simp only [cur, List.headD_cons, if_true, step, List.tail_cons]
        rw [ih (fun x hx => h x (by simp [hx])) fuel (by
          have := congrArg List.length (rowText_cons cfg n (m :: ns))
          have h4 := congrArg List.length (rowText_cons cfg m ns)
          simp [tailText] at this h4 hf
          omega)]

/-- With a header: each value arrives at the attribute that its column's name denotes; columns that the table does not have
are skipped. -/
theorem C38_header_partial {cfg : Config} (hv : Valid cfg) (hh : cfg.hasHeader = true) (hsk : cfg.skipHeader = false) (isNum : Str → Bool)
    {attrs : List (Str × Ty)} {names : List Str} (hn : ∀ n ∈ names, n ≠ [] ∧ Plain cfg n ∧ 0 ∉ n)
    {rows : List (List (Val × Str))} (h : ∀ r ∈ rows, List.Forall₂ (WritesCol cfg isNum) (headerCols attrs names) r)
    {last : Option (List (Val × Str))} (hlast : ∀ r ∈ last, List.Forall₂ (WritesCol cfg isNum) (headerCols attrs names) r ∧
      (∀ c ∈ r.getLast?, c.2 ≠ []) ∧ rowText cfg (r.map Prod.snd) ≠ []) :
    let all := (rows ++ last.toList).take cfg.numRows
    let res := read cfg isNum attrs (rowText cfg names ++ NL :: fileText' cfg rows last)
    res.2 = ⟨all.map fun r => place (headerCols attrs names) r (attrs.map fun _ => Val.null), all.length⟩ ∧ res.1.errs = 0 := by
  simp only
  unfold read
  rw [hh, hsk]
  have hr := readHeader_spec hv hn (fileText' cfg rows last) (rowText cfg names ++ NL :: fileText' cfg rows last).length (by simp)
  simp only [Bool.false_eq_true, not_false_eq_true, and_self, if_true, hr]
  have hstep : step (NL :: fileText' cfg rows last) = fileText' cfg rows last := rfl
  rw [hstep]
  obtain ⟨g1, g2⟩ := readRows_spec hv (cols := headerCols attrs names) (attrs.map fun _ => Val.null) (rows := rows) h (last := last) hlast
    ((fileText' cfg rows last).length + 1) 0
    { inp := fileText' cfg rows last, tup := attrs.map fun _ => Val.null } {} rfl (Nat.lt_succ_self _) (fun c _ => rfl)
  refine ⟨?_, g2⟩
  unfold headerCols at g1 ⊢
  rw [g1]
  simp only [List.nil_append, Nat.sub_zero, Nat.zero_add, ← List.map_take]

/-- Where the values of a row arrive: if no two columns denote the same attribute, the attribute of column `j` gets the value
of column `j`, and an attribute without a column is NULL. -/
theorem C38_placement {cols : List (Option (Nat × Ty))} {r : List (Val × Str)} (hl : r.length = cols.length) (n : Nat) :
    (∀ i, (∀ ty, some (i, ty) ∉ cols) → i < n → (place cols r (List.replicate n Val.null))[i]? = some .null) ∧
    ((∀ (j k i : Nat) (ty ty' : Ty), cols[j]? = some (some (i, ty)) → cols[k]? = some (some (i, ty')) → j = k) →
      ∀ (j i : Nat) (ty : Ty) (c : Val × Str), cols[j]? = some (some (i, ty)) → r[j]? = some c → i < n → (place cols r (List.replicate n Val.null))[i]? = some c.1) := by
  have other : ∀ (cols : List (Option (Nat × Ty))) (c : List (Val × Str)) (t : List Val) (i : Nat), (∀ ty, some (i, ty) ∉ cols) → (place cols c t)[i]? = t[i]? := by
    intro cols
    induction cols with
    | nil => intro c t i _; cases c <;> rfl
    | cons col cols ih =>
      intro c t i hi
      cases c with
      | nil => cases col <;> rfl
      | cons x c =>
        have hi' : ∀ ty, some (i, ty) ∉ cols := fun ty h => hi ty (by simp [h])
        rw [place_cons, ih c _ i hi']
        cases col with
        | none => rfl
        | some ci =>
          obtain ⟨id, ty0⟩ := ci
          simp only [setCol]
          rw [List.getElem?_set_ne]
          rintro rfl
          exact hi ty0 (by simp)
  refine ⟨?_, ?_⟩
  · intro i hi hn
    rw [other _ _ _ _ hi]
    simp [hn]
  · have main : ∀ (cols : List (Option (Nat × Ty))) (r : List (Val × Str)) (t : List Val), r.length = cols.length →
        (∀ (j k i : Nat) (ty ty' : Ty), cols[j]? = some (some (i, ty)) → cols[k]? = some (some (i, ty')) → j = k) →
        ∀ (j i : Nat) (ty : Ty) (c : Val × Str), cols[j]? = some (some (i, ty)) → r[j]? = some c → i < t.length → (place cols r t)[i]? = some c.1 := by
      intro cols
      induction cols with
      | nil => intro r t _ _ j i ty c h; simp at h
      | cons col cols ih =>
        intro r t hl hu j i ty c hj hr hi
        cases r with
        | nil => simp at hl
        | cons x r =>
          rw [place_cons]
          cases j with
          | zero =>
            simp only [List.getElem?_cons_zero, Option.some.injEq] at hj hr
            subst hj; subst hr
            rw [other]
            · simp [setCol, hi]
            · intro ty' hm
              obtain ⟨k, hk⟩ := List.getElem?_of_mem hm
              have := hu 0 (k + 1) i ty ty' rfl (by simpa using hk)
              omega
          | succ j =>
            apply ih r _ (by simpa using hl) _ j i ty c (by simpa using hj) (by simpa using hr)
            · cases col with
              | none => exact hi
              | some ci => simpa [setCol] using hi
            · intro a b i' ty1 ty2 ha hb
              have := hu (a + 1) (b + 1) i' ty1 ty2 (by simpa using ha) (by simpa using hb)
              omega
    intro hu j i ty c hj hr hi
    exact main cols r _ hl hu j i ty c hj hr (by simpa using hi)

/-- A skipped header (a first line that is not empty): the rest is read like a file without a header. -/
theorem C38_skip_header_partial {cfg : Config} (hv : Valid cfg) (hsk : cfg.skipHeader = true) (isNum : Str → Bool)
    {attrs : List (Str × Ty)} {line : Str} (hne : line ≠ []) (hl : NL ∉ line)
    {rows : List (List (Val × Str))} (h : ∀ r ∈ rows, List.Forall₂ (fun a c => Writes cfg isNum a.2 c.1 c.2) attrs r)
    {last : Option (List (Val × Str))} (hlast : ∀ r ∈ last, List.Forall₂ (fun a c => Writes cfg isNum a.2 c.1 c.2) attrs r ∧
      (∀ c ∈ r.getLast?, c.2 ≠ []) ∧ rowText cfg (r.map Prod.snd) ≠ []) :
    let all := (rows ++ last.toList).take cfg.numRows
    let res := read cfg isNum attrs (line ++ NL :: fileText' cfg rows last)
    res.2 = ⟨all.map fun r => r.map Prod.fst, all.length⟩ ∧ res.1.errs = 0 := by
  have hcols : (attrs.zipIdx.map fun a => (a.1.1, (a.2, a.1.2))).map (fun a => some a.2) = plainCols attrs := by
    unfold plainCols; rw [List.map_map]; rfl
  cases line with
  | nil => exact absurd rfl hne
  | cons x line =>
  simp only
  unfold read
  rw [hsk]
  simp only [not_true, and_false, if_false, if_true, hcols, List.cons_append, step, List.tail_cons]
  have : (line ++ NL :: fileText' cfg rows last).dropWhile (fun c => c != NL) = NL :: fileText' cfg rows last := by
    apply dropWhile_of_all
    · intro c hc
      simp only [bne_iff_ne, ne_eq]
      rintro rfl
      exact hl (by simp [hc])
    · simp
  rw [this]
  exact readPlain hv isNum h hlast

/-! ### Any input -/

theorem len_step (s : Str) : (step s).length ≤ s.length := by unfold step; rw [List.length_tail]; omega
theorem len_accept (b : Nat) (s : Str) : (accept b s).2.length ≤ s.length := by
  unfold accept; split
  · exact len_step s
  · exact Nat.le_refl _
theorem len_dropWhile (p : Nat → Bool) (s : Str) : (s.dropWhile p).length ≤ s.length := (List.dropWhile_suffix p).length_le
theorem len_skip (cfg : Config) (s : Str) : (skipToEnd cfg s).length ≤ s.length := len_dropWhile _ _
theorem len_discardCell (cfg : Config) (s : Str) : (discardCell cfg s).length ≤ s.length := by
  unfold discardCell; split
  · exact (len_accept _ _).trans ((len_dropWhile _ _).trans (len_step s))
  · exact len_skip _ _
theorem len_discardRow (s : Str) : (discardRow s).length ≤ s.length := len_dropWhile _ _
theorem len_readUInt (i : BitVec 64) (s : Str) : (readUInt i s).2.length ≤ s.length := by
  induction s generalizing i with
  | nil => simp [readUInt]
  | cons c s ih =>
    unfold readUInt; split
    · exact (ih _).trans (by simp)
    · exact Nat.le_refl _
theorem len_readRFC (q : Nat) (s : Str) : (readRFC q s).2.length ≤ s.length := by
  fun_induction readRFC q s <;> simp_all +zetaDelta <;> omega
theorem len_readEsc (q e : Nat) (s : Str) : (readEsc q e s).2.length ≤ s.length := by
  fun_induction readEsc q e s <;> simp_all +zetaDelta <;> omega
theorem len_readChar (cfg : Config) (s : Str) : (readChar cfg s).2.1.length ≤ s.length := by
  unfold readChar; split
  · simp only; split
    · exact (len_readRFC _ _).trans (len_step s)
    · exact (len_readEsc _ _ _).trans (len_step s)
  · simp only; split <;> exact len_skip _ _
theorem len_readSign (s : Str) : (readSign s).2.length ≤ s.length := by
  unfold readSign; split
  · exact len_step s
  · exact len_accept _ _
theorem len_readInt (cfg : Config) (s : Str) : (readInt cfg s).2.1.length ≤ s.length := by
  unfold readInt; simp only; split
  · exact (len_readUInt _ _).trans (len_readSign s)
  · exact (len_skip _ _).trans ((len_readUInt _ _).trans (len_readSign s))
theorem len_readPost (n : Nat) (p : BitVec 64) (s : Str) : (readPost n p s).2.length ≤ s.length := by
  fun_induction readPost n p s <;> simp_all <;> omega
theorem len_readDecimal (cfg : Config) (n : Nat) (s : Str) : (readDecimal cfg n s).2.1.length ≤ s.length := by
  unfold readDecimal; simp only
  have h1 : (readUInt 0 (readSign s).2).2.length ≤ s.length := (len_readUInt _ _).trans (len_readSign s)
  have key : ∀ x : BitVec 64 × Str, x.2.length ≤ s.length →
      (if isEnd cfg (cur x.2) = true then (Val.int (if (readSign s).1 = true then -x.1 else x.1), x.2, false)
        else (Val.null, skipToEnd cfg x.2, true)).2.1.length ≤ s.length := by
    intro x hx; split
    · exact hx
    · exact (len_skip _ _).trans hx
  apply key
  split
  · exact (len_dropWhile _ _).trans ((len_readPost _ _ _).trans ((len_step _).trans h1))
  · exact h1
theorem len_readPattern (pat : List (Nat → Bool)) (s : Str) : (readPattern pat s).2.length ≤ s.length := by
  induction pat generalizing s with
  | nil => simp [readPattern]
  | cons p ps ih =>
    unfold readPattern; split
    · exact (ih _).trans (len_step s)
    · exact Nat.le_refl _
theorem len_readDate (cfg : Config) (pat : List (Nat → Bool)) (s : Str) : (readDate cfg pat s).2.1.length ≤ s.length := by
  unfold readDate; simp only
  have h1 : (if cur (accept cfg.quote s).2 = 45 then ([45], step (accept cfg.quote s).2) else ([], (accept cfg.quote s).2)).2.length ≤ s.length := by
    split
    · exact (len_step _).trans (len_accept _ _)
    · exact len_accept _ _
  revert h1
  generalize (if cur (accept cfg.quote s).2 = 45 then ([45], step (accept cfg.quote s).2) else ([], (accept cfg.quote s).2)) = x
  intro h1
  have h2 := (len_readPattern pat x.2).trans h1
  revert h2
  generalize readPattern pat x.2 = y
  obtain ⟨y1, y2⟩ := y
  intro h2
  cases y1 with
  | none => exact h2
  | some t =>
    simp only
    split
    · split
      · exact (len_step _).trans h2
      · exact h2
    · exact h2
theorem len_readTy (cfg : Config) (isNum : Str → Bool) (id : Nat) (ty : Ty) (s : R) : (readTy cfg isNum id ty s).inp.length ≤ s.inp.length := by
  unfold readTy
  cases ty with
  | bool => exact len_skip _ _
  | char => exact len_readChar _ _
  | date => exact len_readDate _ _ _
  | datetime => exact len_readDate _ _ _
  | int => exact len_readInt _ _
  | decimal n => exact len_readDecimal _ _ _
  | float =>
    simp only [readFloat]
    split <;> exact len_skip _ _
theorem len_readCol (cfg : Config) (isNum : Str → Bool) (b : Bool) (col : Option (Nat × Ty)) (s : R) : (readCol cfg isNum b col s).inp.length ≤ s.inp.length := by
  unfold readCol
  cases col with
  | none => exact len_discardCell _ _
  | some ci =>
    simp only
    split
    · exact Nat.le_refl _
    · exact (len_discardCell _ _).trans (len_readTy _ _ _ _ _)
theorem len_readCells (cfg : Config) (isNum : Str → Bool) (first : Bool) (cols : List (Option (Nat × Ty))) (s : R) :
    (readCells cfg isNum first cols s).2.inp.length ≤ s.inp.length := by
  induction cols generalizing first s with
  | nil => simp [readCells]
  | cons col cols ih =>
    unfold readCells; split
    · exact len_discardRow _
    · refine (ih _ _).trans ((len_readCol _ _ _ _ _).trans ?_)
      split
      · exact Nat.le_refl _
      · exact len_step _

theorem errs_readCells (cfg : Config) (isNum : Str → Bool) (first : Bool) (cols : List (Option (Nat × Ty))) (s : R) :
    s.errs + (if (readCells cfg isNum first cols s).1 then 0 else 1) ≤ (readCells cfg isNum first cols s).2.errs := by
  have hc : ∀ b col (s : R), s.errs ≤ (readCol cfg isNum b col s).errs := by
    intro b col s
    unfold readCol
    cases col with
    | none => exact Nat.le_refl _
    | some ci =>
      simp only
      split
      · exact Nat.le_refl _
      · unfold readTy; exact Nat.le_add_right _ _
  induction cols generalizing first s with
  | nil => simp [readCells]
  | cons col cols ih =>
    unfold readCells; split
    · simp
    · refine (Nat.add_le_add_right ((le_of_eq ?_ : s.errs ≤ _).trans (hc cols.isEmpty col (if first then s else { s with inp := step s.inp }))) _).trans (ih _ _)
      split <;> rfl

theorem readRows_any (cfg : Config) (isNum : Str → Bool) (cols : List (Option (Nat × Ty))) (fuel idx : Nat) (s : R) (st : Store) (hf : s.inp.length < fuel) :
    let r := readRows cfg isNum cols fuel idx s st
    (r.1.inp = [] ∨ cfg.numRows - idx ≤ r.2.numRows - st.numRows) ∧ r.2.numRows - st.numRows ≤ cfg.numRows - idx ∧ st.numRows ≤ r.2.numRows ∧
    st.written.length ≤ r.2.written.length ∧ r.2.written.length - st.written.length ≤ r.2.numRows - st.numRows ∧
    (r.2.numRows - st.numRows) + s.errs ≤ (r.2.written.length - st.written.length) + r.1.errs ∧ s.errs ≤ r.1.errs := by
  induction fuel generalizing idx s st with
  | zero => omega
  | succ fuel ih =>
    simp only
    unfold readRows
    split
    · next hc =>
      have hl := len_readCells cfg isNum true cols s
      have he := errs_readCells cfg isNum true cols s
      revert hl he
      generalize readCells cfg isNum true cols s = y
      obtain ⟨ok, t⟩ := y
      intro hl he
      simp only at hl he ⊢
      have hpos : 0 < s.inp.length := List.length_pos_iff.2 hc.1
      have hstep : ∀ x : Str, x.length ≤ s.inp.length → (step x).length < fuel := by
        intro x hx
        unfold step; rw [List.length_tail]; omega
      cases ok with
      | true =>
        simp only [if_true] at he ⊢
        split
        · have := ih (idx + 1) { inp := step (discardRow t.inp), tup := t.tup, errs := t.errs + 1 } { st with numRows := st.numRows + 1 } (hstep _ ((len_discardRow _).trans hl))
          simp only at this ⊢
          obtain ⟨a1, a2, a3, a4, a5, a6, a7⟩ := this
          have := hc.2
          refine ⟨a1.imp id (by omega), by omega, by omega, by omega, by omega, by omega, by omega⟩
        · have := ih (idx + 1) { inp := step t.inp, tup := t.tup, errs := t.errs } ⟨st.written ++ [t.tup], st.numRows + 1⟩ (hstep _ hl)
          simp only [List.length_append, List.length_singleton] at this ⊢
          obtain ⟨a1, a2, a3, a4, a5, a6, a7⟩ := this
          have := hc.2
          refine ⟨a1.imp id (by omega), by omega, by omega, by omega, by omega, by omega, by omega⟩
      | false =>
        simp only [Bool.false_eq_true, if_false] at he ⊢
        have := ih idx { inp := step t.inp, tup := t.tup, errs := t.errs } st (hstep _ hl)
        simp only at this ⊢
        obtain ⟨a1, a2, a3, a4, a5, a6, a7⟩ := this
        refine ⟨a1, by omega, by omega, by omega, by omega, by omega, by omega⟩
    · next hc =>
      simp only [Nat.sub_self, Nat.le_refl, Nat.zero_le, Nat.zero_add, true_and, and_true]
      by_cases h : s.inp = []
      · exact Or.inl h
      · right
        have : ¬ idx < cfg.numRows := fun h' => hc ⟨h, h'⟩
        omega

/-- For any input, well-formed or not: the import ends, having consumed the entire input or stored the maximum number of rows;
it never stores more rows than allowed; if no error is reported, every row of the store has been written, and in general at
most as many rows are left unwritten as errors were reported. -/
theorem C38_any_input (cfg : Config) (isNum : Str → Bool) (attrs : List (Str × Ty)) (inp : Str) :
    let r := read cfg isNum attrs inp
    (r.1.inp = [] ∨ r.2.numRows = cfg.numRows) ∧ r.2.numRows ≤ cfg.numRows ∧ r.2.written.length ≤ r.2.numRows ∧ r.2.numRows ≤ r.2.written.length + r.1.errs := by
  simp only
  unfold read
  simp only
  generalize (if cfg.hasHeader = true ∧ ¬cfg.skipHeader = true then _ else _ : List (Option (Nat × Ty)) × Str) = x
  obtain ⟨cols, s⟩ := x
  obtain ⟨a1, a2, -, -, a5, a6, -⟩ := readRows_any cfg isNum cols (s.length + 1) 0 { inp := s, tup := attrs.map fun _ => Val.null } {} (Nat.lt_succ_self _)
  simp only [Nat.sub_zero, List.length_nil, Nat.add_zero] at a1 a2 a5 a6 ⊢
  exact ⟨a1.imp id (by omega), a2, a5, a6⟩

/-! ### Rows with too few cells -/

/-- A cell that is not the last column, followed by the delimiter or (if it is not empty) by the end of the row. -/
theorem readCol_inner {cfg : Config} (hv : Valid cfg) {isNum : Str → Bool} {col : Option (Nat × Ty)} {c : Val × Str} (hc : WritesCol cfg isNum col c)
    {rest : Str} (hr : Stop cfg rest) (he : c.2 = [] → cur rest = cfg.delimiter) (s : R) (hs : s.inp = c.2 ++ rest) :
    readCol cfg isNum false col s = { inp := rest, tup := setCol col c.1 s.tup, errs := s.errs } := by
  cases col with
  | none =>
    simp only [readCol, setCol]
    rw [hs, discard_ignorable hv hc hr]
  | some ci =>
    obtain ⟨id, ty⟩ := ci
    have hw : Writes cfg isNum ty c.1 c.2 := hc
    simp only [readCol, setCol]
    by_cases hne : c.2 = []
    · rw [if_pos (Or.inr ⟨trivial, by rw [hs, hne]; exact he hne⟩), hw.null_of_empty hne]
      cases s
      simp only at hs
      rw [hs, hne, List.nil_append]
    · have hh := hw.head hv hne rest
      rw [if_neg (by rw [hs]; rintro (⟨-, h⟩ | ⟨-, h⟩); exact hh.2 h; exact hh.1 h)]
      rw [readTy_spec hv hw hne hr id s hs]
      simp only
      rw [discard_stop hv hr]

theorem readCells_short_tail {cfg : Config} (hv : Valid cfg) {isNum : Str → Bool} {cols : List (Option (Nat × Ty))} {cells : List (Val × Str)}
    (h : List.Forall₂ (WritesCol cfg isNum) cols cells) (hl : ∀ c ∈ cells.getLast?, c.2 ≠ []) (d : Option (Nat × Ty)) (cols2 : List (Option (Nat × Ty)))
    (rest : Str) (s : R) (hs : s.inp = tailText cfg (cells.map Prod.snd) ++ NL :: rest) :
    readCells cfg isNum false (cols ++ d :: cols2) s =
      (false, { inp := NL :: rest, tup := place (cols ++ d :: cols2) cells s.tup, errs := s.errs + 1 }) := by
  induction h generalizing s with
  | nil =>
    simp only [List.map_nil, tailText, List.flatMap_nil, List.nil_append] at hs
    simp only [List.nil_append, readCells]
    rw [if_pos ⟨trivial, by rw [hs]; exact fun h => hv.dn h.symm⟩, hs]
    simp [discardRow, place]
  | @cons col c cols cells hc hcs ih =>
    rw [List.cons_append]
    unfold readCells
    have hcur : cur s.inp = cfg.delimiter := by rw [hs]; simp [tailText, cur]
    rw [if_neg (by simp [hcur])]
    have hstep : step s.inp = c.2 ++ (tailText cfg (cells.map Prod.snd) ++ NL :: rest) := by
      rw [hs]; simp [tailText, step]
    have hstop : Stop cfg (tailText cfg (cells.map Prod.snd) ++ NL :: rest) :=
      RowEnd.stop (cfg := cfg) (cells := cells) (rest := NL :: rest) (Or.inl rfl) (cells.map Prod.snd)
    rw [if_neg (by simp), show (cols ++ d :: cols2).isEmpty = false by simp, readCol_inner hv hc hstop ?_ { s with inp := step s.inp } hstep]
    · rw [ih (fun x hx => hl x ?_) _ rfl, place_cons]
      cases cells with
      | nil => simp at hx
      | cons y cells => simpa [List.getLast?_cons] using hx
    · intro hce
      cases cells with
      | nil => exact absurd hce (hl c (by simp))
      | cons y cells => simp [tailText, cur]

/-- A row with at least one cell and too few cells is dropped, with an error; the row after it is next. -/
theorem readCells_short {cfg : Config} (hv : Valid cfg) {isNum : Str → Bool} {cols : List (Option (Nat × Ty))} {cells : List (Val × Str)}
    (h : List.Forall₂ (WritesCol cfg isNum) cols cells) (hne : cells ≠ []) (hl : ∀ c ∈ cells.getLast?, c.2 ≠ []) (d : Option (Nat × Ty))
    (cols2 : List (Option (Nat × Ty))) (rest : Str) (s : R) (hs : s.inp = rowText cfg (cells.map Prod.snd) ++ NL :: rest) :
    readCells cfg isNum true (cols ++ d :: cols2) s =
      (false, { inp := NL :: rest, tup := place (cols ++ d :: cols2) cells s.tup, errs := s.errs + 1 }) := by
  cases h with
  | nil => exact absurd rfl hne
  | @cons col c cols cells hc hcs =>
    rw [List.cons_append]
    unfold readCells
    rw [if_neg (by simp), if_pos rfl]
    rw [List.map_cons, rowText_cons, List.append_assoc] at hs
    have hstop : Stop cfg (tailText cfg (cells.map Prod.snd) ++ NL :: rest) :=
      RowEnd.stop (cfg := cfg) (cells := cells) (rest := NL :: rest) (Or.inl rfl) (cells.map Prod.snd)
    rw [show (cols ++ d :: cols2).isEmpty = false by simp, readCol_inner hv hc hstop ?_ s hs]
    · rw [readCells_short_tail hv hcs (fun x hx => hl x ?_) d cols2 rest _ rfl, place_cons]
      cases cells with
      | nil => simp at hx
      | cons y cells => simpa [List.getLast?_cons] using hx
    · intro hce
      cases cells with
      | nil => exact absurd hce (hl c (by simp))
      | cons y cells => simp [tailText, cur]

/-- The cells conform to the first columns, but there are too few; the last one is not empty. -/
def ShortRow (cfg : Config) (isNum : Str → Bool) (attrs : List (Str × Ty)) (r : List (Val × Str)) : Prop :=
  r ≠ [] ∧ r.length < attrs.length ∧ List.Forall₂ (fun a c => Writes cfg isNum a.2 c.1 c.2) (attrs.take r.length) r ∧ ∀ c ∈ r.getLast?, c.2 ≠ []

theorem readRows_mixed {cfg : Config} (hv : Valid cfg) {isNum : Str → Bool} {attrs : List (Str × Ty)} (base : List Val)
    {rows : List (List (Val × Str))}
    (h : ∀ r ∈ rows, List.Forall₂ (fun a c => Writes cfg isNum a.2 c.1 c.2) attrs r ∨ ShortRow cfg isNum attrs r)
    (fuel idx : Nat) (s : R) (st : Store) (hs : s.inp = fileText cfg rows) (hf : s.inp.length < fuel) (hn : idx + rows.length ≤ cfg.numRows)
    (htup : ∀ c : List (Val × Str), c.length = (plainCols attrs).length → place (plainCols attrs) c s.tup = place (plainCols attrs) c base) :
    (readRows cfg isNum (plainCols attrs) fuel idx s st).2 =
      ⟨st.written ++ (rows.filter fun r => r.length = attrs.length).map fun r => place (plainCols attrs) r base,
       st.numRows + (rows.filter fun r => r.length = attrs.length).length⟩ ∧
    (readRows cfg isNum (plainCols attrs) fuel idx s st).1.errs = s.errs + (rows.filter fun r => r.length ≠ attrs.length).length := by
  induction rows generalizing fuel idx s st with
  | nil =>
    cases fuel with
    | zero => omega
    | succ fuel =>
      unfold readRows
      have : s.inp = [] := by rw [hs]; rfl
      rw [if_neg (by simp [this])]
      simp
  | cons r rows ih =>
    cases fuel with
    | zero => omega
    | succ fuel =>
      have hinp : s.inp = rowText cfg (r.map Prod.snd) ++ (NL :: fileText cfg rows) := by rw [hs]; simp [fileText]
      unfold readRows
      rw [List.length_cons] at hn
      rw [if_pos ⟨by rw [hinp]; simp, by omega⟩]
      rcases h r (by simp) with g | ⟨g0, g1, g2, g3⟩
      · have hlen : r.length = attrs.length := g.length_eq.symm
        have hrow := readCells_spec hv (plainCols_writes g) (rest := NL :: fileText cfg rows) (Or.inl rfl) s hinp
        simp only [hrow, if_true]
        rw [if_neg (by simp [cur])]
        obtain ⟨i1, i2⟩ := ih (fun x hx => h x (by simp [hx])) fuel (idx + 1)
          { inp := step (NL :: fileText cfg rows), tup := place (plainCols attrs) r s.tup, errs := s.errs }
          ⟨st.written ++ [place (plainCols attrs) r s.tup], st.numRows + 1⟩ rfl
          (by rw [hinp] at hf; simp [step] at hf ⊢; omega) (by omega)
          (fun c hc => by rw [place_place hc]; exact htup c hc)
        rw [i1, i2, htup r (by simp [plainCols, hlen])]
        simp only [hlen, decide_true, List.filter_cons_of_pos, ne_eq, not_true_eq_false, decide_false, Bool.false_eq_true, not_false_eq_true, List.filter_cons_of_neg]
        refine ⟨?_, trivial⟩
        simp
        omega
      · have hsplit : ∃ d cols2, plainCols attrs = plainCols (attrs.take r.length) ++ d :: cols2 := by
          refine ⟨some (r.length, attrs[r.length].2), ((attrs.drop (r.length + 1)).zipIdx (r.length + 1)).map fun a => some (a.2, a.1.2), ?_⟩
          have e : attrs = attrs.take r.length ++ attrs[r.length] :: attrs.drop (r.length + 1) := by
            rw [List.getElem_cons_drop, List.take_append_drop]
          unfold plainCols
          conv_lhs => rw [e]
          rw [List.zipIdx_append, List.map_append, List.zipIdx_cons, List.map_cons, List.length_take, Nat.min_eq_left (by omega)]
          simp
        obtain ⟨d, cols2, hcols⟩ := hsplit
        have hrow := readCells_short hv (plainCols_writes g2) g0 g3 d cols2 (fileText cfg rows) s hinp
        rw [← hcols] at hrow
        simp only [hrow, Bool.false_eq_true, if_false]
        have hlen : r.length ≠ attrs.length := by omega
        obtain ⟨i1, i2⟩ := ih (fun x hx => h x (by simp [hx])) fuel idx
          { inp := step (NL :: fileText cfg rows), tup := place (plainCols attrs) r s.tup, errs := s.errs + 1 } st rfl
          (by rw [hinp] at hf; simp [step] at hf ⊢; omega) (by omega)
          (fun c hc => by rw [place_place hc]; exact htup c hc)
        rw [i1, i2]
        simp only [hlen, decide_true, List.filter_cons_of_pos, ne_eq, decide_false, Bool.false_eq_true, not_false_eq_true, List.filter_cons_of_neg, List.length_cons, true_and]
        omega

/-- Rows with too few cells are dropped, with one error each, and do not affect the other rows. -/
theorem C38_short_rows_partial {cfg : Config} (hv : Valid cfg) (hh : cfg.hasHeader = false) (hsk : cfg.skipHeader = false) (isNum : Str → Bool)
    {attrs : List (Str × Ty)} {rows : List (List (Val × Str))}
    (h : ∀ r ∈ rows, List.Forall₂ (fun a c => Writes cfg isNum a.2 c.1 c.2) attrs r ∨ ShortRow cfg isNum attrs r) (hn : rows.length ≤ cfg.numRows) :
    let full := rows.filter fun r => r.length = attrs.length
    let res := read cfg isNum attrs (fileText cfg rows)
    res.2 = ⟨full.map fun r => r.map Prod.fst, full.length⟩ ∧ res.1.errs = (rows.filter fun r => r.length ≠ attrs.length).length := by
  simp only
  have hread : read cfg isNum attrs (fileText cfg rows) =
      readRows cfg isNum (plainCols attrs) ((fileText cfg rows).length + 1) 0 { inp := fileText cfg rows, tup := attrs.map fun _ => .null } {} := by
    unfold read
    simp only [hh, hsk, Bool.false_eq_true, false_and, if_false, List.map_map]
    rfl
  rw [hread]
  obtain ⟨g1, g2⟩ := readRows_mixed hv (attrs.map fun _ => Val.null) h ((fileText cfg rows).length + 1) 0
    { inp := fileText cfg rows, tup := attrs.map fun _ => Val.null } {} rfl (Nat.lt_succ_self _) (by omega) (fun c _ => rfl)
  rw [g1, g2]
  refine ⟨?_, by simp⟩
  simp only [List.nil_append, Nat.zero_add, Store.mk.injEq, and_true]
  apply List.map_congr_left
  intro r hr
  have hr := (List.mem_filter.1 hr).2
  have := place_append [] (attrs.map fun _ => Val.null) attrs r (by simpa using hr) (by simp)
  simpa [plainCols] using this

/-! ### Invalid cells -/

/-- Texts that are not values of the type: numbers with characters behind the digits, unquoted strings with a quote inside. -/
inductive Invalid (cfg : Config) : Ty → Str → Prop where
  | int {sg k ds x t} : Sign sg k → ds ≠ [] → Digits ds → ¬ (48 ≤ x ∧ x ≤ 57) → Plain cfg (sg ++ ds ++ x :: t) → Invalid cfg .int (sg ++ ds ++ x :: t)
  | decimal {n sg k ds x t} : Sign sg k → ds ≠ [] → Digits ds → ¬ (48 ≤ x ∧ x ≤ 57) → x ≠ 46 → Plain cfg (sg ++ ds ++ x :: t) →
      Invalid cfg (.decimal n) (sg ++ ds ++ x :: t)
  | str {t} : Plain cfg t → t.head? ≠ some cfg.quote → cfg.quote ∈ t → Invalid cfg .char t

theorem isEnd_plain {cfg : Config} {x : Nat} (h : x ≠ NL ∧ x ≠ cfg.delimiter ∧ x ≠ EOF) : isEnd cfg x = false := by
  rw [← Bool.not_eq_true, isEnd_iff]
  rintro (h' | h' | h')
  · exact h.2.2 h'
  · exact h.1 h'
  · exact h.2.1 h'

/-- An invalid cell becomes NULL with an error; the reader continues behind it. -/
theorem C38_invalid_cell {cfg : Config} (hv : Valid cfg) (isNum : Str → Bool) {ty : Ty} {t rest : Str} (h : Invalid cfg ty t)
    (hr : Stop cfg rest) (isLast : Bool) (id : Nat) (s : R) (hs : s.inp = t ++ rest) :
    readCol cfg isNum isLast (some (id, ty)) s = { inp := rest, tup := s.tup.set id .null, errs := s.errs + 1 } := by
  have hhead : Plain cfg t → t ≠ [] → cur (t ++ rest) ≠ cfg.delimiter ∧ cur (t ++ rest) ≠ NL := by
    intro hp hne
    cases t with
    | nil => exact absurd rfl hne
    | cons c t => obtain ⟨h1, h2, -⟩ := hp c (by simp); exact ⟨h2, h1⟩
  have main : readTy cfg isNum id ty s = { inp := rest, tup := s.tup.set id .null, errs := s.errs + 1 } := by
    unfold readTy
    rw [hs]
    cases h with
    | @int sg k ds x t hsg hne hd hx hp =>
      have hsplit : Plain cfg (x :: t) := fun c hc => hp c (by simp at hc ⊢; tauto)
      have e : readInt cfg (sg ++ ds ++ x :: t ++ rest) = (.null, rest, true) := by
        unfold readInt
        rw [List.append_assoc, List.append_assoc, readSign_spec hsg hne hd]
        simp only
        have := readUInt_digits hd (rest := x :: t ++ rest) (show isDec x = false by rw [← Bool.not_eq_true, isDec_iff]; exact hx) 0
        rw [show (BitVec.ofNat 64 0) = 0 from rfl] at this
        rw [this]
        simp only
        rw [if_neg (by rw [show cur (x :: t ++ rest) = x from rfl, isEnd_plain (hp x (by simp))]; simp), skip_plain hsplit hr]
      simp only [e]; rfl
    | @decimal n sg k ds x t hsg hne hd hx h46 hp =>
      have hsplit : Plain cfg (x :: t) := fun c hc => hp c (by simp at hc ⊢; tauto)
      have e : readDecimal cfg n (sg ++ ds ++ x :: t ++ rest) = (.null, rest, true) := by
        unfold readDecimal
        rw [List.append_assoc, List.append_assoc, readSign_spec hsg hne hd]
        simp only
        have := readUInt_digits hd (rest := x :: t ++ rest) (show isDec x = false by rw [← Bool.not_eq_true, isDec_iff]; exact hx) 0
        rw [show (BitVec.ofNat 64 0) = 0 from rfl] at this
        rw [this]
        simp only [show cur (x :: t ++ rest) = x from rfl, h46, if_false]
        rw [if_neg (by rw [isEnd_plain (hp x (by simp))]; simp), skip_plain hsplit hr]
      simp only [e]; rfl
    | str hp hh hq =>
      have e : readChar cfg (t ++ rest) = (.null, rest, true) := by
        unfold readChar
        have hc : cur (t ++ rest) ≠ cfg.quote := by
          cases t with
          | nil => simp at hq
          | cons c t => simpa [cur] using hh
        rw [if_neg hc]
        simp only [take_plain hp hr, skip_plain hp hr, if_pos hq]
      simp only [e]; rfl
  have hh : cur (t ++ rest) ≠ cfg.delimiter ∧ cur (t ++ rest) ≠ NL := by
    cases h with
    | int _ _ _ _ hp => exact hhead hp (by simp)
    | decimal _ _ _ _ _ hp => exact hhead hp (by simp)
    | str hp _ hq => exact hhead hp (List.ne_nil_of_mem hq)
  simp only [readCol]
  rw [if_neg (by rw [hs]; rintro (⟨-, h⟩ | ⟨-, h⟩); exact hh.2 h; exact hh.1 h), main]
  simp only
  rw [discard_stop hv hr]

/-! ### Defects -/

/-- The default dialect. -/
def csv : Config := { delimiter := 44, quote := 34, escape := 34, numRows := 100 }

def noNum : Str → Bool := fun _ => false

def text (s : String) : Str := s.toList.map Char.toNat

/-- Without the final newline, an empty last cell is not NULL but 0 (or the empty string). -/
theorem C38_missing_newline : (read csv noNum [(text "a", .int), (text "b", .int)] [49, 44, 10]).2.written = [[.int 1, .null]] ∧
    (read csv noNum [(text "a", .int), (text "b", .int)] [49, 44]).2.written = [[.int 1, .int 0]] := by decide +kernel

/-- A row with too many cells is reported, but leaves a row in the store that has not been written. -/
theorem C38_unwritten_row : (read csv noNum [(text "a", .int)] [49, 44, 50, 10, 51, 10]).2 = ⟨[[.int 3]], 2⟩ := by decide +kernel

/-- A Boolean that is neither `TRUE` nor `FALSE` is reported, but the row is stored with the value of the previous row. -/
theorem C38_stale_boolean : (read csv noNum [(text "a", .bool)] [84, 82, 85, 69, 10, 120, 10]).2.written = [[.bool true], [.bool true]] := by decide +kernel

/-- A quoted cell with a quote (written `"x""y"`) in a column that the table does not have makes the row disappear. -/
theorem C38_ignored_column_with_quote :
    (read { csv with hasHeader := true } noNum [(text "a", .int)] ([122, 44, 97, 10] ++ [34, 120, 34, 34, 121, 34, 44, 49, 10])).2 = ⟨[], 0⟩ := by decide +kernel

/-- If the header that is to be skipped is empty, the first row is skipped, too. -/
theorem C38_skip_empty_header : (read { csv with skipHeader := true } noNum [(text "a", .int)] [10, 49, 10, 50, 10]).2.written = [[.int 2]] := by decide +kernel

/-- Decimals of scale 10 or more are scaled by a factor that overflows 32 bits: `1` is not read as `10^10`. -/
theorem C38_decimal_scale : (read csv noNum [(text "a", .decimal 10)] [49, 10]).2.written = [[.int 1410065408]] := by decide +kernel

/-- The byte 255 ends a row: `x\xFFy` is read as two rows. -/
theorem C38_byte_255 : (read csv noNum [(text "a", .char)] [120, 255, 121, 10]).2.written = [[.str [120]], [.str [121]]] := by decide +kernel

/-- A sign without digits is read as 0. -/
theorem C38_sign_only : (read csv noNum [(text "a", .int)] [45, 10]).2.written = [[.int 0]] ∧
    (read csv noNum [(text "a", .int)] [45, 10]).1.errs = 0 := by decide +kernel

/-! ### Non-vacuity -/

example : Valid csv := by constructor <;> decide

/-- The row `-12,"a,""b",TRUE,1.5`. -/
def exAttrs : List (Str × Ty) := [(text "i", .int), (text "s", .char), (text "b", .bool), (text "d", .decimal 2)]
def exRow : List (Val × Str) := [(.int (BitVec.ofInt 64 (-12)), text "-12"), (.str (text "a,\"b"), 34 :: (rfcBody 34 (text "a,\"b") ++ [34])), (.bool true, text "TRUE"),
  (.int 150, text "1.5")]

theorem exRow_ok : List.Forall₂ (fun a c => Writes csv noNum a.2 c.1 c.2) exAttrs exRow := by
  refine .cons ?_ (.cons ?_ (.cons ?_ (.cons ?_ .nil)))
  · exact Writes.int (sg := [45]) (k := -1) (ds := [49, 50]) .minus (by simp) (by unfold Digits; decide) (by unfold Plain; decide)
  · exact Writes.rfc rfl (by decide) (by decide)
  · exact Writes.btrue (by unfold Plain; decide)
  · exact Writes.decimalDot (n := 2) (sg := []) (k := 1) (ds := [49]) (ps := [53]) .none (by simp) (by unfold Digits; decide) (by unfold Digits; decide) (by unfold Plain; decide)
      (by decide) (by decide)

example : (read csv noNum exAttrs (fileText' csv [exRow, exRow] (some exRow))).2.written = [exRow, exRow, exRow].map fun r => r.map Prod.fst :=
  congrArg Store.written (C38_round_trip_partial (cfg := csv) (by constructor <;> decide) rfl rfl noNum (attrs := exAttrs) (rows := [exRow, exRow])
    (by intro r hr; simp at hr; subst hr; exact exRow_ok) (last := some exRow)
    (by intro r hr; simp at hr; subst hr; exact ⟨exRow_ok, by decide, by decide⟩)).1

/-- The row `1` is too short for two columns. -/
example : ShortRow csv noNum [(text "a", .int), (text "b", .int)] [(.int 1, [49])] := by
  refine ⟨by simp, by decide, ?_, by simp⟩
  refine .cons ?_ .nil
  exact Writes.int (sg := []) (k := 1) (ds := [49]) .none (by simp) (by unfold Digits; decide) (by unfold Plain; decide)

/-- `12x` is not an integer and `a"b` not a string. -/
example : Invalid csv .int [49, 50, 120] ∧ Invalid csv .char [97, 34, 98] :=
  ⟨Invalid.int (sg := []) (ds := [49, 50]) .none (by simp) (by unfold Digits; decide) (by decide) (by unfold Plain; decide),
   .str (by unfold Plain; decide) (by decide) (by decide)⟩

end Mutable.DSV
