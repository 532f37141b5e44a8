import Verif.Deliver.Lemmas

namespace Mutable.Deliver

variable {α : Type}

/-! ## Rows of the result set -/

/-- What column `it` of the result shall hold, given the values `f` of the names. -/
def cell (f : Ident → Option α) (it : Item α) : Option α :=
  if projId it = constId then constOf it else f (projId it)

theorem value_const (sem : Sem α) (env : Env α) {it : Item α} (h : it.isConst) :
    value sem env it.e = some (constOf it) := by
  obtain ⟨e, a, ty⟩ := it
  cases e <;> cases a <;> first | rfl | exact h.elim

/-- For every input row there are values of the names such that the row of the result set lists them in the
order of its schema and such that every column has the value of its item. -/
theorem row_ok (sem : Sem α) (items : List (Item α)) (cols : List Ident) (env : Env α)
    (hR : ReservedFree items) (hN : NoClash items cols) (hG : GoodRow sem items cols env) :
    ∃ f : Ident → Option α,
      (wasmProject sem env items []).bind (writeRow (writeSchema (projSchema items))) =
        some ((readSchema (projSchema items)).map (fun e => f e.id)) ∧
      (∀ it ∈ items, value sem env it.e = some (cell f it)) := by
  obtain ⟨new', he, ha, _, hc⟩ := wasmProject_ok sem items cols env hR hN hG items [] (fun _ h => h)
    (by intro it _ h; simp [Env.has] at h)
  refine ⟨fun id => (new'.get id).getD none, ?_, ?_⟩
  · rw [he, write_eq_read]
    show writeRow _ new' = _
    rw [writeRow]
    have : ∀ e ∈ readSchema (projSchema items), new'.get e.id = some ((new'.get e.id).getD none) := by
      intro e hm
      obtain ⟨h1, h2⟩ := mem_readSchema hm
      obtain ⟨it, hit, rfl⟩ := List.mem_map.1 h1
      rw [ha it hit (hc it hit h2) h2]
      obtain ⟨v, hv⟩ := Option.isSome_iff_exists.1 (hG.val it hit)
      rw [hv]; rfl
    generalize readSchema (projSchema items) = D at this
    induction D with
    | nil => rfl
    | cons e r ih =>
      rw [List.mapM_cons, ih (fun x hx => this x (by simp [hx])), this e (by simp)]
      rfl
  · intro it hit
    rw [cell]
    by_cases h : projId it = constId
    · rw [if_pos h]
      exact value_const sem env ((projId_const hR hit).1 h)
    · rw [if_neg h, ha it hit (hc it hit h) h]
      obtain ⟨v, hv⟩ := Option.isSome_iff_exists.1 (hG.val it hit)
      rw [hv]; rfl

/-! ## Printing -/

theorem run_append (s : MSt α) (p q : List (Op α)) : run s (p ++ q) = (run s p).bind (fun t => run t q) := by
  induction p generalizing s with
  | nil => rfl
  | cons o p ih =>
    rw [List.cons_append, run, run]
    cases h : step s o with
    | none => rfl
    | some s' => exact ih s'

/-- The text of a row from column `i` on. -/
def lineFrom (g : Item α → Option α) : Nat → List (Item α) → List (Out α)
  | _, [] => []
  | i, it :: r => (if i = 0 then [] else [Out.sep]) ++ [Out.item it.ty (g it)] ++ lineFrom g (i + 1) r

theorem lineFrom_pos (g : Item α → Option α) (items : List (Item α)) : ∀ i, 0 < i →
    lineFrom g i items = items.flatMap fun it => [Out.sep, Out.item it.ty (g it)] := by
  induction items with
  | nil => intro i _; rfl
  | cons it r ih =>
    intro i hi
    rw [lineFrom, if_neg (by omega), ih (i + 1) (by omega)]
    rfl

theorem intersperse_eq {β} (s : β) (l : List β) (x : β) :
    (x :: l).intersperse s = x :: l.flatMap (fun y => [s, y]) := by
  induction l generalizing x with
  | nil => rfl
  | cons y r ih =>
    rw [List.intersperse_cons₂, ih]
    rfl

theorem zip_map_right {β γ} (l : List β) (g : β → γ) : l.zip (l.map g) = l.map fun x => (x, g x) := by
  induction l with
  | nil => rfl
  | cons x r ih => rw [List.map_cons, List.map_cons, List.zip_cons_cons, ih]

theorem rowText_eq (items : List (Item α)) (g : Item α → Option α) :
    rowText items (items.map g) = lineFrom g 0 items ++ [Out.nl] := by
  rw [rowText, zip_map_right, List.map_map]
  cases items with
  | nil => rfl
  | cons it r =>
    rw [List.map_cons, intersperse_eq, lineFrom, lineFrom_pos _ _ _ (by omega), List.flatMap_map]
    rfl

theorem constText_eq (items : List (Item α)) (g : Item α → Option α)
    (h : ∀ it ∈ items, g it = match it.ty with | .null => none | .prim _ => constOf it) : ∀ i,
    constText i items = lineFrom g i items := by
  induction items with
  | nil => intro i; rfl
  | cons it r ih =>
    intro i
    rw [constText, lineFrom, ih (fun x hx => h x (by simp [hx])), h it (by simp)]
    cases it.ty <;> rfl

/-- What is on the stack between two columns. -/
def oldStack (row : List (Option α)) : Option Nat → List (Option α)
  | none => []
  | some i => [row.getD i none]

theorem printCols_ok (D : Schema) (f : Ident → Option α) (row : List (Option α))
    (hrow : row = D.map (fun e => f e.id)) (tups : Nat → Nat → Option α)
    (htup : ∀ i, i < row.length → tups 0 i = row.getD i none) (items : List (Item α))
    (hmem : ∀ it ∈ items, projId it ≠ constId → ∃ e ∈ D, e.id = projId it)
    (hnull : ∀ it ∈ items, it.ty = .null → cell f it = none) :
    ∀ (i : Nat) (old : Option Nat) (out : List (Out α)),
      run ⟨oldStack row old, tups, row, out⟩ (printCols D i old items) =
        some ⟨[], tups, row, out ++ lineFrom (cell f) i items⟩ := by
  induction items with
  | nil =>
    intro i old out
    cases old <;> simp [printCols, popOld, oldStack, run, step, lineFrom]
  | cons it r ih =>
    intro i old out
    have ih' := ih (fun x hx => hmem x (by simp [hx])) (fun x hx => hnull x (by simp [hx]))
    have hsep : ∀ (p : List (Op α)) (st : List (Option α)),
        run ⟨st, tups, row, out⟩ ((if i = 0 then [] else [Op.putc]) ++ p) =
          run ⟨st, tups, row, out ++ (if i = 0 then [] else [Out.sep])⟩ p := by
      intro p st
      split
      · simp
      · rfl
    rw [printCols, lineFrom, List.append_assoc, hsep]
    have hcase : it.ty = .null ∨ ∃ n, it.ty = .prim n := by
      cases it.ty <;> simp
    rcases hcase with hty | ⟨n, hty⟩
    · rw [colOps, hty, hnull it (by simp) hty]
      show run ⟨oldStack row old, tups, row, _⟩ (printCols D (i + 1) old r) = _
      rw [ih']
      simp
    · rw [colOps, hty]
      dsimp only
      by_cases hc : projId it = constId
      · rw [if_pos hc]
        have hcell : cell f it = constOf it := by rw [cell, if_pos hc]
        rw [hcell]
        show run ⟨oldStack row old, tups, row, _⟩ (printCols D (i + 1) old r) = _
        rw [ih']
        simp
      · rw [if_neg hc]
        have hcell : cell f it = f (projId it) := by rw [cell, if_neg hc]
        obtain ⟨hlt, hval⟩ := getD_idxOf D f (hmem it (by simp) hc)
        have hrl : idxOf D (projId it) < row.length := by rw [hrow]; simpa using hlt
        have hv : row.getD (idxOf D (projId it)) none = f (projId it) := by rw [hrow]; exact hval
        by_cases ho : old = some (idxOf D (projId it))
        · rw [if_pos ho, ho, hcell, ← hv]
          show run ⟨oldStack row (some (idxOf D (projId it))), tups, row, _⟩
            (printCols D (i + 1) (some (idxOf D (projId it))) r) = _
          rw [ih']
          simp
        · rw [if_neg ho, hcell]
          dsimp only
          rw [List.append_assoc]
          have hpop : ∀ p, run ⟨oldStack row old, tups, row, out ++ (if i = 0 then [] else [Out.sep])⟩
              (popOld old ++ p) =
              run ⟨[], tups, row, out ++ (if i = 0 then [] else [Out.sep])⟩ p := by
            intro p
            cases old <;> rfl
          rw [hpop]
          show run ⟨[tups 0 (idxOf D (projId it))], tups, row,
            (out ++ (if i = 0 then [] else [Out.sep])) ++ [Out.item (.prim n) (tups 0 (idxOf D (projId it)))]⟩
            (printCols D (i + 1) (some (idxOf D (projId it))) r) = _
          have : [tups 0 (idxOf D (projId it))] = oldStack row (some (idxOf D (projId it))) := by
            rw [oldStack, htup _ hrl]
          rw [this, ih', htup _ hrl, hv]
          simp

theorem load_tup (tups : Nat → Nat → Option α) (row : List (Option α)) (p : List (Op α)) :
    run ⟨[], tups, row, []⟩ (.load :: p) =
      run ⟨[], fun t i => if t = 0 ∧ i < row.length then row.getD i none else tups t i, row, []⟩ p := rfl

/-- Printing a window. -/
theorem printRows_ok (D : Schema) (items : List (Item α)) (prog : List (Op α))
    (hprog : prog = printCols D 0 none items)
    (hmem : ∀ it ∈ items, projId it ≠ constId → ∃ e ∈ D, e.id = projId it) :
    ∀ (fs : List (Ident → Option α)), (∀ f ∈ fs, ∀ it ∈ items, it.ty = .null → cell f it = none) →
    ∀ tups, printRows prog (fs.map fun f => D.map (fun e => f e.id)) tups =
      some (fs.flatMap fun f => lineFrom (cell f) 0 items ++ [Out.nl]) := by
  intro fs
  induction fs with
  | nil => intro _ tups; rfl
  | cons f fs ih =>
    intro hn tups
    rw [List.map_cons, printRows, load_tup, hprog]
    have := printCols_ok D f _ rfl
      (fun t i => if t = 0 ∧ i < (D.map (fun e => f e.id)).length
        then (D.map (fun e => f e.id)).getD i none else tups t i)
      (by intro i hi; simp only [true_and]; rw [if_pos hi]) items hmem
      (hn f (by simp)) 0 none []
    rw [oldStack] at this
    rw [this]
    dsimp only
    rw [← hprog, ih (fun g hg => hn g (by simp [hg]))]
    rfl

theorem readPrint_ok (items : List (Item α)) (fs : List (Ident → Option α))
    (hnull : ∀ f ∈ fs, ∀ it ∈ items, it.ty = .null → cell f it = none) :
    readPrint items (fs.map fun f => (readSchema (projSchema items)).map (fun e => f e.id)) =
      some (fs.flatMap fun f => rowText items (items.map (cell f))) := by
  rw [readPrint]
  simp only [rowText_eq]
  split
  · rename_i h0
    have hall := readSchema_empty.1 h0
    have hci : ∀ it ∈ items, projId it = constId := fun it hit =>
      hall ⟨projId it, it.ty⟩ (List.mem_map.2 ⟨it, hit, rfl⟩)
    rw [List.flatMap_map]
    congr 1
    rw [List.flatMap_def, List.flatMap_def]
    congr 1
    apply List.map_congr_left
    intro f hf
    rw [constText_eq items (cell f)]
    intro it hit
    have hc : cell f it = constOf it := by rw [cell, if_pos (hci it hit)]
    cases ht : it.ty with
    | null => exact hnull f hf it hit ht
    | prim n => exact hc
  · apply printRows_ok _ items _ rfl _ fs hnull
    intro it hit hc
    exact readSchema_covers (S := projSchema items) (e := ⟨projId it, it.ty⟩)
      (List.mem_map.2 ⟨it, hit, rfl⟩) hc

/-! ## Windows -/

theorem foldl_inf {ρ} (packs : List (List ρ × Bool)) : ∀ s : WSt ρ,
    packs.foldl (fun s p => stepInf s p.1 p.2) s = ⟨s.buf ++ kept packs, s.done⟩ := by
  induction packs with
  | nil => intro s; simp [kept]
  | cons p r ih =>
    intro s
    rw [List.foldl_cons, ih]
    obtain ⟨rs, b⟩ := p
    cases b <;> simp [stepInf, kept]

theorem foldl_count {ρ} (w : Nat) (packs : List (List ρ × Bool)) : ∀ s : WSt ρ,
    (fun t : WSt ρ => t.done.flatten ++ t.buf) (packs.foldl (fun s p => stepCount w s p.1 p.2) s) =
      s.done.flatten ++ s.buf ++ kept packs := by
  induction packs with
  | nil => intro s; simp [kept]
  | cons p r ih =>
    intro s
    rw [List.foldl_cons, ih]
    obtain ⟨rs, b⟩ := p
    rw [stepCount]
    cases b
    · simp only [kept, Bool.false_eq_true, if_false]
      split <;> simp
    · simp only [kept, if_true]
      split <;> simp

theorem foldl_finite {ρ} (w : Nat) (packs : List (List ρ × Bool)) (h : ∀ p ∈ packs, p.2 = true) :
    ∀ s : WSt ρ,
    (fun t : WSt ρ => t.done.flatten ++ t.buf) (packs.foldl (fun s p => stepFinite w s p.1 p.2) s) =
      s.done.flatten ++ s.buf ++ kept packs := by
  induction packs with
  | nil => intro s; simp [kept]
  | cons p r ih =>
    intro s
    rw [List.foldl_cons, ih (fun q hq => h q (by simp [hq]))]
    have hp := h p (by simp)
    obtain ⟨rs, b⟩ := p
    simp only at hp
    subst hp
    rw [stepFinite]
    simp only [kept, if_true]
    split <;> simp

/-- The windows, one after the other, are the rows that qualify. -/
theorem windows_flatten {ρ} (noCols : Bool) (w L : Nat) (packs : List (List ρ × Bool))
    (h : WindowOk (noCols = true) w L packs) :
    (writeResultSet noCols w packs).flatten = kept packs := by
  rw [writeResultSet]
  rw [List.flatten_append]
  simp only [List.flatten_cons, List.flatten_nil, List.append_nil]
  rcases h with h | ⟨_, _, h⟩
  · subst h
    simp only [if_true]
    rw [foldl_inf]
    simp
  · by_cases hw : w = 0
    · subst hw
      simp only [if_true]
      rw [foldl_inf]
      simp
    · simp only [if_neg hw]
      by_cases hn : noCols = true
      · subst hn
        simp only [if_true]
        have := foldl_count w packs ⟨[], []⟩
        simpa using this
      · simp only [if_neg hn]
        have := foldl_finite w packs (h.resolve_right hn) ⟨[], []⟩
        simpa using this

/-- No window is longer than asked for. -/
theorem windows_mem {ρ} (noCols : Bool) (w : Nat) (packs : List (List ρ × Bool)) :
    ∀ win ∈ writeResultSet noCols w packs, ∀ x ∈ win, ∃ p ∈ packs, x ∈ p.1 := by
  have key : ∀ (packs : List (List ρ × Bool)) (s : WSt ρ) (P : ρ → Prop), (∀ x ∈ s.buf, P x) →
      (∀ win ∈ s.done, ∀ x ∈ win, P x) → (∀ p ∈ packs, ∀ x ∈ p.1, P x) →
      (∀ x ∈ (packs.foldl (fun s p =>
        if w = 0 then stepInf s p.1 p.2
        else if noCols then stepCount w s p.1 p.2 else stepFinite w s p.1 p.2) s).buf, P x) ∧
      (∀ win ∈ (packs.foldl (fun s p =>
        if w = 0 then stepInf s p.1 p.2
        else if noCols then stepCount w s p.1 p.2 else stepFinite w s p.1 p.2) s).done, ∀ x ∈ win, P x) := by
    intro packs
    induction packs with
    | nil => intro s P h1 h2 _; exact ⟨h1, h2⟩
    | cons p r ih =>
      intro s P h1 h2 h3
      rw [List.foldl_cons]
      have hp := h3 p (by simp)
      have hap : ∀ x ∈ s.buf ++ p.1, P x := by
        intro x hx
        rcases List.mem_append.1 hx with hx | hx
        · exact h1 x hx
        · exact hp x hx
      have hw : ∀ win ∈ s.done ++ [s.buf ++ p.1], ∀ x ∈ win, P x := by
        intro win hwin
        rcases List.mem_append.1 hwin with hwin | hwin
        · exact h2 win hwin
        · rw [List.mem_singleton.1 hwin]; exact hap
      have hw' : ∀ win ∈ s.done ++ [s.buf], ∀ x ∈ win, P x := by
        intro win hwin
        rcases List.mem_append.1 hwin with hwin | hwin
        · exact h2 win hwin
        · rw [List.mem_singleton.1 hwin]; exact h1
      have hnil : ∀ x ∈ ([] : List ρ), P x := by simp
      apply ih
      · split
        · rw [stepInf]; split <;> assumption
        · split
          · rw [stepCount]
            split <;> split <;> assumption
          · rw [stepFinite]; split
            · exact hnil
            · split <;> assumption
      · split
        · rw [stepInf]; split <;> assumption
        · split
          · rw [stepCount]
            split <;> split <;> assumption
          · rw [stepFinite]; split
            · assumption
            · split <;> assumption
      · exact fun q hq => h3 q (by simp [hq])
  intro win hwin
  rw [writeResultSet] at hwin
  obtain ⟨h1, h2⟩ := key packs ⟨[], []⟩ (fun x => ∃ p ∈ packs, x ∈ p.1) (by simp) (by simp)
    (fun p hp x hx => ⟨p, hp, hx⟩)
  rcases List.mem_append.1 hwin with hwin | hwin
  · exact h2 win hwin
  · rw [List.mem_singleton.1 hwin]; exact h1

end Mutable.Deliver
