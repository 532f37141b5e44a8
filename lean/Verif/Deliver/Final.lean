import Verif.Deliver.Main

namespace Mutable.Deliver

variable {α : Type}

/-! ## Callbacks -/

theorem setConsts_below (t : Nat) (items : List (Item α)) : ∀ (i : Nat) (m : Nat → Nat → Option α),
    ∀ k, k < i → setConsts t i items m t k = m t k := by
  induction items with
  | nil => intro i m k _; rfl
  | cons it r ih =>
    intro i m k hk
    rw [setConsts, ih (i + 1) _ k (by omega)]
    split
    · rw [setTup, if_neg (by omega)]
    · rfl

theorem setConsts_at (t : Nat) (items : List (Item α)) : ∀ (i : Nat) (m : Nat → Nat → Option α),
    ∀ k it, items[k]? = some it → setConsts t i items m t (i + k) =
      if it.ty ≠ .null ∧ projId it = constId then constOf it else m t (i + k) := by
  induction items with
  | nil => intro i m k it h; simp at h
  | cons x r ih =>
    intro i m k it h
    rw [setConsts]
    cases k with
    | zero =>
      simp only [List.getElem?_cons_zero, Option.some.injEq] at h
      subst h
      rw [Nat.add_zero, setConsts_below _ _ _ _ _ (by omega)]
      split
      · rw [setTup, if_pos ⟨rfl, rfl⟩]
      · rfl
    | succ k =>
      simp only [List.getElem?_cons_succ] at h
      have := ih (i + 1) (if x.ty ≠ .null ∧ projId x = constId then setTup m t i (constOf x) else m) k it h
      rw [show i + 1 + k = i + (k + 1) by omega] at this
      rw [this]
      split
      · rfl
      · split
        · rw [setTup, if_neg (by omega)]
        · rfl

theorem stCols_ok (ent : Entry) (items : List (Item α)) (row : List (Option α)) (out : List (Out α)) :
    ∀ (j : Nat) (stk : List (Option α)) (tups : Nat → Nat → Option α),
    (∀ it ∈ items, projId it = ent.id → it.ty = .null ∨ stk ≠ []) →
    ∃ tups', run ⟨stk, tups, row, out⟩ (stCols ent j items) = some ⟨stk, tups', row, out⟩ ∧
      tups' 0 = tups 0 ∧ (∀ i, i < j → tups' 1 i = tups 1 i) ∧
      ∀ k it, items[k]? = some it → tups' 1 (j + k) =
        if projId it = ent.id then (match it.ty with | .null => none | .prim _ => stk.headD none)
        else tups 1 (j + k) := by
  induction items with
  | nil => intro j stk tups _; exact ⟨tups, rfl, rfl, fun _ _ => rfl, by intro k it h; simp at h⟩
  | cons x r ih =>
    intro j stk tups hst
    have hst' : ∀ it ∈ r, projId it = ent.id → it.ty = .null ∨ stk ≠ [] :=
      fun it hi => hst it (by simp [hi])
    rw [stCols]
    by_cases hx : projId x = ent.id
    · rw [if_pos hx]
      have hstep : ∃ v, step ⟨stk, tups, row, out⟩ (.stTup 1 j x.ty) =
          some ⟨stk, setTup tups 1 j v, row, out⟩ ∧
          v = match x.ty with | .null => none | .prim _ => stk.headD none := by
        rcases hcase : x.ty with _ | n
        · exact ⟨none, rfl, rfl⟩
        · rcases hst x (by simp) hx with h | h
          · rw [hcase] at h; cases h
          · cases stk with
            | nil => exact absurd rfl h
            | cons v st => exact ⟨v, rfl, rfl⟩
      obtain ⟨v, hv, hval⟩ := hstep
      obtain ⟨tups', he, h0, hb, hk⟩ := ih (j + 1) stk (setTup tups 1 j v) hst'
      refine ⟨tups', ?_, ?_, ?_, ?_⟩
      · rw [List.cons_append, List.nil_append, run, hv]
        exact he
      · rw [h0]; funext i; rw [setTup, if_neg (by omega)]
      · intro i hi
        rw [hb i (by omega), setTup, if_neg (by omega)]
      · intro k it hit
        cases k with
        | zero =>
          simp only [List.getElem?_cons_zero, Option.some.injEq] at hit
          subst hit
          rw [Nat.add_zero, hb j (by omega), if_pos hx, setTup, if_pos ⟨rfl, rfl⟩, hval]
        | succ k =>
          simp only [List.getElem?_cons_succ] at hit
          have := hk k it hit
          rw [show j + 1 + k = j + (k + 1) by omega] at this
          rw [this]
          split
          · rfl
          · rw [setTup, if_neg (by omega)]
    · rw [if_neg hx]
      obtain ⟨tups', he, h0, hb, hk⟩ := ih (j + 1) stk tups hst'
      refine ⟨tups', he, h0, fun i hi => hb i (by omega), ?_⟩
      intro k it hit
      cases k with
      | zero =>
        simp only [List.getElem?_cons_zero, Option.some.injEq] at hit
        subst hit
        rw [Nat.add_zero, hb j (by omega), if_neg hx]
      | succ k =>
        simp only [List.getElem?_cons_succ] at hit
        have := hk k it hit
        rw [show j + 1 + k = j + (k + 1) by omega] at this
        exact this

theorem dupCols_ok (items : List (Item α)) (f : Ident → Option α) (row : List (Option α))
    (out : List (Out α)) : ∀ (D : Schema) (i : Nat) (tups : Nat → Nat → Option α),
    (∀ ent ∈ D, ∀ it ∈ items, projId it = ent.id → it.ty = ent.ty) →
    (∀ ent ∈ D, ent.id ≠ constId) → (D.map (·.id)).Nodup →
    (∀ it ∈ items, it.ty = .null → cell f it = none) →
    (∀ m ent, D[m]? = some ent → tups 0 (i + m) = f ent.id) →
    ∃ tups', run ⟨[], tups, row, out⟩ (dupCols items i D) = some ⟨[], tups', row, out⟩ ∧
      tups' 0 = tups 0 ∧
      ∀ k it, items[k]? = some it → tups' 1 k =
        if projId it ∈ D.map (·.id) then cell f it else tups 1 k := by
  intro D
  induction D with
  | nil => intro i tups _ _ _ _ _; exact ⟨tups, rfl, rfl, by simp⟩
  | cons ent r ih =>
    intro i tups hty hcon hnd hnull h0
    have h00 := h0 0 ent (by simp)
    rw [Nat.add_zero] at h00
    have hentc := hcon ent (by simp)
    have hstk : ∀ it ∈ items, projId it = ent.id → it.ty = .null ∨
        (match ent.ty with | .null => ([] : List (Option α)) | .prim _ => [f ent.id]) ≠ [] := by
      intro it hit hid
      have := hty ent (by simp) it hit hid
      cases he : ent.ty with
      | null => left; rw [this, he]
      | prim n => right; simp
    obtain ⟨t1, e1, z1, _, k1⟩ := stCols_ok ent items row out 0 _ tups hstk
    rw [List.map_cons, List.nodup_cons] at hnd
    obtain ⟨t2, e2, z2, k2⟩ := ih (i + 1) t1 (fun e he => hty e (by simp [he]))
      (fun e he => hcon e (by simp [he])) hnd.2 hnull (by
        intro m e hm
        rw [z1, show i + 1 + m = i + (m + 1) by omega]
        exact h0 (m + 1) e (by simpa using hm))
    refine ⟨t2, ?_, z2.trans z1, ?_⟩
    · rw [dupCols]
      cases he : ent.ty with
      | null =>
        rw [he] at e1
        dsimp only at e1 ⊢
        rw [List.nil_append, List.append_nil, run_append, e1]
        exact e2
      | prim n =>
        rw [he] at e1
        dsimp only at e1 ⊢
        rw [List.append_assoc, List.append_assoc, List.cons_append, List.nil_append, run]
        show run ⟨[tups 0 i], tups, row, out⟩ _ = _
        rw [h00, run_append, e1]
        exact e2
    · intro k it hit
      have hmem : it ∈ items := List.mem_of_getElem? hit
      rw [k2 k it hit]
      have hk := k1 k it hit
      rw [Nat.zero_add] at hk
      by_cases hr : projId it ∈ r.map (·.id)
      · rw [if_pos hr, if_pos (by rw [List.map_cons]; exact List.mem_cons_of_mem _ hr)]
      · rw [if_neg hr, hk]
        by_cases hid : projId it = ent.id
        · rw [if_pos hid, if_pos (by rw [List.map_cons, hid]; simp)]
          have hte := hty ent (by simp) it hmem hid
          have hcell : cell f it = f ent.id := by rw [cell, if_neg (by rw [hid]; exact hentc), hid]
          cases he : it.ty with
          | null => rw [hnull it hmem he]
          | prim n =>
            rw [hte] at he
            rw [hcell]
            simp only [he, List.headD_cons]
        · rw [if_neg hid, if_neg]
          rw [List.map_cons, List.mem_cons]
          rintro (h | h)
          · exact hid h
          · exact hr h

theorem tupRow_eq (m : Nat → Nat → Option α) (t : Nat) (items : List (Item α)) (g : Item α → Option α)
    (h : ∀ k it, items[k]? = some it → m t k = g it) : tupRow m t items.length = items.map g := by
  rw [tupRow]
  apply List.ext_getElem?
  intro k
  rw [List.getElem?_map, List.getElem?_map]
  by_cases hk : k < items.length
  · rw [List.getElem?_range hk, List.getElem?_eq_getElem hk]
    simp only [Option.map_some]
    rw [h k _ (List.getElem?_eq_getElem hk)]
  · rw [List.getElem?_eq_none (l := items) (by omega),
      List.getElem?_eq_none (by rw [List.length_range]; omega)]
    rfl

theorem cbDup_ok (items : List (Item α)) (D : Schema)
    (hty : ∀ ent ∈ D, ∀ it ∈ items, projId it = ent.id → it.ty = ent.ty)
    (hcon : ∀ ent ∈ D, ent.id ≠ constId) (hnd : (D.map (·.id)).Nodup)
    (hcov : ∀ it ∈ items, projId it ≠ constId → ∃ e ∈ D, e.id = projId it) :
    ∀ (fs : List (Ident → Option α)), (∀ f ∈ fs, ∀ it ∈ items, it.ty = .null → cell f it = none) →
    ∀ tups, (∀ k it, items[k]? = some it → projId it = constId →
        tups 1 k = if it.ty = .null then none else constOf it) →
      cbDup (dupCols items 0 D) items.length (fs.map fun f => D.map (fun e => f e.id)) tups =
        some (fs.map fun f => items.map (cell f)) := by
  intro fs
  induction fs with
  | nil => intro _ tups _; rfl
  | cons f fs ih =>
    intro hn tups hc
    rw [List.map_cons, cbDup, load_tup]
    obtain ⟨t', he, _, hk⟩ := dupCols_ok items f (D.map (fun e => f e.id)) [] D 0
      (fun t i => if t = 0 ∧ i < (D.map (fun e => f e.id)).length
        then (D.map (fun e => f e.id)).getD i none else tups t i) hty hcon hnd (hn f (by simp)) (by
        intro m ent hm
        have hlt : m < D.length := by
          by_contra h
          rw [List.getElem?_eq_none (by omega)] at hm
          cases hm
        simp only [true_and, Nat.zero_add, List.length_map]
        rw [if_pos hlt, List.getD_eq_getElem?_getD, List.getElem?_map, hm]
        rfl)
    rw [he]
    dsimp only
    have hcell : ∀ k it, items[k]? = some it → t' 1 k = cell f it := by
      intro k it hit
      have hmem := List.mem_of_getElem? hit
      rw [hk k it hit]
      by_cases h : projId it ∈ D.map (·.id)
      · rw [if_pos h]
      · rw [if_neg h]
        have hcc : projId it = constId := by
          by_contra hcc
          obtain ⟨e, he, hid⟩ := hcov it hmem hcc
          exact h (List.mem_map.2 ⟨e, he, hid⟩)
        show (if (1 : Nat) = 0 ∧ _ then _ else tups 1 k) = _
        rw [if_neg (by omega), hc k it hit hcc]
        by_cases hnull : it.ty = .null
        · rw [if_pos hnull, hn f (by simp) it hmem hnull]
        · rw [if_neg hnull, cell, if_pos hcc]
    rw [ih (fun g hg => hn g (by simp [hg])) t' (by
      intro k it hit hcc
      rw [hcell k it hit]
      by_cases hnull : it.ty = .null
      · rw [if_pos hnull, hn f (by simp) it (List.mem_of_getElem? hit) hnull]
      · rw [if_neg hnull, cell, if_pos hcc]), tupRow_eq t' 1 items (cell f) hcell]
    rfl

theorem cbPlain_ok (items : List (Item α)) (hcon : ∀ it ∈ items, projId it ≠ constId) :
    ∀ (fs : List (Ident → Option α)) tups,
      cbPlain items.length (fs.map fun f => (projSchema items).map (fun e => f e.id)) tups =
        some (fs.map fun f => items.map (cell f)) := by
  intro fs
  induction fs with
  | nil => intro tups; rfl
  | cons f fs ih =>
    intro tups
    rw [List.map_cons, cbPlain, load_tup, run]
    dsimp only
    rw [ih, tupRow_eq _ 0 items (cell f)]
    · rfl
    · intro k it hit
      have hmem := List.mem_of_getElem? hit
      have hlt : k < items.length := by
        by_contra h
        rw [List.getElem?_eq_none (by omega)] at hit
        cases hit
      simp only [true_and, List.length_map, projSchema]
      rw [if_pos hlt, List.getD_eq_getElem?_getD, List.getElem?_map, List.getElem?_map, hit, cell,
        if_neg (hcon it hmem)]
      rfl

/-- The SELECT lists whose rows a callback gets right: no unaliased constant among the columns, or nothing
else, or two columns of the same name. -/
def CallbackOk (items : List (Item α)) : Prop :=
  (∀ it ∈ items, projId it ≠ constId) ∨ (∀ it ∈ items, projId it = constId) ∨
    ¬ (items.map projId).Nodup

theorem dedup_len_ne {items : List (Item α)} (h : ¬ (items.map projId).Nodup) :
    ¬ (projSchema items).length = (dedup (projSchema items)).length := by
  intro hl
  have h1 := dedup_eq_self hl
  have h2 := dedup_nodup (projSchema items)
  rw [h1, projSchema, List.map_map] at h2
  exact h h2

theorem readCallback_ok (items : List (Item α)) (hC : CallbackOk items)
    (hsame : ∀ a ∈ items, ∀ b ∈ items, projId a ≠ constId → projId a = projId b → a.ty = b.ty)
    (fs : List (Ident → Option α)) (hnull : ∀ f ∈ fs, ∀ it ∈ items, it.ty = .null → cell f it = none) :
    readCallback items (fs.map fun f => (readSchema (projSchema items)).map (fun e => f e.id)) =
      some (fs.map fun f => items.map (cell f)) := by
  have hconsts : ∀ t k it, items[k]? = some it → projId it = constId →
      setConsts t 0 items noTups t k = if it.ty = .null then none else constOf it := by
    intro t k it hit hc
    have := setConsts_at t items 0 noTups k it hit
    rw [Nat.zero_add] at this
    rw [this]
    by_cases hn : it.ty = .null
    · rw [if_pos hn, if_neg (by simp [hn])]; rfl
    · rw [if_neg hn, if_pos ⟨hn, hc⟩]
  rw [readCallback]
  by_cases h0 : (readSchema (projSchema items)).length = 0
  · rw [if_pos h0]
    have hall := readSchema_empty.1 h0
    have hci : ∀ it ∈ items, projId it = constId := fun it hit =>
      hall ⟨projId it, it.ty⟩ (List.mem_map.2 ⟨it, hit, rfl⟩)
    rw [List.map_map]
    congr 1
    apply List.map_congr_left
    intro f hf
    show tupRow _ 0 items.length = _
    apply tupRow_eq
    intro k it hit
    have hmem := List.mem_of_getElem? hit
    rw [hconsts 0 k it hit (hci it hmem)]
    by_cases hn : it.ty = .null
    · rw [if_pos hn, hnull f hf it hmem hn]
    · rw [if_neg hn, cell, if_pos (hci it hmem)]
  · rw [if_neg h0]
    have hnall : ¬ ∀ it ∈ items, projId it = constId := by
      intro h
      apply h0
      rw [readSchema_empty]
      intro e he
      obtain ⟨it, hit, rfl⟩ := List.mem_map.1 he
      exact h it hit
    by_cases hl : (projSchema items).length = (dedup (projSchema items)).length
    · rw [if_pos hl]
      have hcon : ∀ it ∈ items, projId it ≠ constId := by
        rcases hC with h | h | h
        · exact h
        · exact absurd h hnall
        · exact absurd hl (dedup_len_ne h)
      have hD : readSchema (projSchema items) = projSchema items := by
        rw [readSchema, dedup_eq_self hl, dropConst, List.filter_eq_self]
        intro e he
        obtain ⟨it, hit, rfl⟩ := List.mem_map.1 he
        simpa using hcon it hit
      rw [hD]
      exact cbPlain_ok items hcon fs _
    · rw [if_neg hl]
      apply cbDup_ok items _ _ _ (readSchema_nodup _) _ fs hnull
      · intro k it hit hc
        exact hconsts 1 k it hit hc
      · intro ent hent it hit hid
        obtain ⟨h1, h2⟩ := mem_readSchema hent
        obtain ⟨it', hit', rfl⟩ := List.mem_map.1 h1
        exact hsame it hit it' hit' (by rw [hid]; exact h2) hid
      · intro ent hent; exact (mem_readSchema hent).2
      · intro it hit hc
        exact readSchema_covers (S := projSchema items) (e := ⟨projId it, it.ty⟩)
          (List.mem_map.2 ⟨it, hit, rfl⟩) hc

/-! ## Putting it together -/

theorem mapM_some {β γ} (l : List β) (g : β → Option γ) (h : β → γ) (hh : ∀ x ∈ l, g x = some (h x)) :
    l.mapM g = some (l.map h) := by
  induction l with
  | nil => rfl
  | cons x r ih =>
    rw [List.mapM_cons, hh x (by simp), ih (fun y hy => hh y (by simp [hy]))]
    rfl

/-- The values of the names on an input row. -/
noncomputable def fOf (sem : Sem α) (items : List (Item α)) (cols : List Ident) (hR : ReservedFree items)
    (hN : NoClash items cols) (env : Env α) : Ident → Option α :=
  open Classical in
  if h : GoodRow sem items cols env then (row_ok sem items cols env hR hN h).choose else fun _ => none

theorem fOf_spec (sem : Sem α) (items : List (Item α)) (cols : List Ident) (hR : ReservedFree items)
    (hN : NoClash items cols) (env : Env α) (h : GoodRow sem items cols env) :
    (wasmProject sem env items []).bind (writeRow (writeSchema (projSchema items))) =
        some ((readSchema (projSchema items)).map (fun e => fOf sem items cols hR hN env e.id)) ∧
      (∀ it ∈ items, value sem env it.e = some (cell (fOf sem items cols hR hN env) it)) := by
  rw [fOf, dif_pos h]
  exact (row_ok sem items cols env hR hN h).choose_spec

theorem kept_map {β γ} (g : β → γ) (packs : List (List β × Bool)) :
    kept (packs.map fun p => (p.1.map g, p.2)) = (kept packs).map g := by
  induction packs with
  | nil => rfl
  | cons p r ih =>
    obtain ⟨l, b⟩ := p
    rw [kept, kept] at ih
    cases b
    · simpa [kept] using ih
    · simp only [kept, List.map_cons, List.filter_cons_of_pos, List.flatMap_cons, List.map_append]
      rw [ih]

theorem mem_kept {β} {packs : List (List β × Bool)} {x : β} (h : x ∈ kept packs) :
    ∃ p ∈ packs, x ∈ p.1 := by
  rw [kept, List.mem_flatMap] at h
  obtain ⟨p, hp, hx⟩ := h
  exact ⟨p, (List.mem_filter.1 hp).1, hx⟩

/-- The writer commutes with mapping rows. -/
theorem writeResultSet_map {ρ σ} (g : ρ → σ) (noCols : Bool) (w : Nat) (packs : List (List ρ × Bool)) :
    writeResultSet noCols w (packs.map fun p => (p.1.map g, p.2)) =
      (writeResultSet noCols w packs).map (List.map g) := by
  have key : ∀ (packs : List (List ρ × Bool)) (s : WSt ρ),
      (packs.map fun p => (p.1.map g, p.2)).foldl (fun s p =>
        if w = 0 then stepInf s p.1 p.2
        else if noCols then stepCount w s p.1 p.2 else stepFinite w s p.1 p.2)
        (⟨s.buf.map g, s.done.map (List.map g)⟩ : WSt σ) =
      (fun t : WSt ρ => (⟨t.buf.map g, t.done.map (List.map g)⟩ : WSt σ)) (packs.foldl (fun s p =>
        if w = 0 then stepInf s p.1 p.2
        else if noCols then stepCount w s p.1 p.2 else stepFinite w s p.1 p.2) s) := by
    intro packs
    induction packs with
    | nil => intro s; rfl
    | cons p r ih =>
      intro s
      rw [List.map_cons, List.foldl_cons, List.foldl_cons, ← ih]
      congr 1
      obtain ⟨l, b⟩ := p
      dsimp only
      by_cases hw : w = 0
      · simp only [if_pos hw]
        cases b <;> simp [stepInf]
      · simp only [if_neg hw]
        by_cases hn : noCols = true
        · simp only [if_pos hn, stepCount]
          cases b
          · simp only [Bool.false_eq_true, if_false, List.length_map]
            split <;> simp
          · simp only [if_true, List.length_append, List.length_map]
            split <;> simp
        · simp only [if_neg hn, stepFinite, List.length_map]
          split
          · simp
          · cases b <;> simp
  rw [writeResultSet, writeResultSet]
  have := key packs ⟨[], []⟩
  rw [List.map_nil, List.map_nil] at this
  rw [this]
  simp

theorem specRows_eq (sem : Sem α) (items : List (Item α)) (cols : List Ident) (hR : ReservedFree items)
    (hN : NoClash items cols) (envs : List (Env α)) (h : ∀ env ∈ envs, GoodRow sem items cols env) :
    specRows sem items envs =
      some (envs.map fun env => items.map (cell (fOf sem items cols hR hN env))) := by
  rw [specRows]
  apply mapM_some
  intro env henv
  rw [specRow]
  apply mapM_some
  intro it hit
  exact (fOf_spec sem items cols hR hN env (h env henv)).2 it hit

theorem wasmWindows_eq (sem : Sem α) (items : List (Item α)) (cols : List Ident) (hR : ReservedFree items)
    (hN : NoClash items cols) (w : Nat) (packs : List (List (Env α) × Bool))
    (h : ∀ p ∈ packs, ∀ env ∈ p.1, GoodRow sem items cols env) :
    wasmWindows sem items w packs = some ((writeResultSet
      ((writeSchema (projSchema items)).length = 0) w packs).map (List.map fun env =>
        (readSchema (projSchema items)).map (fun e => fOf sem items cols hR hN env e.id))) := by
  rw [wasmWindows, mapM_some packs _ (fun p => (p.1.map fun env =>
        (readSchema (projSchema items)).map (fun e => fOf sem items cols hR hN env e.id), p.2))]
  · rw [Option.map_some, writeResultSet_map]
  · intro p hp
    rw [packRows, mapM_some p.1 _ (fun env =>
        (readSchema (projSchema items)).map (fun e => fOf sem items cols hR hN env e.id))]
    · rfl
    · intro env henv
      exact (fOf_spec sem items cols hR hN env (h p hp env henv)).1

theorem cell_null (sem : Sem α) (items : List (Item α)) (cols : List Ident) (hR : ReservedFree items)
    (hN : NoClash items cols) (env : Env α) (h : GoodRow sem items cols env) :
    ∀ it ∈ items, it.ty = .null → cell (fOf sem items cols hR hN env) it = none := by
  intro it hit hty
  have h1 := (fOf_spec sem items cols hR hN env h).2 it hit
  rw [h.null it hit hty] at h1
  exact (Option.some.inj h1).symm

theorem flatten_map_flatMap {β γ} (l : List (List β)) (g : β → List γ) :
    (l.map fun x => x.flatMap g).flatten = l.flatten.flatMap g := by
  induction l with
  | nil => rfl
  | cons x r ih => simp [ih]

theorem mapM_windows {ρ σ τ} (g : List σ → Option (List τ)) (F : ρ → σ) (ws : List (List ρ))
    (T : ρ → List τ) (h : ∀ win ∈ ws, g (win.map F) = some (win.flatMap T)) :
    (ws.map (List.map F)).mapM g = some (ws.map fun win => win.flatMap T) := by
  induction ws with
  | nil => rfl
  | cons x r ih =>
    rw [List.map_cons, List.mapM_cons, h x (by simp), ih (fun y hy => h y (by simp [hy]))]
    rfl

theorem noCols_iff (items : List (Item α)) : (∀ it ∈ items, projId it = constId) =
    (decide ((writeSchema (projSchema items)).length = 0) = true) := by
  rw [decide_eq_true_eq, write_eq_read, readSchema_empty]
  apply propext
  constructor
  · intro h e he
    obtain ⟨it, hit, rfl⟩ := List.mem_map.1 he
    exact h it hit
  · intro h it hit
    exact h ⟨projId it, it.ty⟩ (List.mem_map.2 ⟨it, hit, rfl⟩)

theorem window_good {sem : Sem α} {items : List (Item α)} {cols : List Ident} {noCols : Bool} {w : Nat}
    {packs : List (List (Env α) × Bool)} (h : ∀ p ∈ packs, ∀ env ∈ p.1, GoodRow sem items cols env)
    {win : List (Env α)} (hwin : win ∈ writeResultSet noCols w packs) :
    ∀ env ∈ win, GoodRow sem items cols env := by
  intro env henv
  obtain ⟨p, hp, hx⟩ := windows_mem noCols w packs win hwin env henv
  exact h p hp env hx

theorem wasmPrint_ok (sem : Sem α) (items : List (Item α)) (cols : List Ident) (w L : Nat)
    (packs : List (List (Env α) × Bool)) (hR : ReservedFree items) (hN : NoClash items cols)
    (h : ∀ p ∈ packs, ∀ env ∈ p.1, GoodRow sem items cols env)
    (hw : WindowOk (∀ it ∈ items, projId it = constId) w L packs) :
    wasmPrint sem items w packs = specPrint sem items (kept packs) := by
  have hk : ∀ env ∈ kept packs, GoodRow sem items cols env := by
    intro env henv
    obtain ⟨p, hp, hx⟩ := mem_kept henv
    exact h p hp env hx
  rw [wasmPrint, wasmWindows_eq sem items cols hR hN w packs h, specPrint,
    specRows_eq sem items cols hR hN _ hk]
  rw [Option.bind_some, Option.map_some, mapM_windows _ _ _ (fun env =>
    rowText items (items.map (cell (fOf sem items cols hR hN env))))]
  · rw [Option.map_some, flatten_map_flatMap, windows_flatten _ w L packs (noCols_iff items ▸ hw),
      List.flatMap_map]
  · intro win hwin
    have hg := window_good h hwin
    have := readPrint_ok items (win.map fun env => fOf sem items cols hR hN env) (by
      intro f hf
      obtain ⟨env, henv, rfl⟩ := List.mem_map.1 hf
      exact cell_null sem items cols hR hN env (hg env henv))
    rw [List.map_map, List.flatMap_map] at this
    exact this

theorem flatMap_single {β γ} (l : List β) (g : β → γ) : l.flatMap (fun x => [g x]) = l.map g :=
  List.map_eq_flatMap.symm

theorem wasmCallback_ok (sem : Sem α) (items : List (Item α)) (cols : List Ident) (w L : Nat)
    (packs : List (List (Env α) × Bool)) (hR : ReservedFree items) (hN : NoClash items cols)
    (h : ∀ p ∈ packs, ∀ env ∈ p.1, GoodRow sem items cols env)
    (hw : WindowOk (∀ it ∈ items, projId it = constId) w L packs) (hC : CallbackOk items) :
    wasmCallback sem items w packs = specRows sem items (kept packs) := by
  have hk : ∀ env ∈ kept packs, GoodRow sem items cols env := by
    intro env henv
    obtain ⟨p, hp, hx⟩ := mem_kept henv
    exact h p hp env hx
  rw [wasmCallback, wasmWindows_eq sem items cols hR hN w packs h,
    specRows_eq sem items cols hR hN _ hk]
  rw [Option.bind_some, mapM_windows _ _ _ (fun env =>
    [items.map (cell (fOf sem items cols hR hN env))])]
  · rw [Option.map_some, flatten_map_flatMap, windows_flatten _ w L packs (noCols_iff items ▸ hw),
      flatMap_single]
  · intro win hwin
    have hg := window_good h hwin
    have := readCallback_ok items hC (by
      intro a ha b hb hc hab
      exact (hN.same a ha b hb (fun hh => hc ((projId_const hR ha).2 hh))
        (fun hh => hc (hab.trans ((projId_const hR hb).2 hh))) hab).2)
      (win.map fun env => fOf sem items cols hR hN env) (by
      intro f hf
      obtain ⟨env, henv, rfl⟩ := List.mem_map.1 hf
      exact cell_null sem items cols hR hN env (hg env henv))
    rw [List.map_map, List.map_map] at this
    rw [flatMap_single]
    exact this

end Mutable.Deliver
