import Verif.Deliver.Final

/-! # The interpreter delivers the specified rows -/
namespace Mutable.Deliver

variable {α : Type}

theorem filter_of_nodup (env : Env α) (id : Ident) (h : (env.map (·.1)).Nodup) :
    env.filter (fun p => p.1 == id) = (env.find? (fun p => decide (p.1 = id))).toList := by
  induction env with
  | nil => rfl
  | cons p r ih =>
    rw [List.map_cons, List.nodup_cons] at h
    rw [List.filter_cons, List.find?_cons, ih h.2]
    by_cases hp : p.1 = id
    · have hb : (p.1 == id) = true := by simpa using hp
      rw [if_pos hb]
      simp only [hp, decide_true, Option.toList_some]
      have : r.find? (fun q => decide (q.1 = id)) = none := by
        rw [List.find?_eq_none]
        intro q hq hh
        refine h.1 ?_
        rw [hp, ← of_decide_eq_true hh]
        exact List.mem_map.2 ⟨q, hq, rfl⟩
      rw [this]
      rfl
    · have hb : ¬ (p.1 == id) = true := by simpa using hp
      rw [if_neg hb]
      simp only [hp, decide_false]

/-- The outcome of looking a name up. -/
def Look.ofOption : Option (Option α) → Look α
  | some v => .found v
  | none => .missing

theorem lookI_eq (env : Env α) (id : Ident) (h : (env.map (·.1)).Nodup) :
    lookI env id = Look.ofOption (column env id) := by
  rw [lookI, filter_of_nodup env id h, column]
  cases env.find? (fun p => decide (p.1 = id)) <;> rfl

theorem getI_eq (env : Env α) (id : Ident) (h : (env.map (·.1)).Nodup) : getI env id = column env id := by
  rw [getI, lookI_eq env id h]
  cases column env id <;> rfl

theorem evalB_eq (sem : Sem α) (env : Env α) (h : (env.map (·.1)).Nodup) (e : Ex α) :
    evalB sem env e = compute sem env e := by
  induction e with
  | des t a => exact getI_eq env _ h
  | const t v => rfl
  | aggNil f => exact getI_eq env _ h
  | agg f e _ => exact getI_eq env _ h
  | call f e ih => rw [evalB, compute, ih]
  | un op e ih => rw [evalB, compute, ih]
  | bin op l r ihl ihr =>
    rw [evalB, compute, ihl, ihr]
    cases compute sem env l <;> cases compute sem env r <;> rfl

theorem emitI_eq (sem : Sem α) (env : Env α) (h : (env.map (·.1)).Nodup) (e : Ex α)
    (hc : ∀ t v, e = .const t v → (⟨none, t⟩ : Ident) ∉ env.map (·.1)) :
    emitI sem env e = value sem env e := by
  rw [emitI, lookI_eq env _ h]
  by_cases hk : ∃ t v, e = .const t v
  · obtain ⟨t, v, rfl⟩ := hk
    have : column env (exprId (Ex.const t v)) = none := by
      have := column_isSome env (exprId (Ex.const t v))
      cases hcol : column env (exprId (Ex.const t v)) with
      | none => rfl
      | some x =>
        rw [hcol] at this
        exact absurd (this.1 rfl) (hc t v rfl)
    rw [this]
    rfl
  · rw [value_of_not_const sem env (fun t v he => hk ⟨t, v, he⟩)]
    cases hcol : column env (exprId e) with
    | none => exact evalB_eq sem env h e
    | some x => rfl

theorem interpProject_eq (sem : Sem α) (items : List (Item α)) (cols : List Ident) (env : Env α)
    (hnd : cols.Nodup) (hc : ∀ it ∈ items, ∀ t v, it.e = .const t v → (⟨none, t⟩ : Ident) ∉ cols)
    (hg : GoodRow sem items cols env) :
    interpProject sem items env = some (items.map fun it => (value sem env it.e).getD none) := by
  rw [interpProject]
  apply mapM_some
  intro it hit
  rw [emitI_eq sem env (hg.cols ▸ hnd) it.e (fun t v he => hg.cols ▸ hc it hit t v he)]
  obtain ⟨v, hv⟩ := Option.isSome_iff_exists.1 (hg.val it hit)
  rw [hv]
  rw [Option.map_some, Option.getD_some]
  cases ht : it.ty with
  | null =>
    have := hg.null it hit ht
    rw [hv] at this
    dsimp only
    rw [Option.some_inj.1 this]
  | prim n => rfl

theorem specRow_eq (sem : Sem α) (items : List (Item α)) (cols : List Ident) (env : Env α)
    (hg : GoodRow sem items cols env) :
    specRow sem items env = some (items.map fun it => (value sem env it.e).getD none) := by
  rw [specRow]
  apply mapM_some
  intro it hit
  obtain ⟨v, hv⟩ := Option.isSome_iff_exists.1 (hg.val it hit)
  rw [hv]
  rfl

theorem interpCols_ok (g : Item α → Option α) (items : List (Item α))
    (hn : ∀ it ∈ items, it.ty = .null → g it = none) :
    ∀ (i : Nat) (s : MSt α), (∀ k it, items[k]? = some it → s.tups 0 (i + k) = g it) →
      ∃ st, run s (interpPrintCols i items) =
        some ⟨st, s.tups, s.row, s.out ++ lineFrom g i items⟩ := by
  induction items with
  | nil =>
    intro i s _
    refine ⟨s.stack, ?_⟩
    rw [interpPrintCols, run, lineFrom, List.append_nil]
  | cons it r ih =>
    intro i s h
    have h0 : s.tups 0 i = g it := h 0 it rfl
    have hr : ∀ k it', r[k]? = some it' → s.tups 0 (i + 1 + k) = g it' := by
      intro k it' hk
      have := h (k + 1) it' (by simpa using hk)
      rw [← this]
      congr 1
      omega
    rw [interpPrintCols, run_append, run_append]
    have hsep : run s (if i = 0 then [] else [Op.putc]) =
        some ⟨s.stack, s.tups, s.row, s.out ++ (if i = 0 then [] else [Out.sep])⟩ := by
      by_cases hi : i = 0
      · rw [if_pos hi, if_pos hi, List.append_nil]; rfl
      · rw [if_neg hi, if_neg hi]; rfl
    rw [hsep, Option.bind_some]
    have hpr : ∃ st, run ⟨s.stack, s.tups, s.row, s.out ++ (if i = 0 then [] else [Out.sep])⟩
        [Op.ldTup 0 i, Op.print it.ty] =
        some ⟨st, s.tups, s.row,
          s.out ++ (if i = 0 then [] else [Out.sep]) ++ [Out.item it.ty (g it)]⟩ := by
      cases ht : it.ty with
      | null =>
        refine ⟨none :: s.tups 0 i :: s.stack, ?_⟩
        rw [hn it (by simp) ht]
        rfl
      | prim n =>
        refine ⟨s.tups 0 i :: s.stack, ?_⟩
        rw [← h0]
        rfl
    obtain ⟨st, hst⟩ := hpr
    rw [hst, Option.bind_some]
    obtain ⟨st', hst'⟩ := ih (fun x hx => hn x (by simp [hx])) (i + 1)
      ⟨st, s.tups, s.row, s.out ++ (if i = 0 then [] else [Out.sep]) ++ [Out.item it.ty (g it)]⟩ hr
    refine ⟨st', ?_⟩
    rw [hst', lineFrom]
    simp only [List.append_assoc]

theorem interpPrint_ok (sem : Sem α) (items : List (Item α)) (cols : List Ident) (envs : List (Env α))
    (hnd : cols.Nodup) (hc : ∀ it ∈ items, ∀ t v, it.e = .const t v → (⟨none, t⟩ : Ident) ∉ cols)
    (hg : ∀ env ∈ envs, GoodRow sem items cols env) :
    interpPrint sem items envs = specPrint sem items envs := by
  have key : ∀ envs : List (Env α), (∀ env ∈ envs, GoodRow sem items cols env) →
      interpPrint sem items envs = some (envs.flatMap fun env =>
        rowText items (items.map fun it => (value sem env it.e).getD none)) := by
    intro envs
    induction envs with
    | nil => intro _; rfl
    | cons env r ih =>
      intro hg
      have h1 := hg env (by simp)
      rw [interpPrint, interpProject_eq sem items cols env hnd hc h1]
      dsimp only
      obtain ⟨st, hst⟩ := interpCols_ok (fun it => (value sem env it.e).getD none) items
        (fun it hit ht => by rw [h1.null it hit ht]; rfl) 0
        ⟨[], fun t i => if t = 0 ∧ i < (items.map fun it => (value sem env it.e).getD none).length
          then (items.map fun it => (value sem env it.e).getD none).getD i none else noTups t i,
          items.map fun it => (value sem env it.e).getD none, []⟩ (by
          intro k it hk
          have hlt : k < items.length := by
            by_contra hge
            rw [List.getElem?_eq_none (by omega)] at hk
            cases hk
          dsimp only
          rw [if_pos ⟨rfl, by rw [List.length_map]; omega⟩, List.getD_eq_getElem?_getD,
            List.getElem?_map, Nat.zero_add, hk]
          rfl)
      rw [load_tup, hst, ih (fun e he => hg e (by simp [he]))]
      simp only [Option.map_some, List.nil_append, List.flatMap_cons]
      rw [rowText_eq]
  rw [key envs hg, specPrint, specRows, mapM_some envs (specRow sem items)
    (fun env => items.map fun it => (value sem env it.e).getD none)
    (fun env he => specRow_eq sem items cols env (hg env he)), Option.map_some, List.flatMap_map]

theorem interpCallback_ok (sem : Sem α) (items : List (Item α)) (cols : List Ident) (envs : List (Env α))
    (hnd : cols.Nodup) (hc : ∀ it ∈ items, ∀ t v, it.e = .const t v → (⟨none, t⟩ : Ident) ∉ cols)
    (hg : ∀ env ∈ envs, GoodRow sem items cols env) :
    interpCallback sem items envs = specRows sem items envs := by
  rw [interpCallback, specRows, mapM_some envs (specRow sem items)
    (fun env => items.map fun it => (value sem env it.e).getD none)
    (fun env he => specRow_eq sem items cols env (hg env he)),
    mapM_some envs (interpProject sem items)
    (fun env => items.map fun it => (value sem env it.e).getD none)
    (fun env he => interpProject_eq sem items cols env hnd hc (hg env he))]

/-! ## Windows never hold more rows than they have slots -/

/-- The invariant of the writer. -/
def Fit {ρ} (w L : Nat) (s : WSt ρ) : Prop :=
  s.buf.length < w ∧ L ∣ s.buf.length ∧ ∀ win ∈ s.done, win.length = w

theorem fit_emit {ρ} {w L : Nat} {s : WSt ρ} (h : Fit w L s) {x : List ρ} (hx : x.length = w) :
    Fit w L ⟨[], s.done ++ [x]⟩ := by
  refine ⟨?_, ⟨0, by simp⟩, ?_⟩
  · have := h.1
    simp only [List.length_nil]
    omega
  · intro win hwin
    rcases List.mem_append.1 hwin with hh | hh
    · exact h.2.2 win hh
    · rw [List.mem_singleton.1 hh]; exact hx

theorem fit_add {ρ} {w L : Nat} {s : WSt ρ} (h : Fit w L s) (hd : L ∣ w) : s.buf.length + L ≤ w := by
  obtain ⟨h1, ⟨a, ha⟩, _⟩ := h
  obtain ⟨b, hb⟩ := hd
  rw [ha, hb] at h1
  have hab : a < b := Nat.lt_of_mul_lt_mul_left h1
  rw [ha, hb, ← Nat.mul_succ]
  exact Nat.mul_le_mul_left L hab

theorem fit_push {ρ} {w L : Nat} {s : WSt ρ} (h : Fit w L s) (hd : L ∣ w) {x : List ρ}
    (hx : x.length = L) (hne : s.buf.length + L ≠ w) : Fit w L ⟨s.buf ++ x, s.done⟩ := by
  refine ⟨?_, ?_, h.2.2⟩
  · have := fit_add h hd
    simp only [List.length_append]
    omega
  · simp only [List.length_append, hx]
    exact Nat.dvd_add h.2.1 (Nat.dvd_refl L)

theorem fit_count {ρ} {w L : Nat} {s : WSt ρ} (h : Fit w L s) (hd : L ∣ w) {x : List ρ}
    (hx : x.length = L) (b : Bool) : Fit w L (stepCount w s x b) := by
  rw [stepCount]
  cases b with
  | false =>
    have := h.1
    simp only [Bool.false_eq_true, if_false]
    rw [if_neg (by omega)]
    exact h
  | true =>
    simp only [if_true]
    by_cases he : (s.buf ++ x).length = w
    · rw [if_pos he]
      exact fit_emit h he
    · rw [if_neg he]
      exact fit_push h hd hx (by rw [List.length_append, hx] at he; exact he)

theorem fit_finite {ρ} {w L : Nat} {s : WSt ρ} (h : Fit w L s) (hd : L ∣ w) {x : List ρ}
    (hx : x.length = L) (b : Bool) : Fit w L (stepFinite w s x b) := by
  have hadd := fit_add h hd
  rw [stepFinite]
  by_cases he : s.buf.length = w - x.length
  · rw [if_pos he]
    exact fit_emit h (by rw [List.length_append]; omega)
  · rw [if_neg he]
    cases b with
    | false => exact h
    | true => exact fit_push h hd hx (by omega)

theorem windows_fit {ρ} (noCols : Bool) (w L : Nat) (packs : List (List ρ × Bool)) (hw : w ≠ 0)
    (hd : L ∣ w) (hp : ∀ p ∈ packs, p.1.length = L) :
    (∀ win ∈ (writeResultSet noCols w packs).dropLast, win.length = w) ∧
      ∀ win ∈ writeResultSet noCols w packs, win.length ≤ w := by
  have key : ∀ (packs : List (List ρ × Bool)) (s : WSt ρ), (∀ p ∈ packs, p.1.length = L) → Fit w L s →
      Fit w L (packs.foldl (fun s p => if w = 0 then stepInf s p.1 p.2
        else if noCols then stepCount w s p.1 p.2 else stepFinite w s p.1 p.2) s) := by
    intro packs
    induction packs with
    | nil => intro s _ h; exact h
    | cons p r ih =>
      intro s h0 h
      rw [List.foldl_cons]
      apply ih _ (fun q hq => h0 q (by simp [hq]))
      rw [if_neg hw]
      split
      · exact fit_count h hd (h0 p (by simp)) _
      · exact fit_finite h hd (h0 p (by simp)) _
  have := key packs ⟨[], []⟩ hp ⟨by simp; omega, by simp, by simp⟩
  rw [writeResultSet]
  refine ⟨?_, ?_⟩
  · rw [List.dropLast_concat]
    exact this.2.2
  · intro win hwin
    rcases List.mem_append.1 hwin with h | h
    · exact Nat.le_of_eq (this.2.2 win h)
    · rw [List.mem_singleton.1 h]
      exact Nat.le_of_lt this.1

end Mutable.Deliver
