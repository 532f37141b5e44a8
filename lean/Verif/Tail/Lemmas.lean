import Verif.Tail.Spec
import Verif.Deliver.Interp

/-! Lemmas for `Verif/Tail/Props.lean`. -/
namespace Mutable.Tail

open Deliver

variable {α : Type}

/-! ## Lists -/

theorem perm_map_inv {β γ : Type} (g : β → γ) : ∀ (s : List γ) (rows : List β), s.Perm (rows.map g) →
    ∃ l : List β, l.Perm rows ∧ s = l.map g := by
  intro s
  induction s with
  | nil =>
    intro rows h
    have := h.length_eq
    cases rows with
    | nil => exact ⟨[], List.Perm.refl _, rfl⟩
    | cons a r => simp at this
  | cons x s ih =>
    intro rows h
    have hx : x ∈ rows.map g := h.subset (by simp)
    obtain ⟨b, hb, rfl⟩ := List.mem_map.1 hx
    obtain ⟨l₁, l₂, rfl⟩ := List.append_of_mem hb
    have h1 : (g b :: s).Perm (g b :: ((l₁ ++ l₂).map g)) := by
      refine h.trans ?_
      simp only [List.map_append, List.map_cons]
      exact List.perm_middle
    obtain ⟨l, hl, rfl⟩ := ih (l₁ ++ l₂) (List.Perm.cons_inv h1)
    exact ⟨b :: l, (List.Perm.cons b hl).trans List.perm_middle.symm, rfl⟩

theorem mapM_map {β γ δ : Type} (g : β → γ) (f : γ → Option δ) (l : List β) :
    (l.map g).mapM f = l.mapM (fun x => f (g x)) := by
  induction l with
  | nil => rfl
  | cons a r ih => rw [List.map_cons, List.mapM_cons, List.mapM_cons, ih]

/-! ## LIMIT -/

theorem limitRow_foldl {ρ : Type} (lim off : Nat) (hb : off + lim < 2 ^ 64) (rows : List ρ) :
    ∀ (n : Nat) (acc : List ρ),
      ((rows.foldl (limitRow lim off) (n, acc, false)).2.1 = acc ++ ((rows.drop (off - n)).take (off + lim - max n off)) ∧
        ((rows.foldl (limitRow lim off) (n, acc, false)).1 = n + rows.length ∨
          ((rows.foldl (limitRow lim off) (n, acc, false)).1 ≥ off + lim ∧
            (rows.foldl (limitRow lim off) (n, acc, false)).1 ≤ n + rows.length))) := by
  have hend : limitEnd lim off = off + lim := Nat.mod_eq_of_lt hb
  have hstop : ∀ (rows : List ρ) (s : Nat × List ρ), rows.foldl (limitRow lim off) (s.1, s.2, true) = (s.1, s.2, true) := by
    intro rows
    induction rows with
    | nil => intro s; rfl
    | cons a r ih => intro s; rw [List.foldl_cons, limitRow]; exact ih s
  induction rows with
  | nil => intro n acc; simp
  | cons a r ih =>
    intro n acc
    rw [List.foldl_cons]
    by_cases h1 : n ≥ off + lim
    · have : limitRow lim off (n, acc, false) a = (n, acc, true) := by
        rw [limitRow]; simp [hend, h1]
      rw [this, hstop r (n, acc)]
      refine ⟨?_, Or.inr ⟨h1, by dsimp only; omega⟩⟩
      have : off + lim - max n off = 0 := by omega
      rw [this]; simp
    · by_cases h2 : n ≥ off
      · have : limitRow lim off (n, acc, false) a = (n + 1, acc ++ [a], false) := by
          rw [limitRow]; simp only [hend, Bool.false_eq_true, if_false, if_neg h1]
          by_cases h0 : off = 0
          · rw [if_pos h0]
          · rw [if_neg h0, if_pos h2]
        rw [this]
        obtain ⟨e1, e2⟩ := ih (n + 1) (acc ++ [a])
        refine ⟨?_, ?_⟩
        · rw [e1]
          have e3 : off - (n + 1) = 0 := by omega
          have e4 : off - n = 0 := by omega
          have e5 : off + lim - max n off = (off + lim - max (n + 1) off) + 1 := by omega
          rw [e3, e4, e5]
          simp
        · simp only [List.length_cons]
          omega
      · have : limitRow lim off (n, acc, false) a = (n + 1, acc, false) := by
          rw [limitRow]; simp only [hend, Bool.false_eq_true, if_false, if_neg h1]
          rw [if_neg (by omega), if_neg h2]
        rw [this]
        obtain ⟨e1, e2⟩ := ih (n + 1) acc
        refine ⟨?_, ?_⟩
        · rw [e1]
          have e4 : off - n = (off - (n + 1)) + 1 := by omega
          have e5 : off + lim - max n off = off + lim - max (n + 1) off := by omega
          rw [e4, e5, List.drop_succ_cons]
        · simp only [List.length_cons]
          omega

theorem window_append {ρ : Type} (off m n : Nat) (a b : List ρ) :
    (a.drop (off - n)).take (off + m - max n off) ++
      (b.drop (off - (n + a.length))).take (off + m - max (n + a.length) off) =
    ((a ++ b).drop (off - n)).take (off + m - max n off) := by
  rw [List.drop_append, List.take_append, List.length_drop]
  have e1 : off - n - a.length = off - (n + a.length) := by omega
  rw [e1]
  by_cases h : a.length ≤ off - n
  · have e2 : off + m - max n off - (a.length - (off - n)) = off + m - max (n + a.length) off := by omega
    rw [e2]
  · have e3 : off - (n + a.length) = 0 := by omega
    have e2 : off + m - max n off - (a.length - (off - n)) = off + m - max (n + a.length) off := by omega
    rw [e2]

theorem window_past {ρ : Type} (off m n : Nat) (h : n ≥ off + m) (b : List ρ) :
    (b.drop (off - n)).take (off + m - max n off) = [] := by
  have : off + m - max n off = 0 := by omega
  rw [this]; simp

theorem wasmLimit_eq {ρ : Type} (lim off : Nat) (hb : off + lim < 2 ^ 64) (batches : List (List ρ)) :
    wasmLimit lim off batches = (batches.flatten.drop off).take lim := by
  have key : ∀ (batches : List (List ρ)) (n : Nat) (acc : List ρ),
      (batches.foldl (limitBatch lim off) (n, acc)).2 =
        acc ++ (batches.flatten.drop (off - n)).take (off + lim - max n off) := by
    intro batches
    induction batches with
    | nil => intro n acc; simp
    | cons b r ih =>
      intro n acc
      rw [List.foldl_cons, limitBatch]
      obtain ⟨h1, h2⟩ := limitRow_foldl lim off hb b n acc
      dsimp only
      rw [ih, h1, List.flatten_cons, ← window_append off lim n b r.flatten, List.append_assoc]
      rcases h2 with h2 | ⟨h2, h3⟩
      · rw [h2]
      · rw [window_past off lim _ h2, window_past off lim (n + b.length) (by omega)]
  rw [wasmLimit, key]
  simp

theorem interpBlock_eq {ρ : Type} (lim off : Nat) (block : List ρ) : ∀ n : Nat,
    ((block.zipIdx n).filter fun p => ¬ (p.2 < off ∨ p.2 ≥ off + lim)).map (·.1) =
      (block.drop (off - n)).take (off + lim - max n off) := by
  induction block with
  | nil => intro n; simp
  | cons a r ih =>
    intro n
    rw [List.zipIdx_cons, List.filter_cons]
    by_cases h1 : n < off
    · have e4 : off - n = (off - (n + 1)) + 1 := by omega
      have e5 : off + lim - max n off = off + lim - max (n + 1) off := by omega
      rw [if_neg (by simp [h1]), ih, e4, e5, List.drop_succ_cons]
    · by_cases h2 : n ≥ off + lim
      · rw [if_neg (by simp [h2]), ih, window_past _ _ _ h2, window_past _ _ _ (by omega)]
      · have e3 : off - (n + 1) = 0 := by omega
        have e4 : off - n = 0 := by omega
        have e5 : off + lim - max n off = (off + lim - max (n + 1) off) + 1 := by omega
        rw [if_pos (by simp [h1]; omega), List.map_cons, ih, e3, e4, e5]
        simp

theorem interpLimit_eq {ρ : Type} (lim off : Nat) (hb : off + lim < 2 ^ 64) (blocks : List (List ρ)) :
    interpLimit lim off blocks = (blocks.flatten.drop off).take lim := by
  have hend : limitEnd lim off = off + lim := Nat.mod_eq_of_lt hb
  have hstop : ∀ (blocks : List (List ρ)) (s : Nat × List ρ),
      blocks.foldl (interpLimitBlock lim off) (s.1, s.2, true) = (s.1, s.2, true) := by
    intro blocks
    induction blocks with
    | nil => intro s; rfl
    | cons a r ih => intro s; rw [List.foldl_cons, interpLimitBlock]; exact ih s
  have key : ∀ (blocks : List (List ρ)) (n : Nat) (acc : List ρ),
      (blocks.foldl (interpLimitBlock lim off) (n, acc, false)).2.1 =
        acc ++ (blocks.flatten.drop (off - n)).take (off + lim - max n off) := by
    intro blocks
    induction blocks with
    | nil => intro n acc; simp
    | cons b r ih =>
      intro n acc
      rw [List.foldl_cons, List.flatten_cons, ← window_append off lim n b r.flatten, ← List.append_assoc]
      have hb := interpBlock_eq lim off b n
      by_cases h : n + b.length ≥ off + lim
      · have : interpLimitBlock lim off (n, acc, false) b =
            (n + b.length, acc ++ (b.drop (off - n)).take (off + lim - max n off), true) := by
          rw [interpLimitBlock]; simp only [hend]
          rw [hb]; simp [h]
        rw [this, hstop r (n + b.length, acc ++ (b.drop (off - n)).take (off + lim - max n off)),
          window_past off lim _ h, List.append_nil]
      · have : interpLimitBlock lim off (n, acc, false) b =
            (n + b.length, acc ++ (b.drop (off - n)).take (off + lim - max n off), false) := by
          rw [interpLimitBlock]; simp only [hend]
          rw [hb]; simp [h]
        rw [this, ih]
  rw [interpLimit, key]
  simp

/-- The rows that pass the limit are the window. -/
theorem limitRows_eq {ρ : Type} (limit : Nat → Nat → List (List ρ) → List ρ)
    (hlimit : ∀ lim off blocks, off + lim < 2 ^ 64 → limit lim off blocks = (blocks.flatten.drop off).take lim)
    (lim : Option (Nat × Nat)) (h0 : lim ≠ some (0, 0)) (hb : ∀ n off, lim = some (n, off) → off + n < 2 ^ 64)
    (rows : List ρ) : limitRows limit lim rows = window lim rows := by
  cases lim with
  | none => rfl
  | some p =>
    obtain ⟨n, off⟩ := p
    have hne : n ≠ 0 ∨ off ≠ 0 := by
      by_contra hh
      push Not at hh
      exact h0 (by rw [hh.1, hh.2])
    have : limitRows limit (some (n, off)) rows = limit n off [rows] := if_pos hne
    rw [this, hlimit n off _ (hb n off rfl)]
    simp [window]

theorem window_map {ρ σ : Type} (g : ρ → σ) (lim : Option (Nat × Nat)) (l : List ρ) :
    window lim (l.map g) = (window lim l).map g := by
  cases lim with
  | none => rfl
  | some p => simp [window, List.map_take, List.map_drop]

theorem mem_window {ρ : Type} {lim : Option (Nat × Nat)} {l : List ρ} {x : ρ} (h : x ∈ window lim l) : x ∈ l := by
  cases lim with
  | none => exact h
  | some p => exact List.mem_of_mem_drop (List.mem_of_mem_take h)

/-! ## Names -/

theorem resultName_title (it : Item α) : resultName it = title it := by
  obtain ⟨e, a, ty⟩ := it
  cases a with
  | some a => cases e <;> rfl
  | none => cases e <;> rfl

theorem results_fst (items : List (Item α)) (a : String) :
    (results items a).map (·.1) = items.filter fun it => title it = some a := by
  have h : (items.zipIdx.map (·.1)).filter (fun it => decide (title it = some a)) =
      (items.zipIdx.filter ((fun it => decide (title it = some a)) ∘ (·.1))).map (·.1) := List.filter_map
  rw [List.zipIdx_map_fst] at h
  rw [h, results]
  congr 2
  funext p
  simp [resultName_title]

theorem refIdent_projId {it : Item α} {a : String} (h : title it = some a) : refIdent it a = projId it := by
  obtain ⟨e, s, ty⟩ := it
  cases s with
  | some s =>
    simp only [title, Option.some.injEq] at h
    subst h
    cases e <;> rfl
  | none =>
    cases e with
    | des t b => simp only [title, Option.some.injEq] at h; subst h; rfl
    | _ => simp [title] at h

theorem refIdent_full {it : Item α} {a : String} (h : title it = some a) :
    (Ex.des (refIdent it a).pre (refIdent it a).name : Ex α) = if it.as_ = none then it.e else .des none a := by
  obtain ⟨e, s, ty⟩ := it
  cases s with
  | some s => cases e <;> rfl
  | none =>
    cases e with
    | des t b => simp only [title, Option.some.injEq] at h; subst h; rfl
    | _ => simp [title] at h

theorem title_not_const {it : Item α} {a : String} (h : title it = some a) : ¬ it.isConst := by
  obtain ⟨e, s, ty⟩ := it
  cases s with
  | some s => cases e <;> exact id
  | none => cases e <;> first | exact id | simp [title] at h

theorem projId_name {e : Ex α} (h : e.isName) (ty : Ty) : projId (⟨e, none, ty⟩ : Item α) = exprId e := by
  cases e <;> first | rfl | exact h.elim

theorem name_not_const {e : Ex α} (h : e.isName) (s : Option String) (ty : Ty) : ¬ Item.isConst ⟨e, s, ty⟩ := by
  cases e <;> first | exact h.elim | exact id

theorem value_name (sem : Sem α) (env : Env α) {e : Ex α} (h : e.isName) : value sem env e = column env (exprId e) := by
  rw [value_of_not_const sem env (by intro t v he; rw [he] at h; exact h), compute_name sem env h]
  cases column env (exprId e) <;> rfl

theorem orderCols_name (items : List (Item α)) (low : Option String → String → Option Ident) (e : Ex α) :
    ∀ x ∈ orderCols items low e, x.isName := by
  induction e with
  | des t a =>
    intro x hx
    cases t with
    | none =>
      simp only [orderCols] at hx
      split at hx
      · obtain ⟨id, _, rfl⟩ := List.mem_map.1 hx; trivial
      · simp at hx
    | some t =>
      simp only [orderCols] at hx
      obtain ⟨id, _, rfl⟩ := List.mem_map.1 hx; trivial
  | const t v => intro x hx; simp [orderCols] at hx
  | aggNil f => intro x hx; simp only [orderCols, List.mem_singleton] at hx; subst hx; trivial
  | agg f e _ => intro x hx; simp only [orderCols, List.mem_singleton] at hx; subst hx; trivial
  | call f e ih => exact ih
  | un op e ih => exact ih
  | bin op l r ihl ihr =>
    intro x hx
    rcases List.mem_append.1 hx with h | h
    · exact ihl x h
    · exact ihr x h

/-- The item for a column that is not in the SELECT list. -/
def hide (e : Ex α) : Item α := ⟨e, none, .prim 0⟩

/-- The columns of an expression that are not in the SELECT list. -/
def hidden1 [DecidableEq α] (items : List (Item α)) (cs : List (Ex α)) : List (Item α) :=
  (cs.filter fun e => ∀ it ∈ items, it.as_ = none → it.e ≠ e).map hide

theorem hidden1_append [DecidableEq α] (items : List (Item α)) (a b : List (Ex α)) :
    hidden1 items (a ++ b) = hidden1 items a ++ hidden1 items b := by
  rw [hidden1, List.filter_append, List.map_append]; rfl

theorem hidden_eq [DecidableEq α] (items : List (Item α)) (low : Option String → String → Option Ident) (orders : List (Ex α × Bool)) :
    hidden items low orders = hidden1 items (orders.flatMap fun o => orderCols items low o.1) := rfl

theorem needEx_eq [DecidableEq α] (items : List (Item α)) (e : Ex α) : needEx items e = hidden1 items [e] := by
  rw [needEx, hidden1, List.filter_cons]
  by_cases h : hasItem items e = true
  · rw [if_pos h]
    simp only [hasItem, List.any_eq_true, decide_eq_true_eq] at h
    obtain ⟨it, hi, ha, he⟩ := h
    rw [if_neg]
    · rfl
    · intro hh
      exact (of_decide_eq_true hh) it hi ha he
  · rw [if_neg h, if_pos]
    · rfl
    · refine decide_eq_true ?_
      intro it hi ha he
      apply h
      simp only [hasItem, List.any_eq_true, decide_eq_true_eq]
      exact ⟨it, hi, ha, he⟩

/-- Every unaliased item and every hidden column is found under its name, as well as every named item. -/
def Holds (sem : Sem α) (env env1 : Env α) (its : List (Item α)) : Prop :=
  ∀ it ∈ its, ¬ it.isConst → column env1 (projId it) = value sem env it.e

theorem holds_col [DecidableEq α] {sem : Sem α} {env env1 : Env α} {items : List (Item α)} {cs : List (Ex α)} {e : Ex α} (he : e ∈ cs)
    (hn : e.isName) (h : Holds sem env env1 (hidden1 items cs ++ items)) : column env1 (exprId e) = column env (exprId e) := by
  by_cases hi : ∀ it ∈ items, it.as_ = none → it.e ≠ e
  · have hm : hide e ∈ hidden1 items cs := by
      exact List.mem_map.2 ⟨e, List.mem_filter.2 ⟨he, decide_eq_true hi⟩, rfl⟩
    have := h (hide e) (List.mem_append_left _ hm) (name_not_const hn _ _)
    rw [hide, projId_name hn, value_name sem env hn] at this
    exact this
  · push Not at hi
    obtain ⟨it, hit, ha, hie⟩ := hi
    obtain ⟨e', s, ty⟩ := it
    simp only at ha hie
    subst ha hie
    have := h ⟨e', none, ty⟩ (List.mem_append_right _ hit) (name_not_const hn _ _)
    rw [projId_name hn, value_name sem env hn] at this
    exact this

theorem holds_mono {sem : Sem α} {env env1 : Env α} {a b : List (Item α)} (h : Holds sem env env1 b)
    (hs : ∀ x ∈ a, x ∈ b) : Holds sem env env1 a := fun it hit => h it (hs it hit)

/-- What semantic analysis makes of an expression without scalar functions. -/
theorem resolve_ok [DecidableEq α] (items : List (Item α)) (low : Option String → String → Option Ident) (e : Ex α)
    (hr : Resolvable items low e) (hc : NoCall e) :
    ∃ r, resolve items low e = some r ∧ r.ex = full items low e ∧
      need items r = hidden1 items (orderCols items low e) ∧
      ∀ (sem : Sem α) (env env1 : Env α), Holds sem env env1 (hidden1 items (orderCols items low e) ++ items) →
        compute sem env1 r.ex = orderVal sem items low env e := by
  induction e with
  | des t a =>
    cases t with
    | some t =>
      obtain ⟨id, hid⟩ := Option.isSome_iff_exists.1 hr
      refine ⟨.des id none, by rw [resolve, resolveDes, hid]; rfl, by rw [full, hid]; rfl, ?_, ?_⟩
      · rw [need, needEx_eq]; simp only [orderCols, hid]; rfl
      · intro sem env env1 h
        simp only [orderCols, hid] at h
        simp only [orderVal, hid, Option.bind_some]
        exact holds_col (e := .des id.pre id.name) (List.mem_singleton.2 rfl) trivial h
    | none =>
      have hf := results_fst items a
      cases hres : results items a with
      | nil =>
        rw [hres] at hf
        simp only [Resolvable, ← hf, List.map_nil] at hr
        obtain ⟨id, hid⟩ := Option.isSome_iff_exists.1 hr
        refine ⟨.des id none, by simp only [resolve, resolveDes, hres, hid]; rfl,
          by simp only [full, ← hf, List.map_nil, hid]; rfl, ?_, ?_⟩
        · rw [need, needEx_eq]; simp only [orderCols, ← hf, hid]; rfl
        · intro sem env env1 h
          simp only [orderCols, hid, ← hf, List.map_nil] at h
          simp only [orderVal, hid, ← hf, List.map_nil, Option.bind_some]
          exact holds_col (e := .des id.pre id.name) (List.mem_singleton.2 rfl) trivial h
      | cons p r =>
        cases r with
        | cons q r =>
          rw [hres] at hf
          simp only [Resolvable, ← hf, List.map_cons] at hr
        | nil =>
          rw [hres] at hf
          refine ⟨.des (refIdent p.1 a) (some p.2), by simp only [resolve, resolveDes, hres]; rfl,
            ?_, ?_, ?_⟩
          · simp only [full, ← hf, List.map_cons, RE.ex]
            have hmem : p.1 ∈ items.filter fun it => title it = some a := by rw [← hf]; simp
            exact refIdent_full (of_decide_eq_true (List.mem_filter.1 hmem).2)
          · rw [need]; simp only [orderCols, ← hf]; rfl
          · intro sem env env1 h
            have hmem : p.1 ∈ items.filter fun it => title it = some a := by rw [← hf]; simp
            obtain ⟨hpi, hpt⟩ := List.mem_filter.1 hmem
            have hpt := of_decide_eq_true hpt
            simp only [orderVal, ← hf, List.map_cons, List.map_nil]
            rw [RE.ex, refIdent_projId hpt, compute]
            exact h p.1 (List.mem_append_right _ hpi) (title_not_const hpt)
  | const t v => exact ⟨.const t v, rfl, rfl, rfl, fun _ _ _ _ => rfl⟩
  | aggNil f =>
    refine ⟨.aggNil f, rfl, rfl, by rw [need, needEx_eq]; rfl, ?_⟩
    intro sem env env1 h
    exact holds_col (e := .aggNil f) (List.mem_singleton.2 rfl) trivial h
  | agg f e _ =>
    refine ⟨.agg f e, rfl, rfl, by rw [need, needEx_eq]; rfl, ?_⟩
    intro sem env env1 h
    exact holds_col (e := .agg f e) (List.mem_singleton.2 rfl) trivial h
  | call f e _ => exact hc.elim
  | un op e ih =>
    obtain ⟨r, h1, h0, h2, h3⟩ := ih hr hc
    refine ⟨.un op r, by rw [resolve, h1]; rfl, by rw [RE.ex, h0]; rfl, h2, ?_⟩
    intro sem env env1 h
    rw [RE.ex, compute, h3 sem env env1 h]; rfl
  | bin op l r ihl ihr =>
    obtain ⟨l', l1, l0, l2, l3⟩ := ihl hr.1 hc.1
    obtain ⟨r', r1, r0, r2, r3⟩ := ihr hr.2 hc.2
    refine ⟨.bin op l' r', by rw [resolve, l1, r1], by rw [RE.ex, l0, r0]; rfl, ?_, ?_⟩
    · rw [need, l2, r2, orderCols, hidden1_append]
    · intro sem env env1 h
      rw [orderCols, hidden1_append] at h
      rw [RE.ex, compute, l3 sem env env1 (holds_mono h (by
        intro x hx; rcases List.mem_append.1 hx with hx | hx <;> simp [hx])), r3 sem env env1 (holds_mono h (by
        intro x hx; rcases List.mem_append.1 hx with hx | hx <;> simp [hx]))]
      rfl

/-- The ORDER BY clause. -/
theorem resolveAll_ok [DecidableEq α] (items : List (Item α)) (low : Option String → String → Option Ident)
    (orders : List (Ex α × Bool)) (hr : ∀ o ∈ orders, Resolvable items low o.1) (hc : ∀ o ∈ orders, NoCall o.1) :
    ∃ os, resolveAll items low orders = some os ∧ additional items os = hidden items low orders ∧
      os.map (·.2) = orders.map (·.2) ∧ os.map (·.1.ex) = orders.map (fun o => full items low o.1) ∧
      ∀ (sem : Sem α) (env env1 : Env α), Holds sem env env1 (hidden items low orders ++ items) →
        ∀ o ∈ orders, compute sem env1 (full items low o.1) = orderVal sem items low env o.1 := by
  induction orders with
  | nil => exact ⟨[], rfl, rfl, rfl, rfl, fun _ _ _ _ o ho => absurd ho (by simp)⟩
  | cons o orders ih =>
    obtain ⟨os, h1, h2, h3, h0, h4⟩ := ih (fun o ho => hr o (by simp [ho])) (fun o ho => hc o (by simp [ho]))
    obtain ⟨r, r1, r0, r2, r3⟩ := resolve_ok items low o.1 (hr o (by simp)) (hc o (by simp))
    have hh : hidden items low (o :: orders) = hidden1 items (orderCols items low o.1) ++ hidden items low orders := by
      rw [hidden_eq, List.flatMap_cons, hidden1_append]; rfl
    refine ⟨(r, o.2) :: os, ?_, ?_, ?_, ?_, ?_⟩
    · rw [resolveAll, List.mapM_cons]
      rw [resolveAll] at h1
      rw [h1, r1]; rfl
    · rw [hh, ← h2, ← r2]; rfl
    · rw [List.map_cons, h3]; rfl
    · rw [List.map_cons, h0, List.map_cons, ← r0]
    · intro sem env env1 h
      rw [hh] at h
      intro p hp
      rcases List.mem_cons.1 hp with rfl | hp
      · rw [← r0]
        exact r3 sem env env1 (holds_mono h (by
          intro x hx; rcases List.mem_append.1 hx with hx | hx <;> simp [hx]))
      · exact h4 sem env env1 (holds_mono h (by
          intro x hx; rcases List.mem_append.1 hx with hx | hx <;> simp [hx])) p hp

/-- Every ORDER BY expression has a value if its columns and the items have one. -/
theorem orderVal_isSome [DecidableEq α] (sem : Sem α) (items : List (Item α))
    (low : Option String → String → Option Ident) (env : Env α) (e : Ex α) (hr : Resolvable items low e)
    (hv : ∀ it ∈ items, (value sem env it.e).isSome)
    (hc : ∀ x ∈ orderCols items low e, (column env (exprId x)).isSome) : (orderVal sem items low env e).isSome := by
  induction e with
  | des t a =>
    cases t with
    | some t =>
      obtain ⟨id, hid⟩ := Option.isSome_iff_exists.1 hr
      simp only [orderCols, hid] at hc
      simp only [orderVal, hid, Option.bind_some]
      exact hc (.des id.pre id.name) (List.mem_singleton.2 rfl)
    | none =>
      simp only [Resolvable] at hr
      simp only [orderVal]
      simp only [orderCols] at hc
      cases hf : items.filter fun it => title it = some a with
      | nil =>
        rw [hf] at hr hc
        dsimp only at hr hc
        obtain ⟨id, hid⟩ := Option.isSome_iff_exists.1 hr
        rw [hid] at hc
        dsimp only
        rw [hid, Option.bind_some]
        exact hc (.des id.pre id.name) (List.mem_singleton.2 rfl)
      | cons it r =>
        rw [hf] at hr
        cases r with
        | cons _ _ => exact hr.elim
        | nil =>
          have : it ∈ items.filter fun it => title it = some a := by rw [hf]; simp
          exact hv it (List.mem_filter.1 this).1
  | const t v => rfl
  | aggNil f => exact hc (.aggNil f) (List.mem_singleton.2 rfl)
  | agg f e _ => exact hc (.agg f e) (List.mem_singleton.2 rfl)
  | call f e ih => rw [orderVal, Option.isSome_map]; exact ih hr hc
  | un op e ih => rw [orderVal, Option.isSome_map]; exact ih hr hc
  | bin op l r ihl ihr =>
    obtain ⟨a, ha⟩ := Option.isSome_iff_exists.1 (ihl hr.1 (fun x hx => hc x (List.mem_append_left _ hx)))
    obtain ⟨b, hb⟩ := Option.isSome_iff_exists.1 (ihr hr.2 (fun x hx => hc x (List.mem_append_right _ hx)))
    rw [orderVal, ha, hb]; rfl

/-- The columns an ORDER BY expression needs exist if the hidden columns and the items have values. -/
theorem cols_isSome [DecidableEq α] (sem : Sem α) (items : List (Item α)) (low : Option String → String → Option Ident)
    (orders : List (Ex α × Bool)) (env : Env α)
    (hv : ∀ it ∈ hidden items low orders ++ items, (value sem env it.e).isSome) {o : Ex α × Bool} (ho : o ∈ orders) :
    ∀ x ∈ orderCols items low o.1, (column env (exprId x)).isSome := by
  intro x hx
  have hn := orderCols_name items low o.1 x hx
  rw [← value_name sem env hn]
  by_cases hi : ∀ it ∈ items, it.as_ = none → it.e ≠ x
  · exact hv (hide x) (List.mem_append_left _ (List.mem_map.2 ⟨x, List.mem_filter.2
      ⟨List.mem_flatMap.2 ⟨o, ho, hx⟩, decide_eq_true hi⟩, rfl⟩))
  · push Not at hi
    obtain ⟨it, hit, _, hie⟩ := hi
    rw [← hie]
    exact hv it (List.mem_append_right _ hit)

/-- Without aliases, the completed expression can be computed from the row below. -/
theorem full_noalias (sem : Sem α) (items : List (Item α)) (low : Option String → String → Option Ident) (env : Env α)
    (e : Ex α) (hr : Resolvable items low e) (ha : NoAlias items e) :
    compute sem env (full items low e) = orderVal sem items low env e := by
  induction e with
  | des t a =>
    cases t with
    | some t =>
      obtain ⟨id, hid⟩ := Option.isSome_iff_exists.1 hr
      rw [full, hid, orderVal, hid]; rfl
    | none =>
      simp only [Resolvable] at hr
      simp only [orderVal, full]
      cases hf : items.filter fun it => title it = some a with
      | nil =>
        rw [hf] at hr
        dsimp only at hr
        obtain ⟨id, hid⟩ := Option.isSome_iff_exists.1 hr
        dsimp only
        rw [hid]; rfl
      | cons it r =>
        rw [hf] at hr
        cases r with
        | cons _ _ => exact hr.elim
        | nil =>
          have hm : it ∈ items.filter fun it => title it = some a := by rw [hf]; simp
          obtain ⟨hit, ht⟩ := List.mem_filter.1 hm
          have ht := of_decide_eq_true ht
          have hna : it.as_ ≠ some a := ha it hit
          dsimp only
          obtain ⟨e', s, ty⟩ := it
          cases s with
          | some s =>
            simp only [title, Option.some.injEq] at ht
            exact absurd (by rw [ht]) hna
          | none =>
            cases e' with
            | des t b =>
              rw [if_pos rfl, value_name sem env (e := .des t b) trivial]; rfl
            | _ => simp [title] at ht
  | const t v => rfl
  | aggNil f => rfl
  | agg f e _ => rfl
  | call f e ih => rw [full, compute, orderVal, ih hr ha]
  | un op e ih => rw [full, compute, orderVal, ih hr ha]
  | bin op l r ihl ihr => rw [full, compute, orderVal, ihl hr.1 ha.1, ihr hr.2 ha.2]

/-! ## Sorting and limiting, for both back ends -/

theorem sort_ok {ρ : Type} (sem : Sem α) (srt : Sorter α) (le : List Bool → List (Option α) → List (Option α) → Prop)
    (hs : Sorts srt le) (items : List (Item α)) (low : Option String → String → Option Ident)
    (orders : List (Ex α × Bool)) (os : List (RE α × Bool)) (hfl : os.map (·.2) = orders.map (·.2))
    (rows : List (Env α)) (g : Env α → ρ) (keys : ρ → Option (List (Option α)))
    (hk : ∀ env ∈ rows, keys (g env) = orderKeys sem items low orders env)
    (hK : ∀ env ∈ rows, (orderKeys sem items low orders env).isSome) :
    ∃ l : List (Env α), l.Perm rows ∧ (orders = [] → l = rows) ∧
      (∃ ks, l.mapM (orderKeys sem items low orders) = some ks ∧
        (orders ≠ [] → ks.Pairwise (le (orders.map (·.2))))) ∧
      sortRows srt os keys (rows.map g) = some (l.map g) := by
  have hsome : ∀ env ∈ rows, orderKeys sem items low orders env =
      some ((orderKeys sem items low orders env).getD []) := by
    intro env he
    obtain ⟨k, hk⟩ := Option.isSome_iff_exists.1 (hK env he)
    rw [hk]; rfl
  have hemp : os.isEmpty = true ↔ orders = [] := by
    have := congrArg List.length hfl
    simp only [List.length_map] at this
    rw [List.isEmpty_iff, ← List.length_eq_zero_iff, ← List.length_eq_zero_iff, this]
  by_cases h : orders = []
  · refine ⟨rows, List.Perm.refl _, fun _ => rfl,
      ⟨_, mapM_some rows _ (fun env => (orderKeys sem items low orders env).getD []) hsome,
        fun hh => absurd h hh⟩, ?_⟩
    rw [sortRows, if_pos (hemp.2 h)]
  · have h1 : (rows.map g).mapM (fun r => (keys r).map fun k => (k, r)) =
        some (rows.map fun env => ((orderKeys sem items low orders env).getD [], g env)) := by
      rw [mapM_map]
      apply mapM_some
      intro env he
      rw [hk env he, hsome env he]; rfl
    obtain ⟨hp, hsorted⟩ := hs (os.map (·.2)) ρ (rows.map fun env => ((orderKeys sem items low orders env).getD [], g env))
    obtain ⟨l, hl, hle⟩ := perm_map_inv _ _ _ hp
    refine ⟨l, hl, fun hh => absurd hh h, ⟨l.map fun env => (orderKeys sem items low orders env).getD [], ?_, ?_⟩, ?_⟩
    · apply mapM_some
      intro env he
      exact hsome env (hl.subset he)
    · intro _
      rw [hle, List.map_map, hfl] at hsorted
      exact hsorted
    · rw [sortRows, if_neg (fun hh => h (hemp.1 hh)), h1, Option.map_some, hle, List.map_map]
      rfl

end Mutable.Tail
