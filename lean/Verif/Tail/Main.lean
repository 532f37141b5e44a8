import Verif.Tail.Lemmas

/-! The two back ends compute correct results. -/
namespace Mutable.Tail

open Deliver

variable {α : Type} [DecidableEq α]

theorem projId_adapt (it : Item α) : projId (adapt it) = projId it := by
  obtain ⟨e, s, ty⟩ := it
  cases s <;> rfl

theorem orderKeys_eq (sem : Sem α) (items : List (Item α)) (low : Option String → String → Option Ident)
    (orders : List (Ex α × Bool)) (os : List (RE α × Bool)) (f : Ex α → Option (Option α)) (env : Env α)
    (hx : os.map (·.1.ex) = orders.map (fun o => full items low o.1))
    (h : ∀ o ∈ orders, f (full items low o.1) = orderVal sem items low env o.1) :
    os.mapM (fun o => f o.1.ex) = orderKeys sem items low orders env := by
  rw [orderKeys, ← mapM_map (fun o : RE α × Bool => o.1.ex) f, hx, mapM_map]
  clear hx
  induction orders with
  | nil => rfl
  | cons o r ih =>
    rw [List.mapM_cons, List.mapM_cons, h o (by simp), ih (fun o ho => h o (by simp [ho]))]

theorem orderKeys_isSome (sem : Sem α) (items : List (Item α)) (low : Option String → String → Option Ident)
    (orders : List (Ex α × Bool)) (env : Env α) (hr : ∀ o ∈ orders, Resolvable items low o.1)
    (hv : ∀ it ∈ hidden items low orders ++ items, (value sem env it.e).isSome) :
    (orderKeys sem items low orders env).isSome := by
  have : orderKeys sem items low orders env =
      some (orders.map fun o => (orderVal sem items low env o.1).getD none) := by
    apply mapM_some
    intro o ho
    have := orderVal_isSome sem items low env o.1 (hr o ho) (fun it hit => hv it (List.mem_append_right _ hit))
      (cols_isSome sem items low orders env hv ho)
    obtain ⟨v, hv⟩ := Option.isSome_iff_exists.1 this
    rw [hv]; rfl
  rw [this]; rfl

/-! ## Generated code -/

/-- The projection above the order only passes columns on. -/
theorem migrate_ok (sem : Sem α) (old : Env α) : ∀ (r : List (Item α)) (new : Env α),
    (∀ it ∈ r, projId it ≠ constId → old.has (projId it) = true) →
    (∀ id, new.has id = true → new.get id = old.get id) →
    ∃ new', wasmProject sem old r new = some new' ∧ (∀ id, new'.has id = true → new'.get id = old.get id) ∧
      (∀ id, new.has id = true → new'.has id = true) ∧
      (∀ it ∈ r, projId it ≠ constId → new'.has (projId it) = true) := by
  intro r
  induction r with
  | nil => intro new _ h; exact ⟨new, rfl, h, fun _ h => h, by simp⟩
  | cons it r ih =>
    intro new hold hinv
    rw [wasmProject]
    by_cases h1 : (new.has (projId it) || projId it == constId) = true
    · rw [if_pos h1]
      obtain ⟨new', he, ha, hb, hc⟩ := ih new (fun x hx => hold x (by simp [hx])) hinv
      refine ⟨new', he, ha, hb, ?_⟩
      intro x hx hxc
      rcases List.mem_cons.1 hx with rfl | hx
      · simp only [Bool.or_eq_true, beq_iff_eq] at h1
        rcases h1 with h1 | h1
        · exact hb _ h1
        · exact absurd h1 hxc
      · exact hc x hx hxc
    · rw [if_neg h1]
      simp only [Bool.or_eq_true, beq_iff_eq, not_or, Bool.not_eq_true] at h1
      have ho := hold it (by simp) h1.2
      rw [if_pos ho]
      have hsome : (old.get (projId it)).isSome := by
        rw [get_eq_column, column_isSome, ← has_iff]; exact ho
      obtain ⟨v, hv⟩ := Option.isSome_iff_exists.1 hsome
      rw [hv]
      dsimp only
      have hinv' : ∀ id, Env.has (new ++ [(projId it, v)]) id = true →
          Env.get (new ++ [(projId it, v)]) id = old.get id := by
        intro id hid
        rw [get_append]
        by_cases hn : new.has id = true
        · rw [hinv id hn]
          have : (old.get id).isSome := by
            rw [← hinv id hn, get_eq_column, column_isSome, ← has_iff]; exact hn
          obtain ⟨u, hu⟩ := Option.isSome_iff_exists.1 this
          rw [hu]; rfl
        · have hnone : new.get id = none := by
            rw [get_eq_column, ← Option.not_isSome_iff_eq_none, column_isSome, ← has_iff]
            exact hn
          have hidx : projId it = id := by
            rw [has_iff, List.map_append, List.mem_append] at hid
            rcases hid with hid | hid
            · exact absurd ((has_iff _ _).2 hid) hn
            · simp only [List.map_cons, List.map_nil, List.mem_singleton] at hid
              exact hid.symm
          rw [hnone, if_pos hidx, ← hidx, hv]; rfl
      obtain ⟨new', he, ha, hb, hc⟩ := ih (new ++ [(projId it, v)]) (fun x hx => hold x (by simp [hx])) hinv'
      refine ⟨new', he, ha, ?_, ?_⟩
      · intro id hid
        exact hb id (by rw [has_iff] at hid ⊢; rw [List.map_append]; exact List.mem_append_left _ hid)
      · intro x hx hxc
        rcases List.mem_cons.1 hx with rfl | hx
        · exact hb _ (by rw [has_iff, List.map_append]; simp)
        · exact hc x hx hxc

theorem wasmDeliver_eq (sem : Sem α) (items : List (Item α)) (env env1 : Env α) (h : Holds sem env env1 items) :
    wasmDeliver items env1 = specRow sem items env := by
  rw [wasmDeliver, specRow]
  have key : ∀ its : List (Item α), (∀ it ∈ its, it ∈ items) →
      its.mapM (fun it : Item α => match it.as_, it.e with
        | none, .const _ v => some v
        | _, _ => env1.get (projId it)) = its.mapM fun it => value sem env it.e := by
    intro its
    induction its with
    | nil => intro _; rfl
    | cons it r ih =>
      intro hs
      rw [List.mapM_cons, List.mapM_cons, ih (fun x hx => hs x (by simp [hx]))]
      have hi := h it (hs it (by simp))
      have : (match it.as_, it.e with
        | none, .const _ v => some v
        | _, _ => env1.get (projId it)) = value sem env it.e := by
        rw [get_eq_column]
        obtain ⟨e, s, ty⟩ := it
        cases s with
        | some s => cases e <;> exact hi id
        | none => cases e <;> first | rfl | exact hi id
      rw [this]
  exact key items (fun _ h => h)

theorem holds_post (sem : Sem α) (items : List (Item α)) (env env1 env2 : Env α) (hR : ReservedFree items)
    (h : Holds sem env env1 items) (h1 : ∀ id, env2.has id = true → env2.get id = env1.get id)
    (h2 : ∀ it ∈ items.map adapt, projId it ≠ constId → env2.has (projId it) = true) : Holds sem env env2 items := by
  intro it hit hc
  have hne : projId it ≠ constId := fun hh => hc ((projId_const hR hit).1 hh)
  have := h2 (adapt it) (List.mem_map.2 ⟨it, hit, rfl⟩) (by rw [projId_adapt]; exact hne)
  rw [projId_adapt] at this
  rw [← get_eq_column, h1 _ this, get_eq_column]
  exact h it hit hc

theorem specRows_isSome (sem : Sem α) (items : List (Item α)) (rows : List (Env α))
    (h : ∀ env ∈ rows, (specRow sem items env).isSome) : ∃ out, specRows sem items rows = some out := by
  refine ⟨rows.map fun env => (specRow sem items env).getD [], mapM_some _ _ _ ?_⟩
  intro env he
  obtain ⟨v, hv⟩ := Option.isSome_iff_exists.1 (h env he)
  rw [hv]; rfl

theorem mapM_congr' {β γ : Type} (f g : β → Option γ) (l : List β) (h : ∀ x ∈ l, f x = g x) : l.mapM f = l.mapM g := by
  induction l with
  | nil => rfl
  | cons a r ih => rw [List.mapM_cons, List.mapM_cons, h a (by simp), ih (fun x hx => h x (by simp [hx]))]

theorem wasm_ok (sem : Sem α) (srt : Sorter α) (le : List Bool → List (Option α) → List (Option α) → Prop)
    (hs : Sorts srt le) (low : Option String → String → Option Ident) (items : List (Item α))
    (orders : List (Ex α × Bool)) (lim : Option (Nat × Nat)) (nested : Bool) (cols : List Ident) (rows : List (Env α))
    (hr : ∀ o ∈ orders, Resolvable items low o.1) (hc : ∀ o ∈ orders, NoCall o.1)
    (h0 : lim ≠ some (0, 0)) (hb : ∀ n off, lim = some (n, off) → off + n < 2 ^ 64)
    (hR : ReservedFree (hidden items low orders ++ items)) (hN : NoClash (hidden items low orders ++ items) cols)
    (hG : ∀ env ∈ rows, GoodRow sem (hidden items low orders ++ items) cols env) :
    ∃ out, wasmQuery sem srt low items orders lim nested rows = some out ∧
      IsResult sem le items low orders lim rows out := by
  obtain ⟨os, hos, hadd, hfl, hex, hval⟩ := resolveAll_ok items low orders hr hc
  have hplan : planItems items os = hidden items low orders ++ items := by rw [planItems, hadd]
  -- the projection
  have hproj : ∀ env ∈ rows, ∃ env1, wasmProject sem env (hidden items low orders ++ items) [] = some env1 ∧
      Holds sem env env1 (hidden items low orders ++ items) ∧
      ∀ it ∈ hidden items low orders ++ items, projId it ≠ constId → env1.has (projId it) = true := by
    intro env he
    obtain ⟨env1, h1, h2, _, h4⟩ := wasmProject_ok sem _ cols env hR hN (hG env he) _ [] (fun _ h => h)
      (by intro it _ hh; simp [Env.has] at hh)
    refine ⟨env1, h1, ?_, h4⟩
    intro it hit hcn
    have hne : projId it ≠ constId := fun hh => hcn ((projId_const hR hit).1 hh)
    rw [← get_eq_column]
    exact h2 it hit (h4 it hit hne) hne
  let g : Env α → Env α := fun env => (wasmProject sem env (hidden items low orders ++ items) []).getD []
  have hg : ∀ env ∈ rows, wasmProject sem env (hidden items low orders ++ items) [] = some (g env) ∧
      Holds sem env (g env) (hidden items low orders ++ items) ∧
      ∀ it ∈ hidden items low orders ++ items, projId it ≠ constId → (g env).has (projId it) = true := by
    intro env he
    obtain ⟨env1, h1, h2, h3⟩ := hproj env he
    have : g env = env1 := by simp only [g, h1]; rfl
    rw [this]
    exact ⟨h1, h2, h3⟩
  obtain ⟨l, hl, hl0, hks, hsort⟩ := sort_ok sem srt le hs items low orders os hfl rows g (wasmKeys sem os)
    (by
      intro env he
      rw [wasmKeys]
      refine orderKeys_eq sem items low orders os (fun e => evalW sem (g env) e) env hex ?_
      intro o ho
      rw [evalW_eq]
      exact hval sem env (g env) (hg env he).2.1 o ho)
    (fun env he => orderKeys_isSome sem items low orders env hr (hG env he).val)
  have hmem : ∀ env ∈ window lim l, env ∈ rows := fun env he => hl.subset (mem_window he)
  obtain ⟨out, hout⟩ := specRows_isSome sem items (window lim l) (by
    intro env he
    have : specRow sem items env = some (items.map fun it => (value sem env it.e).getD none) := by
      apply mapM_some
      intro it hit
      obtain ⟨v, hv⟩ := Option.isSome_iff_exists.1 ((hG env (hmem env he)).val it (List.mem_append_right _ hit))
      rw [hv]; rfl
    rw [this]; rfl)
  refine ⟨out, ?_, l, hl, hl0, hks, hout⟩
  have hRi : ReservedFree items := fun it hit => hR it (List.mem_append_right _ hit)
  have hHi : ∀ env ∈ rows, Holds sem env (g env) items := fun env he =>
    holds_mono (hg env he).2.1 (fun x hx => List.mem_append_right _ hx)
  rw [wasmQuery, hos]
  dsimp only
  rw [wasmTail, hplan, mapM_some rows _ g (fun env he => (hg env he).1)]
  dsimp only
  rw [hsort]
  dsimp only
  rw [limitRows_eq wasmLimit (fun n off b h => wasmLimit_eq n off h b) lim h0 hb, window_map]
  by_cases hp : post items os lim nested = true
  · rw [if_pos hp]
    let g2 : Env α → Env α := fun env => (wasmProject sem (g env) (items.map adapt) []).getD []
    have hg2 : ∀ env ∈ window lim l, wasmProject sem (g env) (items.map adapt) [] = some (g2 env) ∧
        Holds sem env (g2 env) items := by
      intro env he
      have hr' := hmem env he
      obtain ⟨env2, h1, h2, _, h4⟩ := migrate_ok sem (g env) (items.map adapt) [] (by
        intro it hit hne
        obtain ⟨it', hit', rfl⟩ := List.mem_map.1 hit
        rw [projId_adapt] at hne ⊢
        exact (hg env hr').2.2 it' (List.mem_append_right _ hit') hne)
        (by intro id hh; simp [Env.has] at hh)
      have : g2 env = env2 := by simp only [g2, h1]; rfl
      rw [this]
      exact ⟨h1, holds_post sem items env (g env) env2 hRi (hHi env hr') h2 h4⟩
    rw [mapM_map, mapM_some (window lim l) _ g2 (fun env he => (hg2 env he).1)]
    dsimp only
    rw [mapM_map, ← hout, specRows]
    exact mapM_congr' _ _ _ fun env he => wasmDeliver_eq sem items env (g2 env) (hg2 env he).2
  · rw [if_neg hp]
    dsimp only
    rw [mapM_map, ← hout, specRows]
    exact mapM_congr' _ _ _ fun env he => wasmDeliver_eq sem items env (g env) (hHi env (hmem env he))

/-! ## The interpreter -/

theorem column_named (f : Item α → Option α) (items : List (Item α)) (hn : (items.map projId).Nodup) {it : Item α}
    (hit : it ∈ items) : column (named items (items.map f)) (projId it) = some (f it) := by
  induction items with
  | nil => simp at hit
  | cons x r ih =>
    rw [List.map_cons, List.nodup_cons] at hn
    simp only [named, List.map_cons, List.zip_cons_cons, column, List.find?_cons]
    rcases List.mem_cons.1 hit with rfl | hit
    · simp
    · have hne : projId x ≠ projId it := by
        intro hh
        exact hn.1 (by rw [hh]; exact List.mem_map.2 ⟨it, hit, rfl⟩)
      rw [decide_eq_false hne]
      exact ih hn.2 hit

theorem named_names (items : List (Item α)) (f : Item α → Option α) :
    (named items (items.map f)).map (·.1) = items.map projId := by
  rw [named]
  apply List.map_fst_zip
  simp

theorem interp_ok (sem : Sem α) (srt : Sorter α) (le : List Bool → List (Option α) → List (Option α) → Prop)
    (hs : Sorts srt le) (low : Option String → String → Option Ident) (items : List (Item α))
    (orders : List (Ex α × Bool)) (lim : Option (Nat × Nat)) (nested : Bool) (cols : List Ident) (rows : List (Env α))
    (hr : ∀ o ∈ orders, Resolvable items low o.1) (hc : ∀ o ∈ orders, NoCall o.1)
    (h0 : lim ≠ some (0, 0)) (hb : ∀ n off, lim = some (n, off) → off + n < 2 ^ 64)
    (hcols : cols.Nodup) (hnames : ((hidden items low orders ++ items).map projId).Nodup)
    (hcf : ConstFree items (cols ++ (hidden items low orders ++ items).map projId))
    (htext : ∀ o ∈ orders, TextOk (hidden items low orders ++ items) items low cols o.1)
    (hG : ∀ env ∈ rows, GoodRow sem (hidden items low orders ++ items) cols env) :
    ∃ out, interpQuery sem srt low items orders lim nested rows = some out ∧
      IsResult sem le items low orders lim rows out := by
  obtain ⟨os, hos, hadd, hfl, hex, hval⟩ := resolveAll_ok items low orders hr hc
  have hplan : planItems items os = hidden items low orders ++ items := by rw [planItems, hadd]
  generalize hP : hidden items low orders ++ items = P at *
  have hmemP : ∀ it ∈ items, it ∈ P := fun it hit => by rw [← hP]; exact List.mem_append_right _ hit
  let val : Env α → Item α → Option α := fun env it => (value sem env it.e).getD none
  let g : Env α → List (Option α) := fun env => P.map (val env)
  have hcP : ∀ it ∈ P, ∀ t v, it.e = .const t v → (⟨none, t⟩ : Ident) ∉ cols := by
    intro it hit t v he
    rw [← hP] at hit
    rcases List.mem_append.1 hit with h | h
    · obtain ⟨x, hx, rfl⟩ := List.mem_map.1 h
      obtain ⟨o, ho, hxo⟩ := List.mem_flatMap.1 (List.mem_filter.1 hx).1
      have := orderCols_name items low o.1 x hxo
      simp only at he
      rw [he] at this
      exact this.elim
    · exact fun hh => hcf it h t v he (List.mem_append_left _ hh)
  have hproj : ∀ env ∈ rows, interpProject sem P env = some (g env) := fun env he =>
    interpProject_eq sem P cols env hcols hcP (hG env he)
  have hsome : ∀ env ∈ rows, ∀ it ∈ P, value sem env it.e = some (val env it) := by
    intro env he it hit
    obtain ⟨v, hv⟩ := Option.isSome_iff_exists.1 ((hG env he).val it hit)
    simp only [val, hv]; rfl
  have hcol : ∀ env ∈ rows, ∀ it ∈ P, column (named P (g env)) (projId it) = value sem env it.e := by
    intro env he it hit
    rw [hsome env he it hit]
    exact column_named (val env) P hnames hit
  have hnd : ∀ env : Env α, ((named P (g env)).map (·.1)).Nodup := by
    intro env
    rw [named_names]; exact hnames
  obtain ⟨l, hl, hl0, hks, hsort⟩ := sort_ok sem srt le hs items low orders os hfl rows g
    (fun row => interpKeys sem os (named P row))
    (by
      intro env he
      rw [interpKeys]
      refine orderKeys_eq sem items low orders os (fun e => emitI sem (named P (g env)) e) env hex ?_
      intro o ho
      have hcomp := hval sem env (named P (g env)) (fun it hit _ => hcol env he it hit) o ho
      rw [emitI, lookI_eq _ _ (hnd env)]
      cases hcc : column (named P (g env)) (exprId (full items low o.1)) with
      | none =>
        dsimp only [Look.ofOption]
        rw [evalB_eq sem _ (hnd env), hcomp]
      | some v =>
        dsimp only [Look.ofOption]
        have hin : exprId (full items low o.1) ∈ P.map projId := by
          rw [← named_names P (val env), ← column_isSome]
          exact Option.isSome_iff_exists.2 ⟨v, hcc⟩
        obtain ⟨it, hit, hid⟩ := List.mem_map.1 hin
        rcases htext o ho it hit hid with hn | ⟨h1, h2, h3⟩
        · rw [← hcomp, compute_name sem _ hn, hcc]
        · rw [← hcc, ← hid, hcol env he it hit, ← full_noalias sem items low env o.1 (hr o ho) h3, ← h1]
          have hnone : column env (exprId it.e) = none := by
            rw [← Option.not_isSome_iff_eq_none, column_isSome, (hG env he).cols]
            exact h2
          by_cases hk : ∃ t v, it.e = .const t v
          · obtain ⟨t, v, hk⟩ := hk
            rw [hk]; rfl
          · rw [value_of_not_const sem env (fun t v hh => hk ⟨t, v, hh⟩), hnone])
    (fun env he => orderKeys_isSome sem items low orders env hr (by rw [hP]; exact (hG env he).val))
  have hmem : ∀ env ∈ window lim l, env ∈ rows := fun env he => hl.subset (mem_window he)
  have hspec : ∀ env ∈ window lim l, specRow sem items env = some (items.map (val env)) := by
    intro env he
    apply mapM_some
    intro it hit
    exact hsome env (hmem env he) it (hmemP it hit)
  refine ⟨(window lim l).map fun env => items.map (val env), ?_, l, hl, hl0, hks, mapM_some _ _ _ hspec⟩
  rw [interpQuery, hos]
  dsimp only
  rw [interpTail, hplan, mapM_some rows _ g hproj]
  dsimp only
  rw [hsort]
  dsimp only
  rw [limitRows_eq interpLimit (fun n off b h => interpLimit_eq n off h b) lim h0 hb, window_map]
  by_cases hp : post items os lim nested = true
  · rw [if_pos hp, mapM_map]
    apply mapM_some
    intro env he
    have hr' := hmem env he
    rw [interpProject, mapM_map]
    apply mapM_some
    intro it hit
    have hem : emitI sem (named P (g env)) (adapt it).e = value sem env it.e := by
      rw [emitI, lookI_eq _ _ (hnd env)]
      have hci := hcol env hr' it (hmemP it hit)
      have hsi := hsome env hr' it (hmemP it hit)
      obtain ⟨e, s, ty⟩ := it
      cases s with
      | some s =>
        have : exprId (adapt (⟨e, some s, ty⟩ : Item α)).e = projId (⟨e, some s, ty⟩ : Item α) := rfl
        rw [this, hci, hsi]; rfl
      | none =>
        by_cases hk : ∃ t v, e = .const t v
        · obtain ⟨t, v, rfl⟩ := hk
          have hnone : column (named P (g env)) (exprId (adapt (⟨.const t v, none, ty⟩ : Item α)).e) = none := by
            rw [← Option.not_isSome_iff_eq_none, column_isSome, named_names]
            exact fun hh => hcf _ hit t v rfl (List.mem_append_right _ hh)
          rw [hnone]; rfl
        · have : exprId (adapt (⟨e, none, ty⟩ : Item α)).e = projId (⟨e, none, ty⟩ : Item α) := by
            cases e <;> first | rfl | exact absurd ⟨_, _, rfl⟩ hk
          rw [this, hci, hsi]; rfl
    have hty : (adapt it).ty = it.ty := by
      obtain ⟨e, s, ty⟩ := it
      cases s <;> rfl
    rw [hem, hty, hsome env hr' it (hmemP it hit), Option.map_some]
    cases ht : it.ty with
    | prim n => rfl
    | null =>
      have := (hG env hr').null it (hmemP it hit) ht
      rw [hsome env hr' it (hmemP it hit)] at this
      rw [Option.some.inj this]
  · rw [if_neg hp]
    have hnil : hidden items low orders = [] := by
      rw [← hadd]
      simp only [post, Bool.or_eq_true, not_or, Bool.not_eq_true, Bool.not_eq_false'] at hp
      exact List.isEmpty_iff.1 hp.1
    have : P = items := by rw [← hP, hnil]; rfl
    simp only [g, this]

end Mutable.Tail
