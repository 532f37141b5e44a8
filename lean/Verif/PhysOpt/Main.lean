import Verif.PhysOpt.Matcher
import Mathlib.Data.List.Forall2

namespace Mutable.PhysOpt

variable {L K C : Type}

/-- the entries `es` of the operator `op` are coverings, and for every covering there is one at least as cheap with
the same condition -/
structure Good (S : Sig L K C) (ops : List (PhysOp L K C)) (op : IOp L) (es : List (Entry L K C)) : Prop where
  sound : ∀ e ∈ es, Cov S ops op e.cond e.cost e.mtch
  complete : ∀ k c m, Cov S ops op k c m → ∃ e ∈ es, e.cond = k ∧ S.lt c e.cost = false
  nodup : (es.map (·.cond)).Nodup

theorem Fits_head {isProd : L → Bool} {pat d op ns ss} (h : Fits isProd pat d op ns ss) : ns.take 1 = [op] := by
  cases h <;> simp

theorem Cov_root {S : Sig L K C} {ops op k c m} (h : Cov S ops op k c m) : m.nodes.take 1 = [op] := by
  cases h with
  | mk h1 h2 => exact Fits_head h2

theorem Fits_kids {isProd : L → Bool} {D : IOp L → Prop} (hD : ∀ o, D o → ∀ c ∈ o.children, D c)
    {pat d op ns ss} (h : Fits isProd pat d op ns ss) :
    (pat = .wild → D op) → (∀ c ∈ op.children, D c) → ∀ c ∈ kidsOf ss, D c := by
  induction h with
  | wild h => intro hw _ c hc; simp [kidsOf] at hc; subst hc; exact hw rfl
  | cons h =>
    intro _ hch c hc
    simp [kidsOf] at hc
    exact hch c hc
  | leaf h => intro _ _ c hc; simp [kidsOf] at hc
  | one h he hf ih =>
    intro _ hch c hc
    have ha := hch _ (by rw [he]; exact List.mem_cons_self)
    exact ih (fun _ => ha) (hD _ ha) c hc
  | @two is c0 c1 d op a b ns0 ns1 ss0 ss1 h he hf0 hf1 ih0 ih1 =>
    intro _ hch c hc
    have ha := hch a (by rcases he with he | he <;> rw [he] <;> simp)
    have hb := hch b (by rcases he with he | he <;> rw [he] <;> simp)
    have : kidsOf (ss0 ++ ss1) = kidsOf ss0 ++ kidsOf ss1 := by simp [kidsOf]
    rw [this, List.mem_append] at hc
    rcases hc with hc | hc
    · exact ih0 (fun _ => ha) (hD _ ha) c hc
    · exact ih1 (fun _ => hb) (hD _ hb) c hc

/-- the children of a match that are filled with entries -/
def mkKids (ops : List (IOp L)) (es : List (Entry L K C)) : List (Kid L K C) :=
  List.zipWith (fun o e => ⟨o, e.cond, e.cost, e.mtch⟩) ops es

section
variable {ops : List (IOp L)} {es : List (Entry L K C)} (h : es.length = ops.length)
include h

theorem mkKids_op : (mkKids ops es).map (·.op) = ops := by
  unfold mkKids
  rw [List.map_zipWith]
  induction ops generalizing es with
  | nil => simp
  | cons o ops ih =>
    cases es with
    | nil => simp at h
    | cons e es => simp only [List.zipWith_cons_cons]; rw [ih (by simpa using h)]

theorem mkKids_cond : (mkKids ops es).map (·.cond) = es.map (·.cond) := by
  unfold mkKids
  rw [List.map_zipWith]
  induction es generalizing ops with
  | nil => simp
  | cons o es ih =>
    cases ops with
    | nil => simp at h
    | cons e ops => simp only [List.zipWith_cons_cons, List.map_cons]; rw [ih (by simpa using h)]

theorem mkKids_cost : (mkKids ops es).map (·.cost) = es.map (·.cost) := by
  unfold mkKids
  rw [List.map_zipWith]
  induction es generalizing ops with
  | nil => simp
  | cons o es ih =>
    cases ops with
    | nil => simp at h
    | cons e ops => simp only [List.zipWith_cons_cons, List.map_cons]; rw [ih (by simpa using h)]

theorem mkKids_mtch : (mkKids ops es).map (·.mtch) = es.map (·.mtch) := by
  unfold mkKids
  rw [List.map_zipWith]
  induction es generalizing ops with
  | nil => simp
  | cons o es ih =>
    cases ops with
    | nil => simp at h
    | cons e ops => simp only [List.zipWith_cons_cons, List.map_cons]; rw [ih (by simpa using h)]
end

theorem Sat_cov {S : Sig L K C} {opsP T pre ok} : ∀ {ss : List (Slot L)} {i es}, Sat S T pre ok i ss es →
    (∀ c ∈ kidsOf ss, ∀ e ∈ T.getD c.id [], Cov S opsP c e.cond e.cost e.mtch) →
    ∀ x ∈ mkKids (kidsOf ss) es, Cov S opsP x.op x.cond x.cost x.mtch := by
  intro ss
  induction ss with
  | nil => intro i es h _ x hx; simp [mkKids, kidsOf] at hx
  | cons s ss ih =>
    intro i es h hc x hx
    rcases s with ⟨_ | c, d⟩
    · simp only [Sat] at h
      exact ih h.2 (fun c hc' => hc c (by simpa [kidsOf] using hc')) x (by simpa [kidsOf] using hx)
    · cases es with
      | nil => simp [Sat] at h
      | cons e es =>
        simp only [Sat] at h
        have hk : kidsOf (⟨some c, d⟩ :: ss) = c :: kidsOf ss := by simp [kidsOf]
        rw [hk] at hc hx
        simp only [mkKids, List.zipWith_cons_cons, List.mem_cons] at hx
        rcases hx with rfl | hx
        · exact hc c List.mem_cons_self e h.1
        · exact ih h.2.2 (fun c hc' => hc c (List.mem_cons_of_mem _ hc')) x hx

theorem rootsOf_kids {S : Sig L K C} {opsP} {ks : List (IOp L)} {es : List (Entry L K C)} (h : es.length = ks.length)
    (hc : ∀ x ∈ mkKids ks es, Cov S opsP x.op x.cond x.cost x.mtch) : rootsOf es = ks := by
  induction ks generalizing es with
  | nil =>
    have : es = [] := List.eq_nil_of_length_eq_zero (by simpa using h)
    subst this; rfl
  | cons k ks ih =>
    cases es with
    | nil => simp at h
    | cons e es =>
      have hd := hc ⟨k, e.cond, e.cost, e.mtch⟩ (by simp [mkKids])
      have := Cov_root hd
      simp only [rootsOf, List.flatMap_cons, Entry.root]
      simp only at this
      rw [this]
      have := ih (es := es) (by simpa using h) (fun x hx => hc x (by simp only [mkKids, List.zipWith_cons_cons]; exact List.mem_cons_of_mem _ hx))
      simp only [rootsOf] at this
      rw [this]; rfl

theorem PreOK_of_Sat {S : Sig L K C} {p : PhysOp L K C} {T N op ns ss}
    (hf : Fits S.isProd p.pat 0 op ns ss) (hr : ReadsMatched S.isProd p) (hN : N = ns.length) :
    ∀ (rest done : List (Slot L)) (es : List (Entry L K C)), ss = done ++ rest →
      Sat S T p.pre (Known N (ns.map some)) (kidsOf done).length rest es →
      PreOK S.implied S.emptyK (fun i => p.pre i (ns.map some)) (kidsOf done).length rest (es.map (·.cond)) := by
  intro rest
  induction rest with
  | nil => intro done es _ h; cases es <;> simp_all [Sat, PreOK]
  | cons s rest ih =>
    intro done es hss h
    have hget : ss[done.length]? = some s := by rw [hss]; simp
    have hki : kidIndex ss done.length = (kidsOf done).length := by
      unfold kidIndex; rw [hss]; simp
    have key : ∀ t, Known N (ns.map some) s.depth t →
        p.pre (kidsOf done).length t = p.pre (kidsOf done).length (ns.map some) := by
      intro t ht
      have := hr op ns ss hf done.length s hget t (by rw [ht.1, hN]) (by rw [ht.2, List.map_take])
      rw [hki] at this
      exact this
    rcases s with ⟨_ | c, d⟩
    · simp only [Sat] at h
      obtain ⟨⟨t, ht, hi⟩, h2⟩ := h
      simp only [PreOK]
      refine ⟨by rw [← key t ht]; exact hi, ?_⟩
      have := ih (done ++ [⟨none, d⟩]) es (by simp [hss]) (by simpa [kidsOf] using h2)
      simpa [kidsOf] using this
    · cases es with
      | nil => simp [Sat] at h
      | cons e es =>
        simp only [Sat] at h
        obtain ⟨_, ⟨t, ht, hi⟩, h2⟩ := h
        simp only [List.map_cons, PreOK]
        refine ⟨by rw [← key t ht]; exact hi, ?_⟩
        have := ih (done ++ [⟨some c, d⟩]) es (by simp [hss]) (by simpa [kidsOf] using h2)
        simpa [kidsOf] using this

/-- every covered child is replaced by the entry of the table that is at least as good -/
theorem SatA_of_PreOK {S : Sig L K C} {p : PhysOp L K C} {T : Table L K C} {N op ns ss}
    (hf : Fits S.isProd p.pat 0 op ns ss) (hr : ReadsMatched S.isProd p) (hN : N = ns.length) :
    ∀ (rest done : List (Slot L)) (kids : List (Kid L K C)), ss = done ++ rest → kids.map (·.op) = kidsOf rest →
      PreOK S.implied S.emptyK (fun i => p.pre i (ns.map some)) (kidsOf done).length rest (kids.map (·.cond)) →
      (∀ x ∈ kids, ∃ e ∈ T.getD x.op.id [], e.cond = x.cond ∧ S.lt x.cost e.cost = false) →
      ∃ es : List (Entry L K C), SatA S T p.pre (Known N (ns.map some)) (kidsOf done).length rest es ∧
        es.map (·.cond) = kids.map (·.cond) ∧
        List.Forall₂ (fun (x : Kid L K C) (e : Entry L K C) => S.lt x.cost e.cost = false) kids es := by
  intro rest
  induction rest with
  | nil =>
    intro done kids _ hk _ _
    have : kids = [] := by simpa [kidsOf] using hk
    subst this
    exact ⟨[], by simp [SatA], rfl, .nil⟩
  | cons s rest ih =>
    intro done kids hss hk h hx
    have hget : ss[done.length]? = some s := by rw [hss]; simp
    have hki : kidIndex ss done.length = (kidsOf done).length := by
      unfold kidIndex; rw [hss]; simp
    have key : ∀ t, Known N (ns.map some) s.depth t →
        p.pre (kidsOf done).length t = p.pre (kidsOf done).length (ns.map some) := by
      intro t ht
      have := hr op ns ss hf done.length s hget t (by rw [ht.1, hN]) (by rw [ht.2, List.map_take])
      rw [hki] at this
      exact this
    rcases s with ⟨_ | c, d⟩
    · have h' : S.implied (p.pre (kidsOf done).length (ns.map some)) S.emptyK = true ∧
          PreOK S.implied S.emptyK (fun i => p.pre i (ns.map some)) (kidsOf done).length rest (kids.map (·.cond)) := by
        simpa only [PreOK] using h
      obtain ⟨es, h1, h2, h3⟩ := ih (done ++ [⟨none, d⟩]) kids (by simp [hss]) (by simpa [kidsOf] using hk)
        (by simpa [kidsOf] using h'.2) hx
      refine ⟨es, ?_, h2, h3⟩
      simp only [SatA]
      exact ⟨fun t ht => by rw [key t ht]; exact h'.1, by simpa [kidsOf] using h1⟩
    · cases kids with
      | nil => simp [kidsOf] at hk
      | cons x kids =>
        have hk' : x.op = c ∧ kids.map (·.op) = kidsOf rest := by simpa [kidsOf] using hk
        simp only [List.map_cons, PreOK] at h
        obtain ⟨e, he, hcond, hcost⟩ := hx x List.mem_cons_self
        obtain ⟨es, h1, h2, h3⟩ := ih (done ++ [⟨some c, d⟩]) kids (by simp [hss]) hk'.2
          (by simpa [kidsOf] using h.2) (fun y hy => hx y (List.mem_cons_of_mem _ hy))
        refine ⟨e :: es, ?_, by simp [hcond, h2], .cons hcost h3⟩
        simp only [SatA]
        refine ⟨by rw [← hk'.1]; exact he, fun t ht => by rw [key t ht, hcond]; exact h.1, by simpa [kidsOf] using h1⟩

theorem SatA.toSat {S : Sig L K C} {T pre} {ok : Nat → List (Option (IOp L)) → Prop}
    : ∀ {ss : List (Slot L)} {i es}, (∀ s ∈ ss, ∃ t, ok s.depth t) →
    SatA S T pre ok i ss es → Sat S T pre ok i ss es := by
  intro ss
  induction ss with
  | nil => intro i es _ h; cases es <;> simp_all [Sat, SatA]
  | cons s ss ih =>
    intro i es hne h
    have hne' : ∀ s ∈ ss, ∃ t, ok s.depth t := fun s hs => hne s (List.mem_cons_of_mem _ hs)
    obtain ⟨t, ht⟩ := hne _ List.mem_cons_self
    rcases s with ⟨_ | c, d⟩
    · simp only [SatA] at h
      simp only [Sat]
      exact ⟨⟨t, ht, h.1 t ht⟩, ih hne' h.2⟩
    · cases es with
      | nil => simp [SatA] at h
      | cons e es =>
        simp only [SatA] at h
        simp only [Sat]
        exact ⟨h.1, ⟨t, ht, h.2.1 t ht⟩, ih hne' h.2.2⟩

theorem foldl_mono {S : Sig L K C} (hc : CostOK S) {kids : List (Kid L K C)} {es : List (Entry L K C)}
    (h : List.Forall₂ (fun (x : Kid L K C) (e : Entry L K C) => S.lt x.cost e.cost = false) kids es) :
    ∀ a b, S.lt a b = false →
      S.lt (kids.foldl (fun c x => S.add c x.cost) a) (es.foldl (fun c e => S.add c e.cost) b) = false := by
  induction h with
  | nil => intro a b h; exact h
  | cons h0 _ ih =>
    intro a b h
    exact ih _ _ (hc.mono _ _ _ _ h h0)

/-! ## Insertion into the table -/

section
variable [DecidableEq K]

theorem mem_insertEntry {S : Sig L K C} {e x : Entry L K C} : ∀ {es}, x ∈ insertEntry S e es → x = e ∨ x ∈ es := by
  intro es
  induction es with
  | nil => intro h; simp [insertEntry] at h; exact .inl h
  | cons y es ih =>
    intro h
    simp only [insertEntry] at h
    split at h
    · split at h
      · rcases List.mem_cons.mp h with h | h
        · exact .inl h
        · exact .inr (List.mem_cons_of_mem _ h)
      · exact .inr h
    · rcases List.mem_cons.mp h with h | h
      · exact .inr (by rw [h]; exact List.mem_cons_self)
      · rcases ih h with h | h
        · exact .inl h
        · exact .inr (List.mem_cons_of_mem _ h)

/-- there is an entry with condition `k` that costs at most `c` -/
def HasAtMost (S : Sig L K C) (k : K) (c : C) (es : List (Entry L K C)) : Prop :=
  ∃ e ∈ es, e.cond = k ∧ S.lt c e.cost = false

theorem insertEntry_keeps {S : Sig L K C} (hc : CostOK S) {e : Entry L K C} {k c} :
    ∀ {es}, HasAtMost S k c es → HasAtMost S k c (insertEntry S e es) := by
  intro es
  induction es with
  | nil => rintro ⟨x, hx, _⟩; cases hx
  | cons y es ih =>
    rintro ⟨x, hx, hk, hlt⟩
    simp only [insertEntry]
    split
    · rename_i hy
      split
      · rename_i hl
        rcases List.mem_cons.mp hx with rfl | hx
        · refine ⟨e, List.mem_cons_self, by rw [← hy, hk], ?_⟩
          cases h : S.lt c e.cost with
          | false => rfl
          | true => rw [hc.trans _ _ _ h hl] at hlt; cases hlt
        · exact ⟨x, List.mem_cons_of_mem _ hx, hk, hlt⟩
      · exact ⟨x, hx, hk, hlt⟩
    · rcases List.mem_cons.mp hx with rfl | hx
      · exact ⟨x, List.mem_cons_self, hk, hlt⟩
      · obtain ⟨z, hz, h⟩ := ih ⟨x, hx, hk, hlt⟩
        exact ⟨z, List.mem_cons_of_mem _ hz, h⟩

theorem insertEntry_new {S : Sig L K C} (hc : CostOK S) (e : Entry L K C) :
    ∀ es, HasAtMost S e.cond e.cost (insertEntry S e es) := by
  intro es
  induction es with
  | nil => exact ⟨e, by simp [insertEntry], rfl, hc.irrefl _⟩
  | cons y es ih =>
    simp only [insertEntry]
    split
    · rename_i hy
      split
      · exact ⟨e, List.mem_cons_self, rfl, hc.irrefl _⟩
      · rename_i hl
        exact ⟨y, List.mem_cons_self, hy, by simpa using hl⟩
    · obtain ⟨z, hz, h⟩ := ih
      exact ⟨z, List.mem_cons_of_mem _ hz, h⟩

theorem insertEntry_conds {S : Sig L K C} {e : Entry L K C} : ∀ {es : List (Entry L K C)} {k},
    k ∈ (insertEntry S e es).map (·.cond) → k = e.cond ∨ k ∈ es.map (·.cond) := by
  intro es k h
  obtain ⟨x, hx, rfl⟩ := List.mem_map.mp h
  rcases mem_insertEntry hx with rfl | hx
  · exact .inl rfl
  · exact .inr (List.mem_map.mpr ⟨x, hx, rfl⟩)

theorem insertEntry_nodup {S : Sig L K C} {e : Entry L K C} : ∀ {es : List (Entry L K C)},
    (es.map (·.cond)).Nodup → ((insertEntry S e es).map (·.cond)).Nodup := by
  intro es
  induction es with
  | nil => intro _; simp [insertEntry]
  | cons y es ih =>
    intro h
    simp only [List.map_cons, List.nodup_cons] at h
    simp only [insertEntry]
    split
    · rename_i hy
      split
      · simp only [List.map_cons, List.nodup_cons]
        rw [← hy]
        exact h
      · simpa using h
    · rename_i hy
      simp only [List.map_cons, List.nodup_cons]
      refine ⟨fun hm => ?_, ih h.2⟩
      rcases insertEntry_conds hm with hm | hm
      · exact hy hm
      · exact h.1 hm

/-! ## One physical operator -/

theorem postCond_eq (S : Sig L K C) (p : PhysOp L K C) (ns : List (IOp L)) (es : List (Entry L K C)) :
    postCond S p ns es = resultCond S p ns (rootsOf es) (es.map (·.cond)) := by
  unfold postCond resultCond
  by_cases h : p.post ns (rootsOf es) = S.emptyK
  · simp only [h, if_true, ne_eq, not_true_eq_false, if_false]
    match es with
    | [] => simp
    | [c] => simp
    | a :: b :: cs => simp
  · simp [h]

theorem filterMap_map_some (ns : List (IOp L)) : (ns.map some).filterMap (fun o => o) = ns := by
  induction ns with
  | nil => rfl
  | cons n ns ih => rw [List.map_cons, List.filterMap_cons_some (by rfl), ih]

/-- the situation in which a matcher is called: the entries of all operators below `op0` are good -/
structure Ctx (S : Sig L K C) (ops : List (PhysOp L K C)) (T : Table L K C) (op0 : IOp L) : Prop where
  good : ∀ c ∈ subopsList op0.children, Good S ops c (T.getD c.id [])
  below : ∀ c ∈ subopsList op0.children, c.id ≠ op0.id
  len : op0.id < T.length

abbrev Dsc (op0 : IOp L) : IOp L → Prop := fun c => c ∈ subopsList op0.children

theorem Dsc_closed (op0 : IOp L) : ∀ o, Dsc op0 o → ∀ c ∈ o.children, Dsc op0 c := by
  intro o ho c hc
  refine subopsList_trans _ o ho c ?_
  cases o with
  | node i l cs =>
    simp only [subops, List.mem_cons]
    exact .inr (mem_subopsList_of_mem hc (mem_subops_self c))

theorem Dsc_children (op0 : IOp L) : ∀ c ∈ op0.children, Dsc op0 c :=
  fun c hc => mem_subopsList_of_mem hc (mem_subops_self c)

theorem finish_KOK {S : Sig L K C} {oi p T N op0 b} (hb : ∀ c, Dsc op0 c → c.id ≠ op0.id) :
    KOK (Dsc op0) T N op0 b (finish S oi p) := by
  intro pfx hh hl cl st hi
  refine ⟨hi.len, ?_, hi.pre⟩
  have : ∃ ns, st.nodes.filterMap (fun o => o) = op0 :: ns := by
    cases pfx with
    | nil => simp at hh
    | cons a pfx =>
      simp only [List.head?_cons, Option.some.injEq] at hh
      subst hh
      have h := hi.pre
      cases hn : st.nodes with
      | nil => rw [hn] at h; simp at h
      | cons x xs =>
        rw [hn] at h
        simp only [List.length_cons, List.take_succ_cons, List.cons.injEq] at h
        rw [h.1]
        exact ⟨xs.filterMap (fun o => o), by simp⟩
  obtain ⟨ns, hns⟩ := this
  unfold finish
  simp only [hns]
  have hf := foldHandle_frame S oi p op0 ns cl st.table
  refine ⟨hf.1.trans hi.look.1, fun c hc => ?_⟩
  rw [hf.2 c.id (hb c hc)]
  exact hi.look.2 c hc

theorem start_zero {S : Sig L K C} {ops T op0} (hx : Ctx S ops T op0) {t : Table L K C} (ht : Look (Dsc op0) T t)
    (n : Nat) : Start (Dsc op0) T n op0 0 n op0 { nodes := List.replicate n none, table := t } := by
  exact ⟨by simp, by omega, ht, by simp⟩

theorem nodes_of_inv {D : IOp L → Prop} {T : Table L K C} {N ns} {st : St L K C} (hN : ns.length = N)
    (h : Inv D T N ((List.replicate N none).take 0 ++ ns.map some) st) : st.nodes.filterMap (fun o => o) = ns := by
  have h1 := h.pre
  simp only [List.take_zero, List.nil_append, List.length_map] at h1
  rw [List.take_of_length_le (by rw [h.len, hN]; exact Nat.le_refl _)] at h1
  rw [h1, filterMap_map_some]


/-- what a matcher keeps: the entries of all other operators, and soundness of the entries of `op0` -/
structure Keeps (S : Sig L K C) (ops : List (PhysOp L K C)) (op0 : IOp L) (T t : Table L K C) : Prop where
  len : t.length = T.length
  other : ∀ j, j ≠ op0.id → t.getD j [] = T.getD j []
  sound : ∀ e ∈ t.getD op0.id [], Cov S ops op0 e.cond e.cost e.mtch
  nodup : ((t.getD op0.id []).map (·.cond)).Nodup

theorem Keeps.look {S : Sig L K C} {ops op0} {T t : Table L K C} (h : Keeps S ops op0 T t)
    (hb : ∀ c ∈ subopsList op0.children, c.id ≠ op0.id) : Look (Dsc op0) T t :=
  ⟨h.len, fun c hc => h.other c.id (hb c hc)⟩

theorem handleMatch_keeps {S : Sig L K C} {ops op0 oi p ns es} {T t : Table L K C} (h : Keeps S ops op0 T t)
    (hcov : Cov S ops op0 (postCond S p (op0 :: ns) es)
      (es.foldl (fun c ch => S.add c ch.cost) (p.cost (op0 :: ns) (rootsOf es)))
      (.mk oi (op0 :: ns) (es.map (·.mtch)) (es.foldl (fun c ch => S.add c ch.cost) (p.cost (op0 :: ns) (rootsOf es))))) :
    Keeps S ops op0 T (handleMatch S oi p (op0 :: ns) es t) := by
  unfold handleMatch
  simp only
  refine ⟨by simpa using h.len, fun j hj => ?_, ?_, ?_⟩
  · rw [getD_modify, if_neg (fun h => hj h.1.symm)]
    exact h.other j hj
  · intro e he
    rw [getD_modify] at he
    split at he
    · rcases mem_insertEntry he with rfl | he
      · exact hcov
      · exact h.sound e he
    · exact h.sound e he
  · rw [getD_modify]
    split
    · exact insertEntry_nodup h.nodup
    · exact h.nodup

theorem cov_of_fits {S : Sig L K C} {ops T op0} (hx : Ctx S ops T op0) {oi p} (hp : ops[oi]? = some p)
    (hw : p.pat ≠ .wild) (hr : ReadsMatched S.isProd p) {ns ss es}
    (hf : Fits S.isProd p.pat 0 op0 ns ss) (hs : Sat S T p.pre (Known p.pat.size (ns.map some)) 0 ss es) :
    Cov S ops op0 (postCond S p ns es) (es.foldl (fun c ch => S.add c ch.cost) (p.cost ns (rootsOf es)))
      (.mk oi ns (es.map (·.mtch)) (es.foldl (fun c ch => S.add c ch.cost) (p.cost ns (rootsOf es)))) := by
  have hlen := Sat_length hs
  have hN := (Fits_depth hf).1
  have hkids := Fits_kids (Dsc_closed op0) hf (fun h => absurd h hw) (Dsc_children op0)
  have hcov := Sat_cov (opsP := ops) hs (fun c hc e he => (hx.good c (hkids c hc)).sound e he)
  have hroots := rootsOf_kids hlen hcov
  have hpre := PreOK_of_Sat hf hr hN.symm ss [] es rfl (by simpa [kidsOf] using hs)
  have h := Cov.mk (S := S) (ops := ops) (kids := mkKids (kidsOf ss) es) hp hf (mkKids_op hlen) hcov
    (by rw [mkKids_cond hlen]; simpa [kidsOf] using hpre) rfl rfl
  rw [mkKids_cond hlen, mkKids_op hlen, mkKids_cost hlen, mkKids_mtch hlen] at h
  rw [postCond_eq, hroots]
  simpa [totalCost, List.foldl_map] using h

theorem finish_keeps {S : Sig L K C} {ops T op0} (hx : Ctx S ops T op0) {oi p} (hp : ops[oi]? = some p)
    (hw : p.pat ≠ .wild) (hr : ReadsMatched S.isProd p) {ns ss} (hf : Fits S.isProd p.pat 0 op0 ns ss)
    {cl : List (List (Entry L K C))}
    (hcl : ∀ es ∈ cl, Sat S T p.pre (Known p.pat.size (ns.map some)) 0 ss es) :
    ∀ t : Table L K C, Keeps S ops op0 T t →
      Keeps S ops op0 T (cl.foldl (fun t cs => handleMatch S oi p ns cs t) t) := by
  induction cl with
  | nil => intro t h; exact h
  | cons es cl ih =>
    intro t h
    simp only [List.foldl_cons]
    refine ih (fun es hes => hcl es (List.mem_cons_of_mem _ hes)) _ ?_
    have hc := cov_of_fits hx hp hw hr hf (hcl es List.mem_cons_self)
    have hh := Fits_head hf
    cases ns with
    | nil => simp at hh
    | cons n ns =>
      simp at hh
      subst hh
      exact handleMatch_keeps h hc

theorem ext_sat {S : Sig L K C} {T : Table L K C} {p : PhysOp L K C} {N : Nat} {ns : List (IOp L)} {ss : List (Slot L)}
    {cl' : List (List (Entry L K C))}
    (he : Ext S T p.pre (Known N ((List.replicate N none).take 0 ++ ns.map some)) 0 ss [[]] cl') :
    ∀ es ∈ cl', Sat S T p.pre (Known N (ns.map some)) 0 ss es := by
  intro es hes
  obtain ⟨cs, hcs, es', rfl, hs⟩ := he.2 es hes
  simp only [List.mem_singleton] at hcs
  subst hcs
  simpa using hs

theorem matchOp_keeps {S : Sig L K C} {ops T op0} (hx : Ctx S ops T op0) {oi p} (hp : ops[oi]? = some p)
    (hw : p.pat ≠ .wild) (hr : ReadsMatched S.isProd p) {t : Table L K C} (h : Keeps S ops op0 T t) :
    Keeps S ops op0 T (matchOp S oi p op0 t) := by
  unfold matchOp
  refine matchP_sound S p (D := Dsc op0) (T := T) (N := p.pat.size) (op0 := op0) (Dsc_closed op0)
    (Keeps S ops op0 T) p.pat 0 [[]] op0 (finish S oi p) _ 0
    (start_zero hx (h.look hx.below) _) (finish_KOK hx.below) ⟨by simp, by simp⟩ (fun e => absurd e hw)
    (Dsc_children op0) h ?_
  intro ns ss cl' st' hf he hi hk
  unfold finish
  simp only
  rw [nodes_of_inv (Fits_depth hf).1 hi]
  exact finish_keeps hx hp hw hr hf (ext_sat he) _ hk

theorem handleMatch_atMost {S : Sig L K C} (hc : CostOK S) {oi p ns es} {j k c} {t : Table L K C}
    (h : HasAtMost S k c (t.getD j [])) : HasAtMost S k c ((handleMatch S oi p ns es t).getD j []) := by
  unfold handleMatch
  cases ns with
  | nil => exact h
  | cons n ns =>
    simp only
    rw [getD_modify]
    split
    · exact insertEntry_keeps hc h
    · exact h

theorem foldHandle_atMost {S : Sig L K C} (hc : CostOK S) {oi p ns j k c} {cl : List (List (Entry L K C))} :
    ∀ {t : Table L K C}, HasAtMost S k c (t.getD j []) →
      HasAtMost S k c ((cl.foldl (fun t cs => handleMatch S oi p ns cs t) t).getD j []) := by
  induction cl with
  | nil => intro t h; exact h
  | cons es cl ih => intro t h; exact ih (handleMatch_atMost hc h)

theorem finish_atMost {S : Sig L K C} (hc : CostOK S) {oi p j k c} (cl : List (List (Entry L K C))) (st : St L K C)
    (h : HasAtMost S k c (st.table.getD j [])) : HasAtMost S k c ((finish S oi p cl st).table.getD j []) := by
  unfold finish
  exact foldHandle_atMost hc h

theorem matchOp_atMost {S : Sig L K C} (hc : CostOK S) {oi p j k c} {op0 : IOp L} {t : Table L K C}
    (h : HasAtMost S k c (t.getD j [])) : HasAtMost S k c ((matchOp S oi p op0 t).getD j []) := by
  unfold matchOp
  exact matchP_pres S p (fun t => HasAtMost S k c (t.getD j [])) _ _ _ _ _ _ (finish_atMost hc) h

theorem atMost_trans {S : Sig L K C} (hc : CostOK S) {k c c' es} (h : S.lt c c' = false) :
    HasAtMost S k c' es → HasAtMost S k c es (L := L) := by
  rintro ⟨e, he, hk, hl⟩
  exact ⟨e, he, hk, hc.negtrans _ _ _ h hl⟩

theorem foldHandle_new {S : Sig L K C} (hc : CostOK S) {oi p op0 ns es} {cl : List (List (Entry L K C))} (hes : es ∈ cl) :
    ∀ {t : Table L K C}, op0.id < t.length →
      HasAtMost S (postCond S p (op0 :: ns) es)
        (es.foldl (fun c ch => S.add c ch.cost) (p.cost (op0 :: ns) (rootsOf es)))
        ((cl.foldl (fun t cs => handleMatch S oi p (op0 :: ns) cs t) t).getD op0.id []) := by
  induction cl with
  | nil => cases hes
  | cons x cl ih =>
    intro t ht
    simp only [List.foldl_cons]
    rcases List.mem_cons.mp hes with rfl | hes
    · refine foldHandle_atMost hc ?_
      unfold handleMatch
      simp only
      rw [getD_modify, if_pos ⟨rfl, ht⟩]
      exact insertEntry_new hc _ _
    · exact ih hes (by rw [handleMatch_length]; exact ht)

/-- every covering whose root is covered by the physical operator `p` is found -/
theorem matchOp_complete {S : Sig L K C} (hc : CostOK S) {ops T op0} (hx : Ctx S ops T op0) {oi p}
    (hp : ops[oi]? = some p) (hw : p.pat ≠ .wild) (hr : ReadsMatched S.isProd p) {t : Table L K C}
    (h : Keeps S ops op0 T t) {k c ns ms c'} (hcov : Cov S ops op0 k c (.mk oi ns ms c')) :
    HasAtMost S k c ((matchOp S oi p op0 t).getD op0.id []) := by
  generalize hm : Match.mk oi ns ms c' = m at hcov
  cases hcov with
  | @mk oi' p' _ ns' ss kids _ _ hp' hf hk hkc hpre hke hce =>
    injection hm with h1 h2 h3 h4
    subst h1
    rw [hp] at hp'
    injection hp' with hp'
    subst hp'
    have hN := (Fits_depth hf).1
    have hkids := Fits_kids (Dsc_closed op0) hf (fun h => absurd h hw) (Dsc_children op0)
    obtain ⟨es, hsat, hconds, hcosts⟩ := SatA_of_PreOK (T := T) hf hr hN.symm ss [] kids rfl hk
      (by simpa [kidsOf] using hpre)
      (fun x hxk => by
        have hD := hkids x.op (by rw [← hk]; exact List.mem_map.mpr ⟨x, hxk, rfl⟩)
        exact (hx.good x.op hD).complete _ _ _ (hkc x hxk))
    have hsat0 : SatA S T p.pre (Known p.pat.size (ns'.map some)) 0 ss es := by simpa [kidsOf] using hsat
    have hsatS : Sat S T p.pre (Known p.pat.size (ns'.map some)) 0 ss es := by
      refine SatA.toSat ?_ hsat0
      intro s hs
      exact ⟨ns'.map some, by simp [Known, hN]⟩
    have hlen := Sat_length hsatS
    have hroots := rootsOf_kids hlen (Sat_cov (opsP := ops) hsatS
      (fun c hc e he => (hx.good c (hkids c hc)).sound e he))
    have hcond : postCond S p ns' es = k := by
      rw [postCond_eq, hroots, hke, hk, hconds]
    have hcost : S.lt c (es.foldl (fun c ch => S.add c ch.cost) (p.cost ns' (rootsOf es))) = false := by
      rw [hce, hroots, hk]
      have := foldl_mono hc hcosts _ _ (hc.irrefl (p.cost ns' (kidsOf ss)))
      simpa [totalCost, List.foldl_map] using this
    unfold matchOp
    refine matchP_complete S p (D := Dsc op0) (T := T) (N := p.pat.size) (op0 := op0) (Dsc_closed op0)
      (fun t => HasAtMost S k c (t.getD op0.id [])) hf [[]] (finish S oi p) _ 0 [] es
      (start_zero hx (h.look hx.below) _) (finish_KOK hx.below) ⟨by simp, by simp⟩ (fun e => absurd e hw)
      (Dsc_children op0) (by simp) (by simpa using hsat0) (finish_atMost hc) ?_
    intro cl' st' hmem he hi
    unfold finish
    simp only
    rw [nodes_of_inv hN hi]
    have hh := Fits_head hf
    cases hns : ns' with
    | nil => rw [hns] at hh; simp at hh
    | cons n ns'' =>
      rw [hns] at hh
      simp at hh
      subst hh
      refine atMost_trans hc hcost ?_
      rw [← hcond, hns]
      refine foldHandle_new hc (by simpa using hmem) ?_
      rw [hi.look.1]
      exact hx.len

/-! ## All physical operators -/

/-- the contract of the registered physical operators -/
structure OpsOK (isProd : L → Bool) (ops : List (PhysOp L K C)) : Prop where
  nowild : ∀ p ∈ ops, p.pat ≠ .wild
  reads : ∀ p ∈ ops, ReadsMatched isProd p

theorem visitOne_keeps {S : Sig L K C} {ops T op0} (hx : Ctx S ops T op0) (ho : OpsOK S.isProd ops) :
    ∀ (rest done : List (PhysOp L K C)), ops = done ++ rest → ∀ t : Table L K C, Keeps S ops op0 T t →
      Keeps S ops op0 T (visitOne S op0 done.length rest t) := by
  intro rest
  induction rest with
  | nil => intro done _ t h; exact h
  | cons p rest ih =>
    intro done he t h
    simp only [visitOne]
    have := ih (done ++ [p]) (by simp [he]) (matchOp S done.length p op0 t)
      (matchOp_keeps hx (by rw [he]; simp) (ho.nowild p (by rw [he]; simp)) (ho.reads p (by rw [he]; simp)) h)
    simpa using this

theorem visitOne_atMost {S : Sig L K C} (hc : CostOK S) {j k c} {op0 : IOp L} : ∀ (rest : List (PhysOp L K C)) (i) (t : Table L K C),
    HasAtMost S k c (t.getD j []) → HasAtMost S k c ((visitOne S op0 i rest t).getD j []) := by
  intro rest
  induction rest with
  | nil => intro i t h; exact h
  | cons p rest ih => intro i t h; exact ih _ _ (matchOp_atMost hc h)

theorem visitOne_complete {S : Sig L K C} (hc : CostOK S) {ops T op0} (hx : Ctx S ops T op0) (ho : OpsOK S.isProd ops)
    {k c oi ns ms c'} (hcov : Cov S ops op0 k c (.mk oi ns ms c')) :
    ∀ (rest done : List (PhysOp L K C)), ops = done ++ rest → ∀ t : Table L K C, Keeps S ops op0 T t →
      done.length ≤ oi → HasAtMost S k c ((visitOne S op0 done.length rest t).getD op0.id []) := by
  intro rest
  induction rest with
  | nil =>
    intro done he t h hle
    exfalso
    generalize hm : Match.mk oi ns ms c' = m at hcov
    cases hcov with
    | mk hp =>
      injection hm with h1
      subst h1
      rw [he] at hp
      rw [List.append_nil, List.getElem?_eq_none hle] at hp
      cases hp
  | cons p rest ih =>
    intro done he t h hle
    simp only [visitOne]
    have hk := matchOp_keeps hx (oi := done.length) (p := p) (by rw [he]; simp) (ho.nowild p (by rw [he]; simp))
      (ho.reads p (by rw [he]; simp)) h
    by_cases hq : done.length = oi
    · subst hq
      refine visitOne_atMost hc _ _ _ ?_
      exact matchOp_complete hc hx (by rw [he]; simp) (ho.nowild p (by rw [he]; simp)) (ho.reads p (by rw [he]; simp))
        h hcov
    · have := ih (done ++ [p]) (by simp [he]) (matchOp S done.length p op0 t) hk (by simp; omega)
      simpa using this

theorem visitOne_good {S : Sig L K C} (hc : CostOK S) {ops T op0} (hx : Ctx S ops T op0) (ho : OpsOK S.isProd ops)
    (h0 : T.getD op0.id [] = []) :
    (visitOne S op0 0 ops T).length = T.length ∧
    (∀ j, j ≠ op0.id → (visitOne S op0 0 ops T).getD j [] = T.getD j []) ∧
    Good S ops op0 ((visitOne S op0 0 ops T).getD op0.id []) := by
  have hk0 : Keeps S ops op0 T T := ⟨rfl, fun _ _ => rfl, (by rw [h0]; intro e he; cases he), (by rw [h0]; simp)⟩
  have hk := visitOne_keeps hx ho ops [] rfl T hk0
  refine ⟨hk.len, hk.other, hk.sound, ?_, hk.nodup⟩
  intro k c m hm
  obtain ⟨oi, ns, ms, c'⟩ := m
  exact visitOne_complete hc hx ho hm ops [] rfl T hk0 (by simp)

mutual
theorem visit_good {S : Sig L K C} (hc : CostOK S) {ops} (ho : OpsOK S.isProd ops) :
    (p : IOp L) → ∀ {lo : Nat} {t : Table L K C}, WN lo p → p.id < t.length →
    (∀ j, lo ≤ j → j ≤ p.id → t.getD j [] = []) →
    (visit S ops p t).length = t.length ∧
    (∀ j, j < lo ∨ p.id < j → (visit S ops p t).getD j [] = t.getD j []) ∧
    ∀ o ∈ subops p, Good S ops o ((visit S ops p t).getD o.id [])
  | .node i l cs, lo, t, hw, hl, he => by
    simp only [WN] at hw
    have hi : (IOp.node i l cs).id = i := rfl
    rw [hi] at hl he
    obtain ⟨h1, h2, h3⟩ := visitList_good hc ho cs hw (Nat.le_of_lt hl) (fun j hj hj' => he j hj (Nat.le_of_lt hj'))
    have hb := subList_bounds cs hw
    have hle := WNL_le cs hw
    have hx : Ctx S ops (visitList S ops cs t) (.node i l cs) := by
      refine ⟨h3, fun c hcm => ?_, by rw [h1]; exact hl⟩
      have := (hb c hcm).2
      rw [hi]; omega
    have h0 : (visitList S ops cs t).getD (IOp.node i l cs).id [] = [] := by
      rw [hi, h2 i (.inr (Nat.le_refl _))]
      exact he i hle (Nat.le_refl _)
    obtain ⟨g1, g2, g3⟩ := visitOne_good hc hx ho h0
    simp only [visit]
    refine ⟨g1.trans h1, fun j hj => ?_, fun o hom => ?_⟩
    · rw [hi] at g2 hj
      rw [g2 j (by omega), h2 j (by omega)]
    · simp only [subops, List.mem_cons] at hom
      rcases hom with rfl | hom
      · exact g3
      · rw [g2 o.id (by have := (hb o hom).2; rw [hi]; omega)]
        exact h3 o hom
theorem visitList_good {S : Sig L K C} (hc : CostOK S) {ops} (ho : OpsOK S.isProd ops) :
    (cs : List (IOp L)) → ∀ {lo hi : Nat} {t : Table L K C}, WNL lo cs hi → hi ≤ t.length →
    (∀ j, lo ≤ j → j < hi → t.getD j [] = []) →
    (visitList S ops cs t).length = t.length ∧
    (∀ j, j < lo ∨ hi ≤ j → (visitList S ops cs t).getD j [] = t.getD j []) ∧
    ∀ o ∈ subopsList cs, Good S ops o ((visitList S ops cs t).getD o.id [])
  | [], lo, hi, t, hw, hl, he => by
    refine ⟨rfl, fun _ _ => rfl, fun o ho => ?_⟩
    simp [subopsList] at ho
  | c :: cs, lo, hi, t, hw, hl, he => by
    simp only [WNL] at hw
    have hle := WNL_le cs hw.2
    have hlc := WN_le c hw.1
    obtain ⟨h1, h2, h3⟩ := visit_good hc ho c (t := t) hw.1 (by omega) (fun j hj hj' => he j hj (by omega))
    obtain ⟨g1, g2, g3⟩ := visitList_good hc ho cs (t := visit S ops c t) hw.2 (by omega) (fun j hj hj' => by
      rw [h2 j (by omega)]; exact he j (by omega) hj')
    simp only [visitList]
    refine ⟨g1.trans h1, fun j hj => ?_, fun o hom => ?_⟩
    · rw [g2 j (by omega), h2 j (by omega)]
    · simp only [subopsList, List.mem_append] at hom
      rcases hom with hom | hom
      · have hb := sub_bounds c hw.1 o hom
        rw [g2 o.id (by omega)]
        exact h3 o hom
      · exact g3 o hom
end

theorem cover_good {S : Sig L K C} (hc : CostOK S) {ops} (ho : OpsOK S.isProd ops) (plan : LOp L) :
    (cover S ops plan).length = (assign 0 plan).id + 1 ∧
    ∀ o ∈ subops (assign 0 plan), Good S ops o ((cover S ops plan).getD o.id []) := by
  unfold cover
  simp only
  obtain ⟨h1, _, h3⟩ := visit_good hc ho (assign 0 plan) (assign_WN 0 plan)
    (t := List.replicate ((assign 0 plan).id + 1) []) (by simp) (fun j _ hj => by
      rw [List.getD_eq_getElem?_getD, List.getElem?_replicate]; split <;> rfl)
  exact ⟨by simpa using h1, h3⟩

theorem cover_last {S : Sig L K C} (hc : CostOK S) {ops} (ho : OpsOK S.isProd ops) (plan : LOp L) :
    Good S ops (assign 0 plan) ((cover S ops plan).getLastD []) := by
  obtain ⟨h1, h2⟩ := cover_good hc ho plan
  have h := h2 _ (mem_subops_self _)
  have : (cover S ops plan).getLastD [] = (cover S ops plan).getD (assign 0 plan).id [] := by
    rw [List.getLastD_eq_getLast?, List.getLast?_eq_getElem?, h1, List.getD_eq_getElem?_getD]
    simp
  rw [this]; exact h

/-! ## The best entry -/

theorem bestLoop_spec {S : Sig L K C} (hc : CostOK S) : ∀ (es : List (Entry L K C)) (b : Option (Entry L K C)) (m : C),
    (∀ e, b = some e → e.cost = m) →
    match bestLoop S es b m with
    | none => b = none ∧ ∀ e ∈ es, S.lt e.cost m = false
    | some e => (e ∈ es ∨ b = some e) ∧ (∀ x ∈ es, S.lt x.cost e.cost = false) ∧ S.lt m e.cost = false ∧
        (e ∈ es → S.lt e.cost m = true ∨ b = some e) := by
  intro es
  induction es with
  | nil =>
    intro b m hb
    unfold bestLoop
    cases b with
    | none => simp
    | some e => simp [hb e rfl, hc.irrefl]
  | cons e es ih =>
    intro b m hb
    by_cases hlt : S.lt e.cost m = true
    · rw [show bestLoop S (e :: es) b m = bestLoop S es (some e) e.cost from if_pos hlt]
      have h := ih (some e) e.cost (by simp)
      generalize bestLoop S es (some e) e.cost = r at h
      cases r with
      | none => simp at h
      | some x =>
        simp only at h ⊢
        obtain ⟨h1, h2, h3, h4⟩ := h
        have hmx : S.lt m x.cost = false := by
          cases hh : S.lt m x.cost with
          | false => rfl
          | true => rw [hc.trans _ _ _ hlt hh] at h3; cases h3
        refine ⟨?_, ?_, hmx, ?_⟩
        · rcases h1 with h1 | h1
          · exact .inl (List.mem_cons_of_mem _ h1)
          · injection h1 with h1; subst h1; exact .inl List.mem_cons_self
        · intro y hy
          rcases List.mem_cons.mp hy with rfl | hy
          · exact h3
          · exact h2 y hy
        · intro hx
          left
          cases hxm : S.lt x.cost m with
          | true => rfl
          | false =>
            have := hc.negtrans e.cost x.cost m h3 hxm
            rw [this] at hlt; cases hlt
    · rw [show bestLoop S (e :: es) b m = bestLoop S es b m from if_neg hlt]
      have hlt' : S.lt e.cost m = false := by simpa using hlt
      have h := ih b m hb
      generalize bestLoop S es b m = r at h
      cases r with
      | none =>
        simp only at h ⊢
        refine ⟨h.1, fun x hx => ?_⟩
        rcases List.mem_cons.mp hx with rfl | hx
        · exact hlt'
        · exact h.2 x hx
      | some x =>
        simp only at h ⊢
        obtain ⟨h1, h2, h3, h4⟩ := h
        refine ⟨h1.imp (List.mem_cons_of_mem _) id, ?_, h3, ?_⟩
        · intro y hy
          rcases List.mem_cons.mp hy with rfl | hy
          · exact hc.negtrans _ _ _ hlt' h3
          · exact h2 y hy
        · intro hx
          by_cases hxe : x ∈ es
          · exact h4 hxe
          · rcases h1 with h1 | h1
            · exact absurd h1 hxe
            · exact .inr h1

end

end Mutable.PhysOpt
