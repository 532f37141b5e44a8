import Verif.PhysOpt.Lemmas

namespace Mutable.PhysOpt

variable {L K C : Type} [DecidableEq K]

/-- all lists of children found so far have the same length -/
def Uni (cl : List (List (Entry L K C))) (n : Nat) : Prop := cl ≠ [] ∧ ∀ cs ∈ cl, cs.length = n

theorem Uni.head {cl : List (List (Entry L K C))} {n} (h : Uni cl n) : (cl.headD []).length = n := by
  obtain ⟨c, cl', rfl⟩ := List.exists_cons_of_ne_nil h.1
  exact h.2 _ List.mem_cons_self

/-- the lists after the step extend lists before the step with entries that fill the slots -/
def Ext (S : Sig L K C) (T : Table L K C) (pre : Nat → List (Option (IOp L)) → K)
    (ok : Nat → List (Option (IOp L)) → Prop) (n : Nat) (ss : List (Slot L))
    (cl cl' : List (List (Entry L K C))) : Prop :=
  cl' ≠ [] ∧ ∀ cs' ∈ cl', ∃ cs ∈ cl, ∃ es, cs' = cs ++ es ∧ Sat S T pre ok n ss es

theorem Ext.uni {S : Sig L K C} {T pre ok n ss cl cl'} (h : Ext S T pre ok n ss cl cl') (hu : Uni cl n) :
    Uni cl' (n + (kidsOf ss).length) := by
  refine ⟨h.1, fun cs' hcs' => ?_⟩
  obtain ⟨cs, hcs, es, rfl, hs⟩ := h.2 cs' hcs'
  simp [hu.2 cs hcs, Sat_length hs]

/-- The state from which the matcher is started at pattern position `idx` with the operator `op`. -/
structure Start (D : IOp L → Prop) (T : Table L K C) (N : Nat) (op0 : IOp L) (idx sz : Nat) (op : IOp L)
    (st : St L K C) : Prop where
  len : st.nodes.length = N
  fit : idx + sz ≤ N
  look : Look D T st.table
  head : (st.nodes.take idx ++ [some op]).head? = some (some op0)

theorem take_set_succ {α : Type} {l : List α} {i : Nat} (h : i < l.length) (a : α) :
    (l.set i a).take (i + 1) = l.take i ++ [a] := by
  rw [List.take_succ_eq_append_getElem (by simpa using h)]
  rw [List.take_set, List.set_eq_of_length_le (by simp; omega)]
  simp

theorem Start.inv {D : IOp L → Prop} {T : Table L K C} {N op0 idx sz op st}
    (h : Start D T N op0 idx sz op st) (hs : 0 < sz) :
    Inv D T N (st.nodes.take idx ++ [some op]) (st.setNode idx op) := by
  have hl := h.len
  have hf := h.fit
  refine ⟨by simp [St.setNode, h.len], h.look, ?_⟩
  show (st.nodes.set idx (some op)).take _ = _
  have : (st.nodes.take idx ++ [some op]).length = idx + 1 := by simp; omega
  rw [this]
  exact take_set_succ (by omega) _

theorem Pat.size_pos (pat : Pat L) : 0 < pat.size := by
  cases pat <;> simp [Pat.size] <;> omega

theorem Inv.start {D : IOp L → Prop} {T : Table L K C} {N op0 idx sz pfx op st}
    (h : Inv D T N pfx st) (hp : pfx.length = idx) (hf : idx + sz ≤ N) (hh : pfx.head? = some (some op0)) :
    Start D T N op0 idx sz op st := by
  refine ⟨h.len, hf, h.look, ?_⟩
  have := h.pre
  rw [hp] at this
  rw [this]
  cases pfx with
  | nil => simp at hh
  | cons a l => simpa using hh

theorem leafStep_wild (S : Sig L K C) (p : PhysOp L K C) (st cl) (op : IOp L) :
    leafStep S p st cl op .wild = if st.table.length ≤ op.id then none else
      match candidates S st.table op (p.pre (cl.headD []).length st.nodes) with
      | [] => none
      | n :: ns => some (extend cl (n :: ns)) := rfl

theorem leafStep_cons (S : Sig L K C) (p : PhysOp L K C) (st cl) (op : IOp L) (is) :
    leafStep S p st cl op (.cons is) = (consLoop S p st (cl.headD []).length 0 op.children [[]]).map (combine cl) := rfl

theorem leafStep_leaf (S : Sig L K C) (p : PhysOp L K C) (st cl) (op : IOp L) (is) :
    leafStep S p st cl op (.leaf is) =
      if S.implied (p.pre (cl.headD []).length st.nodes) S.emptyK then some cl else none := rfl

/-- **Soundness of the matcher**: a property of the table that holds before and that the continuation keeps for every
fit of the pattern holds afterwards. -/
theorem matchP_sound (S : Sig L K C) (p : PhysOp L K C) {D : IOp L → Prop} {T : Table L K C} {N : Nat} {op0 : IOp L}
    (hD : ∀ o, D o → ∀ c ∈ o.children, D c) (P : Table L K C → Prop) :
    ∀ (pat : Pat L) (idx : Nat) (cl) (op : IOp L) (k) (st : St L K C) (n : Nat),
      Start D T N op0 idx pat.size op st → KOK D T N op0 (idx + pat.size) k → Uni cl n →
      (pat = .wild → D op) → (∀ c ∈ op.children, D c) → P st.table →
      (∀ ns ss cl' st', Fits S.isProd pat idx op ns ss →
        Ext S T p.pre (Known N (st.nodes.take idx ++ ns.map some)) n ss cl cl' →
        Inv D T N (st.nodes.take idx ++ ns.map some) st' → P st'.table → P (k cl' st').table) →
      P (matchP S p pat idx cl op k st).table := by
  intro pat
  induction pat with
  | wild =>
    intro idx cl op k st n h0 hk hu hw hc hP hK
    unfold matchP
    split
    · rename_i hprod
      have hinv := h0.inv (by simp [Pat.size])
      have hlen := h0.len
      have hfit := h0.fit
      simp only [Pat.size] at hfit
      rw [leafStep_wild]
      have hP' : P (st.setNode idx op).table := hP
      split
      · exact hP'
      · split
        · exact hP'
        · rename_i m ms hcand
          refine hK [op] [⟨some op, idx⟩] _ _ (.wild hprod) ⟨extend_ne hu.1, ?_⟩ hinv hP'
          intro cs' hcs'
          obtain ⟨cs, hcs, e, he, rfl⟩ := mem_extend.mp hcs'
          refine ⟨cs, hcs, [e], rfl, ?_⟩
          rw [← hcand, mem_candidates, hu.head] at he
          rw [hinv.look.2 op (hw rfl)] at he
          simp only [Sat]
          refine ⟨he.1, ⟨_, ⟨hinv.len, ?_⟩, he.2⟩, trivial⟩
          have := hinv.pre
          have hl : (st.nodes.take idx ++ [some op]).length = idx + 1 := by simp; omega
          rw [hl] at this
          rw [this]
          simp only [List.map_cons, List.map_nil]
          exact (List.take_of_length_le (Nat.le_of_eq hl)).symm
    · exact hP
  | leaf is =>
    intro idx cl op k st n h0 hk hu hw hc hP hK
    unfold matchP
    split
    · rename_i hprod
      have hinv := h0.inv (by simp [Pat.size])
      have hlen := h0.len
      have hfit := h0.fit
      simp only [Pat.size] at hfit
      rw [leafStep_leaf]
      have hP' : P (st.setNode idx op).table := hP
      split
      · rename_i himp
        refine hK [op] [⟨none, idx⟩] _ _ (.leaf hprod) ⟨hu.1, ?_⟩ hinv hP'
        intro cs' hcs'
        refine ⟨cs', hcs', [], by simp, ?_⟩
        simp only [Sat, and_true]
        rw [hu.head] at himp
        refine ⟨_, ⟨hinv.len, ?_⟩, himp⟩
        have := hinv.pre
        have hl : (st.nodes.take idx ++ [some op]).length = idx + 1 := by simp; omega
        rw [hl] at this
        rw [this]
        simp only [List.map_cons, List.map_nil]
        exact (List.take_of_length_le (Nat.le_of_eq hl)).symm
      · exact hP'
    · exact hP
  | cons is =>
    intro idx cl op k st n h0 hk hu hw hc hP hK
    unfold matchP
    split
    · rename_i hprod
      have hinv := h0.inv (by simp [Pat.size])
      have hlen := h0.len
      have hfit := h0.fit
      simp only [Pat.size] at hfit
      rw [leafStep_cons]
      have hP' : P (st.setNode idx op).table := hP
      generalize hr : consLoop S p (st.setNode idx op) (cl.headD []).length 0 op.children [[]] = r
      cases r with
      | none => exact hP'
      | some ncl =>
        have hok : Known N (st.nodes.take idx ++ [op].map some) idx (st.setNode idx op).nodes := by
          refine ⟨hinv.len, ?_⟩
          have := hinv.pre
          have hl : (st.nodes.take idx ++ [some op]).length = idx + 1 := by simp; omega
          rw [hl] at this
          rw [this]
          simp only [List.map_cons, List.map_nil]
          exact (List.take_of_length_le (Nat.le_of_eq hl)).symm
        obtain ⟨hne, hx⟩ := consLoop_sound (d := idx) (D := D) (T := T)
          (ok := Known N (st.nodes.take idx ++ [op].map some)) hinv.look hok op.children 0 [[]] ncl hc (by simp) hr
        refine hK [op] _ (combine cl ncl) _ (.cons hprod) ⟨?_, ?_⟩ hinv hP'
        · obtain ⟨c, cl', rfl⟩ := List.exists_cons_of_ne_nil hu.1
          obtain ⟨d, dl, rfl⟩ := List.exists_cons_of_ne_nil hne
          exact ne_nil_of_mem' (mem_combine.mpr ⟨c, List.mem_cons_self, d, List.mem_cons_self, rfl⟩)
        · intro cs' hcs'
          obtain ⟨cs, hcs, es, hes, rfl⟩ := mem_combine.mp hcs'
          obtain ⟨y, hy, es', rfl, hs⟩ := hx es hes
          simp only [List.mem_singleton] at hy
          subst hy
          rw [hu.head] at hs
          exact ⟨cs, hcs, es', by simp, by simpa using hs⟩
    · exact hP
  | one is c ih =>
    intro idx cl op k st n h0 hk hu hw hc hP hK
    unfold matchP
    split
    · rename_i his
      split
      · rename_i a hch
        have hinv := h0.inv (by simp [Pat.size]; omega)
        have hlen := h0.len
        have hfit := h0.fit
        simp only [Pat.size] at hfit
        have hl : (st.nodes.take idx ++ [some op]).length = idx + 1 := by simp; omega
        have hpre := hinv.pre
        rw [hl] at hpre
        have hDa : D a := hc a (by rw [hch]; exact List.mem_cons_self)
        refine ih (idx + 1) cl a k _ n (hinv.start hl (by omega) h0.head) ?_ hu (fun _ => hDa) (hD a hDa) hP ?_
        · have : idx + 1 + c.size = idx + (Pat.one is c).size := by simp [Pat.size]; omega
          rw [this]; exact hk
        · intro ns ss cl' st' hf he hi hP'
          have e : (st.setNode idx op).nodes.take (idx + 1) ++ ns.map some
              = st.nodes.take idx ++ (op :: ns).map some := by rw [hpre]; simp
          rw [e] at he hi
          exact hK (op :: ns) ss cl' st' (.one his hch hf) he hi hP'
      · exact hP
    · exact hP
  | two is c0 c1 ih0 ih1 =>
    intro idx cl op k st n h0 hk hu hw hc hP hK
    unfold matchP
    split
    · rename_i his
      split
      · rename_i a b hch
        have hinv := h0.inv (by simp [Pat.size]; omega)
        have hlen := h0.len
        have hfit := h0.fit
        simp only [Pat.size] at hfit
        have hl : (st.nodes.take idx ++ [some op]).length = idx + 1 := by simp; omega
        have hDa : D a := hc a (by rw [hch]; exact List.mem_cons_self)
        have hDb : D b := hc b (by rw [hch]; simp)
        have hk' : KOK D T N op0 (idx + 1 + c0.size + c1.size) k := by
          have : idx + 1 + c0.size + c1.size = idx + (Pat.two is c0 c1).size := by simp [Pat.size]; omega
          rw [this]; exact hk
        -- one permutation
        have perm : ∀ (x y : IOp L) (s : St L K C), D x → D y → (op.children = [x, y] ∨ op.children = [y, x]) →
            Inv D T N (st.nodes.take idx ++ [some op]) s → P s.table →
            P (matchP S p c0 (idx + 1) cl x (fun cl' => matchP S p c1 (idx + 1 + c0.size) cl' y k) s).table := by
          intro x y s hx hy hxy hs hPs
          have hpre := hs.pre
          rw [hl] at hpre
          refine ih0 (idx + 1) cl x _ s n (hs.start hl (by omega) h0.head)
            (matchP_KOK S p (by omega) hk') hu (fun _ => hx) (hD x hx) hPs ?_
          intro ns0 ss0 cl0 st0 hf0 he0 hi0 hP0
          have hn0 := (Fits_depth hf0).1
          have e0 : s.nodes.take (idx + 1) ++ ns0.map some = st.nodes.take idx ++ (op :: ns0).map some := by
            rw [hpre]; simp
          rw [e0] at he0 hi0
          have hl0 : (st.nodes.take idx ++ (op :: ns0).map some).length = idx + 1 + c0.size := by
            simp [hn0]; omega
          have hh0 : (st.nodes.take idx ++ (op :: ns0).map some).head? = some (some op0) := by
            have := h0.head
            have e : st.nodes.take idx ++ (op :: ns0).map some = (st.nodes.take idx ++ [some op]) ++ ns0.map some := by
              simp
            rw [e, List.head?_append, this]; rfl
          have hpre0 := hi0.pre
          rw [hl0] at hpre0
          refine ih1 (idx + 1 + c0.size) cl0 y k st0 _ (hi0.start hl0 (by omega) hh0) hk' (he0.uni hu)
            (fun _ => hy) (hD y hy) hP0 ?_
          intro ns1 ss1 cl1 st1 hf1 he1 hi1 hP1
          have e1 : st0.nodes.take (idx + 1 + c0.size) ++ ns1.map some
              = st.nodes.take idx ++ (op :: (ns0 ++ ns1)).map some := by
            rw [hpre0]; simp
          rw [e1] at he1 hi1
          refine hK (op :: (ns0 ++ ns1)) (ss0 ++ ss1) cl1 st1
            (.two his hxy hf0 (by rw [hn0]; exact hf1)) ⟨he1.1, ?_⟩ hi1 hP1
          intro cs' hcs'
          obtain ⟨cs1, hcs1, es1, rfl, hs1⟩ := he1.2 cs' hcs'
          obtain ⟨cs0, hcs0, es0, rfl, hs0⟩ := he0.2 cs1 hcs1
          refine ⟨cs0, hcs0, es0 ++ es1, by simp, Sat_append (Sat_mono ?_ hs0) hs1⟩
          intro sl hsl t ht
          refine ⟨ht.1, ht.2.trans ?_⟩
          have hd := (Fits_depth hf0).2 sl hsl
          have e2 : st.nodes.take idx ++ (op :: (ns0 ++ ns1)).map some
              = (st.nodes.take idx ++ (op :: ns0).map some) ++ ns1.map some := by simp
          have hle : sl.depth + 1 ≤ (st.nodes.take idx ++ (op :: ns0).map some).length := by omega
          rw [e2, List.take_append_of_le_length hle]
        refine perm b a _ hDb hDa (.inr hch) ?_ ?_
        · exact matchP_inv S p c0 (idx + 1) cl a _ _ (by omega)
            (fun cl st h => matchP_inv S p c1 _ _ _ _ _ (by omega)
              (hk' _ h0.head (by omega)) h) hinv
        · exact perm a b _ hDa hDb (.inl hch) hinv hP
      · exact hP
    · exact hP

/-- **Completeness of the matcher**: for every fit of the pattern and all entries that fill its slots, the
continuation is called with these entries. -/
theorem matchP_complete (S : Sig L K C) (p : PhysOp L K C) {D : IOp L → Prop} {T : Table L K C} {N : Nat} {op0 : IOp L}
    (hD : ∀ o, D o → ∀ c ∈ o.children, D c) (Q : Table L K C → Prop) {pat : Pat L} {idx : Nat} {op : IOp L} {ns ss}
    (hfits : Fits S.isProd pat idx op ns ss) :
    ∀ (cl) (k) (st : St L K C) (n : Nat) (cs es),
      Start D T N op0 idx pat.size op st → KOK D T N op0 (idx + pat.size) k → Uni cl n →
      (pat = .wild → D op) → (∀ c ∈ op.children, D c) →
      cs ∈ cl → SatA S T p.pre (Known N (st.nodes.take idx ++ ns.map some)) n ss es →
      (∀ cl st, Q st.table → Q (k cl st).table) →
      (∀ cl' st', cs ++ es ∈ cl' →
        Ext S T p.pre (Known N (st.nodes.take idx ++ ns.map some)) n ss cl cl' →
        Inv D T N (st.nodes.take idx ++ ns.map some) st' → Q (k cl' st').table) →
      Q (matchP S p pat idx cl op k st).table := by
  induction hfits with
  | @wild idx op hprod =>
    intro cl k st n cs es h0 hk hu hw hc hcs hsat hq hK
    unfold matchP
    rw [if_pos hprod]
    have hinv := h0.inv (by simp [Pat.size])
    have hlen := h0.len
    have hfit := h0.fit
    simp only [Pat.size] at hfit
    have hl : (st.nodes.take idx ++ [some op]).length = idx + 1 := by simp; omega
    have hpre := hinv.pre
    rw [hl] at hpre
    have hok : Known N (st.nodes.take idx ++ [op].map some) idx (st.setNode idx op).nodes := by
      refine ⟨hinv.len, ?_⟩
      rw [hpre]
      simp only [List.map_cons, List.map_nil]
      exact (List.take_of_length_le (Nat.le_of_eq hl)).symm
    match es, hsat with
    | [e], hsat =>
      simp only [SatA] at hsat
      have hm : e ∈ candidates S (st.setNode idx op).table op (p.pre (cl.headD []).length (st.setNode idx op).nodes) := by
        rw [mem_candidates, hinv.look.2 op (hw rfl), hu.head]
        exact ⟨hsat.1, hsat.2.1 _ hok⟩
      have hnl : ¬ (st.setNode idx op).table.length ≤ op.id := by
        intro hle
        rw [mem_candidates] at hm
        rw [List.getD_eq_getElem?_getD, List.getElem?_eq_none hle] at hm
        simp at hm
      rw [leafStep_wild]
      rw [if_neg hnl]
      split
      · rename_i hcand; rw [hcand] at hm; cases hm
      · rename_i m ms hcand
        refine hK _ _ ?_ ⟨extend_ne hu.1, ?_⟩ hinv
        · rw [hcand] at hm
          exact mem_extend.mpr ⟨cs, hcs, e, hm, rfl⟩
        · intro cs' hcs'
          obtain ⟨cs, hcs, e, he, rfl⟩ := mem_extend.mp hcs'
          refine ⟨cs, hcs, [e], rfl, ?_⟩
          rw [← hcand, mem_candidates, hu.head] at he
          rw [hinv.look.2 op (hw rfl)] at he
          simp only [Sat]
          exact ⟨he.1, ⟨_, hok, he.2⟩, trivial⟩
    | [], hsat => simp [SatA] at hsat
    | _ :: _ :: _, hsat => simp [SatA] at hsat
  | @leaf is idx op hprod =>
    intro cl k st n cs es h0 hk hu hw hc hcs hsat hq hK
    unfold matchP
    rw [if_pos hprod]
    have hinv := h0.inv (by simp [Pat.size])
    have hlen := h0.len
    have hfit := h0.fit
    simp only [Pat.size] at hfit
    have hl : (st.nodes.take idx ++ [some op]).length = idx + 1 := by simp; omega
    have hpre := hinv.pre
    rw [hl] at hpre
    have hok : Known N (st.nodes.take idx ++ [op].map some) idx (st.setNode idx op).nodes := by
      refine ⟨hinv.len, ?_⟩
      rw [hpre]
      simp only [List.map_cons, List.map_nil]
      exact (List.take_of_length_le (Nat.le_of_eq hl)).symm
    match es, hsat with
    | [], hsat =>
      simp only [SatA, and_true] at hsat
      rw [leafStep_leaf]
      rw [hu.head, if_pos (hsat _ hok)]
      refine hK _ _ (by simpa using hcs) ⟨hu.1, ?_⟩ hinv
      intro cs' hcs'
      refine ⟨cs', hcs', [], by simp, ?_⟩
      simp only [Sat, and_true]
      exact ⟨_, hok, hsat _ hok⟩
    | _ :: _, hsat => simp [SatA] at hsat
  | @cons is idx op hprod =>
    intro cl k st n cs es h0 hk hu hw hc hcs hsat hq hK
    unfold matchP
    rw [if_pos hprod]
    have hinv := h0.inv (by simp [Pat.size])
    have hlen := h0.len
    have hfit := h0.fit
    simp only [Pat.size] at hfit
    have hl : (st.nodes.take idx ++ [some op]).length = idx + 1 := by simp; omega
    have hpre := hinv.pre
    rw [hl] at hpre
    have hok : Known N (st.nodes.take idx ++ [op].map some) idx (st.setNode idx op).nodes := by
      refine ⟨hinv.len, ?_⟩
      rw [hpre]
      simp only [List.map_cons, List.map_nil]
      exact (List.take_of_length_le (Nat.le_of_eq hl)).symm
    rw [leafStep_cons]
    have hh := hu.head
    obtain ⟨r, hr, hmem⟩ := consLoop_complete (S := S) (p := p) (base := (cl.headD []).length) (d := idx) (D := D) (T := T)
      (ok := Known N (st.nodes.take idx ++ [op].map some)) hinv.look hok op.children 0 [[]] [] es hc (by simp)
      (by rw [hh]; simpa using hsat)
    obtain ⟨hne, hx⟩ := consLoop_sound (d := idx) (D := D) (T := T)
      (ok := Known N (st.nodes.take idx ++ [op].map some)) hinv.look hok op.children 0 [[]] r hc (by simp) hr
    rw [hr]
    refine hK (combine cl r) _ ?_ ⟨?_, ?_⟩ hinv
    · exact mem_combine.mpr ⟨cs, hcs, es, by simpa using hmem, rfl⟩
    · obtain ⟨d, dl, rfl⟩ := List.exists_cons_of_ne_nil hne
      exact ne_nil_of_mem' (mem_combine.mpr ⟨cs, hcs, d, List.mem_cons_self, rfl⟩)
    · intro cs' hcs'
      obtain ⟨cs, hcs, es, hes, rfl⟩ := mem_combine.mp hcs'
      obtain ⟨y, hy, es', rfl, hs⟩ := hx es hes
      simp only [List.mem_singleton] at hy
      subst hy
      rw [hu.head] at hs
      exact ⟨cs, hcs, es', by simp, by simpa using hs⟩
  | @one is c idx op a ns ss his hch hf ih =>
    intro cl k st n cs es h0 hk hu hw hc hcs hsat hq hK
    unfold matchP
    rw [if_pos his, hch]
    have hinv := h0.inv (by simp [Pat.size]; omega)
    have hlen := h0.len
    have hfit := h0.fit
    simp only [Pat.size] at hfit
    have hl : (st.nodes.take idx ++ [some op]).length = idx + 1 := by simp; omega
    have hpre := hinv.pre
    rw [hl] at hpre
    have hDa : D a := hc a (by rw [hch]; exact List.mem_cons_self)
    have e : (st.setNode idx op).nodes.take (idx + 1) ++ ns.map some
        = st.nodes.take idx ++ (op :: ns).map some := by rw [hpre]; simp
    refine ih cl k _ n cs es (hinv.start hl (by omega) h0.head) ?_ hu (fun _ => hDa) (hD a hDa) hcs ?_ hq ?_
    · have : idx + 1 + c.size = idx + (Pat.one is c).size := by simp [Pat.size]; omega
      rw [this]; exact hk
    · rw [e]; exact hsat
    · rw [e]; exact hK
  | @two is c0 c1 idx op x y ns0 ns1 ss0 ss1 his hxy hf0 hf1 ih0 ih1 =>
    intro cl k st n cs es h0 hk hu hw hc hcs hsat hq hK
    have hinv := h0.inv (by simp [Pat.size]; omega)
    have hlen := h0.len
    have hfit := h0.fit
    simp only [Pat.size] at hfit
    have hl : (st.nodes.take idx ++ [some op]).length = idx + 1 := by simp; omega
    have hDx : D x := hc x (by rcases hxy with h | h <;> rw [h] <;> simp)
    have hDy : D y := hc y (by rcases hxy with h | h <;> rw [h] <;> simp)
    have hk' : KOK D T N op0 (idx + 1 + c0.size + c1.size) k := by
      have : idx + 1 + c0.size + c1.size = idx + (Pat.two is c0 c1).size := by simp [Pat.size]; omega
      rw [this]; exact hk
    obtain ⟨es0, es1, rfl, hsat0, hsat1⟩ := SatA_append hsat
    have hn0 := (Fits_depth hf0).1
    -- the permutation with the fit
    have perm : ∀ s : St L K C, Inv D T N (st.nodes.take idx ++ [some op]) s →
        Q (matchP S p c0 (idx + 1) cl x (fun cl' => matchP S p c1 (idx + 1 + c0.size) cl' y k) s).table := by
      intro s hs
      have hpre := hs.pre
      rw [hl] at hpre
      have e0 : s.nodes.take (idx + 1) ++ ns0.map some = st.nodes.take idx ++ (op :: ns0).map some := by
        rw [hpre]; simp
      have hl0 : (st.nodes.take idx ++ (op :: ns0).map some).length = idx + 1 + c0.size := by
        simp [hn0]; omega
      have hh0 : (st.nodes.take idx ++ (op :: ns0).map some).head? = some (some op0) := by
        have := h0.head
        have e : st.nodes.take idx ++ (op :: ns0).map some = (st.nodes.take idx ++ [some op]) ++ ns0.map some := by
          simp
        rw [e, List.head?_append, this]; rfl
      have e2 : st.nodes.take idx ++ (op :: (ns0 ++ ns1)).map some
          = (st.nodes.take idx ++ (op :: ns0).map some) ++ ns1.map some := by simp
      refine ih0 cl _ s n cs es0 (hs.start hl (by omega) h0.head) (matchP_KOK S p (by omega) hk') hu
        (fun _ => hDx) (hD x hDx) hcs ?_ (fun cl st h => matchP_pres S p Q _ _ _ _ _ _ hq h) ?_
      · rw [e0]
        refine SatA_mono ?_ hsat0
        intro sl hsl t ht
        refine ⟨ht.1, ht.2.trans ?_⟩
        have hd := (Fits_depth hf0).2 sl hsl
        have hle : sl.depth + 1 ≤ (st.nodes.take idx ++ (op :: ns0).map some).length := by omega
        rw [e2, List.take_append_of_le_length hle]
      · rw [e0]
        intro cl0 st0 hmem0 he0 hi0
        have hpre0 := hi0.pre
        rw [hl0] at hpre0
        have e1 : st0.nodes.take (idx + 1 + c0.size) ++ ns1.map some
            = st.nodes.take idx ++ (op :: (ns0 ++ ns1)).map some := by
          rw [hpre0]; simp
        have ih1' := ih1
        rw [hn0] at ih1'
        refine ih1' cl0 k st0 _ (cs ++ es0) es1 (hi0.start hl0 (by omega) hh0) hk' (he0.uni hu)
          (fun _ => hDy) (hD y hDy) hmem0 ?_ hq ?_
        · rw [e1]; exact hsat1
        · rw [e1]
          intro cl1 st1 hmem1 he1 hi1
          refine hK cl1 st1 (by simpa using hmem1) ⟨he1.1, ?_⟩ hi1
          intro cs' hcs'
          obtain ⟨cs1, hcs1, es1, rfl, hs1⟩ := he1.2 cs' hcs'
          obtain ⟨cs0, hcs0, es0, rfl, hs0⟩ := he0.2 cs1 hcs1
          refine ⟨cs0, hcs0, es0 ++ es1, by simp, Sat_append (Sat_mono ?_ hs0) hs1⟩
          intro sl hsl t ht
          refine ⟨ht.1, ht.2.trans ?_⟩
          have hd := (Fits_depth hf0).2 sl hsl
          have hle : sl.depth + 1 ≤ (st.nodes.take idx ++ (op :: ns0).map some).length := by omega
          rw [e2, List.take_append_of_le_length hle]
    unfold matchP
    rw [if_pos his]
    rcases hxy with hxy | hxy
    · rw [hxy]
      simp only
      refine matchP_pres S p Q _ _ _ _ _ _ (fun cl st h => matchP_pres S p Q _ _ _ _ _ _ hq h) ?_
      exact perm _ hinv
    · rw [hxy]
      simp only
      refine perm _ ?_
      exact matchP_inv S p c0 (idx + 1) cl y _ _ (by omega)
        (fun cl st h => matchP_inv S p c1 _ _ _ _ _ (by omega) (hk' _ h0.head (by omega)) h) hinv

end Mutable.PhysOpt
