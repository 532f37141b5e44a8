import Verif.PhysOpt.Spec

namespace Mutable.PhysOpt

variable {L K C : Type}

/-! ## Post-order numbers -/

mutual
def WN : Nat → IOp L → Prop
  | lo, .node i _ cs => WNL lo cs i
def WNL : Nat → List (IOp L) → Nat → Prop
  | lo, [], hi => lo = hi
  | lo, c :: cs, hi => WN lo c ∧ WNL (c.id + 1) cs hi
end

mutual
theorem assign_WN (s : Nat) : (p : LOp L) → WN s (assign s p)
  | .node l cs => by
    have h := assignList_WN s cs
    simpa [assign, WN] using h
theorem assignList_WN (s : Nat) : (cs : List (LOp L)) → WNL s (assignList s cs).1 (assignList s cs).2
  | [] => by simp [assignList, WNL]
  | c :: cs => by
    have h1 := assign_WN s c
    have h2 := assignList_WN ((assign s c).id + 1) cs
    simp only [assignList, WNL]
    exact ⟨h1, h2⟩
end

mutual
theorem WN_le : {lo : Nat} → (p : IOp L) → WN lo p → lo ≤ p.id
  | lo, .node i l cs, h => by
    simp only [WN] at h
    exact WNL_le cs h
theorem WNL_le : {lo hi : Nat} → (cs : List (IOp L)) → WNL lo cs hi → lo ≤ hi
  | lo, hi, [], h => by simp only [WNL] at h; omega
  | lo, hi, c :: cs, h => by
    simp only [WNL] at h
    have h1 := WN_le c h.1
    have h2 := WNL_le cs h.2
    omega
end

mutual
theorem sub_bounds : {lo : Nat} → (p : IOp L) → WN lo p → ∀ o ∈ subops p, lo ≤ o.id ∧ o.id ≤ p.id
  | lo, .node i l cs, h => by
    intro o ho
    simp only [subops, List.mem_cons] at ho
    have hw := h
    simp only [WN] at h
    rcases ho with rfl | ho
    · exact ⟨WN_le _ hw, Nat.le_refl _⟩
    · have := subList_bounds cs h o ho
      exact ⟨this.1, Nat.le_of_lt this.2⟩
theorem subList_bounds : {lo hi : Nat} → (cs : List (IOp L)) → WNL lo cs hi →
    ∀ o ∈ subopsList cs, lo ≤ o.id ∧ o.id < hi
  | lo, hi, [], h => by intro o ho; simp [subopsList] at ho
  | lo, hi, c :: cs, h => by
    intro o ho
    simp only [WNL] at h
    simp only [subopsList, List.mem_append] at ho
    have hle := WNL_le cs h.2
    have hc := WN_le c h.1
    rcases ho with ho | ho
    · have := sub_bounds c h.1 o ho
      omega
    · have := subList_bounds cs h.2 o ho
      omega
end

theorem mem_subops_self (p : IOp L) : p ∈ subops p := by
  cases p; simp [subops]

theorem mem_subopsList_of_mem {c : IOp L} {cs : List (IOp L)} (h : c ∈ cs) {o} (ho : o ∈ subops c) :
    o ∈ subopsList cs := by
  induction cs with
  | nil => cases h
  | cons d cs ih =>
    simp only [subopsList, List.mem_append]
    rcases List.mem_cons.mp h with rfl | h
    · exact .inl ho
    · exact .inr (ih h)

mutual
theorem subops_trans : (p : IOp L) → ∀ o ∈ subops p, ∀ q ∈ subops o, q ∈ subops p
  | .node i l cs => by
    intro o ho q hq
    simp only [subops, List.mem_cons] at ho
    rcases ho with rfl | ho
    · exact hq
    · simp only [subops, List.mem_cons]
      exact .inr (subopsList_trans cs o ho q hq)
theorem subopsList_trans : (cs : List (IOp L)) → ∀ o ∈ subopsList cs, ∀ q ∈ subops o, q ∈ subopsList cs
  | [] => by intro o ho; simp [subopsList] at ho
  | c :: cs => by
    intro o ho q hq
    simp only [subopsList, List.mem_append] at ho ⊢
    rcases ho with ho | ho
    · exact .inl (subops_trans c o ho q hq)
    · exact .inr (subopsList_trans cs o ho q hq)
end

/-! ## Tables -/

theorem getD_modify {α : Type} (t : List (List α)) (i j : Nat) (f : List α → List α) :
    (t.modify i f).getD j [] = if i = j ∧ j < t.length then f (t.getD j []) else t.getD j [] := by
  simp only [List.getD_eq_getElem?_getD, List.getElem?_modify]
  by_cases hij : i = j
  · by_cases hj : j < t.length
    · simp [hij, hj, List.getElem?_eq_getElem hj]
    · have : t[j]? = none := List.getElem?_eq_none (by omega)
      simp [hij, hj, this]
  · simp [hij]

section
variable [DecidableEq K]

theorem handleMatch_length (S : Sig L K C) (oi p nodes cs) (t : Table L K C) :
    (handleMatch S oi p nodes cs t).length = t.length := by
  unfold handleMatch
  cases nodes <;> simp

/-- a fold of `handleMatch` only changes the entries of the root -/
theorem foldHandle_frame (S : Sig L K C) (oi p) (root : IOp L) (ns : List (IOp L)) (cl : List (List (Entry L K C))) :
    ∀ (t : Table L K C), (cl.foldl (fun t cs => handleMatch S oi p (root :: ns) cs t) t).length = t.length ∧
      ∀ j, j ≠ root.id → (cl.foldl (fun t cs => handleMatch S oi p (root :: ns) cs t) t).getD j [] = t.getD j [] := by
  induction cl with
  | nil => intro t; exact ⟨rfl, fun _ _ => rfl⟩
  | cons cs cl ih =>
    intro t
    have := ih (handleMatch S oi p (root :: ns) cs t)
    simp only [List.foldl_cons]
    refine ⟨this.1.trans (handleMatch_length ..), fun j hj => (this.2 j hj).trans ?_⟩
    unfold handleMatch
    simp only
    rw [getD_modify, if_neg (fun h => hj h.1.symm)]

/-! ## The frame of the matcher -/

/-- the lookups the matcher makes are those of `T` -/
def Look (D : IOp L → Prop) (T t : Table L K C) : Prop :=
  t.length = T.length ∧ ∀ c, D c → t.getD c.id [] = T.getD c.id []

structure Inv (D : IOp L → Prop) (T : Table L K C) (N : Nat) (pfx : List (Option (IOp L))) (st : St L K C) : Prop where
  len : st.nodes.length = N
  look : Look D T st.table
  pre : st.nodes.take pfx.length = pfx

/-- the continuation keeps the frame -/
def KOK (D : IOp L → Prop) (T : Table L K C) (N : Nat) (op0 : IOp L) (b : Nat)
    (k : List (List (Entry L K C)) → St L K C → St L K C) : Prop :=
  ∀ pfx : List (Option (IOp L)), pfx.head? = some (some op0) → pfx.length ≤ b → ∀ cl st,
    Inv D T N pfx st → Inv D T N pfx (k cl st)

theorem Inv.set {D : IOp L → Prop} {T : Table L K C} {N pfx st} (h : Inv D T N pfx st) {j} (hj : pfx.length ≤ j)
    (o : IOp L) : Inv D T N pfx (st.setNode j o) := by
  refine ⟨by simp [St.setNode, h.len], h.look, ?_⟩
  show (st.nodes.set j (some o)).take pfx.length = pfx
  rw [List.take_set, List.set_eq_of_length_le (by simp; omega)]
  exact h.pre

theorem proceed_inv {D : IOp L → Prop} {T : Table L K C} {N pfx st r k}
    (h : Inv D T N pfx st) (hk : ∀ cl st, Inv D T N pfx st → Inv D T N pfx (k cl st)) :
    Inv D T N pfx (proceed r k st) := by
  unfold proceed
  split
  · exact h
  · exact hk _ _ h

theorem matchP_inv (S : Sig L K C) (p : PhysOp L K C) {D : IOp L → Prop} {T : Table L K C} {N : Nat}
    {pfx : List (Option (IOp L))} :
    ∀ (pat : Pat L) (idx : Nat) (cl) (op : IOp L) (k) (st : St L K C), pfx.length ≤ idx →
      (∀ cl st, Inv D T N pfx st → Inv D T N pfx (k cl st)) → Inv D T N pfx st →
      Inv D T N pfx (matchP S p pat idx cl op k st) := by
  intro pat
  induction pat with
  | wild =>
    intro idx cl op k st hi hk h
    unfold matchP
    split
    · exact proceed_inv (h.set hi op) hk
    · exact h
  | cons is =>
    intro idx cl op k st hi hk h
    unfold matchP
    split
    · exact proceed_inv (h.set hi op) hk
    · exact h
  | leaf is =>
    intro idx cl op k st hi hk h
    unfold matchP
    split
    · exact proceed_inv (h.set hi op) hk
    · exact h
  | one is c ih =>
    intro idx cl op k st hi hk h
    unfold matchP
    split
    · split
      · exact ih _ _ _ _ _ (by omega) hk (h.set hi op)
      · exact h
    · exact h
  | two is c0 c1 ih0 ih1 =>
    intro idx cl op k st hi hk h
    unfold matchP
    split
    · split
      · refine ih0 _ _ _ _ _ (by omega) (fun cl st h => ih1 _ _ _ _ _ (by omega) hk h) ?_
        exact ih0 _ _ _ _ _ (by omega) (fun cl st h => ih1 _ _ _ _ _ (by omega) hk h) (h.set hi op)
      · exact h
    · exact h

theorem matchP_KOK (S : Sig L K C) (p : PhysOp L K C) {D : IOp L → Prop} {T : Table L K C} {N : Nat} {op0 : IOp L}
    {pat : Pat L} {idx : Nat} {op : IOp L} {k} {b : Nat} (hb : idx ≤ b)
    (hk : KOK D T N op0 b k) : KOK D T N op0 idx (fun cl => matchP S p pat idx cl op k) := by
  intro pfx hh hl cl st h
  exact matchP_inv S p pat idx cl op k st hl (hk pfx hh (by omega)) h

/-- any property of the table kept by the continuation is kept by the matcher -/
theorem matchP_pres (S : Sig L K C) (p : PhysOp L K C) (Q : Table L K C → Prop) :
    ∀ (pat : Pat L) (idx : Nat) (cl) (op : IOp L) (k) (st : St L K C),
      (∀ cl st, Q st.table → Q (k cl st).table) → Q st.table → Q (matchP S p pat idx cl op k st).table := by
  have pr : ∀ r (k : List (List (Entry L K C)) → St L K C → St L K C) st,
      (∀ cl st, Q st.table → Q (k cl st).table) → Q st.table → Q (proceed r k st).table := by
    intro r k st hk h
    unfold proceed
    split
    · exact h
    · exact hk _ _ h
  intro pat
  induction pat with
  | wild => intro idx cl op k st hk h; unfold matchP; split; exact pr _ _ _ hk h; exact h
  | cons is => intro idx cl op k st hk h; unfold matchP; split; exact pr _ _ _ hk h; exact h
  | leaf is => intro idx cl op k st hk h; unfold matchP; split; exact pr _ _ _ hk h; exact h
  | one is c ih =>
    intro idx cl op k st hk h
    unfold matchP
    split
    · split
      · exact ih _ _ _ _ _ hk h
      · exact h
    · exact h
  | two is c0 c1 ih0 ih1 =>
    intro idx cl op k st hk h
    unfold matchP
    split
    · split
      · refine ih0 _ _ _ _ _ (fun cl st h => ih1 _ _ _ _ _ hk h) ?_
        exact ih0 _ _ _ _ _ (fun cl st h => ih1 _ _ _ _ _ hk h) h
      · exact h
    · exact h

/-! ## The leaf steps -/

/-- the entries `es` fill the slots `ss`; the pre-condition was checked with *some* tuple that has the right operators
at the positions matched so far (`Rel` says how the tuple is chosen) -/
def Sat (S : Sig L K C) (T : Table L K C) (pre : Nat → List (Option (IOp L)) → K)
    (ok : Nat → List (Option (IOp L)) → Prop) : Nat → List (Slot L) → List (Entry L K C) → Prop
  | _, [], [] => True
  | i, ⟨some c, d⟩ :: ss, e :: es =>
    e ∈ T.getD c.id [] ∧ (∃ t, ok d t ∧ S.implied (pre i t) e.cond = true) ∧ Sat S T pre ok (i + 1) ss es
  | i, ⟨none, d⟩ :: ss, es => (∃ t, ok d t ∧ S.implied (pre i t) S.emptyK = true) ∧ Sat S T pre ok i ss es
  | _, _, _ => False

/-- the same with *every* such tuple -/
def SatA (S : Sig L K C) (T : Table L K C) (pre : Nat → List (Option (IOp L)) → K)
    (ok : Nat → List (Option (IOp L)) → Prop) : Nat → List (Slot L) → List (Entry L K C) → Prop
  | _, [], [] => True
  | i, ⟨some c, d⟩ :: ss, e :: es =>
    e ∈ T.getD c.id [] ∧ (∀ t, ok d t → S.implied (pre i t) e.cond = true) ∧ SatA S T pre ok (i + 1) ss es
  | i, ⟨none, d⟩ :: ss, es => (∀ t, ok d t → S.implied (pre i t) S.emptyK = true) ∧ SatA S T pre ok i ss es
  | _, _, _ => False

/-- the tuple has the right operators up to depth `d` -/
def Known (N : Nat) (known : List (Option (IOp L))) (d : Nat) (t : List (Option (IOp L))) : Prop :=
  t.length = N ∧ t.take (d + 1) = known.take (d + 1)

theorem Sat_length {S : Sig L K C} {T pre ok} : ∀ {ss : List (Slot L)} {i es}, Sat S T pre ok i ss es →
    es.length = (kidsOf ss).length := by
  intro ss
  induction ss with
  | nil => intro i es h; cases es <;> simp_all [Sat, kidsOf]
  | cons s ss ih =>
    intro i es h
    rcases s with ⟨_ | c, d⟩
    · simp only [Sat] at h
      simpa [kidsOf] using ih h.2
    · cases es with
      | nil => simp [Sat] at h
      | cons e es =>
        simp only [Sat] at h
        simpa [kidsOf] using ih h.2.2

theorem SatA_length {S : Sig L K C} {T pre ok} : ∀ {ss : List (Slot L)} {i es}, SatA S T pre ok i ss es →
    es.length = (kidsOf ss).length := by
  intro ss
  induction ss with
  | nil => intro i es h; cases es <;> simp_all [SatA, kidsOf]
  | cons s ss ih =>
    intro i es h
    rcases s with ⟨_ | c, d⟩
    · simp only [SatA] at h
      simpa [kidsOf] using ih h.2
    · cases es with
      | nil => simp [SatA] at h
      | cons e es =>
        simp only [SatA] at h
        simpa [kidsOf] using ih h.2.2

theorem Sat_append {S : Sig L K C} {T pre ok} : ∀ {ss0 ss1 : List (Slot L)} {i es0 es1},
    Sat S T pre ok i ss0 es0 → Sat S T pre ok (i + (kidsOf ss0).length) ss1 es1 →
    Sat S T pre ok i (ss0 ++ ss1) (es0 ++ es1) := by
  intro ss0
  induction ss0 with
  | nil => intro ss1 i es0 es1 h h1; cases es0 <;> simp_all [Sat, kidsOf]
  | cons s ss ih =>
    intro ss1 i es0 es1 h h1
    rcases s with ⟨_ | c, d⟩
    · simp only [Sat] at h
      simp only [List.cons_append, Sat]
      exact ⟨h.1, ih h.2 (by simpa [kidsOf] using h1)⟩
    · cases es0 with
      | nil => simp [Sat] at h
      | cons e es =>
        simp only [Sat] at h
        simp only [List.cons_append, Sat]
        refine ⟨h.1, h.2.1, ih h.2.2 ?_⟩
        have : i + 1 + (kidsOf ss).length = i + (kidsOf (⟨some c, d⟩ :: ss)).length := by
          simp [kidsOf]; omega
        rw [this]; exact h1

theorem SatA_append {S : Sig L K C} {T pre ok} : ∀ {ss0 ss1 : List (Slot L)} {i es},
    SatA S T pre ok i (ss0 ++ ss1) es →
    ∃ es0 es1, es = es0 ++ es1 ∧ SatA S T pre ok i ss0 es0 ∧ SatA S T pre ok (i + (kidsOf ss0).length) ss1 es1 := by
  intro ss0
  induction ss0 with
  | nil => intro ss1 i es h; exact ⟨[], es, rfl, by simp [SatA], by simpa [kidsOf] using h⟩
  | cons s ss ih =>
    intro ss1 i es h
    rcases s with ⟨_ | c, d⟩
    · simp only [List.cons_append, SatA] at h
      obtain ⟨e0, e1, rfl, h0, h1⟩ := ih h.2
      exact ⟨e0, e1, rfl, by simp only [SatA]; exact ⟨h.1, h0⟩, by simpa [kidsOf] using h1⟩
    · cases es with
      | nil => simp [SatA] at h
      | cons e es =>
        simp only [List.cons_append, SatA] at h
        obtain ⟨e0, e1, rfl, h0, h1⟩ := ih h.2.2
        refine ⟨e :: e0, e1, rfl, by simp only [SatA]; exact ⟨h.1, h.2.1, h0⟩, ?_⟩
        have : i + (kidsOf (⟨some c, d⟩ :: ss)).length = i + 1 + (kidsOf ss).length := by
          simp [kidsOf]; omega
        rw [this]; exact h1

theorem Sat_mono {S : Sig L K C} {T pre} {ok ok' : Nat → List (Option (IOp L)) → Prop} :
    ∀ {ss : List (Slot L)} {i es}, (∀ s ∈ ss, ∀ t, ok s.depth t → ok' s.depth t) →
    Sat S T pre ok i ss es → Sat S T pre ok' i ss es := by
  intro ss
  induction ss with
  | nil => intro i es _ h; cases es <;> simp_all [Sat]
  | cons s ss ih =>
    intro i es hm h
    have hm' : ∀ s ∈ ss, ∀ t, ok s.depth t → ok' s.depth t := fun s hs => hm s (List.mem_cons_of_mem _ hs)
    have h0 := hm _ List.mem_cons_self
    rcases s with ⟨_ | c, d⟩
    · simp only [Sat] at h ⊢
      obtain ⟨⟨t, ht, hi⟩, h2⟩ := h
      exact ⟨⟨t, h0 t ht, hi⟩, ih hm' h2⟩
    · cases es with
      | nil => simp [Sat] at h
      | cons e es =>
        simp only [Sat] at h ⊢
        obtain ⟨hm1, ⟨t, ht, hi⟩, h2⟩ := h
        exact ⟨hm1, ⟨t, h0 t ht, hi⟩, ih hm' h2⟩

theorem SatA_mono {S : Sig L K C} {T pre} {ok ok' : Nat → List (Option (IOp L)) → Prop} :
    ∀ {ss : List (Slot L)} {i es}, (∀ s ∈ ss, ∀ t, ok' s.depth t → ok s.depth t) →
    SatA S T pre ok i ss es → SatA S T pre ok' i ss es := by
  intro ss
  induction ss with
  | nil => intro i es _ h; cases es <;> simp_all [SatA]
  | cons s ss ih =>
    intro i es hm h
    have hm' : ∀ s ∈ ss, ∀ t, ok' s.depth t → ok s.depth t := fun s hs => hm s (List.mem_cons_of_mem _ hs)
    have h0 := hm _ List.mem_cons_self
    rcases s with ⟨_ | c, d⟩
    · simp only [SatA] at h ⊢
      exact ⟨fun t ht => h.1 t (h0 t ht), ih hm' h.2⟩
    · cases es with
      | nil => simp [SatA] at h
      | cons e es =>
        simp only [SatA] at h ⊢
        exact ⟨h.1, fun t ht => h.2.1 t (h0 t ht), ih hm' h.2.2⟩

theorem Fits_depth {isProd : L → Bool} {pat d op ns ss} (h : Fits isProd pat d op ns ss) :
    ns.length = pat.size ∧ ∀ s ∈ ss, d ≤ s.depth ∧ s.depth < d + pat.size := by
  induction h with
  | wild h => exact ⟨rfl, by intro s hs; simp at hs; subst hs; simp [Pat.size]⟩
  | cons h => exact ⟨rfl, by intro s hs; simp at hs; obtain ⟨c, _, rfl⟩ := hs; simp [Pat.size]⟩
  | leaf h => exact ⟨rfl, by intro s hs; simp at hs; subst hs; simp [Pat.size]⟩
  | one h hc hf ih =>
    refine ⟨by simp [Pat.size, ih.1]; omega, fun s hs => ?_⟩
    have := ih.2 s hs
    simp only [Pat.size]; omega
  | two h hc hf0 hf1 ih0 ih1 =>
    refine ⟨by simp [Pat.size, ih0.1, ih1.1]; omega, fun s hs => ?_⟩
    rcases List.mem_append.mp hs with hs | hs
    · have := ih0.2 s hs
      simp only [Pat.size]; omega
    · have := ih1.2 s hs
      have := ih0.1
      simp only [Pat.size]; omega

theorem mem_candidates {S : Sig L K C} {t : Table L K C} {c : IOp L} {k : K} {e : Entry L K C} :
    e ∈ candidates S t c k ↔ e ∈ t.getD c.id [] ∧ S.implied k e.cond = true := by
  simp [candidates, List.mem_filter]

theorem mem_extend {cl : List (List (Entry L K C))} {new x} :
    x ∈ extend cl new ↔ ∃ cs ∈ cl, ∃ n ∈ new, x = cs ++ [n] := by
  simp only [extend, List.mem_flatMap, List.mem_map]
  constructor
  · rintro ⟨cs, hcs, n, hn, rfl⟩; exact ⟨cs, hcs, n, hn, rfl⟩
  · rintro ⟨cs, hcs, n, hn, rfl⟩; exact ⟨cs, hcs, n, hn, rfl⟩

theorem mem_combine {cl ncl : List (List (Entry L K C))} {x} :
    x ∈ combine cl ncl ↔ ∃ cs ∈ cl, ∃ ns ∈ ncl, x = cs ++ ns := by
  simp only [combine, List.mem_flatMap, List.mem_map]
  constructor
  · rintro ⟨cs, hcs, n, hn, rfl⟩; exact ⟨cs, hcs, n, hn, rfl⟩
  · rintro ⟨cs, hcs, n, hn, rfl⟩; exact ⟨cs, hcs, n, hn, rfl⟩

theorem ne_nil_of_mem' {α : Type} {a : α} {l : List α} (h : a ∈ l) : l ≠ [] := by
  intro h'; rw [h'] at h; cases h

theorem extend_ne {cl : List (List (Entry L K C))} {n ns} (h : cl ≠ []) : extend cl (n :: ns) ≠ [] := by
  obtain ⟨c, cl', rfl⟩ := List.exists_cons_of_ne_nil h
  exact ne_nil_of_mem' (mem_extend.mpr ⟨c, List.mem_cons_self, n, List.mem_cons_self, rfl⟩)

/-- the loop over the children of a consumer: what it finds -/
theorem consLoop_sound {S : Sig L K C} {p : PhysOp L K C} {D : IOp L → Prop} {T : Table L K C} {st : St L K C}
    {base d : Nat} {ok} (hl : Look D T st.table) (hok : ok d st.nodes) :
    ∀ (cs : List (IOp L)) (i : Nat) (ncl r), (∀ c ∈ cs, D c) → ncl ≠ [] →
      consLoop S p st base i cs ncl = some r →
      r ≠ [] ∧ ∀ x ∈ r, ∃ y ∈ ncl, ∃ es, x = y ++ es ∧
        Sat S T p.pre ok (base + i) (cs.map (fun c => ⟨some c, d⟩)) es := by
  intro cs
  induction cs with
  | nil =>
    intro i ncl r hD hne h
    simp only [consLoop, Option.some.injEq] at h
    subst h
    exact ⟨hne, fun x hx => ⟨x, hx, [], by simp, by simp [Sat]⟩⟩
  | cons c cs ih =>
    intro i ncl r hD hne h
    unfold consLoop at h
    split at h
    · cases h
    · split at h
      · cases h
      · rename_i n ns hc
        have := ih (i + 1) (extend ncl (n :: ns)) r (fun c hc => hD c (List.mem_cons_of_mem _ hc)) (extend_ne hne) h
        refine ⟨this.1, fun x hx => ?_⟩
        obtain ⟨y, hy, es, rfl, hs⟩ := this.2 x hx
        obtain ⟨z, hz, e, he, rfl⟩ := mem_extend.mp hy
        refine ⟨z, hz, e :: es, by simp, ?_⟩
        simp only [List.map_cons, Sat]
        rw [← hc] at he
        have he' := mem_candidates.mp he
        rw [hl.2 c (hD c List.mem_cons_self)] at he'
        exact ⟨he'.1, ⟨st.nodes, hok, he'.2⟩, by simpa [Nat.add_assoc] using hs⟩

theorem consLoop_complete {S : Sig L K C} {p : PhysOp L K C} {D : IOp L → Prop} {T : Table L K C} {st : St L K C}
    {base d : Nat} {ok} (hl : Look D T st.table) (hok : ok d st.nodes) :
    ∀ (cs : List (IOp L)) (i : Nat) (ncl) (y) (es), (∀ c ∈ cs, D c) → y ∈ ncl →
      SatA S T p.pre ok (base + i) (cs.map (fun c => ⟨some c, d⟩)) es →
      ∃ r, consLoop S p st base i cs ncl = some r ∧ y ++ es ∈ r := by
  intro cs
  induction cs with
  | nil =>
    intro i ncl y es hD hy h
    cases es with
    | nil => exact ⟨ncl, rfl, by simpa using hy⟩
    | cons e es => simp [SatA] at h
  | cons c cs ih =>
    intro i ncl y es hD hy h
    cases es with
    | nil => simp [SatA] at h
    | cons e es =>
      simp only [List.map_cons, SatA] at h
      have hm : e ∈ candidates S st.table c (p.pre (base + i) st.nodes) := by
        rw [mem_candidates, hl.2 c (hD c List.mem_cons_self)]
        exact ⟨h.1, h.2.1 _ hok⟩
      have hlen : ¬ st.table.length ≤ c.id := by
        intro hle
        rw [mem_candidates] at hm
        rw [List.getD_eq_getElem?_getD, List.getElem?_eq_none hle] at hm
        simp at hm
      unfold consLoop
      rw [if_neg hlen]
      split
      · rename_i hc; rw [hc] at hm; cases hm
      · rename_i n ns hc
        rw [hc] at hm
        obtain ⟨r, hr, hmem⟩ := ih (i + 1) (extend ncl (n :: ns)) (y ++ [e]) es
          (fun c hc => hD c (List.mem_cons_of_mem _ hc)) (mem_extend.mpr ⟨y, hy, e, hm, rfl⟩)
          (by simpa [Nat.add_assoc] using h.2.2)
        exact ⟨r, hr, by simpa using hmem⟩

end

end Mutable.PhysOpt
