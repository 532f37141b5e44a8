import Verif.WasmBuffer.Run
import Mathlib.Data.List.Perm.Basic
import Mathlib.Data.List.Nodup
import Mathlib.Logic.Equiv.Basic
/-
C65: buffers of compiled queries pass on every row once, in order; swapping rows permutes them - and where finite buffers lose or
invent rows.
-/
namespace Mutable.WLayout

/-! ### Point stores and swaps -/

/-- **C65**: a point store writes the given row as the given tuple, and changes no bit outside this tuple. -/
theorem C65_point_store {c : Cfg} {lay : Kids} (hv : lay.Valid c.sch) (hsep : lay.Separated c.sch) (hents : c.EntsOK) (hnd : c.ents.Nodup)
    (h1 : c.lanes = 1) (hhas : ∀ i ∈ c.ents, lay.Has i) (hnb : c.needsNull = true → lay.Has c.sch.length) {row : Row} (hr : row.OK c)
    (m : Mem) (base t : Nat) :
    rowAt c.sch c.ents lay (storePoint c lay row base t m) base t = some (row.stored c) ∧
    ∀ a, ¬ lay.InTuple c.sch base t a → bitAt (storePoint c lay row base t m) a = bitAt m a := by
  have S := shyp_of hv hsep hents hnd h1 base
  obtain ⟨p1, p2⟩ := storePoint_ok (t := t) S (groups_nodup hv.once) hr.1 m
  exact ⟨row_of_posts hents hhas hnb hr.2 p1, p2⟩

/-- **C65**: swapping tuples `i` and `j` exchanges the two rows and changes no bit outside the two tuples; `i` and `j` may be equal. -/
theorem C65_swap {c : Cfg} {lay : Kids} (hv : lay.Valid c.sch) (hsep : lay.Separated c.sch) (hents : c.EntsOK) (hnd : c.ents.Nodup)
    (h1 : c.lanes = 1) (hhas : ∀ i ∈ c.ents, lay.Has i) (hnb : c.needsNull = true → lay.Has c.sch.length) (m : Mem) (base i j : Nat) :
    rowAt c.sch c.ents lay (swapRows c lay base i j m) base i = rowAt c.sch c.ents lay m base j ∧
    rowAt c.sch c.ents lay (swapRows c lay base i j m) base j = rowAt c.sch c.ents lay m base i ∧
    ∀ a, ¬ lay.InTuple c.sch base i a → ¬ lay.InTuple c.sch base j a → bitAt (swapRows c lay base i j m) a = bitAt m a := by
  have S := shyp_of hv hsep hents hnd h1 base
  obtain ⟨a1, a2, a3⟩ := loadRow_ok (base := base) hv hents h1 hhas m i
  obtain ⟨b1, b2, b3⟩ := loadRow_ok (base := base) hv hents h1 hhas m j
  obtain ⟨s1, s2⟩ := saveRow_ok a2 a3
  obtain ⟨p1, p2⟩ := C65_point_store hv hsep hents hnd h1 hhas hnb b2 m base i
  obtain ⟨q1, q2⟩ := C65_point_store hv hsep hents hnd h1 hhas hnb s1 (storePoint c lay (loadRow c lay m base j) base i m) base j
  refine ⟨?_, ?_, fun a ha hb => ?_⟩
  · by_cases hij : i = j
    · subst hij
      rw [a1, ← s2]
      exact q1
    · rw [b1, ← p1]
      exact rowAt_congr S.aligned S.ents (fun a ha => q2 a (inTuple_sep S hij ha))
  · rw [a1, ← s2]; exact q1
  · rw [← p2 a ha, ← q2 a hb]; rfl

/-- Exchanging two values of a function. -/
def exchange {α : Type} (f : Nat → α) (p : Nat × Nat) : Nat → α := fun t => if t = p.1 then f p.2 else if t = p.2 then f p.1 else f t

/-- **C65**: after any sequence of swaps the rows are exchanged accordingly. -/
theorem C65_swaps {c : Cfg} {lay : Kids} (hv : lay.Valid c.sch) (hsep : lay.Separated c.sch) (hents : c.EntsOK) (hnd : c.ents.Nodup)
    (h1 : c.lanes = 1) (hhas : ∀ i ∈ c.ents, lay.Has i) (hnb : c.needsNull = true → lay.Has c.sch.length) (base : Nat) :
    ∀ (l : List (Nat × Nat)) (m : Mem), rowAt c.sch c.ents lay (swapAll c lay base l m) base = l.foldl exchange (rowAt c.sch c.ents lay m base)
  | [], m => rfl
  | p :: l, m => by
    have S := shyp_of hv hsep hents hnd h1 base
    obtain ⟨q1, q2, q3⟩ := C65_swap hv hsep hents hnd h1 hhas hnb m base p.1 p.2
    have e : rowAt c.sch c.ents lay (swapRows c lay base p.1 p.2 m) base = exchange (rowAt c.sch c.ents lay m base) p := by
      funext t
      unfold exchange
      by_cases h : t = p.1
      · rw [if_pos h, h]; exact q1
      · rw [if_neg h]
        by_cases h' : t = p.2
        · rw [if_pos h', h']; exact q2
        · rw [if_neg h']
          exact rowAt_congr S.aligned S.ents (fun a ha => q3 a (inTuple_sep S h ha) (inTuple_sep S h' ha))
    have ih := C65_swaps hv hsep hents hnd h1 hhas hnb base l (swapRows c lay base p.1 p.2 m)
    rw [e] at ih
    exact ih

theorem exchange_perm {α : Type} (f : Nat → α) {p : Nat × Nat} {n : Nat} (h1 : p.1 < n) (h2 : p.2 < n) :
    ((List.range n).map (exchange f p)).Perm ((List.range n).map f) := by
  have e : exchange f p = f ∘ Equiv.swap p.1 p.2 := by
    funext t
    simp only [exchange, Function.comp_apply, Equiv.swap_apply_def]
    split
    · rfl
    · split <;> rfl
  rw [e, ← List.map_map]
  refine List.Perm.map f ((List.perm_ext_iff_of_nodup ?_ List.nodup_range).mpr (fun t => ?_))
  · exact List.Nodup.map (Equiv.swap p.1 p.2).injective List.nodup_range
  · simp only [List.mem_map, List.mem_range]
    constructor
    · rintro ⟨x, hx, rfl⟩
      rw [Equiv.swap_apply_def]
      split
      · exact h2
      · split
        · exact h1
        · exact hx
    · intro ht
      refine ⟨Equiv.swap p.1 p.2 t, ?_, Equiv.swap_apply_self _ _ _⟩
      rw [Equiv.swap_apply_def]
      split
      · exact h2
      · split
        · exact h1
        · exact ht

/-- **C65**: sorting in place (any sequence of swaps of tuples below `n`) loses and duplicates no row: the first `n` tuples are afterwards
a permutation of what they were. -/
theorem C65_swaps_permute {c : Cfg} {lay : Kids} (hv : lay.Valid c.sch) (hsep : lay.Separated c.sch) (hents : c.EntsOK) (hnd : c.ents.Nodup)
    (h1 : c.lanes = 1) (hhas : ∀ i ∈ c.ents, lay.Has i) (hnb : c.needsNull = true → lay.Has c.sch.length) (base n : Nat)
    (l : List (Nat × Nat)) (hl : ∀ p ∈ l, p.1 < n ∧ p.2 < n) (m : Mem) :
    (rows c lay (swapAll c lay base l m) base n).Perm (rows c lay m base n) := by
  unfold rows
  rw [C65_swaps hv hsep hents hnd h1 hhas hnb]
  generalize rowAt c.sch c.ents lay m base = f
  induction l generalizing f with
  | nil => exact List.Perm.refl _
  | cons p l ih => exact (ih (fun q hq => hl q (by simp [hq])) (exchange f p)).trans (exchange_perm f (hl p (by simp)).1 (hl p (by simp)).2)

/-! ### Infinite buffers -/

theorem le_align8 (a : Nat) : a ≤ align8 a := by unfold align8; omega

/-- **C65**: an infinite buffer passes on exactly the rows whose predicate is true, in the order they arrived, in one call, however many
rows there are and in however many executions of the producer they arrive; the assertion about contiguous memory never fails; and no bit
is changed outside the memory allocated for it. -/
theorem C65_infinite {b : Buf} (h : b.OK) (hfin : b.fin = none) (m : Mem) (alloc : Nat) (sessions : List (List (Row × Bool)))
    (hr : ∀ rs ∈ sessions, ∀ r ∈ rs, b.Accepts r) :
    let s := runBuffer b m alloc sessions
    s.out = [(committed sessions.flatten).map (fun r => some (r.stored b.ld))] ∧ s.ok = true ∧
    ∀ a, a < 8 * alloc ∨ 8 * s.alloc ≤ a → bitAt s.mem a = bitAt m a := by
  have I0 : InfG b m alloc [] (create b m alloc) := by
    unfold create
    rw [hfin]
    exact Or.inl ⟨rfl, rfl, rfl, rfl, rfl, rfl, rfl⟩
  have I := InfG.sessions h hfin sessions I0 hr
  rw [List.nil_append] at I
  unfold runBuffer
  generalize sessions.foldl (WLayout.session b) (create b m alloc) = s at I
  simp only [resume]
  rcases I with ⟨_, h2, h3, _, h5, h6, h7⟩ | ⟨_, _, h3, h4, J⟩
  · refine ⟨?_, h6, fun a _ => by rw [h5]⟩
    rw [h7, h3, h2]
    rfl
  · refine ⟨?_, J.ok, fun a ha => J.frame a ?_⟩
    · rw [J.out, h3, h4, scan_holds h J.holds]; rfl
    · have := le_align8 alloc
      omega

/-- **C65**: the same for a buffer local to a function; its memory is released again. -/
theorem C65_infinite_local {b : Buf} (h : b.OK) (hfin : b.fin = none) (m : Mem) (alloc : Nat) (rs : List (Row × Bool))
    (hr : ∀ r ∈ rs, b.Accepts r) :
    let s := runLocal b m alloc rs
    s.out = [(committed rs).map (fun r => some (r.stored b.ld))] ∧ s.ok = true ∧ s.alloc = align8 alloc ∧
    ∀ a, a < 8 * alloc → bitAt s.mem a = bitAt m a := by
  have I0 : InfG b m alloc [] (create b m alloc) := by
    unfold create
    rw [hfin]
    exact Or.inl ⟨rfl, rfl, rfl, rfl, rfl, rfl, rfl⟩
  have J := Inf.consumes h hfin rs (I0.setup h hfin) hr
  rw [List.nil_append] at J
  unfold runLocal
  generalize rs.foldl (WLayout.consume b) (WLayout.setup b (create b m alloc)) = s at J
  rw [hfin]
  simp only [resume]
  refine ⟨?_, J.ok, ?_, fun a ha => J.frame a (Or.inl (by have := le_align8 alloc; omega))⟩
  · rw [J.out, J.base_eq, J.tid, scan_holds h J.holds]; rfl
  · have h1 := J.alloc
    have h2 := J.base_eq
    refine (if_pos ?_).trans ?_
    · show s.base + s.cap / b.rows * b.bytes = s.alloc
      rw [h1, h2]
    · show s.alloc - s.cap / b.rows * b.bytes = align8 alloc
      rw [h1, Nat.add_sub_cancel]

/-! ### Finite buffers -/

theorem fin_create {b : Buf} {n : Nat} (hfin : b.fin = some n) (hn : 0 < n) (m : Mem) (alloc : Nat) :
    Fin b n m (align8 alloc) [] [] (WLayout.setup b (create b m alloc)) := by
  unfold WLayout.setup create
  rw [hfin]
  exact ⟨rfl, rfl, rfl, fun hx => absurd rfl hx, fun k row hk => by simp at hk, hn, rfl, fun _ _ => rfl, rfl, fun x hx => by simp at hx,
    Nat.zero_mod _⟩

/-- Batches of `n` elements and a rest. -/
def InBatches {α : Type} (n : Nat) (l : List α) (out : List (List α)) : Prop :=
  ∃ full rest, out = full ++ [rest] ∧ out.flatten = l ∧ (∀ x ∈ full, x.length = n) ∧ rest.length < n

/-- Batches are unique. -/
theorem InBatches.unique {α : Type} {n : Nat} {l : List α} {o o' : List (List α)} (h : InBatches n l o) (h' : InBatches n l o') : o = o' := by
  obtain ⟨f, r, rfl, e, hf, hr⟩ := h
  obtain ⟨f', r', rfl, e', hf', hr'⟩ := h'
  subst e
  induction f generalizing f' with
  | nil =>
    cases f' with
    | nil => simp at e'; rw [e']
    | cons x f' =>
      have := congrArg List.length e'
      simp only [List.cons_append, List.flatten_cons, List.length_append, List.nil_append, List.flatten_nil, List.length_nil,
        hf' x (by simp)] at this
      omega
  | cons y f ih =>
    cases f' with
    | nil =>
      have := congrArg List.length e'
      simp only [List.cons_append, List.flatten_cons, List.length_append, List.nil_append, List.flatten_nil, List.length_nil,
        hf y (by simp)] at this
      omega
    | cons x f' =>
      simp only [List.cons_append, List.flatten_cons] at e'
      have hxy := List.append_inj e' (by rw [hf y (by simp), hf' x (by simp)])
      rw [hxy.1]
      have := ih (fun z hz => hf z (by simp [hz])) f' (fun z hz => hf' z (by simp [hz])) hxy.2
      simp only [List.cons_append, List.cons.injEq, true_and]
      exact this

theorem Fin.batches {b : Buf} (h : b.OK) {n : Nat} {m0 : Mem} {base : Nat} {d l : List Row} {s : BSt} (I : Fin b n m0 base d l s) :
    InBatches n ((d ++ l).map (fun r => some (r.stored b.ld))) (resume b base l.length s).out := by
  refine ⟨s.out, l.map (fun r => some (r.stored b.ld)), ?_, ?_, I.full, by simpa using I.fits⟩
  · simp only [resume]
    rw [scan_holds h I.holds]
  · simp only [resume]
    rw [scan_holds h I.holds, List.flatten_append, I.out]
    simp

/-- **C65**: a finite buffer of `n` rows passes on exactly the rows whose predicate is true, in order, in batches of `n` rows and a last
smaller batch, and changes no bit outside the memory allocated for it - if no row with a false predicate arrives when one place is left
(see `C65_bug_finite_predicated`). -/
theorem C65_finite_partial {b : Buf} (h : b.OK) {n : Nat} (hfin : b.fin = some n) (hn : 0 < n) (m : Mem) (alloc : Nat) (rs : List (Row × Bool))
    (hr : ∀ r ∈ rs, b.Accepts r) (hno : NoRejectedLast n rs) :
    let s := runLocal b m alloc rs
    InBatches n ((committed rs).map (fun r => some (r.stored b.ld))) s.out ∧
    ∀ a, a < 8 * alloc ∨ 8 * s.alloc ≤ a → bitAt s.mem a = bitAt m a := by
  obtain ⟨d, l, e, I⟩ := Fin.consumes h hfin rs [] (fin_create hfin hn m alloc) (by simp [committed]) hr hno
  unfold runLocal
  generalize rs.foldl (WLayout.consume b) (WLayout.setup b (create b m alloc)) = s at I
  rw [hfin]
  simp only
  simp only [List.nil_append] at e
  refine ⟨?_, fun a ha => I.frame a ?_⟩
  · rw [← e, I.base_eq, I.tid]
    exact I.batches h
  · simp only [resume] at ha
    have := le_align8 alloc
    omega

/-- **C65**: in particular for every sequence of rows without predication. -/
theorem C65_finite_unpredicated {b : Buf} (h : b.OK) {n : Nat} (hfin : b.fin = some n) (hn : 0 < n) (hp : b.c.predicated = false) (m : Mem)
    (alloc : Nat) (rs : List (Row × Bool)) (hr : ∀ r ∈ rs, b.Accepts r) :
    InBatches n (rs.map (fun r => some (r.1.stored b.ld))) (runLocal b m alloc rs).out := by
  have ht : ∀ r ∈ rs, r.2 = true := fun r hx => (hr r hx).2 hp
  have := (C65_finite_partial h hfin hn m alloc rs hr (fun i r hi => by have := ht _ (List.mem_of_getElem? hi); simp at this)).1
  have e : committed rs = rs.map (·.1) := by
    unfold committed
    rw [List.filter_eq_self.mpr ht]
  rw [e, List.map_map] at this
  exact this

/-- **C65**: a finite buffer used by several executions of the producer behaves in the same way, if all of them but the last leave the
buffer empty (see `C65_bug_finite_second_session`). -/
theorem C65_finite_sessions_partial {b : Buf} (h : b.OK) {n : Nat} (hfin : b.fin = some n) (hn : 0 < n) (m : Mem) (alloc : Nat)
    (pre : List (List (Row × Bool))) (last : List (Row × Bool)) (hr : ∀ rs ∈ pre ++ [last], (∀ r ∈ rs, b.Accepts r) ∧ NoRejectedLast n rs)
    (hpre : ∀ rs ∈ pre, n ∣ (committed rs).length) :
    let s := runBuffer b m alloc (pre ++ [last])
    InBatches n ((committed (pre ++ [last]).flatten).map (fun r => some (r.stored b.ld))) s.out ∧
    ∀ a, a < 8 * alloc ∨ 8 * s.alloc ≤ a → bitAt s.mem a = bitAt m a := by
  have main : ∀ (pre : List (List (Row × Bool))) (d : List Row) (s : BSt), Fin b n m (align8 alloc) d [] (WLayout.setup b s) →
      (∀ rs ∈ pre ++ [last], (∀ r ∈ rs, b.Accepts r) ∧ NoRejectedLast n rs) → (∀ rs ∈ pre, n ∣ (committed rs).length) →
      ∃ d' l', d' ++ l' = d ++ committed (pre ++ [last]).flatten ∧
        Fin b n m (align8 alloc) d' l' ((pre ++ [last]).foldl (WLayout.session b) s) ∧
        ((pre ++ [last]).foldl (WLayout.session b) s).gSize = l'.length := by
    intro pre
    induction pre with
    | nil =>
      intro d s I hr _
      obtain ⟨d', l', e, J⟩ := Fin.consumes h hfin last [] I (by simp [committed]) (hr last (by simp)).1 (hr last (by simp)).2
      refine ⟨d', l', by simpa using e, ?_, J.tid⟩
      simp only [List.nil_append, List.foldl_cons, List.foldl_nil, WLayout.session, teardown]
      exact ⟨J.base_eq, J.base_eq, J.tid, J.vars, J.holds, J.fits, J.alloc, J.frame, J.out, J.full, J.count⟩
    | cons rs pre ih =>
      intro d s I hr hd
      obtain ⟨d1, l1, e, J⟩ := Fin.consumes h hfin rs [] I (by simp [committed]) (hr rs (by simp)).1 (hr rs (by simp)).2
      have hl1 : l1 = [] := by
        have a1 := congrArg List.length e
        simp only [List.append_nil, List.length_append] at a1
        have a2 := J.count
        have a3 := I.count
        have a4 := J.fits
        have a5 := Nat.mod_eq_zero_of_dvd (hd rs (by simp))
        have a6 : (d1.length + l1.length) % n = l1.length := by
          rw [Nat.add_mod, a2, Nat.zero_add, Nat.mod_mod, Nat.mod_eq_of_lt a4]
        rw [a1, Nat.add_mod, a3, a5] at a6
        exact List.eq_nil_of_length_eq_zero (by simpa using a6.symm)
      subst hl1
      have K : Fin b n m (align8 alloc) d1 [] (WLayout.setup b (WLayout.session b s rs)) := by
        unfold WLayout.session
        generalize rs.foldl (WLayout.consume b) (WLayout.setup b s) = s' at J
        unfold teardown WLayout.setup
        rw [hfin]
        exact ⟨J.base_eq, J.base_eq, J.tid, fun hx => absurd rfl hx, J.holds, J.fits, J.alloc, J.frame, J.out, J.full, J.count⟩
      obtain ⟨d', l', e', F, hg⟩ := ih d1 _ K (fun x hx => hr x (by simp only [List.cons_append, List.mem_cons]; exact Or.inr hx))
        (fun x hx => hd x (by simp [hx]))
      refine ⟨d', l', ?_, F, hg⟩
      rw [List.append_nil, List.append_nil] at e
      rw [e', e, List.cons_append, List.flatten_cons, committed_append, List.append_assoc]
  obtain ⟨d, l, e, F, hg⟩ := main pre [] (create b m alloc) (fin_create hfin hn m alloc) hr hpre
  unfold runBuffer
  generalize (pre ++ [last]).foldl (WLayout.session b) (create b m alloc) = s at F hg
  simp only
  refine ⟨?_, fun a ha => F.frame a ?_⟩
  · rw [← List.nil_append (committed _), ← e, F.gBase, hg]
    exact F.batches h
  · simp only [resume] at ha
    have := le_align8 alloc
    omega

/-! ### The layouts of the factories -/

/-- **C65**: what is assumed of buffers is true of all buffers with a row or PAX layout of storable types. -/
theorem C65_factory {ats : List (Layout.Ty × Bool)} {hn : Bool} {L : Layout.Layout} (hv : ∀ a ∈ ats, a.1.Valid)
    (hs : ∀ a ∈ ats, Storable a.1) (h : FactoryLayout ats hn L) {b : Buf} (hsch : b.c.sch = schemaOf ats) (hlay : b.lay = toKids L)
    (hrows : b.rows = L.rows) (hbytes : b.bytes = (L.blockStride + 7) / 8) (hents : b.c.EntsOK)
    (hnd : b.c.ents.Nodup) (h1 : b.c.lanes = 1) (hnb : b.c.needsNull = true → hn = true)
    (hl1 : b.ld.sch = b.c.sch) (hl2 : ∀ i ∈ b.ld.ents, i ∈ b.c.ents) (hl3 : b.ld.lanes = 1) (hl4 : b.ld.predicated = false) : b.OK := by
  have F := h.fits hv hs
  have hlen : b.c.sch.length = ats.length := by rw [hsch]; simp [schemaOf]
  refine ⟨by rw [hsch, hlay]; exact F.valid, by rw [hsch, hlay]; exact F.separated hs, hents, hnd, h1, fun i hi => ?_, fun hb => ?_,
    by rw [hrows]; exact F.good.rows, fun t i a ha => ?_, hl1, hl2, hl3, hl4⟩
  · rw [hlay]; exact F.has (Or.inl (by rw [← hlen]; exact hents i hi))
  · rw [hlay]; exact F.has (Or.inr ⟨hnb hb, hlen⟩)
  · rw [hlay] at ha
    have := mem_of_lookup ha
    rw [toKids_addrs] at this
    obtain ⟨f, hf, e⟩ := List.mem_map.mp this
    obtain ⟨rfl, rfl⟩ := Prod.mk.inj e
    rw [hsch, leaf_width hs F hf, hrows, hbytes, Nat.zero_add]
    have h3 := (F.good.in_block hf t).2
    have h4 := F.bytes
    have h5 : L.blockStride = 8 * ((L.blockStride + 7) / 8) := by omega
    rw [h5] at h3
    calc _ ≤ (t / L.rows + 1) * (8 * ((L.blockStride + 7) / 8)) := h3
      _ = _ := by ring

/-! ### Concrete buffers -/

/-- An infinite and a finite buffer over the layout of the previous claims' examples, with predication. -/
def exBuf (fin : Option Nat) : Buf := ⟨exCfg, { exCfg with predicated := false, ents := [2, 0] }, exLay, 24, 256, fin⟩

theorem exBuf_ok (fin : Option Nat) : (exBuf fin).OK := by
  have e1 : exCfg.EntsOK := by unfold Cfg.EntsOK; decide
  have e2 : exCfg.ents.Nodup := by decide
  have e3 : ∀ i ∈ exCfg.ents, exLay.Has i := by unfold Kids.Has; decide +kernel
  have e4 : exLay.Has exCfg.sch.length := by unfold Kids.Has; decide +kernel
  have e5 : ∀ i ∈ [2, 0], i ∈ exCfg.ents := by decide
  refine ⟨exLay_valid, exLay_sep, e1, e2, rfl, e3, fun _ => e4, Nat.succ_pos 23, ?_, rfl, e5, rfl, rfl⟩
  intro t i a ha
  obtain ⟨p, q, e1, l1, A⟩ := exLay_addr ha
  have hd : t / 24 = p / 2 := by omega
  show a + width exSch i ≤ 8 * ((t / 24 + 1) * 256)
  rw [hd]
  rcases A with ⟨_, w, e⟩ | ⟨_, w, e⟩ | ⟨_, w, e⟩ | ⟨_, w, e⟩ <;> rw [w, e] <;> omega

theorem exRows_accepted (fin : Option Nat) : ∀ r ∈ exRows, (exBuf fin).Accepts r := by
  intro r hr
  obtain ⟨k, _, rfl⟩ := List.mem_map.mp hr
  exact ⟨exRow_ok _ _ _ _ _, fun h => by cases h⟩

/-- Two executions with 40 rows each, every third rejected, through an infinite buffer that has to grow twice. -/
example (m : Mem) : (runBuffer (exBuf none) m 100 [exRows, exRows]).out =
    [(committed (exRows ++ exRows)).map (fun r => some (r.stored (exBuf none).ld))] := by
  have := (C65_infinite (exBuf_ok none) rfl m 100 [exRows, exRows]
    (by intro rs hrs; simp only [List.mem_cons, List.not_mem_nil, or_false, or_self] at hrs; subst hrs; exact exRows_accepted _)).1
  rw [this]
  simp

example : (committed (exRows ++ exRows)).length = 52 := by decide +kernel

/-- Rows 1 and 30 of a buffer are exchanged. -/
example (m : Mem) : rowAt exSch [0, 1, 2] exLay (swapRows exCfg exLay 7 1 30 m) 7 1 = rowAt exSch [0, 1, 2] exLay m 7 30 :=
  (C65_swap (c := exCfg) exLay_valid exLay_sep (by unfold Cfg.EntsOK; decide) (by decide) rfl (by unfold Kids.Has; decide +kernel)
    (fun _ => by unfold Kids.Has; decide +kernel) m 7 1 30).1

/-! ### What goes wrong -/

/-- One attribute of one byte, one row per block. -/
def tinyCfg (pred : Bool) : Cfg := ⟨[⟨.num 1, false⟩], [0], true, true, 1, pred⟩
def tinyBuf (pred : Bool) (n : Nat) : Buf := ⟨tinyCfg pred, tinyCfg false, .inode 1 0 8 (.leaf 0 0 0 .nil) .nil, 1, 1, some n⟩
def tinyRow (x : Byte) : Row := ⟨fun _ => .num [x], fun _ => false⟩

theorem tinyLay_addr {t i a : Nat} (h : ((tinyBuf false 0).lay.addrs 0 t).lookup i = some a) : i = 0 ∧ a = 8 * t := by
  have := mem_of_lookup h
  simp [tinyBuf, Kids.addrs] at this
  omega

theorem tinyBuf_ok (pred : Bool) (n : Nat) : (tinyBuf pred n).OK := by
  refine ⟨⟨by simp [tinyBuf, tinyCfg, Kids.WF], rfl, by simp [Kids.Once, tinyBuf, Kids.addrs]⟩, ?_, by simp [Cfg.EntsOK, tinyBuf, tinyCfg],
    by simp [tinyBuf, tinyCfg], rfl, by simp [Kids.Has, tinyBuf, tinyCfg, Kids.addrs],
    fun h => by simp [Cfg.needsNull, Cfg.nullable, tinyBuf, tinyCfg] at h, Nat.succ_pos 0, ?_, rfl, fun i hi => hi, rfl, rfl⟩
  · intro i j t u a b h1 h2 hne
    obtain ⟨rfl, rfl⟩ := tinyLay_addr h1
    obtain ⟨rfl, rfl⟩ := tinyLay_addr h2
    have w : width (tinyBuf pred n).c.sch 0 = 8 := rfl
    rw [w]
    have : t ≠ u := hne.resolve_left (fun hh => hh rfl)
    omega
  · intro t i a h1
    obtain ⟨rfl, rfl⟩ := tinyLay_addr h1
    have w : width (tinyBuf pred n).c.sch 0 = 8 := rfl
    rw [w]
    show 8 * t + 8 ≤ 8 * ((t / 1 + 1) * 1)
    omega

theorem tinyRow_ok (pred : Bool) (n : Nat) (x : Byte) (p : Bool) (h : pred = false → p = true) : (tinyBuf pred n).Accepts (tinyRow x, p) := by
  refine ⟨⟨fun i hi => ?_, fun i _ hh => by cases hh⟩, h⟩
  have : i = 0 := by simpa [tinyBuf, tinyCfg] using hi
  subst this
  rfl

/-- A value as the pipeline gets it. -/
def tinyOut (x : Byte) : Option (List (Option Cell)) := some [some (.num [x])]

/-- The finite buffer works within one execution of the producer: five rows in batches of two. -/
example : (runLocal (tinyBuf false 2) (fun _ => 0) 64 [(tinyRow 1, true), (tinyRow 2, true), (tinyRow 3, true), (tinyRow 4, true), (tinyRow 5, true)]).out =
    [[tinyOut 1, tinyOut 2], [tinyOut 3, tinyOut 4], [tinyOut 5]] := by decide +kernel

/-- **C65** does not hold in general.  The producer of a finite buffer is executed a second time while the buffer is not empty (e.g. it
consists of a pipeline that is resumed repeatedly by another finite buffer): `inits` is executed only if the size is 0, so the pointers of
the new execution are still 0.  The rows are written to the beginning of the memory, and stale memory is delivered in their place. -/
theorem C65_bug_finite_second_session : ∃ (b : Buf) (n : Nat) (m : Mem) (sessions : List (List (Row × Bool))), b.OK ∧ b.fin = some n ∧ 0 < n ∧
    b.c.predicated = false ∧ (∀ rs ∈ sessions, ∀ r ∈ rs, b.Accepts r) ∧
    sessions = [[(tinyRow 1, true)], [(tinyRow 2, true)]] ∧
    (runBuffer b m 64 sessions).out = [[tinyOut 1, tinyOut 0], []] ∧
    m 0 = 0 ∧ (runBuffer b m 64 sessions).mem 0 = 2 := by
  refine ⟨tinyBuf false 2, 2, fun _ => 0, [[(tinyRow 1, true)], [(tinyRow 2, true)]], tinyBuf_ok _ _, rfl, by omega, rfl, ?_, rfl, ?_, rfl, ?_⟩
  · intro rs hrs r hr
    simp only [List.mem_cons, List.not_mem_nil, or_false] at hrs
    rcases hrs with rfl | rfl
    all_goals
      simp only [List.mem_cons, List.not_mem_nil, or_false] at hr
      subst hr
      exact tinyRow_ok _ _ _ _ (fun _ => rfl)
  · decide +kernel
  · decide +kernel

/-- **C65** does not hold in general.  With predication, a row whose predicate is false is delivered if it arrives when one place of a
finite buffer is left: the buffer counts it as stored. -/
theorem C65_bug_finite_predicated : ∃ (b : Buf) (n : Nat) (m : Mem) (rs : List (Row × Bool)), b.OK ∧ b.fin = some n ∧ 0 < n ∧
    b.c.predicated = true ∧ (∀ r ∈ rs, b.Accepts r) ∧ rs = [(tinyRow 1, true), (tinyRow 2, false), (tinyRow 3, true)] ∧
    (runLocal b m 64 rs).out = [[tinyOut 1, tinyOut 2], [tinyOut 3]] := by
  refine ⟨tinyBuf true 2, 2, fun _ => 0, [(tinyRow 1, true), (tinyRow 2, false), (tinyRow 3, true)], tinyBuf_ok _ _, rfl, by omega, rfl, ?_, rfl, ?_⟩
  · intro r hr
    simp only [List.mem_cons, List.not_mem_nil, or_false] at hr
    rcases hr with rfl | rfl | rfl <;> exact tinyRow_ok _ _ _ _ (fun h => by cases h)
  · decide +kernel

/-- With predication and without rejected rows at the last place, the hypotheses of `C65_finite_partial` can be met. -/
example : NoRejectedLast 3 [(tinyRow 1, true), (tinyRow 9, false), (tinyRow 2, true), (tinyRow 3, true), (tinyRow 8, false)] := by
  intro i r hi
  rcases i with _ | _ | _ | _ | _ | i
  · simp at hi
  · decide
  · simp at hi
  · simp at hi
  · decide
  · simp at hi

end Mutable.WLayout
