import Verif.WasmBuffer.Point
/-
Buffers: one row at a time.
-/
namespace Mutable.WLayout

/-- What is assumed of a buffer: its layout is one that can be built, has the entries to be stored and loaded, entries do not overlap,
and the tuples of a block are within the block. -/
structure Buf.OK (b : Buf) : Prop where
  valid : b.lay.Valid b.c.sch
  sep : b.lay.Separated b.c.sch
  ents : b.c.EntsOK
  nodup : b.c.ents.Nodup
  lanes : b.c.lanes = 1
  has : ∀ i ∈ b.c.ents, b.lay.Has i
  hasNull : b.c.needsNull = true → b.lay.Has b.c.sch.length
  rows : 0 < b.rows
  block : ∀ t i a, (b.lay.addrs 0 t).lookup i = some a → a + width b.c.sch i ≤ 8 * ((t / b.rows + 1) * b.bytes)
  ldSch : b.ld.sch = b.c.sch
  ldEnts : ∀ i ∈ b.ld.ents, i ∈ b.c.ents
  ldLanes : b.ld.lanes = 1
  ldPred : b.ld.predicated = false

/-- What is assumed of the rows: well-typed, and only NULL where allowed; without predication all predicates are true. -/
def Buf.Accepts (b : Buf) (r : Row × Bool) : Prop := r.1.OK b.c ∧ (b.c.predicated = false → r.2 = true)

theorem Buf.OK.shyp {b : Buf} (h : b.OK) (base : Nat) : SHyp b.c b.lay base := shyp_of h.valid h.sep h.ents h.nodup h.lanes base

theorem mapM_inv {α β : Type} {f : α → Option β} {g : α → β} : ∀ {l : List α}, l.mapM f = some (l.map g) → ∀ x ∈ l, f x = some (g x)
  | [], _, x, hx => by simp at hx
  | y :: ys, h, x, hx => by
    rw [List.mapM_cons] at h
    cases hy : f y with
    | none => rw [hy] at h; cases h
    | some z =>
      rw [hy] at h
      cases hys : ys.mapM f with
      | none => rw [hys] at h; cases h
      | some zs =>
        rw [hys] at h
        have h : some (z :: zs) = some (g y :: ys.map g) := h
        simp only [Option.some.injEq, List.cons.injEq] at h
        rcases List.mem_cons.mp hx with rfl | hx
        · rw [hy, h.1]
        · exact mapM_inv (by rw [hys, h.2]) x hx

theorem rowAt_sub {b : Buf} (h : b.OK) {m : Mem} {base t : Nat} {row : Row}
    (hr : rowAt b.c.sch b.c.ents b.lay m base t = some (row.stored b.c)) :
    rowAt b.ld.sch b.ld.ents b.lay m base t = some (row.stored b.ld) := by
  unfold rowAt Row.stored at *
  have := mapM_inv hr
  rw [h.ldSch]
  refine mapM_some (fun i hi => ?_)
  rw [this i (h.ldEnts i hi)]
  have : b.ld.ty i = b.c.ty i := by unfold Cfg.ty; rw [h.ldSch]
  rw [this]

/-- The first `n` tuples of the buffer's memory are the rows `l`. -/
def Holds (b : Buf) (m : Mem) (base : Nat) (l : List Row) : Prop :=
  ∀ (k : Nat) (row : Row), l[k]? = some row → rowAt b.c.sch b.c.ents b.lay m base k = some (row.stored b.c)

theorem scan_holds {b : Buf} (h : b.OK) {m : Mem} {base : Nat} {l : List Row} (hl : Holds b m base l) :
    scan b.ld b.lay m base l.length = l.map (fun r => some (r.stored b.ld)) := by
  have hents : b.ld.EntsOK := fun i hi => by rw [h.ldSch]; exact h.ents i (h.ldEnts i hi)
  rw [C64_scalar_scan (by rw [h.ldSch]; exact h.valid) hents h.ldLanes h.ldPred]
  unfold WLayout.rows
  apply List.ext_getElem (by simp)
  intro k h1 h2
  have hk : k < l.length := by simpa using h1
  simp only [List.getElem_map, List.getElem_range]
  exact rowAt_sub h (hl k l[k] (List.getElem?_eq_getElem hk))

/-- Storing a row as tuple `t`, before the jumps. -/
theorem store_ok {b : Buf} (h : b.OK) {base t0 t : Nat} {ss : List GSt} {r : Row × Bool} (hr : b.Accepts r)
    (hs : SInv b.c base t0 t 0 b.lay.groups ss) (m : Mem) :
    let w := storeGroups b.c r.2 r.1 ss m
    SInv b.c base t0 t (if r.2 then 1 else 0) b.lay.groups w.1 ∧
    (r.2 = true → rowAt b.c.sch b.c.ents b.lay w.2 base t = some (r.1.stored b.c)) ∧
    ∀ a, ¬ b.lay.InTuple b.c.sch base t a → bitAt w.2 a = bitAt m a := by
  have S := h.shyp base
  obtain ⟨q1, q2⟩ := storeGroups_ok (row := r.1) (p := r.2) S hr.1.1 b.lay.groups ss m S.groups (groups_nodup h.valid.once) hs
  refine ⟨q1, fun hp => ?_, fun a ha => q2.2 a ?_⟩
  · refine row_of_posts h.ents h.has h.hasNull hr.1.2 (fun i ⟨g, hg, f, hf, e, hn⟩ => ?_)
    subst e
    have := q2.1 f.idx (hs.compl g hg f hf hn)
    rw [hp] at this
    rw [hp]
    exact this
  · rintro ⟨i, _, hf⟩
    exact ha ((foot_iff S.ents).mp ⟨i, foot_mono S.ents hf⟩)

/-- The jumps after a store. -/
theorem jumps_ok {b : Buf} (h : b.OK) {base t0 t : Nat} {ss : List GSt} {r : Row × Bool} (hr : b.Accepts r)
    (hs : SInv b.c base t0 t (if r.2 then 1 else 0) b.lay.groups ss) :
    (jumps b.c r.2 ⟨t, ss⟩).tid = t + (if r.2 then 1 else 0) ∧
    SInv b.c base t0 (t + (if r.2 then 1 else 0)) 0 b.lay.groups (jumps b.c r.2 ⟨t, ss⟩).gs := by
  have S := h.shyp base
  obtain ⟨row, p⟩ := r
  unfold jumps
  simp only at hs ⊢
  cases p with
  | true =>
    have et : t + (if b.c.predicated = true then (if (true : Bool) = true then 1 else 0) else b.c.lanes) = t + 1 := by rw [S.lanes]; simp
    rw [et]
    have st := SInv.step (c := b.c) (t := t) (by rw [S.lanes]; omega) (fun _ => S.lanes) (by rw [S.lanes]; exact one_dvd t) S.groups hs
    rw [S.lanes] at st
    exact ⟨rfl, st⟩
  | false =>
    have hpt : b.c.predicated = true := by
      cases h : b.c.predicated with
      | true => rfl
      | false => have := hr.2 h; simp at this
    have et : t + (if b.c.predicated = true then (if (false : Bool) = true then 1 else 0) else b.c.lanes) = t := by rw [hpt]; simp
    rw [et]
    exact ⟨rfl, SInv.stay (c := b.c) hpt S.groups hs⟩

theorem Holds.store {b : Buf} (h : b.OK) {m m' : Mem} {base : Nat} {l : List Row} (hl : Holds b m base l) {r : Row × Bool}
    (hrow : r.2 = true → rowAt b.c.sch b.c.ents b.lay m' base l.length = some (r.1.stored b.c))
    (hfr : ∀ a, ¬ b.lay.InTuple b.c.sch base l.length a → bitAt m' a = bitAt m a) :
    Holds b m' base (l ++ committed [r]) := by
  have S := h.shyp base
  intro k row hk
  by_cases hkl : k < l.length
  · rw [List.getElem?_append_left hkl] at hk
    rw [rowAt_congr S.aligned S.ents (fun a ha => hfr a (inTuple_sep S (by omega) ha))]
    exact hl k row hk
  · obtain ⟨r, p⟩ := r
    cases p with
    | true =>
      rw [List.getElem?_append_right (by omega)] at hk
      have e0 : committed [(r, true)] = [r] := rfl
      rw [e0] at hk
      have hk0 : k - l.length = 0 := by
        by_contra hne
        rw [List.getElem?_eq_none (by simp; omega)] at hk
        cases hk
      rw [hk0] at hk
      simp only [List.getElem?_cons_zero, Option.some.injEq] at hk
      subst hk
      have : k = l.length := by omega
      subst this
      exact hrow rfl
    | false =>
      have e0 : committed [(r, false)] = [] := rfl
      rw [e0, List.append_nil, List.getElem?_eq_none (by omega)] at hk
      cases hk

theorem committed_append (l l' : List (Row × Bool)) : committed (l ++ l') = committed l ++ committed l' := by
  simp [committed]

theorem committed_one_length (r : Row × Bool) : (committed [r]).length = if r.2 then 1 else 0 := by
  obtain ⟨r, p⟩ := r
  cases p <;> rfl

/-- The bits of a tuple are in its block. -/
theorem Buf.OK.inBlock {b : Buf} (h : b.OK) {base t a : Nat} (ha : b.lay.InTuple b.c.sch base t a) :
    8 * base ≤ a ∧ a < 8 * (base + (t / b.rows + 1) * b.bytes) := by
  obtain ⟨i, x, hx, h1, h2⟩ := ha
  rw [lookup_base] at hx
  cases hl : (b.lay.addrs 0 t).lookup i with
  | none => rw [hl] at hx; simp at hx
  | some y =>
    rw [hl] at hx
    simp only [Option.map_some, Option.some.injEq] at hx
    have := h.block t i y hl
    generalize (t / b.rows + 1) * b.bytes = z at this ⊢
    omega

/-! ### Infinite buffers -/

/-- The state of an infinite buffer that holds the rows `l`. -/
structure Inf (b : Buf) (m0 : Mem) (base : Nat) (l : List Row) (s : BSt) : Prop where
  base_eq : s.base = base
  tid : s.st.tid = l.length
  vars : s.first = false → ∃ t0, SInv b.c base t0 l.length 0 b.lay.groups s.st.gs
  holds : Holds b s.mem base l
  cap : ∃ j, s.cap = b.rows * 2 ^ j
  fits : l.length ≤ s.cap
  alloc : s.alloc = base + s.cap / b.rows * b.bytes
  ok : s.ok = true
  frame : ∀ a, a < 8 * base ∨ 8 * s.alloc ≤ a → bitAt s.mem a = bitAt m0 a
  out : s.out = []

theorem Inf.grow {b : Buf} (h : b.OK) {m0 : Mem} {base : Nat} {l : List Row} {s : BSt} (I : Inf b m0 base l s) :
    Inf b m0 base l (grow b s) ∧ l.length < (grow b s).cap := by
  unfold WLayout.grow
  by_cases hc : s.st.tid = s.cap
  · rw [if_pos hc]
    obtain ⟨j, hj⟩ := I.cap
    have e1 : s.cap / b.rows = 2 ^ j := by rw [hj, Nat.mul_div_cancel_left _ h.rows]
    have e2 : s.cap * 2 / b.rows = 2 ^ j * 2 := by rw [hj, Nat.mul_assoc, Nat.mul_div_cancel_left _ h.rows]
    have hpos : 0 < s.cap := by rw [hj]; exact Nat.mul_pos h.rows (Nat.pow_pos (by omega))
    have htid := I.tid
    refine ⟨⟨I.base_eq, I.tid, I.vars, I.holds, ⟨j + 1, ?_⟩, ?_, ?_, ?_, fun a ha => I.frame a ?_, I.out⟩, ?_⟩
    · simp only; rw [hj, Nat.pow_succ, Nat.mul_assoc]
    · simp only; omega
    · simp only; rw [e2, I.alloc, e1, Nat.mul_assoc, Nat.mul_comm 2, ← Nat.mul_assoc]; omega
    · simp only; rw [I.ok, I.alloc, I.base_eq]; simp
    · simp only at ha
      omega
    · simp only; omega
  · rw [if_neg hc]
    have := I.fits
    have := I.tid
    exact ⟨I, by omega⟩

theorem Inf.consume {b : Buf} (h : b.OK) (hfin : b.fin = none) {m0 : Mem} {base : Nat} {l : List Row} {s : BSt} (I : Inf b m0 base l s)
    {r : Row × Bool} (hr : b.Accepts r) : Inf b m0 base (l ++ committed [r]) (consume b s r) := by
  obtain ⟨G, hlt⟩ := I.grow h
  unfold WLayout.consume
  rw [hfin]
  simp only
  generalize WLayout.grow b s = s at G hlt
  have S := h.shyp base
  have hst : ∃ t0 gs, (if s.first = true then init b.c b.lay (s.base : Nat) s.st.tid else s.st) = ⟨l.length, gs⟩ ∧
      SInv b.c base t0 l.length 0 b.lay.groups gs := by
    by_cases hf : s.first = true
    · rw [if_pos hf, G.base_eq, G.tid]
      exact ⟨l.length, _, rfl, SInv.init S.groups⟩
    · rw [if_neg hf]
      obtain ⟨t0, ht⟩ := G.vars (by simpa using hf)
      exact ⟨t0, s.st.gs, by rw [← G.tid], ht⟩
  obtain ⟨t0, gs, e, hs⟩ := hst
  rw [e]
  obtain ⟨q1, q2, q3⟩ := store_ok h hr hs s.mem
  obtain ⟨j1, j2⟩ := jumps_ok h hr q1
  simp only [storeStep]
  have hlen : (l ++ committed [r]).length = l.length + (if r.2 then 1 else 0) := by rw [List.length_append, committed_one_length]
  refine ⟨G.base_eq, by rw [hlen]; exact j1, fun _ => ⟨t0, by rw [hlen]; exact j2⟩, G.holds.store h q2 q3, G.cap, ?_, G.alloc, G.ok,
    fun a ha => ?_, G.out⟩
  · rw [hlen]; simp only; split <;> omega
  · simp only at ha ⊢
    rw [q3 a (fun hin => ?_), G.frame a ha]
    have hb := h.inBlock hin
    obtain ⟨j, hj⟩ := G.cap
    have e1 : s.cap / b.rows = 2 ^ j := by rw [hj, Nat.mul_div_cancel_left _ h.rows]
    have h1 : l.length / b.rows < 2 ^ j := by rw [Nat.div_lt_iff_lt_mul h.rows, Nat.mul_comm]; omega
    have h2 : (l.length / b.rows + 1) * b.bytes ≤ 2 ^ j * b.bytes := Nat.mul_le_mul_right _ h1
    have h3 := G.alloc
    rw [e1] at h3
    omega

theorem Inf.consumes {b : Buf} (h : b.OK) (hfin : b.fin = none) {m0 : Mem} {base : Nat} : ∀ (rs : List (Row × Bool)) {l : List Row} {s : BSt},
    Inf b m0 base l s → (∀ r ∈ rs, b.Accepts r) → Inf b m0 base (l ++ committed rs) (rs.foldl (WLayout.consume b) s)
  | [], l, s, I, _ => by simpa [committed] using I
  | r :: rs, l, s, I, hr => by
    have := Inf.consumes h hfin rs (I.consume h hfin (hr r (by simp))) (fun x hx => hr x (by simp [hx]))
    rw [List.append_assoc, ← committed_append] at this
    exact this

/-- Between two sessions. -/
def InfG (b : Buf) (m0 : Mem) (alloc0 : Nat) (l : List Row) (s : BSt) : Prop :=
  (s.gCap = 0 ∧ l = [] ∧ s.gSize = 0 ∧ s.alloc = alloc0 ∧ s.mem = m0 ∧ s.ok = true ∧ s.out = []) ∨
    (s.gCap ≠ 0 ∧ s.gCap = s.cap ∧ s.gBase = align8 alloc0 ∧ s.gSize = l.length ∧ Inf b m0 (align8 alloc0) l s)

theorem InfG.setup {b : Buf} (h : b.OK) (hfin : b.fin = none) {m0 : Mem} {alloc0 : Nat} {l : List Row} {s : BSt} (I : InfG b m0 alloc0 l s) :
    Inf b m0 (align8 alloc0) l (setup b s) := by
  unfold WLayout.setup
  rw [hfin]
  simp only
  rcases I with ⟨h1, rfl, h3, h4, h5, h6, h7⟩ | ⟨h1, h2, h3, h4, J⟩
  · rw [if_pos h1]
    refine ⟨by rw [← h4], h3, fun hf => (by cases hf), fun k row hk => (by simp at hk), ⟨0, by simp⟩, by simp, ?_, h6, fun a _ => (by rw [h5]), h7⟩
    simp only [h4]
    rw [Nat.div_self h.rows, Nat.one_mul]
  · rw [if_neg h1]
    refine ⟨h3, h4, fun hf => (by cases hf), J.holds, by simp only; rw [h2]; exact J.cap, by simp only; rw [h2]; exact J.fits, by simp only; rw [h2]; exact J.alloc,
      J.ok, J.frame, J.out⟩

theorem InfG.session {b : Buf} (h : b.OK) (hfin : b.fin = none) {m0 : Mem} {alloc0 : Nat} {l : List Row} {s : BSt} (I : InfG b m0 alloc0 l s)
    {rs : List (Row × Bool)} (hr : ∀ r ∈ rs, b.Accepts r) : InfG b m0 alloc0 (l ++ committed rs) (session b s rs) := by
  have J := Inf.consumes h hfin rs (I.setup h hfin) hr
  unfold WLayout.session
  generalize rs.foldl (WLayout.consume b) (WLayout.setup b s) = s' at J
  unfold teardown
  obtain ⟨j, hj⟩ := J.cap
  have hpos : 0 < s'.cap := by rw [hj]; exact Nat.mul_pos h.rows (Nat.pow_pos (by omega))
  exact Or.inr ⟨by simp only; omega, rfl, J.base_eq, J.tid, ⟨J.base_eq, J.tid, J.vars, J.holds, J.cap, J.fits, J.alloc, J.ok, J.frame, J.out⟩⟩

theorem InfG.sessions {b : Buf} (h : b.OK) (hfin : b.fin = none) {m0 : Mem} {alloc0 : Nat} : ∀ (ss : List (List (Row × Bool))) {l : List Row}
    {s : BSt}, InfG b m0 alloc0 l s → (∀ rs ∈ ss, ∀ r ∈ rs, b.Accepts r) →
    InfG b m0 alloc0 (l ++ committed ss.flatten) (ss.foldl (WLayout.session b) s)
  | [], l, s, I, _ => by simpa [committed] using I
  | rs :: ss, l, s, I, hr => by
    have := InfG.sessions h hfin ss (I.session h hfin (hr rs (by simp))) (fun x hx => hr x (by simp [hx]))
    rw [List.append_assoc, ← committed_append] at this
    rw [List.flatten_cons]
    exact this

/-! ### Finite buffers -/

/-- A row whose predicate is false never arrives when only one place is left. -/
def NoRejectedLast (n : Nat) (rs : List (Row × Bool)) : Prop :=
  ∀ (i : Nat) (r : Row), rs[i]? = some (r, false) → (committed (rs.take i)).length % n ≠ n - 1

/-- The state of a finite buffer that holds the rows `l` after having passed on the rows `d`. -/
structure Fin (b : Buf) (n : Nat) (m0 : Mem) (base : Nat) (d l : List Row) (s : BSt) : Prop where
  base_eq : s.base = base
  gBase : s.gBase = base
  tid : s.st.tid = l.length
  vars : l ≠ [] → ∃ t0, SInv b.c base t0 l.length 0 b.lay.groups s.st.gs
  holds : Holds b s.mem base l
  fits : l.length < n
  alloc : s.alloc = base + b.finBytes n
  frame : ∀ a, a < 8 * base ∨ 8 * s.alloc ≤ a → bitAt s.mem a = bitAt m0 a
  out : s.out.flatten = d.map (fun r => some (r.stored b.ld))
  full : ∀ x ∈ s.out, x.length = n
  count : d.length % n = 0

theorem Fin.consume {b : Buf} (h : b.OK) {n : Nat} (hfin : b.fin = some n) {m0 : Mem} {base : Nat} {d l : List Row} {s : BSt}
    (I : Fin b n m0 base d l s) {r : Row × Bool} (hr : b.Accepts r) (hp : r.2 = false → l.length ≠ n - 1) :
    ∃ d' l', d' ++ l' = d ++ l ++ committed [r] ∧ Fin b n m0 base d' l' (consume b s r) := by
  unfold WLayout.consume
  rw [hfin]
  simp only
  have S := h.shyp base
  have hst : ∃ t0 gs, (if s.st.tid = 0 then init b.c b.lay (s.base : Nat) 0 else s.st) = ⟨l.length, gs⟩ ∧
      SInv b.c base t0 l.length 0 b.lay.groups gs := by
    by_cases hf : s.st.tid = 0
    · rw [if_pos hf, I.base_eq, ← I.tid, hf]
      exact ⟨0, _, rfl, SInv.init S.groups⟩
    · rw [if_neg hf]
      obtain ⟨t0, ht⟩ := I.vars (by rintro rfl; exact hf I.tid)
      exact ⟨t0, s.st.gs, by rw [← I.tid], ht⟩
  obtain ⟨t0, gs, e, hs⟩ := hst
  rw [e]
  obtain ⟨q1, q2, q3⟩ := store_ok h hr hs s.mem
  have hH := I.holds.store h q2 q3
  have hfr : ∀ a, a < 8 * base ∨ 8 * s.alloc ≤ a → bitAt (storeGroups b.c r.2 r.1 gs s.mem).2 a = bitAt m0 a := by
    intro a ha
    rw [q3 a (fun hin => ?_), I.frame a ha]
    have hb := h.inBlock hin
    have h1 : l.length / b.rows + 1 ≤ (n + b.rows - 1) / b.rows := by
      rw [← Nat.add_div_right _ h.rows]
      exact Nat.div_le_div_right (by have := I.fits; omega)
    have h2 := Nat.mul_le_mul_right b.bytes h1
    have h3 := I.alloc
    unfold Buf.finBytes at h3
    omega
  have hlen : (l ++ committed [r]).length = l.length + (if r.2 then 1 else 0) := by rw [List.length_append, committed_one_length]
  rw [h.lanes]
  by_cases hlast : l.length = n - 1
  · rw [if_pos hlast]
    have hp' : r.2 = true := by
      cases hq : r.2 with
      | true => rfl
      | false => exact absurd hlast (hp hq)
    rw [hp', if_pos rfl] at hlen
    have hn : (l ++ committed [r]).length = n := by have := I.fits; omega
    refine ⟨d ++ (l ++ committed [r]), [], by simp, ?_⟩
    have hscan := scan_holds h hH
    rw [hn] at hscan
    refine ⟨I.base_eq, I.gBase, rfl, fun hx => absurd rfl hx, fun k row hk => by simp at hk, by have := I.fits; simp; omega, I.alloc, hfr, ?_, ?_, ?_⟩
    · simp only [resume]
      rw [List.flatten_append, I.out, I.base_eq, List.map_append, hscan]
      simp
    · intro x hx
      simp only [resume, List.mem_append, List.mem_singleton] at hx
      rcases hx with hx | rfl
      · exact I.full x hx
      · rw [I.base_eq, hscan, List.length_map, hn]
    · rw [List.length_append, hn, Nat.add_mod_right]; exact I.count
  · rw [if_neg hlast]
    obtain ⟨j1, j2⟩ := jumps_ok h hr q1
    refine ⟨d, l ++ committed [r], by simp, I.base_eq, I.gBase, by rw [hlen]; exact j1, fun _ => ⟨t0, by rw [hlen]; exact j2⟩, hH, ?_, I.alloc,
      hfr, I.out, I.full, I.count⟩
    have := I.fits
    rw [hlen]
    split <;> omega

theorem Fin.consumes {b : Buf} (h : b.OK) {n : Nat} (hfin : b.fin = some n) {m0 : Mem} {base : Nat} : ∀ (rs pre : List (Row × Bool)) {d l : List Row}
    {s : BSt}, Fin b n m0 base d l s → l.length = (committed pre).length % n → (∀ r ∈ rs, b.Accepts r) → NoRejectedLast n (pre ++ rs) →
    ∃ d' l', d' ++ l' = d ++ l ++ committed rs ∧ Fin b n m0 base d' l' (rs.foldl (WLayout.consume b) s)
  | [], pre, d, l, s, I, _, _, _ => ⟨d, l, by simp [committed], I⟩
  | r :: rs, pre, d, l, s, I, hpre, hr, hno => by
    have hp : r.2 = false → l.length ≠ n - 1 := by
      intro hq
      have := hno pre.length r.1 (by simp [← hq])
      rw [List.take_left] at this
      rw [hpre]
      exact this
    obtain ⟨d1, l1, e1, J⟩ := I.consume h hfin (hr r (by simp)) hp
    have hl1 : l1.length = (committed (pre ++ [r])).length % n := by
      have a1 := congrArg List.length e1
      simp only [List.length_append] at a1
      have a2 := J.count
      have a3 := I.count
      have a4 := J.fits
      rw [committed_append, List.length_append]
      have a5 : (d1.length + l1.length) % n = l1.length := by
        rw [Nat.add_mod, a2, Nat.zero_add, Nat.mod_mod, Nat.mod_eq_of_lt a4]
      rw [← a5, a1, Nat.add_assoc, Nat.add_mod, a3, Nat.zero_add, Nat.mod_mod, hpre, Nat.mod_add_mod]
    obtain ⟨d2, l2, e2, K⟩ := Fin.consumes h hfin rs (pre ++ [r]) J hl1 (fun x hx => hr x (by simp [hx])) (by simpa using hno)
    refine ⟨d2, l2, ?_, K⟩
    have ec : committed (r :: rs) = committed [r] ++ committed rs := committed_append [r] rs
    rw [e2, e1, ec]; simp only [List.append_assoc]

end Mutable.WLayout
