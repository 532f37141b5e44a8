import Verif.ListAlloc.Inv
/-! Every operation of `list_allocator` preserves the invariant. -/
namespace Mutable.ListAlloc

def Covers (cs : List Chunk) (a : Nat) : Prop := ∃ c ∈ cs, c.addr ≤ a ∧ a < c.fin

theorem inv_sorted {F0 st live l} (I : Inv F0 st live l) : l.Pairwise fun c d => c.fin ≤ d.addr := tiled_pairwise I.tiled

theorem wf_pos {pg c} (w : Wf pg c) : c.addr < c.fin := by have := w.big; unfold Chunk.fin; omega

/-- Replacing some consecutive chunks by others that cover the same memory. -/
theorem inv_replace {F0 st live xs cs ys} (I : Inv F0 st live (xs ++ (cs ++ ys))) {st' : St} {live'} {cs' : List Chunk}
    (hpg : st'.pg = st.pg) (hmap : st'.mapped = st.mapped)
    (hcov : ∀ a, Covers cs' a ↔ Covers cs a)
    (hwf : ∀ c ∈ cs', Wf st.pg c) (htl : Tiled st.pg cs' ys.head?) (h1 : cs ≠ []) (h2 : cs' ≠ [])
    (hd : ∀ x ∈ xs.getLast?, Link st.pg x cs.head? → Link st.pg x cs'.head?)
    (hd0 : ∀ c ∈ cs.head?, ∀ c' ∈ cs'.head?, c'.mark = c.mark)
    (hfr : ∀ b, ¬ Covers cs b → st'.mem b = st.mem b)
    (hmem : ∀ c ∈ cs', MemOK st'.mem c)
    (hfree : st'.free = freeOf xs ++ (freeOf cs' ++ freeOf ys))
    (hlive : live'.Perm (liveOf xs ++ (liveOf cs' ++ liveOf ys))) :
    Inv F0 st' live' (xs ++ (cs' ++ ys)) := by
  obtain ⟨c, cs, rfl⟩ := List.exists_cons_of_ne_nil h1
  obtain ⟨c', cs', rfl⟩ := List.exists_cons_of_ne_nil h2
  have T := tiled_append.1 I.tiled
  have T2 := tiled_append.1 T.2
  have pw := inv_sorted I
  rw [List.pairwise_append, List.pairwise_append] at pw
  have cov : ∀ a, Covers (xs ++ ((c' :: cs') ++ ys)) a ↔ Covers (xs ++ ((c :: cs) ++ ys)) a := by
    intro a
    have := hcov a
    simp only [Covers, List.mem_append, or_and_right, exists_or] at *
    rw [this]
  constructor
  · rw [hpg]; exact I.pgpos
  · intro d hd
    rw [hpg]
    simp only [List.mem_append] at hd
    rcases hd with hd | hd | hd
    · exact I.wf d (by simp [hd])
    · exact hwf d hd
    · exact I.wf d (by simp [hd])
  · rw [hpg, tiled_append, tiled_append]
    refine ⟨?_, by simpa using htl, T2.2⟩
    refine tiled_mono ?_ T.1
    simpa using hd
  · intro d hd'
    cases xs with
    | nil =>
      simp only [List.nil_append, List.cons_append, List.head?_cons, Option.mem_def, Option.some.injEq] at hd'
      subst hd'
      rw [hd0 c (by simp) c' (by simp)]
      exact I.headMark c (by simp)
    | cons x xs => exact I.headMark d (by simpa using hd')
  · intro d hd'
    simp only [List.mem_append] at hd'
    rcases hd' with hd' | hd' | hd'
    · have w := I.wf d (by simp [hd'])
      have := I.mem d (by simp [hd'])
      rw [memOK_iff] at this ⊢
      rw [hfr, this]
      rintro ⟨e, he, he'⟩
      have h3 := pw.2.2 d hd' e (List.mem_append_left _ he)
      have := wordAddr_in w
      omega
    · exact hmem d hd'
    · have w := I.wf d (by simp [hd'])
      have := I.mem d (by simp [hd'])
      rw [memOK_iff] at this ⊢
      rw [hfr, this]
      rintro ⟨e, he, he'⟩
      have h3 := pw.2.1.2.2 e he d hd'
      have := wordAddr_in w
      omega
  · rw [hfree, freeOf_append, freeOf_append]
  · rw [liveOf_append, liveOf_append]; exact hlive
  · rw [hmap, I.mapped]
    congr 1
    ext a
    exact (cov a).symm
  · intro a ha d hd' hc
    obtain ⟨e, he, he'⟩ := (cov a).1 ⟨d, hd', hc⟩
    exact I.foreign a ha e he he'

/-- Old contents of the other chunks in use are untouched. -/
def Frame (st st' : St) (l : List Chunk) (skip : Nat) : Prop :=
  ∀ c ∈ l, c.use ≠ none → c.addr ≠ skip → ∀ b, c.addr ≤ b → b < c.fin → st'.mem b = st.mem b

theorem findFit_spec {mem : Nat → Word} {size al} {fs : List Nat} (h : ∀ a ∈ fs, 16 ≤ (mem (a + 8)).size) :
    findFit mem size al fs = some none ∨ ∃ p, findFit mem size al fs = some (some p) ∧ fs = p.before ++ p.cur :: p.after ∧
      size + 8 ≤ (mem (p.cur + 8)).size ∧ ¬ unaligned p.cur al := by
  induction fs with
  | nil => exact Or.inl rfl
  | cons a t ih =>
    have ha := h a (by simp)
    unfold findFit
    rw [if_neg (by omega)]
    by_cases hc : (mem (a + 8)).size - 8 < size ∨ unaligned a al
    · rw [if_pos hc]
      rcases ih (fun b hb => h b (by simp [hb])) with e | ⟨p, e, h1, h2, h3⟩
      · simp [e]
      · right
        exact ⟨{ p with before := a :: p.before }, by simp [e], by simp [h1], h2, h3⟩
    · rw [if_neg hc]
      push Not at hc
      exact Or.inr ⟨_, rfl, by simp, by simp only; omega, hc.2⟩

theorem take_spec {F0 st live l} (I : Inv F0 st live l) {p : Pos} {size : Nat} (hp : st.free = p.before ++ p.cur :: p.after)
    (h0 : 0 < size) (hs : size + 8 ≤ (st.mem (p.cur + 8)).size) :
    ∃ st' l', take st p size = some (st', p.cur) ∧ Inv F0 st' ((p.cur, size) :: live) l' ∧ Frame st st' l 0 ∧
      st'.mapped = st.mapped ∧ st'.pg = st.pg := by
  obtain ⟨pb, h, pa⟩ := p
  simp only at hp hs ⊢
  obtain ⟨xs, c, ys, rfl, hcu, rfl, rfl, rfl⟩ := freeOf_split (I.free ▸ hp)
  have w := I.wf c (by simp)
  have hm := I.mem c (by simp)
  simp only [MemOK, hcu] at hm
  rw [hm] at hs
  simp only at hs
  have hb := w.bound
  have hal := w.al
  have hal' := w.al'
  have hbig := w.big
  have T := (tiled_append.1 I.tiled)
  have Tc := T.2.1
  rw [Option.or_none] at Tc
  have Txs := T.1
  simp only [List.head?_cons, Option.some_or] at Txs
  have pw := inv_sorted I
  rw [List.pairwise_append, List.pairwise_cons] at pw
  have hszAddr : sizeAddr c.addr size = c.addr + ceilMul size 8 := by
    have e : add64 c.addr size = c.addr + size := Nat.mod_eq_of_lt (by unfold Chunk.fin at hb; omega)
    rw [sizeAddr, e, ceil8_add hal]
  have hc1 : size ≤ ceilMul size 8 := le_ceilMul (by omega)
  have hc2 : ceilMul size 8 + 8 ≤ c.size := by unfold ceilMul; omega
  have hc3 : ceilMul size 8 % 8 = 0 := by unfold ceilMul; omega
  unfold Chunk.fin at hb
  have ea : add64 size 8 = size + 8 := Nat.mod_eq_of_lt (by omega)
  have eb : add64 (add64 16 size) 8 = size + 24 := by
    have : add64 16 size = 16 + size := Nat.mod_eq_of_lt (by omega)
    rw [this]
    unfold add64
    rw [Nat.mod_eq_of_lt (by omega)]
    omega
  -- the frame condition, for writes inside `c`
  have frame : ∀ st' : St, (∀ b, ¬ Covers [c] b → st'.mem b = st.mem b) → Frame st st' (xs ++ c :: ys) 0 := by
    intro st' hfr d hd hdu _ b h1 h2
    apply hfr
    rintro ⟨e, he, he'⟩
    simp only [List.mem_singleton] at he
    subst he
    simp only [List.mem_append, List.mem_cons] at hd
    rcases hd with hd | rfl | hd
    · have := pw.2.2 d hd e (by simp); omega
    · exact hdu hcu
    · have := pw.2.1.1 d hd; omega
  have I' : Inv F0 st live (xs ++ ([c] ++ ys)) := by simpa using I
  by_cases hsp : add64 (add64 16 size) 8 ≤ c.size ∧ mul64 size 2 ≤ c.size - 8
  · -- split
    have hsp1 : size + 24 ≤ c.size := by rw [← eb]; exact hsp.1
    have hsp2 : ceilMul size 8 + 24 ≤ c.size := by unfold ceilMul; omega
    have ef : ceilMul (max (add64 size 8) 16) 8 = ceilMul size 8 + 8 := by
      rw [ea]; unfold ceilMul; omega
    have esplit : split st.mem ⟨freeOf xs, c.addr, freeOf ys⟩ size =
        some (setW (setW st.mem (c.addr + 8) ⟨ceilMul size 8 + 8, c.mark⟩) (c.addr + (ceilMul size 8 + 8) + 8)
          ⟨c.size - (ceilMul size 8 + 8), false⟩,
          ⟨freeOf xs, c.addr, (c.addr + (ceilMul size 8 + 8)) :: freeOf ys⟩) := by
      unfold split
      simp only [hm, ef]
      rw [if_neg (by omega), if_neg (by omega)]
    set mem2 := setW (setW st.mem (c.addr + 8) ⟨ceilMul size 8 + 8, c.mark⟩) (c.addr + (ceilMul size 8 + 8) + 8)
          ⟨c.size - (ceilMul size 8 + 8), false⟩ with hmem2
    have m2 : mem2 (c.addr + 8) = ⟨ceilMul size 8 + 8, c.mark⟩ := by
      have : c.addr + 8 ≠ c.addr + (ceilMul size 8 + 8) + 8 := by omega
      simp only [hmem2, setW, if_neg this, if_pos]
    set c1 : Chunk := ⟨c.addr, ceilMul size 8 + 8, c.mark, some size⟩ with hc1d
    set c2 : Chunk := ⟨c.addr + (ceilMul size 8 + 8), c.size - (ceilMul size 8 + 8), false, none⟩ with hc2d
    have f2 : c2.fin = c.fin := by simp only [c2, Chunk.fin]; omega
    have w1 : Wf st.pg c1 := ⟨w.nz, hal, by simp only [c1]; omega, by simp only [c1]; omega, by
      simp only [c1, Chunk.fin]; omega, w.mrk, by
      simp only [c1, Option.some.injEq]; rintro s rfl; omega⟩
    have w2 : Wf st.pg c2 := ⟨by simp only [c2]; omega, by simp only [c2]; omega, by simp only [c2]; omega, by simp only [c2]; omega, by
      rw [f2]; exact w.bound, by simp [c2], by simp [c2]⟩
    set st' : St := { st with free := freeOf xs ++ c2.addr :: freeOf ys, mem := setW mem2 (sizeAddr c.addr size) (mem2 (c.addr + 8)) } with hst'
    have fr : ∀ b, ¬ Covers [c] b → st'.mem b = st.mem b := by
      intro b hb'
      have hb2 : ¬ (c.addr ≤ b ∧ b < c.fin) := fun h => hb' ⟨c, by simp, h⟩
      unfold Chunk.fin at hb2
      simp only [st', mem2, setW, hszAddr]
      rw [if_neg (by omega), if_neg (by omega), if_neg (by omega)]
    refine ⟨st', xs ++ ([c1, c2] ++ ys), ?_, ?_, frame st' fr, rfl, rfl⟩
    · unfold take
      simp only [hm]
      rw [if_neg (by omega), if_pos hsp, esplit]
      simp only [m2]
      rw [if_neg (by omega)]
      simp only [st', m2]
      rfl
    · refine inv_replace I' rfl rfl ?_ ?_ ?_ (by simp) (by simp) ?_ ?_ fr ?_ ?_ ?_
      · intro a
        simp only [Covers, List.mem_cons, List.not_mem_nil, or_false, exists_eq_or_imp, exists_eq_left, c1, c2, Chunk.fin]
        omega
      · intro d hd
        simp only [List.mem_cons, List.not_mem_nil, or_false] at hd
        rcases hd with rfl | rfl
        · exact w1
        · exact w2
      · refine ⟨?_, ?_, trivial⟩
        · simp only [List.head?_cons, Option.some_or]
          exact ⟨le_of_eq rfl, fun _ => rfl, by simp [c2], by simp [c1]⟩
        · simp only [List.head?_nil, Option.none_or]
          cases hy : ys.head? with
          | none => rw [hy] at Tc; unfold Link at Tc ⊢; rw [f2]; exact Tc
          | some d =>
            rw [hy] at Tc
            exact ⟨by rw [f2]; exact Tc.1, by rw [f2]; exact Tc.2.1, by rw [f2]; exact Tc.2.2.1, fun _ => Tc.2.2.2 hcu⟩
      · intro x _ hx
        simp only [List.head?_cons] at hx ⊢
        exact ⟨hx.1, hx.2.1, hx.2.2.1, by simp [c1]⟩
      · intro d hd e he
        simp only [List.head?_cons, Option.mem_def, Option.some.injEq] at hd he
        subst hd he; rfl
      · intro d hd
        simp only [List.mem_cons, List.not_mem_nil, or_false] at hd
        rcases hd with rfl | rfl
        · simp [MemOK, c1, st', setW, m2]
        · refine memOK_set w2 ?_ (Or.inl ?_)
          · simp only [MemOK, c2, mem2, setW, if_pos]
          · rw [hszAddr]; simp only [c2]; omega
      · rw [freeOf_cons_used (s := size) rfl, freeOf_cons_free rfl]; rfl
      · rw [liveOf_cons_used (s := size) rfl, liveOf_cons_free rfl]
        refine ((List.Perm.cons _ I.live).trans ?_)
        rw [liveOf_append, liveOf_cons_free hcu]
        exact List.perm_middle.symm
  · -- no split
    set c1 : Chunk := ⟨c.addr, c.size, c.mark, some size⟩ with hc1d
    have w1 : Wf st.pg c1 := ⟨w.nz, hal, hal', hbig, w.bound, w.mrk, by
      simp only [c1, Option.some.injEq]; rintro s rfl; omega⟩
    set st' : St := { st with free := freeOf xs ++ freeOf ys, mem := setW st.mem (sizeAddr c.addr size) (st.mem (c.addr + 8)) } with hst'
    have fr : ∀ b, ¬ Covers [c] b → st'.mem b = st.mem b := by
      intro b hb'
      have hb2 : ¬ (c.addr ≤ b ∧ b < c.fin) := fun h => hb' ⟨c, by simp, h⟩
      unfold Chunk.fin at hb2
      simp only [st', setW, hszAddr]
      rw [if_neg (by omega)]
    refine ⟨st', xs ++ ([c1] ++ ys), ?_, ?_, frame st' fr, rfl, rfl⟩
    · unfold take
      simp only [hm]
      rw [if_neg (by omega), if_neg hsp]
      simp only [hm]
      rw [if_neg (by omega)]
      simp only [st', hm]
    · refine inv_replace I' rfl rfl ?_ ?_ ?_ (by simp) (by simp) ?_ ?_ fr ?_ ?_ ?_
      · intro a
        simp [Covers, c1, Chunk.fin]
      · intro d hd
        simp only [List.mem_cons, List.not_mem_nil, or_false] at hd
        subst hd; exact w1
      · refine ⟨?_, trivial⟩
        simp only [List.head?_nil, Option.none_or]
        cases hy : ys.head? with
        | none => rw [hy] at Tc; exact Tc
        | some d => rw [hy] at Tc; exact ⟨Tc.1, Tc.2.1, Tc.2.2.1, by simp [c1]⟩
      · intro x _ hx
        simp only [List.head?_cons] at hx ⊢
        exact ⟨hx.1, hx.2.1, hx.2.2.1, by simp [c1]⟩
      · intro d hd e he
        simp only [List.head?_cons, Option.mem_def, Option.some.injEq] at hd he
        subst hd he; rfl
      · intro d hd
        simp only [List.mem_cons, List.not_mem_nil, or_false] at hd
        subst hd
        simp [MemOK, c1, st', setW, hm]
      · rw [freeOf_cons_used (s := size) rfl]; rfl
      · rw [liveOf_cons_used (s := size) rfl]
        refine ((List.Perm.cons _ I.live).trans ?_)
        rw [liveOf_append, liveOf_cons_free hcu]
        exact List.perm_middle.symm

/-! ### Deallocation -/

theorem freeOf_cons_inv {ys : List Chunk} {d ds} (h : freeOf ys = d :: ds) : ∃ e ∈ ys, e.use = none ∧ e.addr = d := by
  obtain ⟨xs, c, zs, rfl, h1, h2, -⟩ := freeOf_split (b := []) h
  exact ⟨c, by simp, h1, h2⟩

/-- `coalesce` of a chunk with memory that starts elsewhere does nothing. -/
theorem coalesce_far {mem : Nat → Word} {cur : Nat} {ds : List Nat} (h : ∀ d ∈ ds.head?, cur + (mem (cur + 8)).size ≠ d) :
    coalesce mem cur ds = (mem, ds) := by
  cases ds with
  | nil => rfl
  | cons d ds =>
    have := h d (by simp)
    simp only [coalesce]
    split
    · rfl
    · simp [this]

theorem coalesce_marked {mem : Nat → Word} {cur d : Nat} {ds : List Nat} (h : (mem (d + 8)).marked = true) :
    coalesce mem cur (d :: ds) = (mem, d :: ds) := by
  simp [coalesce, h]

theorem coalesce_near {mem : Nat → Word} {cur d : Nat} {ds : List Nat} (h : (mem (d + 8)).marked = false)
    (e : cur + (mem (cur + 8)).size = d) :
    coalesce mem cur (d :: ds) =
      (setW mem (cur + 8) ⟨(mem (cur + 8)).size + (mem (d + 8)).size, (mem (cur + 8)).marked⟩, ds) := by
  simp [coalesce, h, e]

theorem dealloc_spec {F0 st live l} (I : Inv F0 st live l) {p s : Nat} (hp : (p, s) ∈ live) :
    ∃ l', Inv F0 (deallocate st p s) (live.erase (p, s)) l' ∧ Frame st (deallocate st p s) l p ∧
      (deallocate st p s).mapped = st.mapped ∧ (deallocate st p s).pg = st.pg := by
  obtain ⟨c, hcl, hcu, rfl⟩ := mem_liveOf.1 (I.live.mem_iff.1 hp)
  obtain ⟨xs, ys, rfl⟩ := List.append_of_mem hcl
  have w := I.wf c (by simp)
  have hm := I.mem c (by simp)
  simp only [MemOK, hcu] at hm
  have T := (tiled_append.1 I.tiled)
  have Tc := T.2.1
  rw [Option.or_none] at Tc
  have Txs := T.1
  simp only [List.head?_cons, Option.some_or] at Txs
  have pw := inv_sorted I
  rw [List.pairwise_append, List.pairwise_cons] at pw
  obtain ⟨pwx, ⟨pwc, pwy⟩, pwxy⟩ := pw
  have pwxc : ∀ x ∈ xs, x.fin ≤ c.addr := fun x hx => pwxy x hx c (by simp)
  have hbig := w.big
  have hlive : (live.erase (c.addr, s)).Perm (liveOf xs ++ liveOf ys) := by
    have := I.live.erase (c.addr, s)
    rw [liveOf_append, liveOf_cons_used hcu] at this
    refine this.trans ?_
    have h2 : (liveOf xs ++ (c.addr, s) :: liveOf ys).Perm ((c.addr, s) :: (liveOf xs ++ liveOf ys)) := List.perm_middle
    simpa using h2.erase (c.addr, s)
  -- position in the free list
  have hfree : st.free = freeOf xs ++ freeOf ys := by
    rw [I.free, freeOf_append, freeOf_cons_used hcu]
  have hsp := takeWhile_split (p := fun h => decide (h + 8 < c.addr)) (xs := freeOf xs) (ys := freeOf ys) (by
      intro a ha
      obtain ⟨x, hx, -, rfl⟩ := mem_freeOf.1 ha
      have h1 := pwxc x hx
      have h2 := (I.wf x (by simp [hx])).big
      unfold Chunk.fin at h1
      simp; omega) (by
      intro a ha
      obtain ⟨x, hx, -, rfl⟩ := mem_freeOf.1 ha
      have h1 := pwc x hx
      unfold Chunk.fin at h1
      simp; omega)
  have hins : insertSorted st.mem st.free c.addr ⟨c.size, c.mark⟩ =
      (setW st.mem (c.addr + 8) ⟨c.size, c.mark⟩, ⟨freeOf xs, c.addr, freeOf ys⟩) := by
    unfold insertSorted
    rw [hfree, hsp.1, hsp.2]
  set mem1 := setW st.mem (c.addr + 8) ⟨c.size, c.mark⟩ with hmem1
  have m1c : mem1 (c.addr + 8) = ⟨c.size, c.mark⟩ := by simp [hmem1, setW]
  have ok1 : ∀ d ∈ xs ++ ys, MemOK mem1 d := by
    intro d hd
    rcases List.mem_append.1 hd with hd | hd
    · refine memOK_set (I.wf d (by simp [hd])) (I.mem d (by simp [hd])) (Or.inr ?_)
      have := pwxc d hd; omega
    · refine memOK_set (I.wf d (by simp [hd])) (I.mem d (by simp [hd])) (Or.inl ?_)
      have := pwc d hd; unfold Chunk.fin at this; omega
  -- phase 1
  have ph1 : ∃ (m : Chunk) (cs ys1 : List Chunk) (mem2 : Nat → Word), c :: ys = c :: cs ++ ys1 ∧
      m.addr = c.addr ∧ m.mark = c.mark ∧ m.use = none ∧ coalesce mem1 c.addr (freeOf ys) = (mem2, freeOf ys1) ∧
      mem2 (m.addr + 8) = ⟨m.size, m.mark⟩ ∧ (∀ a, Covers [m] a ↔ Covers (c :: cs) a) ∧ Link st.pg m ys1.head? ∧
      Wf st.pg m ∧ liveOf cs = [] ∧ (∀ b, b ≠ c.addr + 8 → mem2 b = st.mem b) ∧ liveOf ys1 = liveOf ys ∧
      (∀ d ∈ cs, d.use = none) ∧ c.fin ≤ m.fin := by
    have wm : Wf st.pg { c with use := none } := ⟨w.nz, w.al, w.al', w.big, w.bound, w.mrk, by simp⟩
    have nochange : coalesce mem1 c.addr (freeOf ys) = (mem1, freeOf ys) →
        (∀ d ∈ ys.head?, d.use = none → d.mark = true) → ∃ (m : Chunk) (cs ys1 : List Chunk) (mem2 : Nat → Word), c :: ys = c :: cs ++ ys1 ∧
      m.addr = c.addr ∧ m.mark = c.mark ∧ m.use = none ∧ coalesce mem1 c.addr (freeOf ys) = (mem2, freeOf ys1) ∧
      mem2 (m.addr + 8) = ⟨m.size, m.mark⟩ ∧ (∀ a, Covers [m] a ↔ Covers (c :: cs) a) ∧ Link st.pg m ys1.head? ∧
      Wf st.pg m ∧ liveOf cs = [] ∧ (∀ b, b ≠ c.addr + 8 → mem2 b = st.mem b) ∧ liveOf ys1 = liveOf ys ∧
      (∀ d ∈ cs, d.use = none) ∧ c.fin ≤ m.fin := by
      intro e hd
      refine ⟨{ c with use := none }, [], ys, mem1, rfl, rfl, rfl, rfl, e, m1c, ?_, ?_, wm, rfl, ?_, rfl, by simp, le_rfl⟩
      · intro a; simp [Covers, Chunk.fin]
      · cases hy : ys.head? with
        | none => rw [hy] at Tc; exact Tc
        | some d => rw [hy] at Tc; exact ⟨Tc.1, Tc.2.1, Tc.2.2.1, fun _ h => hd d hy h⟩
      · intro b hb; simp [hmem1, setW, hb]
    cases ys with
    | nil => exact nochange rfl (by simp)
    | cons d ys =>
      have wd := I.wf d (by simp)
      have okd := ok1 d (by simp)
      have Ld : Link st.pg c (some d) := by simpa using Tc
      cases hdu : d.use with
      | none =>
        simp only [MemOK, hdu] at okd
        cases hdm : d.mark with
        | true =>
          refine nochange ?_ (by simp [hdm])
          rw [freeOf_cons_free hdu]
          exact coalesce_marked (by rw [okd]; exact hdm)
        | false =>
          have hfin := Ld.2.1 hdm
          have Td := T.2.2.1
          rw [Option.or_none] at Td
          set m : Chunk := ⟨c.addr, c.size + d.size, c.mark, none⟩ with hmd
          have fm : m.fin = d.fin := by simp only [m, Chunk.fin] at *; omega
          refine ⟨m, [d], ys, setW mem1 (c.addr + 8) ⟨c.size + d.size, c.mark⟩, rfl, rfl, rfl, rfl, ?_, ?_, ?_, ?_, ?_, ?_, ?_, ?_, ?_, ?_⟩
          · rw [freeOf_cons_free hdu, coalesce_near (by rw [okd]; exact hdm) (by rw [m1c]; exact hfin), m1c, okd]
          · simp [m, setW]
          · intro a
            simp only [Covers, List.mem_cons, List.not_mem_nil, or_false, exists_eq_or_imp, exists_eq_left, m, Chunk.fin] at *
            omega
          · cases hy : ys.head? with
            | none => rw [hy] at Td; unfold Link at *; rw [fm]; exact Td
            | some e =>
              rw [hy] at Td
              exact ⟨by rw [fm]; exact Td.1, by rw [fm]; exact Td.2.1, by rw [fm]; exact Td.2.2.1, fun _ => Td.2.2.2 hdu⟩
          · have := w.al'
            have := wd.al'
            exact ⟨w.nz, w.al, by simp only [m]; omega, by simp only [m]; omega, by rw [fm]; exact wd.bound, w.mrk, by simp [m]⟩
          · rw [liveOf_cons_free hdu]; rfl
          · intro b hb; simp [hmem1, setW, hb]
          · rw [liveOf_cons_free hdu]
          · simp [hdu]
          · simp only [m, Chunk.fin]; omega
      | some t =>
        refine nochange (coalesce_far ?_) (by simp [hdu])
        intro e he
        rw [freeOf_cons_used hdu] at he
        obtain ⟨ds, hds⟩ : ∃ ds, freeOf ys = e :: ds := by
          cases hq : freeOf ys with
          | nil => rw [hq] at he; simp at he
          | cons x xs => rw [hq] at he; simp at he; subst he; exact ⟨xs, rfl⟩
        obtain ⟨x, hx, -, rfl⟩ := freeOf_cons_inv hds
        have h1 := (List.pairwise_cons.1 pwy).1 x hx
        have h2 := Ld.1
        have h3 := wf_pos wd
        rw [m1c]
        unfold Chunk.fin at *
        simp only; omega
  obtain ⟨m, cs, ys1, mem2, hys, ma, mk, mu, hco, m2m, hcov, Lm, wm, hlc, fr2, hly, hcsf, hmf⟩ := ph1
  obtain rfl : ys = cs ++ ys1 := by simpa using hys
  have mok : MemOK mem2 m := by simp only [MemOK, mu]; exact m2m
  -- phase 2
  have hdeal : deallocate st c.addr s = reclaim st c.addr ⟨c.size, c.mark⟩ := by
    unfold deallocate; rw [if_neg w.nz, hm]
  have frameOf : ∀ (st' : St) (zs : List Chunk), (∀ b, ¬ Covers zs b → st'.mem b = st.mem b) →
      (∀ d ∈ zs, d ∈ xs ++ c :: (cs ++ ys1) ∧ (d.use = none ∨ d = c)) → Frame st st' (xs ++ c :: (cs ++ ys1)) c.addr := by
    intro st' zs h1 h2 d hd hdu hne b hb1 hb2
    apply h1
    rintro ⟨e, he, he'⟩
    obtain ⟨he1, he2⟩ := h2 e he
    have hde : d ≠ e := by
      rintro rfl
      rcases he2 with h | rfl
      · exact hdu h
      · exact hne rfl
    have P := inv_sorted I
    rcases List.mem_iff_getElem.1 hd with ⟨i, hi, rfl⟩
    rcases List.mem_iff_getElem.1 he1 with ⟨j, hj, rfl⟩
    have hij : i ≠ j := by rintro rfl; exact hde rfl
    rcases Nat.lt_or_gt_of_ne hij with h | h
    · have := List.pairwise_iff_getElem.1 P i j hi hj h; omega
    · have := List.pairwise_iff_getElem.1 P j i hj hi h; omega
  rw [hdeal]
  unfold reclaim
  simp only [hins, hco]
  have nomerge : ∀ (hfar : ∀ q ∈ xs.getLast?, q.use = none → c.mark = true), Inv F0 { st with mem := mem2, free := freeOf xs ++ c.addr :: freeOf ys1 } (live.erase (c.addr, s))
      (xs ++ ([m] ++ ys1)) ∧ Frame st { st with mem := mem2, free := freeOf xs ++ c.addr :: freeOf ys1 } (xs ++ c :: (cs ++ ys1)) c.addr := by
    intro hfar
    have I' : Inv F0 st live (xs ++ ((c :: cs) ++ ys1)) := by simpa using I
    have fr : ∀ b, ¬ Covers (c :: cs) b → mem2 b = st.mem b := by
      intro b hb
      apply fr2
      rintro rfl
      exact hb ⟨c, by simp, by omega, by unfold Chunk.fin; omega⟩
    refine ⟨inv_replace I' rfl rfl hcov ?_ ⟨by simpa using Lm, trivial⟩ (by simp) (by simp) ?_ ?_ fr ?_ ?_ ?_, frameOf _ (c :: cs) fr ?_⟩
    · simpa using wm
    · intro x hx hl
      simp only [List.head?_cons] at hl ⊢
      refine ⟨by rw [ma]; exact hl.1, by rw [ma, mk]; exact hl.2.1, by rw [mk]; exact hl.2.2.1, fun hxu _ => ?_⟩
      rw [mk]; exact hfar x hx hxu
    · intro d hd e he
      simp only [List.head?_cons, Option.mem_def, Option.some.injEq] at hd he
      subst hd he; exact mk
    · simpa using mok
    · rw [freeOf_cons_free mu, ma]; rfl
    · rw [liveOf_cons_free mu]
      refine hlive.trans ?_
      rw [liveOf_append, hlc]; rfl
    · intro d hd
      rcases List.mem_cons.1 hd with rfl | hd
      · exact ⟨by simp, Or.inr rfl⟩
      · exact ⟨by simp [hd], Or.inl (hcsf d hd)⟩
  rcases List.eq_nil_or_concat xs with rfl | ⟨xs', q, rfl⟩
  · obtain ⟨h1, h2⟩ := nomerge (by simp)
    exact ⟨_, h1, h2, rfl, rfl⟩
  rw [List.concat_eq_append] at *
  have wq := I.wf q (by simp)
  have Lq : Link st.pg q (some c) := tiled_last Txs (by simp)
  have qc := pwxc q (by simp)
  have okq : MemOK mem2 q := by
    have := I.mem q (by simp)
    rw [memOK_iff] at this ⊢
    have h2 := wordAddr_in wq
    rw [fr2 _ (by omega), this]
  cases hqu : q.use with
  | some t =>
    obtain ⟨h1, h2⟩ := nomerge (by simp [hqu])
    have hrev : ∀ b, b ∈ freeOf (xs' ++ [q]) → ∃ x ∈ xs', x.use = none ∧ x.addr = b := by
      intro b hb
      rw [freeOf_append, freeOf_cons_used hqu] at hb
      exact mem_freeOf.1 (by simpa [freeOf] using hb)
    cases hr : (freeOf (xs' ++ [q])).reverse with
    | nil =>
      have : freeOf (xs' ++ [q]) = [] := by simpa using hr
      rw [this] at h1 h2
      exact ⟨_, h1, by simpa using h2, by simp, by simp⟩
    | cons e bs =>
      have hfe : freeOf (xs' ++ [q]) = bs.reverse ++ [e] := by
        rw [← List.reverse_reverse (freeOf _), hr]; simp
      obtain ⟨x, hx, hxu, rfl⟩ := hrev e (by rw [hfe]; simp)
      have okx : MemOK mem2 x := by
        have := I.mem x (by simp [hx])
        rw [memOK_iff] at this ⊢
        have h2 := wordAddr_in (I.wf x (by simp [hx]))
        have := pwxc x (by simp [hx])
        rw [fr2 _ (by omega)]; assumption
      simp only [MemOK, hxu] at okx
      have hxq : x.fin ≤ q.addr := by
        rw [List.pairwise_append] at pwx
        exact pwx.2.2 x hx q (by simp)
      have hq := wf_pos wq
      have hfar : coalesce mem2 x.addr (c.addr :: freeOf ys1) = (mem2, c.addr :: freeOf ys1) := by
        apply coalesce_far
        intro d hd
        obtain rfl : c.addr = d := by simpa using hd
        rw [okx]
        unfold Chunk.fin at *
        simp only; omega
      simp only [hfar]
      rw [hfe] at h1 h2
      simp only [List.append_assoc, List.cons_append, List.nil_append] at h1 h2
      exact ⟨_, h1, by simpa using h2, by simp, by simp⟩
  | none =>
    simp only [MemOK, hqu] at okq
    have hr : (freeOf (xs' ++ [q])).reverse = q.addr :: (freeOf xs').reverse := by
      rw [freeOf_append, freeOf_cons_free hqu]; simp [freeOf]
    simp only [hr, List.reverse_reverse]
    cases hcm : c.mark with
    | true =>
      obtain ⟨h1, h2⟩ := nomerge (by simp [hcm])
      rw [coalesce_marked (by rw [← ma, m2m]; simp [mk, hcm])]
      have : freeOf (xs' ++ [q]) = freeOf xs' ++ [q.addr] := by
        rw [freeOf_append, freeOf_cons_free hqu]; simp [freeOf]
      rw [this] at h1 h2
      simp only [List.append_assoc, List.cons_append, List.nil_append] at h1 h2
      exact ⟨_, h1, by simpa using h2, by simp, by simp⟩
    | false =>
      have hfin := Lq.2.1 hcm
      set n : Chunk := ⟨q.addr, q.size + m.size, q.mark, none⟩ with hnd
      have fn : n.fin = m.fin := by simp only [n, Chunk.fin] at *; omega
      have hco2 : coalesce mem2 q.addr (c.addr :: freeOf ys1) =
          (setW mem2 (q.addr + 8) ⟨q.size + m.size, q.mark⟩, freeOf ys1) := by
        rw [coalesce_near (by rw [← ma, m2m]; simp [mk, hcm]) (by rw [okq]; exact hfin), okq, ← ma, m2m]
      simp only [hco2]
      have I' : Inv F0 st live (xs' ++ ((q :: c :: cs) ++ ys1)) := by simpa using I
      have fr : ∀ b, ¬ Covers (q :: c :: cs) b → setW mem2 (q.addr + 8) ⟨q.size + m.size, q.mark⟩ b = st.mem b := by
        intro b hb
        have hb1 : ¬ (q.addr ≤ b ∧ b < q.fin) := fun h => hb ⟨q, by simp, h⟩
        have hb2 : ¬ (c.addr ≤ b ∧ b < c.fin) := fun h => hb ⟨c, by simp, h⟩
        have := wq.big
        have := w.big
        have hx : b ≠ q.addr + 8 := by unfold Chunk.fin at *; omega
        have hy : b ≠ c.addr + 8 := by unfold Chunk.fin at *; omega
        simp only [setW, if_neg hx]
        exact fr2 b hy
      refine ⟨xs' ++ ([n] ++ ys1), inv_replace I' rfl rfl ?_ ?_ ⟨?_, trivial⟩ (by simp) (by simp) ?_ ?_ fr ?_ ?_ ?_, frameOf _ (q :: c :: cs) fr ?_, by simp, by simp⟩
      · intro a
        have h1 : Covers (q :: c :: cs) a ↔ (q.addr ≤ a ∧ a < q.fin) ∨ Covers (c :: cs) a := by
          simp [Covers]
        rw [h1, ← hcov a]
        simp only [Covers, List.mem_cons, List.not_mem_nil, or_false, exists_eq_left, fn]
        have := wf_pos wm
        have := wf_pos wq
        simp only [n]
        omega
      · have := wq.al'
        have := wm.al'
        have := wq.big
        intro d hd
        obtain rfl : d = n := by simpa using hd
        exact ⟨wq.nz, wq.al, by simp only [n]; omega, by simp only [n]; omega, by rw [fn]; exact wm.bound, wq.mrk, by simp [n]⟩
      · simp only [List.head?_nil, Option.none_or]
        cases hy : ys1.head? with
        | none => rw [hy] at Lm; unfold Link at *; rw [fn]; exact Lm
        | some e =>
          rw [hy] at Lm
          exact ⟨by rw [fn]; exact Lm.1, by rw [fn]; exact Lm.2.1, by rw [fn]; exact Lm.2.2.1, fun _ => Lm.2.2.2 mu⟩
      · intro x hx hl
        simp only [List.head?_cons] at hl ⊢
        exact ⟨hl.1, hl.2.1, hl.2.2.1, fun h _ => hl.2.2.2 h hqu⟩
      · intro d hd e he
        simp only [List.head?_cons, Option.mem_def, Option.some.injEq] at hd he
        subst hd he; rfl
      · intro d hd
        obtain rfl : d = n := by simpa using hd
        simp [MemOK, n, setW]
      · rw [freeOf_cons_free rfl]; rfl
      · rw [liveOf_cons_free rfl]
        refine hlive.trans ?_
        rw [liveOf_append, liveOf_append, hlc, liveOf_cons_free hqu]
        simp [liveOf]
      · intro d hd
        simp only [List.mem_cons] at hd
        rcases hd with rfl | rfl | hd
        · exact ⟨by simp, Or.inl hqu⟩
        · exact ⟨by simp, Or.inr rfl⟩
        · exact ⟨by simp [hd], Or.inl (hcsf d hd)⟩

/-! ### Fresh memory -/

/-- The number of bytes requested from `mmap` by `add_fresh_chunk`. -/
def mmapLen (st : St) (size al : Nat) : Nat :=
  freshSize st size + if max al st.pg = st.pg then 0 else max al st.pg

/-- What the operating system guarantees for a mapping of `n` bytes at `raw`: not null, page aligned, unused, in the
lower half of the address space. -/
def MmapOK (pg : Nat) (mapped : Set Nat) (raw n : Nat) : Prop :=
  raw ≠ 0 ∧ pg ∣ raw ∧ raw + n ≤ 2 ^ 63 ∧ ∀ a ∈ mapped, ¬ (raw ≤ a ∧ a < raw + n)

def AlignOK (al : Nat) : Prop := al = 0 ∨ ∃ k, al = 2 ^ k

theorem max_align {k al : Nat} (h : AlignOK al) : 2 ^ k ∣ max al (2 ^ k) ∧ (al ≠ 0 → al ∣ max al (2 ^ k)) := by
  rcases h with rfl | ⟨j, rfl⟩
  · simp
  · rcases le_total j k with h | h
    · rw [max_eq_right (Nat.pow_le_pow_right (by omega) h)]
      exact ⟨dvd_rfl, fun _ => pow_dvd_pow 2 h⟩
    · rw [max_eq_left (Nat.pow_le_pow_right (by omega) h)]
      exact ⟨pow_dvd_pow 2 h, fun _ => dvd_rfl⟩

theorem alignedMmap_spec {pg : Nat} {mapped : Set Nat} {size al raw : Nat} (hpg : 0 < pg) (hal : pg ∣ al) (h0 : 0 < al)
    (hs : pg ∣ size) (hmm : MmapOK pg mapped raw (size + if al = pg then 0 else al)) :
    ∃ ap, alignedMmap pg mapped size al raw = some (mapped ∪ Set.Ico ap (ap + size), ap) ∧ al ∣ ap ∧ raw ≤ ap ∧
      ap + size ≤ 2 ^ 63 ∧ ∀ a ∈ mapped, ¬ (ap ≤ a ∧ a < ap + size) := by
  have e1 : ¬ (al % pg ≠ 0 ∨ size % pg ≠ 0) := by
    rw [Nat.mod_eq_zero_of_dvd hal, Nat.mod_eq_zero_of_dvd hs]; simp
  unfold alignedMmap
  rw [if_neg e1]
  obtain ⟨m1, m2, m3, m4⟩ := hmm
  by_cases e : al = pg
  · subst e
    simp only [if_pos, add_zero] at m3 m4
    refine ⟨raw, by simp, m2, le_rfl, m3, m4⟩
  · rw [if_neg e] at m3 m4
    rw [if_pos e]
    have h1 := le_ceilMul (n := raw) h0
    have h2 := ceilMul_lt (n := raw) h0
    generalize hap : ceilMul raw al = ap at *
    refine ⟨ap, ?_, hap ▸ ceilMul_dvd raw al, h1, by omega, fun a ha h => m4 a ha ⟨by omega, by omega⟩⟩
    simp only [Option.some.injEq, Prod.mk.injEq, and_true]
    ext a
    simp only [Set.mem_sdiff, Set.mem_union, Set.mem_Ico]
    by_cases ha : a ∈ mapped
    · have := m4 a ha
      simp only [ha, true_or, true_and, iff_true]
      omega
    · simp only [ha, false_or]
      omega

theorem fresh_spec {F0 st live l} (I : Inv F0 st live l) {size al raw : Nat} (hal : AlignOK al)
    (hs : size + 8 < 2 ^ 64) (hmm : MmapOK st.pg st.mapped raw (mmapLen st size al)) :
    ∃ st' p l', addFresh st size al raw = some (st', p) ∧ Inv F0 st' live l' ∧ st'.free = p.before ++ p.cur :: p.after ∧
      size + 8 ≤ (st'.mem (p.cur + 8)).size ∧ ¬ unaligned p.cur al ∧ (∀ c ∈ l, c ∈ l') ∧
      (∀ b ∈ st.mapped, st'.mem b = st.mem b) ∧ st'.pg = st.pg ∧ st.mapped ⊆ st'.mapped ∧ st'.expo = st.expo := by
  obtain ⟨k, hk, hk4⟩ := I.pgpos
  have hpg : 0 < st.pg := by rw [hk]; exact Nat.pow_pos (by omega)
  have h16 : 16 ∣ st.pg := by rw [hk]; exact (by norm_num : (16 : Nat) = 2 ^ 4) ▸ pow_dvd_pow 2 hk4
  have hm := max_align (k := k) hal
  rw [← hk] at hm
  have hea0 : 0 < max al st.pg := by omega
  set es := freshSize st size with hes
  have hesd : st.pg ∣ es := ceilMul_dvd _ _
  have hadd : add64 size 8 = size + 8 := Nat.mod_eq_of_lt hs
  have hesl : size + 8 ≤ es := by
    have : max (add64 size 8) st.minSize ≤ es := le_ceilMul hpg
    rw [hadd] at this
    omega
  obtain ⟨ap, e, apd, apr, apb, apf⟩ := alignedMmap_spec (al := max al st.pg) hpg hm.1 hea0 hesd hmm
  have hap0 : ap ≠ 0 := by have := hmm.1; omega
  have hpgap : st.pg ∣ ap := hm.1.trans apd
  have h8 : ∀ x, st.pg ∣ x → 8 ∣ x := fun x hx => ((by norm_num : 8 ∣ 16).trans h16).trans hx
  have hes16 : 16 ≤ es := Nat.le_of_dvd (by omega) (h16.trans hesd)
  have hbe : ap < ap + es := by omega
  have hcl : ∀ c ∈ l, ∀ a, c.addr ≤ a → a < c.fin → a ∈ st.mapped := by
    intro c hc a h1 h2
    rw [I.mapped]; exact Or.inr ⟨c, hc, h1, h2⟩
  obtain ⟨xs, ys, rfl, hx, hy⟩ := place (inv_sorted I) (fun c hc => by have := (I.wf c hc).big; omega) hbe
    (fun a h1 h2 c hc h => apf a (hcl c hc a h.1 h.2) ⟨h1, h2⟩)
  have hsp := takeWhile_split (p := fun h => decide (h + 8 < ap)) (xs := freeOf xs) (ys := freeOf ys) (by
      intro a ha
      obtain ⟨x, hx', -, rfl⟩ := mem_freeOf.1 ha
      have h1 := hx x hx'
      have h2 := (I.wf x (by simp [hx'])).big
      unfold Chunk.fin at h1
      simp; omega) (by
      intro a ha
      obtain ⟨x, hx', -, rfl⟩ := mem_freeOf.1 ha
      have h1 := hy x hx'
      simp; omega)
  set n : Chunk := ⟨ap, es, true, none⟩ with hn
  have fn : n.fin = ap + es := rfl
  have T := tiled_append.1 I.tiled
  rw [Option.or_none] at T
  have hins : insertSorted st.mem st.free ap ⟨es, true⟩ = (setW st.mem (ap + 8) ⟨es, true⟩, ⟨freeOf xs, ap, freeOf ys⟩) := by
    unfold insertSorted
    rw [I.free, freeOf_append, hsp.1, hsp.2]
  have hnu1 : ¬ (unaligned ap (max al st.pg) ∨ unaligned ap al) := by
    rintro (⟨h, h'⟩ | ⟨h, h'⟩)
    · exact h' (Nat.mod_eq_zero_of_dvd apd)
    · exact h' (Nat.mod_eq_zero_of_dvd ((hm.2 h).trans apd))
  have hchg : ∀ b ∈ st.mapped, setW st.mem (ap + 8) ⟨es, true⟩ b = st.mem b := by
    intro b hb
    have := apf b hb
    have hne : b ≠ ap + 8 := by omega
    simp [setW, hne]
  have wn : Wf st.pg n := ⟨hap0, h8 _ hpgap, h8 _ hesd, hes16, apb, fun _ => hpgap, by simp [n]⟩
  have hxl : ∀ x ∈ xs.getLast?, Link st.pg x (some n) := by
    intro x hx'
    have hx1 := hx x (List.mem_of_getLast? hx')
    have L := tiled_last T.1 hx'
    refine ⟨hx1, by simp [n], fun _ => ?_, by simp [n]⟩
    cases hh : ys.head? with
    | none => rw [hh] at L; exact L
    | some d =>
      rw [hh] at L
      cases hdm : d.mark with
      | true => exact L.2.2.1 hdm
      | false =>
        have := L.2.1 hdm
        have := hy d (List.mem_of_head? hh)
        omega
  have hymark : ∀ d ∈ ys.head?, d.mark = true := by
    intro d hd
    cases hdm : d.mark with
    | true => rfl
    | false =>
      exfalso
      rcases List.eq_nil_or_concat xs with rfl | ⟨xs', q, rfl⟩
      · have := I.headMark d (by simpa using hd)
        rw [this] at hdm; simp at hdm
      · rw [List.concat_eq_append] at *
        have L := tiled_last (x := q) T.1 (by simp)
        rw [Option.mem_def] at hd
        rw [hd] at L
        have := L.2.1 hdm
        have := hx q (by simp)
        have := hy d (List.mem_of_head? hd)
        omega
  refine ⟨{ st with mem := setW st.mem (ap + 8) ⟨es, true⟩, mapped := st.mapped ∪ Set.Ico ap (ap + es), free := freeOf xs ++ ap :: freeOf ys, minSize := if st.expo then 2 * st.minSize else st.minSize }, ⟨freeOf xs, ap, freeOf ys⟩, xs ++ n :: ys, ?_, ?_, rfl, ?_, ?_, ?_, hchg, rfl, Set.subset_union_left, rfl⟩
  · unfold addFresh
    simp only
    rw [if_neg (by rw [Nat.mod_eq_zero_of_dvd hm.1]; simp)]
    simp only [← hes, e]
    rw [if_neg hnu1]
    simp only [hins]
  · have hI : Inv F0 { st with mem := setW st.mem (ap + 8) ⟨es, true⟩, mapped := st.mapped ∪ Set.Ico ap (ap + es), free := freeOf xs ++ ap :: freeOf ys, minSize := if st.expo then 2 * st.minSize else st.minSize } live (xs ++ n :: ys) := by
      constructor
      · exact ⟨k, hk, hk4⟩
      · intro c hc
        simp only [List.mem_append, List.mem_cons] at hc
        rcases hc with hc | rfl | hc
        · exact I.wf c (by simp [hc])
        · exact wn
        · exact I.wf c (by simp [hc])
      · rw [tiled_append]
        refine ⟨?_, ?_, T.2⟩
        · exact tiled_mono (fun x hx' _ => by simpa using hxl x hx') T.1
        · rw [Option.or_none]
          cases hh : ys.head? with
          | none => exact Nat.dvd_add hpgap hesd
          | some d =>
            refine ⟨hy d (List.mem_of_head? hh), fun h => ?_, fun _ => Nat.dvd_add hpgap hesd, fun _ _ => hymark d hh⟩
            rw [hymark d hh] at h; simp at h
      · intro c hc
        cases xs with
        | nil =>
          obtain rfl : n = c := by simpa using hc
          rfl
        | cons x xs => exact I.headMark c (by simpa using hc)
      · intro c hc
        simp only [List.mem_append, List.mem_cons] at hc
        rcases hc with hc | rfl | hc
        · exact memOK_set (I.wf c (by simp [hc])) (I.mem c (by simp [hc])) (Or.inr (by have := hx c hc; omega))
        · simp [MemOK, n, setW]
        · exact memOK_set (I.wf c (by simp [hc])) (I.mem c (by simp [hc])) (Or.inl (by have := hy c hc; omega))
      · rw [freeOf_append, freeOf_cons_free rfl]
      · rw [liveOf_append, liveOf_cons_free rfl, ← liveOf_append]; exact I.live
      · simp only [I.mapped, Set.union_assoc]
        congr 1
        ext a
        simp only [Set.mem_union, Set.mem_ofPred_eq, Set.mem_Ico, List.mem_append, List.mem_cons, or_and_right, exists_or, exists_eq_left]
        rw [show n.addr = ap from rfl, fn]
        constructor
        · rintro ((h | h) | h)
          · exact Or.inl h
          · exact Or.inr (Or.inr h)
          · exact Or.inr (Or.inl h)
        · rintro (h | h | h)
          · exact Or.inl (Or.inl h)
          · exact Or.inr h
          · exact Or.inl (Or.inr h)
      · intro a ha c hc
        simp only [List.mem_append, List.mem_cons] at hc
        rcases hc with hc | rfl | hc
        · exact I.foreign a ha c (by simp [hc])
        · exact apf a (by rw [I.mapped]; exact Or.inl ha)
        · exact I.foreign a ha c (by simp [hc])
    exact hI
  · simp only [setW, if_pos]; exact hesl
  · exact fun h => hnu1 (Or.inr h)
  · intro c hc
    simp only [List.mem_append, List.mem_cons] at hc ⊢
    rcases hc with hc | hc <;> simp [hc]

end Mutable.ListAlloc
