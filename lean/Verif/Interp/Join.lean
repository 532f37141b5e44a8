import Verif.Interp.Lemmas

/-! The joins. -/
namespace Mutable.Interp

variable {σ T V : Type}

/-! ### Hash join: the probe phase -/

/-- The tuples written to the output block so far. -/
def Probe.pend (P : Probe σ T) : List T := (List.range P.i).map P.data

theorem pend_write (P : Probe σ T) (t : T) (m : Nat → Bool) (s : σ) (u : Bool) :
    (⟨fun j => if j = P.i then t else P.data j, m, P.i + 1, s, u⟩ : Probe σ T).pend = P.pend ++ [t] := by
  unfold Probe.pend
  simp only [List.range_succ, List.map_append, List.map_cons, List.map_nil, if_true]
  congr 1
  apply List.map_congr_left
  intro i hi
  rw [List.mem_range] at hi
  simp [show ¬ i = P.i by omega]

theorem pend_length (P : Probe σ T) : P.pend.length = P.i := by simp [Probe.pend]

/-- Relation between the probe state after some matches `l` and feeding: all complete blocks but possibly the last have
been fed. -/
structure PInv (sink : Sink σ T) (s : σ) (l : List T) (P : Probe σ T) : Prop where
  le : P.i ≤ 64
  run : P.unwound = false → ∀ r, feed sink s (chunk (l ++ r)) = feed sink P.st (chunk (P.pend ++ r))
  stop : P.unwound = true → ∀ r, feed sink s (chunk (l ++ r)) = ⟨P.st, true⟩

theorem chunk_full (l r : List T) (h : l.length = 64) : chunk (l ++ r) = lblk l :: chunk r := by
  rw [chunk_cons _ (by intro e; simp at e; simp [e.1] at h)]
  rw [List.take_left' h, List.drop_left' h]

theorem PInv.match_ {sink : Sink σ T} {s : σ} {l : List T} {P : Probe σ T} (h : PInv sink s l P) (t : T)
    (hm : P.i = 64 → P.unwound = false → P.mask = allOnes) :
    PInv sink s (l ++ [t]) (probeMatch sink P t) := by
  unfold probeMatch
  cases hu : P.unwound with
  | true =>
    simp only [if_true]
    refine ⟨h.le, fun e => by rw [hu] at e; simp at e, fun _ r => ?_⟩
    rw [List.append_assoc]
    exact h.stop hu _
  | false =>
    simp only [Bool.false_eq_true, if_false]
    by_cases hi : P.i = 64
    · rw [if_pos hi, hm hi hu, mkBlk_allOnes]
      have hp : (List.range 64).map P.data = P.pend := by unfold Probe.pend; rw [hi]
      rw [hp]
      have hrun : ∀ r, feed sink s (chunk (l ++ [t] ++ r)) =
          if (sink P.st (lblk P.pend)).unwound then ⟨(sink P.st (lblk P.pend)).st, true⟩
          else feed sink (sink P.st (lblk P.pend)).st (chunk ([t] ++ r)) := by
        intro r
        rw [List.append_assoc, h.run hu, chunk_full _ _ (by rw [pend_length, hi])]
        rfl
      cases hq : (sink P.st (lblk P.pend)).unwound with
      | true =>
        simp only [if_true]
        refine ⟨h.le, fun e => by simp at e, fun _ r => ?_⟩
        rw [hrun, hq]; rfl
      | false =>
        simp only [Bool.false_eq_true, if_false]
        refine ⟨by simp, fun _ r => ?_, fun e => by simp at e⟩
        rw [hrun, hq]
        simp only [Bool.false_eq_true, if_false]
        rfl
    · rw [if_neg hi]
      refine ⟨by have := h.le; simp only; omega, fun _ r => ?_, fun e => by simp at e⟩
      rw [pend_write, List.append_assoc, List.append_assoc]
      exact h.run hu _

/-- One probe tuple. -/
theorem PInv.tuple_ {sink : Sink σ T} {s : σ} {l : List T} {P : Probe σ T} (h : PInv sink s l P) (ms : List T)
    (hk : Keeps sink ∨ ms.length ≤ 64) : PInv sink s (l ++ ms) (probeTuple sink ms P) := by
  unfold probeTuple
  have h' : PInv sink s l { P with mask := allOnes } := ⟨h.le, h.run, h.stop⟩
  suffices H : ∀ (ms : List T) (l : List T) (P : Probe σ T), PInv sink s l P → (Keeps sink ∨ ms.length ≤ 64) →
      (P.unwound = false → P.mask = allOnes ∨ (¬ Keeps sink ∧ P.i + ms.length ≤ 64)) →
      PInv sink s (l ++ ms) (ms.foldl (probeMatch sink) P) from
    H ms l _ h' hk (fun _ => Or.inl rfl)
  intro ms
  induction ms with
  | nil => intro l P h _ _; simpa using h
  | cons t ms ih =>
    intro l P h hk hmask
    simp only [List.foldl_cons]
    rw [show l ++ t :: ms = (l ++ [t]) ++ ms by simp]
    apply ih
    · apply h.match_
      intro hi hu
      rcases hmask hu with hm | ⟨_, hm⟩
      · exact hm
      · simp at hm; omega
    · rcases hk with hk | hk
      · exact Or.inl hk
      · simp at hk; exact Or.inr (by omega)
    · unfold probeMatch
      cases hu : P.unwound with
      | true => simp [hu]
      | false =>
        simp only [Bool.false_eq_true, if_false]
        by_cases hi : P.i = 64
        · rw [if_pos hi]
          by_cases hkk : Keeps sink
          · intro hun
            left
            have hm : P.mask = allOnes := by
              rcases hmask hu with hm | ⟨hm, _⟩
              · exact hm
              · exact absurd hkk hm
            split at hun
            · simp at hun
            · rename_i hq
              simp only [hq, if_false]
              rw [hkk, mask_mkBlk, hm]
              simp
          · intro hun
            right
            refine ⟨hkk, ?_⟩
            have : (t :: ms).length ≤ 64 := hk.resolve_left hkk
            simp at this
            split at hun
            · simp at hun
            · rename_i hq
              simp only [hq]
              simp
              omega
        · rw [if_neg hi]
          intro _
          rcases hmask hu with hm | ⟨hn, hm⟩
          · exact Or.inl hm
          · right
            refine ⟨hn, ?_⟩
            simp at hm ⊢
            omega

theorem PInv.tuples_ {sink : Sink σ T} {s : σ} (outs : T → List T) (ts : List T)
    (hk : Keeps sink ∨ ∀ t ∈ ts, (outs t).length ≤ 64) {l : List T} {P : Probe σ T} (h : PInv sink s l P) :
    PInv sink s (l ++ ts.flatMap outs)
      (ts.foldl (fun P t => if P.unwound then P else probeTuple sink (outs t) P) P) := by
  induction ts generalizing l P with
  | nil => simpa using h
  | cons t ts ih =>
    simp only [List.foldl_cons, List.flatMap_cons]
    rw [← List.append_assoc]
    apply ih
    · rcases hk with hk | hk
      · exact Or.inl hk
      · exact Or.inr fun u hu => hk u (by simp [hu])
    · cases hu : P.unwound with
      | true =>
        simp only [if_true]
        refine ⟨h.le, fun e => by rw [hu] at e; simp at e, fun _ r => ?_⟩
        rw [List.append_assoc]
        exact h.stop hu _
      | false =>
        simp only [Bool.false_eq_true, if_false]
        apply h.tuple_
        rcases hk with hk | hk
        · exact Or.inl hk
        · exact Or.inr (hk t (by simp))

/-- One block of the probe side. -/
theorem probeSink_eq (outs : T → List T) (sink : Sink σ T) (d : Nat → T) (s : σ) (b : Blk T)
    (hk : Keeps sink ∨ ∀ t ∈ b.tuples, (outs t).length ≤ 64) :
    (probeSink outs sink (d, s) b).st.2 = (feed sink s (chunk (b.tuples.flatMap outs))).st ∧
    (probeSink outs sink (d, s) b).unwound = (feed sink s (chunk (b.tuples.flatMap outs))).unwound := by
  unfold probeSink
  have h0 : PInv sink s [] (⟨d, allOnes, 0, s, false⟩ : Probe σ T) :=
    ⟨by simp, fun _ r => by simp [Probe.pend], fun e => by simp at e⟩
  have h := h0.tuples_ outs b.tuples hk
  simp only
  generalize List.foldl (fun P t => if P.unwound = true then P else probeTuple sink (outs t) P)
    (⟨d, allOnes, 0, s, false⟩ : Probe σ T) b.tuples = P at h
  simp only [List.nil_append] at h
  cases hu : P.unwound with
  | true =>
    have := h.stop hu []
    rw [List.append_nil] at this
    simp [this]
  | false =>
    have hr := h.run hu []
    rw [List.append_nil, List.append_nil] at hr
    rw [hr]
    simp only [Bool.false_eq_true, if_false]
    by_cases hi : P.i = 0
    · have : P.pend = [] := by unfold Probe.pend; rw [hi]; rfl
      simp [hi, this, chunk_nil, feed]
    · rw [if_pos hi]
      have hne : P.pend ≠ [] := by
        intro e
        have := congrArg List.length e
        rw [pend_length] at this
        exact hi this
      have hle : P.pend.length ≤ 64 := by rw [pend_length]; exact h.le
      have hb : mkBlk P.data (if P.i = 64 then allOnes else lowOnes P.i) = lblk P.pend := by
        split
        · rename_i h64
          rw [mkBlk_allOnes]; unfold Probe.pend; rw [h64]
        · rw [mkBlk_lowOnes _ _ (by have := h.le; omega)]; rfl
      rw [hb, chunk_cons _ hne, List.take_of_length_le hle, List.drop_of_length_le hle, chunk_nil]
      simp only [feed]
      cases (sink P.st (lblk P.pend)).unwound <;> simp

/-- The blocks pushed by the probe phase. -/
noncomputable def probeBlocks (outs : T → List T) (bs : List (Blk T)) : List (Blk T) :=
  bs.flatMap fun b => chunk (b.tuples.flatMap outs)

theorem feed_probeSink (outs : T → List T) (sink : Sink σ T) (d : Nat → T) (s : σ) (bs : List (Blk T))
    (hk : Keeps sink ∨ ∀ t ∈ flat bs, (outs t).length ≤ 64) :
    (feed (probeSink outs sink) (d, s) bs).st.2 = (feed sink s (probeBlocks outs bs)).st := by
  induction bs generalizing d s with
  | nil => rfl
  | cons b bs ih =>
    have hk1 : Keeps sink ∨ ∀ t ∈ b.tuples, (outs t).length ≤ 64 := by
      rcases hk with hk | hk
      · exact Or.inl hk
      · exact Or.inr fun t ht => hk t (by simp [flat, ht])
    have hk2 : Keeps sink ∨ ∀ t ∈ flat bs, (outs t).length ≤ 64 := by
      rcases hk with hk | hk
      · exact Or.inl hk
      · exact Or.inr fun t ht => hk t (by simp only [flat, List.flatMap_cons, List.mem_append]; exact Or.inr ht)
    obtain ⟨h1, h2⟩ := probeSink_eq outs sink d s b hk1
    unfold probeBlocks
    rw [List.flatMap_cons, feed_append]
    simp only [feed]
    rw [h2]
    cases hu : (feed sink s (chunk (b.tuples.flatMap outs))).unwound with
    | true => simp [h1]
    | false =>
      simp only [Bool.false_eq_true, if_false]
      rw [← h1]
      have := ih (probeSink outs sink (d, s) b).st.1 (probeSink outs sink (d, s) b).st.2 hk2
      unfold probeBlocks at this
      exact this

theorem flat_append (as bs : List (Blk T)) : flat (as ++ bs) = flat as ++ flat bs := by simp [flat]

theorem flat_cons (b : Blk T) (bs : List (Blk T)) : flat (b :: bs) = b.tuples ++ flat bs := by simp [flat]

theorem flat_probeBlocks (outs : T → List T) (bs : List (Blk T)) :
    flat (probeBlocks outs bs) = (flat bs).flatMap outs := by
  induction bs with
  | nil => rfl
  | cons b bs ih =>
    unfold probeBlocks at *
    rw [List.flatMap_cons, flat_append, flat_chunk, ih, flat_cons, List.flatMap_append]

theorem keeps_probe (outs : T → List T) (sink : Sink σ T) : Keeps (probeSink outs sink) := by
  intro s b
  unfold probeSink
  simp only
  split
  · rfl
  · split <;> rfl

/-! ### Buffers -/

theorem feed_buffer (cl : T → T) (s : List T) (bs : List (Blk T)) : (feed (bufferSink cl) s bs).st = s ++ (flat bs).map cl := by
  induction bs generalizing s with
  | nil => simp [feed, flat]
  | cons b bs ih =>
    have h : ∀ (l s : List T), l.foldl (fun l t => l ++ [cl t]) s = s ++ l.map cl := by
      intro l
      induction l with
      | nil => simp
      | cons a l ih => intro s; simp [ih]
    simp only [feed, bufferSink, Bool.false_eq_true, if_false] at *
    rw [ih, h, flat_cons, List.append_assoc, List.map_append]

theorem keeps_buffer (cl : T → T) : Keeps (bufferSink cl : Sink (List T) T) := fun _ _ => rfl

theorem feed_collect (s : List T) (bs : List (Blk T)) : (feed collect s bs).st = s ++ flat bs := by
  induction bs generalizing s with
  | nil => simp [feed, flat]
  | cons b bs ih =>
    simp only [feed, collect, Bool.false_eq_true, if_false] at *
    rw [ih, flat_cons, List.append_assoc]

theorem keeps_collect : Keeps (collect : Sink (List T) T) := fun _ _ => rfl

/-! ### Nested-loops join -/

/-- The blocks pushed for one block of the right-most child. -/
def nljOut (cs : List (List T)) (pred : Option (List T → T → Option Bool)) (comb : List T → T → T) (b : Blk T) :
    List (Blk T) :=
  (cs.map fun c => nljBlock pred comb c b).filter fun o => !o.empty

theorem nljSink_eq (cs : List (List T)) (pred : Option (List T → T → Option Bool)) (comb : List T → T → T)
    (sink : Sink σ T) (s : σ) (b : Blk T) :
    (nljSink cs pred comb sink s b).st = (feed sink s (nljOut cs pred comb b)).st ∧
    (nljSink cs pred comb sink s b).unwound = (feed sink s (nljOut cs pred comb b)).unwound := by
  unfold nljSink nljOut
  simp only
  have hstop : ∀ (cs : List (List T)) (r : Ex σ), r.unwound = true → cs.foldl (fun (r : Ex σ) c =>
      if r.unwound then r
      else
        if (nljBlock pred comb c b).empty then r
        else ⟨(sink r.st (nljBlock pred comb c b)).st, (sink r.st (nljBlock pred comb c b)).unwound⟩) r = r := by
    intro cs
    induction cs with
    | nil => intro r _; rfl
    | cons c cs ih => intro r hr; simp only [List.foldl_cons, hr, if_true]; exact ih r hr
  suffices H : ∀ (cs : List (List T)) (s : σ), cs.foldl (fun (r : Ex σ) c =>
      if r.unwound then r
      else
        if (nljBlock pred comb c b).empty then r
        else ⟨(sink r.st (nljBlock pred comb c b)).st, (sink r.st (nljBlock pred comb c b)).unwound⟩)
        (⟨s, false⟩ : Ex σ) =
      feed sink s ((cs.map fun c => nljBlock pred comb c b).filter fun o => !o.empty) by
    rw [H]; exact ⟨rfl, rfl⟩
  intro cs
  induction cs with
  | nil => intro s; rfl
  | cons c cs ih =>
    intro s
    simp only [List.foldl_cons, Bool.false_eq_true, if_false, List.map_cons]
    cases he : (nljBlock pred comb c b).empty with
    | true => simp [he, ih]
    | false =>
      rw [List.filter_cons_of_pos (by simp [he])]
      simp only [Bool.false_eq_true, if_false, feed]
      cases hu : (sink s (nljBlock pred comb c b)).unwound with
      | true => simp only [if_true]; exact hstop cs _ rfl
      | false => simp [ih]

theorem feed_nljSink (cs : List (List T)) (pred : Option (List T → T → Option Bool)) (comb : List T → T → T)
    (sink : Sink σ T) (s : σ) (bs : List (Blk T)) :
    feed (nljSink cs pred comb sink) s bs = feed sink s (bs.flatMap (nljOut cs pred comb)) := by
  induction bs generalizing s with
  | nil => rfl
  | cons b bs ih =>
    obtain ⟨h1, h2⟩ := nljSink_eq cs pred comb sink s b
    rw [List.flatMap_cons, feed_append]
    simp only [feed]
    rw [h2, h1]
    cases hu : (feed sink s (nljOut cs pred comb b)).unwound with
    | true =>
      simp only [if_true]
      rw [← hu]
    | false => simp [ih]

open Classical in
theorem nljBlock_tuples (pred : Option (List T → T → Option Bool)) (comb : List T → T → T) (c : List T) (b : Blk T) :
    (nljBlock pred comb c b).tuples =
      (b.tuples.filter fun t => ∀ p ∈ pred, p c t = some true).map (comb c) := by
  unfold Blk.tuples
  rw [← List.filterMap_eq_filter, List.filterMap_filterMap, List.map_filterMap]
  apply List.filterMap_congr
  intro i _
  unfold nljBlock
  cases b i with
  | none => rfl
  | some t =>
    cases pred with
    | none => simp [Option.guard]
    | some p =>
      by_cases h : p c t = some true
      · simp [Option.guard, h, isTrue]
      · have : isTrue (p c t) = false := by
          cases hh : isTrue (p c t)
          · rfl
          · exact absurd ((isTrue_iff _).mp hh) h
        simp [Option.guard, h, this]

theorem perm_flatMap_comm {α β γ : Type} (as : List α) (bs : List β) (f : α → β → List γ) :
    (as.flatMap fun a => bs.flatMap fun b => f a b).Perm (bs.flatMap fun b => as.flatMap fun a => f a b) := by
  induction as with
  | nil => simp
  | cons a as ih =>
    simp only [List.flatMap_cons]
    refine (List.Perm.append_left _ ih).trans ?_
    clear ih
    induction bs with
    | nil => simp
    | cons b bs ih =>
      simp only [List.flatMap_cons]
      have : ∀ (x y z w : List γ), (x ++ y ++ (z ++ w)).Perm (x ++ z ++ (y ++ w)) := by
        intro x y z w
        rw [List.append_assoc, List.append_assoc]
        apply List.Perm.append_left
        rw [← List.append_assoc, ← List.append_assoc]
        exact List.perm_append_comm.append_right _
      exact (this _ _ _ _).trans (List.Perm.append_left _ ih)

theorem map_filter_flatMap {α β : Type} (p : α → Bool) (f : α → β) (l : List α) :
    (l.filter p).map f = l.flatMap fun a => if p a then [f a] else [] := by
  induction l with
  | nil => rfl
  | cons a l ih => by_cases h : p a <;> simp [h, ih]

open Classical in
theorem flat_nljOut (cs : List (List T)) (pred : Option (List T → T → Option Bool)) (comb : List T → T → T)
    (bs : List (Blk T)) :
    (flat (bs.flatMap (nljOut cs pred comb))).Perm
      ((flat bs).flatMap fun t => (cs.filter fun c => ∀ p ∈ pred, p c t = some true).map fun c => comb c t) := by
  induction bs with
  | nil => exact List.Perm.refl _
  | cons b bs ih =>
    rw [List.flatMap_cons, flat_append, flat_cons, List.flatMap_append]
    refine List.Perm.append ?_ ih
    unfold nljOut
    rw [flat_filter_nonempty]
    have h1 : flat (cs.map fun c => nljBlock pred comb c b) =
        cs.flatMap fun c => b.tuples.flatMap fun t => if ∀ p ∈ pred, p c t = some true then [comb c t] else [] := by
      clear ih
      induction cs with
      | nil => rfl
      | cons c cs ih =>
        rw [List.map_cons, flat_cons, List.flatMap_cons, ih, nljBlock_tuples, map_filter_flatMap]
        simp
    have h2 : (fun t => (cs.filter fun c => ∀ p ∈ pred, p c t = some true).map fun c => comb c t) =
        fun t => cs.flatMap fun c => if ∀ p ∈ pred, p c t = some true then [comb c t] else [] := by
      funext t
      rw [map_filter_flatMap]
      simp
    rw [h1, h2]
    exact perm_flatMap_comm _ _ _

theorem keeps_nlj (cs : List (List T)) (pred : Option (List T → T → Option Bool)) (comb : List T → T → T)
    (sink : Sink σ T) : Keeps (nljSink cs pred comb sink) := fun _ _ => rfl

theorem combos_eq (bs : List (List T)) : combos bs = tuplesOf bs := by
  induction bs with
  | nil => rfl
  | cons b bs ih => simp [combos, tuplesOf, ih]

end Mutable.Interp
