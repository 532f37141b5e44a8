import Verif.Interp.Agg

/-! Correctness of plan execution, and of the loop of the nested-loops join. -/
namespace Mutable.Interp

variable {T V : Type}

theorem tuplesOf_empty (bs : List (List T)) (h : [] ∈ bs) : tuplesOf bs = [] := by
  induction bs with
  | nil => simp at h
  | cons b bs ih =>
    rw [List.mem_cons] at h
    rcases h with h | h
    · subst h; simp [tuplesOf]
    · simp [tuplesOf, ih h]

theorem storedKey_eq (kb : T → List (Option V)) (raw : T → Nat → V) (v : T) (h : none ∉ kb v) :
    storedKey kb raw v = kb v := by
  unfold storedKey
  apply List.ext_getElem
  · simp
  intro i h1 h2
  rw [List.getElem_mapIdx]
  cases hk : (kb v)[i] with
  | none => exact absurd (hk ▸ List.getElem_mem h2) h
  | some x => rfl

theorem map_clone {cl : T → T} {l : List T} (h : ∀ t ∈ l, cl t = t) : l.map cl = l := by
  conv_rhs => rw [← List.map_id l]
  exact List.map_congr_left h

theorem hashOuts_perm [DecidableEq V] (cl : T → T) (kb kp : T → List (Option V)) (raw : T → Nat → V) (comb : T → T → T) (ord : Shuffle T) (ib ip : List T)
    (hk : ∀ v ∈ ib, none ∉ kb v ∧ cl v = v) :
    open Classical in
    (ip.flatMap (hashOuts cl kb kp raw comb ord ib)).Perm
      (ip.flatMap fun t => (ib.filter fun v => SqlEq (kb v) (kp t)).map fun v => comb v t) := by
  induction ip with
  | nil => simp
  | cons t ip ih =>
    simp only [List.flatMap_cons]
    refine List.Perm.append ?_ ih
    unfold hashOuts
    rw [List.map_congr_left (g := fun v => comb v t) (fun v hv => by
      rw [(hk v (List.mem_filter.mp ((ord.2 _).mem_iff.mp hv)).1).2])]
    refine List.Perm.map _ ((ord.2 _).trans ?_)
    apply List.Perm.of_eq
    apply List.filter_congr
    intro v hv
    have := (hk v hv).1
    rw [storedKey_eq kb raw v this]
    by_cases he : kb v = kp t
    · rw [he] at this
      simp [SqlEq, he, this]
    · simp [SqlEq, he]

variable [Inhabited T] [DecidableEq V]

/-- `bs` are the blocks pushed by the plan to a consumer. -/
def Pushes (srt : (T → T → Bool) → List T → List T) (cl : T → T) (k : Bool) (p : Plan T V) (bs : List (Blk T)) : Prop :=
  ∀ (σ : Type) (sink : Sink σ T) (s : σ), (k = true → Keeps sink) → (exec srt cl p σ sink s).st = (feed sink s bs).st

mutual
theorem exec_ok {srt : (T → T → Bool) → List T → List T} {cl : T → T} (hs : SortSpec srt) (k : Bool) (p : Plan T V) (h : Ok cl k p) :
    ∃ bs, Sem p (flat bs) ∧ Pushes srt cl k p bs := by
  match p, h with
  | .scan rows, _ =>
    refine ⟨prodBlocks false rows, by simp only [Sem]; exact flat_prodBlocks _ _, ?_⟩
    intro σ sink s _
    simp only [exec]
    rw [pushAll_eq]
  | .filter p c, h =>
    simp only [Ok] at h
    obtain ⟨bs, h1, h2⟩ := exec_ok hs false c h
    refine ⟨((bs.map (filterLoop fun t => isTrue (p t))).filter fun b => !b.empty), ?_, ?_⟩
    rotate_left
    · intro σ sink s _
      simp only [exec]
      rw [h2 _ _ _ (by simp), feed_filterSink]
    · simp only [Sem]
      refine ⟨_, h1, ?_⟩
      rw [flat_filter_nonempty, flat_map_filterLoop]
      apply List.filter_congr
      intro t _
      have := isTrue_iff (p t)
      by_cases hh : p t = some true
      · simp [hh, isTrue]
      · cases h3 : isTrue (p t)
        · simp [hh]
        · exact absurd (this.mp h3) hh
  | .dfilter ps c, h =>
    simp only [Ok] at h
    obtain ⟨bs, h1, h2⟩ := exec_ok hs false c h
    refine ⟨((bs.map (filterLoop (dfilterKeep ps))).filter fun b => !b.empty), ?_, ?_⟩
    rotate_left
    · intro σ sink s _
      simp only [exec]
      rw [h2 _ _ _ (by simp), feed_dfilterSink]
    · simp only [Sem]
      refine ⟨_, h1, ?_⟩
      rw [flat_filter_nonempty, flat_map_filterLoop]
      apply List.filter_congr
      intro t _
      have := dfilterKeep_iff ps t
      by_cases hh : ∃ p ∈ ps, p t = some true
      · rw [decide_eq_true hh]; exact this.mpr hh
      · rw [decide_eq_false hh]
        cases h3 : dfilterKeep ps t
        · rfl
        · exact absurd (this.mp h3) hh
  | .proj f c, h =>
    simp only [Ok] at h
    obtain ⟨bs, h1, h2⟩ := exec_ok hs true c h
    refine ⟨bs.map fun b i => (b i).map f, ?_, ?_⟩
    rotate_left
    · intro σ sink s _
      simp only [exec]
      rw [h2 _ _ _ (fun _ => keeps_proj f sink), feed_projSink]
    · simp only [Sem]
      exact ⟨_, h1, flat_map_proj f bs⟩
  | .proj0 t, _ =>
    refine ⟨[lblk [t]], ?_, ?_⟩
    · simp only [Sem, flat_cons, lblk_tuples [t] (by simp)]
      rfl
    · intro σ sink s _
      simp only [exec, mkBlk_lowOnes _ 1 (by omega), List.range_one, List.map_cons, List.map_nil, feed]
      split <;> rfl
  | .limit lim off c, h =>
    simp only [Ok] at h
    obtain ⟨bs, h1, h2⟩ := exec_ok hs false c h.2
    refine ⟨limBlocks off (off + lim) 0 bs, ?_, ?_⟩
    · simp only [Sem]
      refine ⟨_, h1, ?_⟩
      rw [flat_limBlocks, window_eq]
      simp
    · intro σ sink s _
      simp only [exec]
      rw [h2 _ _ _ (by simp), feed_limitSink lim off h.1]
  | .sort ks c, h =>
    simp only [Ok] at h
    obtain ⟨bs, h1, h2⟩ := exec_ok hs true c h.1
    have hb : (exec srt cl c (List T) (bufferSink cl) []).st = flat bs := by
      rw [h2 _ _ _ (fun _ => keeps_buffer cl), feed_buffer, map_clone (h.2 _ h1)]; rfl
    obtain ⟨s1, s2⟩ := sort_spec hs ks (flat bs)
    by_cases he : flat bs = []
    · refine ⟨[], ?_, ?_⟩
      · simp only [Sem]
        refine ⟨_, h1, ?_, ?_⟩
        · rw [he]; exact List.Perm.refl _
        · exact List.Pairwise.nil
      · intro σ sink s _
        simp only [exec, hb, he]
        rfl
    · refine ⟨prodBlocks true (srt (lessKeys ks) (flat bs)), ?_, ?_⟩
      · simp only [Sem]
        rw [flat_prodBlocks]
        exact ⟨_, h1, s1, s2⟩
      · intro σ sink s _
        simp only [exec, hb]
        rw [if_neg (by simpa using he), pushAll_eq]
  | .group key aggs mk ord c, h =>
    simp only [Ok] at h
    obtain ⟨bs, h1, h2⟩ := exec_ok hs true c h.1
    have hb : (exec srt cl c (List (Group V)) (groupSink key aggs) []).st =
        (flat bs).foldl (addToGroups key aggs) [] := by
      rw [h2 _ _ _ (fun _ _ _ => rfl), feed_group]
    have G := GInv.fold key aggs (flat bs)
    rw [← hb] at G
    generalize hgs : (exec srt cl c (List (Group V)) (groupSink key aggs) []).st = gs at G
    have hp := ord.2 gs
    refine ⟨prodBlocks true ((ord.1 gs).map fun g => mk g.key g.vals), ?_, ?_⟩
    · simp only [Sem]
      rw [flat_prodBlocks]
      refine ⟨_, h1, (ord.1 gs).map fun g => (g.key, g.vals), ?_, ?_, ?_, ?_⟩
      · rw [List.map_map]
        exact ((hp.map Group.key).nodup_iff).mpr G.nodup
      · intro k
        rw [List.map_map, ← G.keys]
        exact (hp.map Group.key).mem_iff
      · intro g hg
        rw [List.mem_map] at hg
        obtain ⟨g, hg, rfl⟩ := hg
        have hg' := hp.mem_iff.mp hg
        obtain ⟨t, ht, hk⟩ := (G.keys g.key).mp (List.mem_map_of_mem hg')
        have hv := (G.vals g hg').2
        simp only
        have hsup : ∀ a ∈ aggs, a.Supported ((flat bs).filter fun u => decide (key u = g.key)) := by
          intro a ha
          have := h.2 _ h1 a ha t ht
          rw [hk] at this
          convert this
        have hne : ((flat bs).filter fun u => decide (key u = g.key)) ≠ [] := by
          intro e
          have : t ∈ ((flat bs).filter fun u => decide (key u = g.key)) := by simp [ht, hk]
          rw [e] at this
          simp at this
        rw [List.forall₂_iff_get] at hv ⊢
        refine ⟨hv.1, ?_⟩
        intro i hi hi'
        have := running_spec _ _ _ (hv.2 i hi hi') (hsup _ (List.get_mem _ _)) (Or.inl hne)
        convert this
      · rw [List.map_map]; rfl
    · intro σ sink s _
      simp only [exec]
      rw [hgs, pushAll_eq]
  | .agg aggs mk c, h =>
    simp only [Ok] at h
    obtain ⟨bs, h1, h2⟩ := exec_ok hs true c h.1
    have hb : (exec srt cl c (Nat × List (Option ℚ)) (aggSink aggs) (0, aggs.map Agg.init)).st =
        (flat bs).foldl (aggStep aggs) (0, aggs.map Agg.init) := by
      rw [h2 _ _ _ (fun _ _ _ => rfl), feed_agg]
    obtain ⟨_, hv⟩ := aggStep_fold aggs (flat bs)
    rw [← hb] at hv
    refine ⟨[lblk [mk (exec srt cl c (Nat × List (Option ℚ)) (aggSink aggs) (0, aggs.map Agg.init)).st.2]], ?_, ?_⟩
    · simp only [Sem, flat_cons]
      rw [lblk_tuples _ (by simp)]
      refine ⟨_, h1, _, ?_, rfl⟩
      rw [List.forall₂_iff_get] at hv ⊢
      refine ⟨hv.1, ?_⟩
      intro i hi hi'
      have := hv.2 i hi hi'
      exact running_spec _ _ _ this.1 (h.2 _ h1 _ (List.get_mem _ _)) (Or.inr this.2)
    · intro σ sink s _
      simp only [exec, mkBlk_lowOnes _ 1 (by omega), List.range_one, List.map_cons, List.map_nil, feed]
      split <;> rfl
  | .hash kb kp raw comb ord b p, h =>
    simp only [Ok] at h
    obtain ⟨hb, hp, hnn, hk⟩ := h
    obtain ⟨bsb, b1, b2⟩ := exec_ok hs true b hb
    obtain ⟨bsp, p1, p2⟩ := exec_ok hs true p hp
    have hbuf : (exec srt cl b (List T) (bufferSink id) []).st = flat bsb := by
      rw [b2 _ _ _ (fun _ => keeps_buffer id), feed_buffer, List.map_id]; rfl
    by_cases he : flat bsb = []
    · refine ⟨[], ?_, ?_⟩
      · simp only [Sem]
        refine ⟨_, _, b1, p1, ?_⟩
        rw [he]
        simp [flat]
      · intro σ sink s _
        simp only [exec, hbuf, he]
        rfl
    · refine ⟨probeBlocks (hashOuts cl kb kp raw comb ord (flat bsb)) bsp, ?_, ?_⟩
      · simp only [Sem]
        refine ⟨_, _, b1, p1, ?_⟩
        rw [flat_probeBlocks]
        exact hashOuts_perm cl kb kp raw comb ord _ _ (hnn _ b1)
      · intro σ sink s hkeep
        simp only [exec, hbuf]
        rw [if_neg (by simpa using he)]
        simp only
        rw [p2 _ _ _ (fun _ => keeps_probe _ _), feed_probeSink]
        rcases hk with hk | hk
        · exact Or.inl (hkeep hk)
        · right
          intro t ht
          have := hk _ _ b1 p1 t ht
          unfold hashOuts
          rw [List.length_map, (ord.2 _).length_eq]
          rw [List.filter_congr (q := fun v => decide (kb v = kp t)) (fun v hv => by
            rw [storedKey_eq kb raw v (hnn _ b1 v hv).1])]
          convert this
  | .nlj ls pred comb r, h =>
    simp only [Ok] at h
    obtain ⟨bs, l1, l2⟩ := execBuffers_ok hs ls h.1
    obtain ⟨rbs, r1, r2⟩ := exec_ok hs true r h.2
    cases hb : execBuffers srt cl ls with
    | none =>
      rw [hb] at l2
      refine ⟨[], ?_, ?_⟩
      · simp only [Sem]
        refine ⟨_, _, l1, r1, ?_⟩
        rw [tuplesOf_empty _ l2]
        simp [flat]
      · intro σ sink s _
        simp only [exec, hb]
        rfl
    | some bufs =>
      rw [hb] at l2
      simp only at l2
      subst l2
      refine ⟨rbs.flatMap (nljOut (combos bufs) pred comb), ?_, ?_⟩
      · simp only [Sem]
        refine ⟨_, _, l1, r1, ?_⟩
        rw [← combos_eq]
        exact flat_nljOut _ _ _ _
      · intro σ sink s _
        simp only [exec, hb]
        rw [r2 _ _ _ (fun _ => keeps_nlj _ _ _ _), feed_nljSink]

theorem execBuffers_ok {srt : (T → T → Bool) → List T → List T} {cl : T → T} (hs : SortSpec srt) (ps : Plans T V) (h : OkList cl ps) :
    ∃ bs, SemList ps bs ∧ (match execBuffers srt cl ps with | none => [] ∈ bs | some bufs => bufs = bs) := by
  match ps, h with
  | .nil, _ => exact ⟨[], by simp [SemList], by simp [execBuffers]⟩
  | .cons p ps, h =>
    simp only [OkList] at h
    obtain ⟨bsp, p1, p2⟩ := exec_ok hs true p h.1
    obtain ⟨bs, l1, l2⟩ := execBuffers_ok hs ps h.2.2
    have hbuf : (exec srt cl p (List T) (bufferSink cl) []).st = flat bsp := by
      rw [p2 _ _ _ (fun _ => keeps_buffer cl), feed_buffer, map_clone (h.2.1 _ p1)]; rfl
    refine ⟨flat bsp :: bs, by simp only [SemList]; exact ⟨_, _, p1, l1, rfl⟩, ?_⟩
    simp only [execBuffers, hbuf]
    by_cases he : flat bsp = []
    · simp [he]
    · rw [if_neg (by simpa using he)]
      cases hb : execBuffers srt cl ps with
      | none => rw [hb] at l2; simp only at l2; simp [l2]
      | some bufs => rw [hb] at l2; simp only at l2; simp [l2]
end

end Mutable.Interp
