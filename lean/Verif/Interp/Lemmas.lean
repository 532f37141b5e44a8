import Verif.Interp.Spec
import Mathlib.Tactic.Ring
import Mathlib.Tactic.Linarith
import Mathlib.Tactic.FieldSimp

/-! Blocks, feeding blocks to operators, and the effect of each operator on the stream of blocks. -/
namespace Mutable.Interp

variable {σ T V : Type}

/-! ### Masks and blocks -/

theorem allOnes_apply (i : Nat) : allOnes i = decide (i < 64) := by
  unfold allOnes
  by_cases h : i < 64
  · rw [show ((-1 : BitVec 64)) = BitVec.allOnes 64 from by decide, BitVec.getLsbD_allOnes]
  · simp only [h, decide_false]
    exact BitVec.getLsbD_of_ge _ _ (by omega)

theorem lowOnes_apply (n : Nat) (hn : n < 64) (i : Nat) : lowOnes n i = decide (i < n) := by
  unfold lowOnes
  have h1 : (1#64 <<< n - 1#64).toNat = 2 ^ n - 1 := by
    have hp : 2 ^ n < 2 ^ 64 := Nat.pow_lt_pow_right (by norm_num) hn
    have hp1 : 1 ≤ 2 ^ n := Nat.one_le_two_pow
    rw [BitVec.toNat_sub, BitVec.toNat_shiftLeft, Nat.shiftLeft_eq]
    simp only [BitVec.toNat_ofNat]
    norm_num
    norm_num at hp
    omega
  rw [BitVec.getLsbD, h1, Nat.testBit_two_pow_sub_one]

/-- The block holding a list of at most 64 tuples in its first slots. -/
def lblk (l : List T) : Blk T := fun i => if i < 64 then l[i]? else none

theorem filterMap_range_getElem? (l : List T) (n : Nat) (h : l.length ≤ n) :
    (List.range n).filterMap (fun i => l[i]?) = l := by
  induction n generalizing l with
  | zero => simp_all
  | succ n ih =>
    rcases Nat.lt_or_ge n l.length with h' | h'
    · have hl : l.length = n + 1 := by omega
      rw [List.range_succ, List.filterMap_append]
      have h1 : (List.range n).filterMap (fun i => l[i]?) = l.take n := by
        rw [← ih (l.take n) (by simp)]
        apply List.filterMap_congr
        intro i hi
        rw [List.mem_range] at hi
        simp [List.getElem?_take, hi]
      rw [h1]
      have : l = l.take n ++ [l[n]] := by
        rw [List.take_append_getElem]
        simp [List.take_of_length_le, hl]
      conv_rhs => rw [this]
      simp [h']
    · rw [List.range_succ, List.filterMap_append, ih l h']
      simp [h']

theorem lblk_tuples (l : List T) (h : l.length ≤ 64) : (lblk l).tuples = l := by
  unfold Blk.tuples
  refine Eq.trans ?_ (filterMap_range_getElem? l 64 h)
  apply List.filterMap_congr
  intro i hi
  rw [List.mem_range] at hi
  simp [lblk, hi]

theorem Blk.empty_iff (b : Blk T) : b.empty = true ↔ b.tuples = [] := by
  simp only [Blk.empty, Blk.tuples, List.all_eq_true, List.filterMap_eq_nil_iff, Option.isNone_iff_eq_none]

theorem mask_mkBlk (d : Nat → T) (m : Nat → Bool) : (mkBlk d m).mask = m := by
  funext i
  unfold Blk.mask mkBlk
  cases m i <;> rfl

theorem mkBlk_allOnes (d : Nat → T) : mkBlk d allOnes = lblk ((List.range 64).map d) := by
  funext i
  unfold mkBlk lblk
  rw [allOnes_apply]
  by_cases h : i < 64
  · simp only [h, decide_true, if_true]
    rw [List.getElem?_eq_getElem (by simpa using h)]
    simp
  · simp [h]

theorem mkBlk_lowOnes (d : Nat → T) (n : Nat) (hn : n < 64) :
    mkBlk d (lowOnes n) = lblk ((List.range n).map d) := by
  funext i
  unfold mkBlk lblk
  rw [lowOnes_apply n hn]
  by_cases h : i < n
  · simp only [h, decide_true, if_true, show i < 64 by omega]
    rw [List.getElem?_eq_getElem (by simpa using h)]
    simp
  · have : (List.map d (List.range n))[i]? = none := by
      rw [List.getElem?_eq_none_iff]; simpa using h
    simp [h, this]

/-! ### Feeding -/

/-- Push blocks one after the other until the consumer unwinds. -/
def feed (sink : Sink σ T) : σ → List (Blk T) → Ex σ
  | s, [] => ⟨s, false⟩
  | s, b :: bs => if (sink s b).unwound then ⟨(sink s b).st, true⟩ else feed sink (sink s b).st bs

/-- The consumer leaves the mask of the blocks as it is. -/
def Keeps (sink : Sink σ T) : Prop := ∀ s b, (sink s b).mask = b.mask

/-- The tuples in a list of blocks. -/
def flat (bs : List (Blk T)) : List T := bs.flatMap Blk.tuples

theorem feed_append (sink : Sink σ T) (s : σ) (as bs : List (Blk T)) :
    feed sink s (as ++ bs) = if (feed sink s as).unwound then feed sink s as else feed sink (feed sink s as).st bs := by
  induction as generalizing s with
  | nil => simp [feed]
  | cons a as ih =>
    simp only [List.cons_append, feed]
    by_cases h : (sink s a).unwound <;> simp [h, ih]

/-- Blocks of 64 tuples. -/
def chunks : Nat → List T → List (Blk T)
  | 0, _ => []
  | n + 1, l => if l = [] then [] else lblk (l.take 64) :: chunks n (l.drop 64)
termination_by structural n => n

open Classical in
/-- `chunks` with enough fuel. -/
noncomputable def chunk (l : List T) : List (Blk T) := chunks l.length l

open Classical in
theorem chunks_fuel (n m : Nat) (l : List T) (hn : l.length ≤ n) (hm : l.length ≤ m) : chunks n l = chunks m l := by
  induction n generalizing m l with
  | zero =>
    have : l = [] := List.length_eq_zero_iff.mp (by omega)
    subst this
    cases m <;> simp [chunks]
  | succ n ih =>
    cases m with
    | zero =>
      have : l = [] := List.length_eq_zero_iff.mp (by omega)
      subst this
      simp [chunks]
    | succ m =>
      unfold chunks
      split
      · rfl
      · rw [ih m (l.drop 64) (by simp; omega) (by simp; omega)]

theorem chunk_nil : chunk ([] : List T) = [] := rfl

theorem chunk_cons (l : List T) (h : l ≠ []) : chunk l = lblk (l.take 64) :: chunk (l.drop 64) := by
  unfold chunk
  obtain ⟨a, l', rfl⟩ := List.exists_cons_of_ne_nil h
  conv_lhs => rw [List.length_cons]; unfold chunks
  simp only [reduceCtorEq, if_false]
  rw [chunks_fuel _ ((a :: l').drop 64).length _ (by simp) (le_refl _)]

theorem flat_chunk (l : List T) : flat (chunk l) = l := by
  induction hn : l.length using Nat.strong_induction_on generalizing l with
  | _ n ih =>
    by_cases h : l = []
    · subst h; rfl
    · rw [chunk_cons l h]
      have hlen : l.length ≠ 0 := by simpa [List.length_eq_zero_iff] using h
      unfold flat
      rw [List.flatMap_cons, lblk_tuples _ (by simp)]
      have := ih (l.drop 64).length (by simp; omega) (l.drop 64) rfl
      unfold flat at this
      rw [this, List.take_append_drop]

/-! ### Producers -/

section
variable [Inhabited T]

theorem map_getD_range (l : List T) (n : Nat) (h : n ≤ l.length) :
    (List.range n).map (fun i => l.getD i default) = l.take n := by
  apply List.ext_getElem
  · simp [h]
  · intro i h1 h2
    simp at h1 h2
    simp [List.getD_eq_getElem?_getD, List.getElem?_eq_getElem h2.2]

theorem pushFull_eq (sink : Sink σ T) (n : Nat) (ts : List T) (s : σ) (h : n * 64 ≤ ts.length) :
    pushFull sink n ts s = feed sink s (chunk (ts.take (n * 64))) := by
  induction n generalizing ts s with
  | zero => simp [pushFull, chunk_nil, feed]
  | succ n ih =>
    have hne : ts.take ((n + 1) * 64) ≠ [] := by
      intro e
      have := congrArg List.length e
      rw [List.length_take, List.length_nil] at this
      omega
    rw [chunk_cons _ hne]
    unfold pushFull
    rw [mkBlk_allOnes, map_getD_range _ _ (by omega)]
    simp only [feed, List.take_take, show min 64 ((n + 1) * 64) = 64 by omega]
    split
    · rfl
    · rw [ih _ _ (by simp; omega)]
      congr 2
      rw [List.drop_take]
      congr 1
      omega

/-- The blocks pushed by a producer. -/
noncomputable def prodBlocks (always : Bool) (ts : List T) : List (Blk T) :=
  chunk (ts.take (ts.length / 64 * 64)) ++
    if ts.length % 64 ≠ 0 ∨ always then [lblk (ts.drop (ts.length / 64 * 64))] else []

theorem pushAll_eq (always : Bool) (sink : Sink σ T) (ts : List T) (s : σ) :
    pushAll always sink ts s = feed sink s (prodBlocks always ts) := by
  unfold pushAll prodBlocks
  have h1 : (ts.length - ts.length % 64) / 64 = ts.length / 64 := by omega
  have h2 : ts.length / 64 * 64 ≤ ts.length := by omega
  simp only [h1]
  rw [pushFull_eq sink _ ts s h2, feed_append]
  split
  · rfl
  · split
    · rename_i hr
      have hle : ts.length % 64 = (ts.drop (ts.length / 64 * 64)).length := by rw [List.length_drop]; omega
      rw [mkBlk_lowOnes _ _ (by omega), map_getD_range _ _ (le_of_eq hle), hle, List.take_length]
      simp only [feed]
      generalize (sink (feed sink s (chunk (List.take (ts.length / 64 * 64) ts))).st
            (lblk (List.drop (ts.length / 64 * 64) ts))) = q
      rcases q with ⟨a, b, _ | _⟩ <;> rfl
    · rename_i hu hr
      simp only [feed]
      cases h : (feed sink s (chunk (List.take (ts.length / 64 * 64) ts)))
      simp_all

theorem flat_prodBlocks (always : Bool) (ts : List T) : flat (prodBlocks always ts) = ts := by
  unfold prodBlocks flat
  rw [List.flatMap_append]
  have := flat_chunk (ts.take (ts.length / 64 * 64))
  unfold flat at this
  rw [this]
  have hd : (lblk (ts.drop (ts.length / 64 * 64))).tuples = ts.drop (ts.length / 64 * 64) :=
    lblk_tuples _ (by simp; omega)
  split
  · simp [hd]
  · rename_i h
    push Not at h
    rw [List.flatMap_nil, List.append_nil, List.take_of_length_le]
    omega

end

/-! ### Filters -/

theorem filterLoop_apply (keep : T → Bool) (b : Blk T) (i : Nat) :
    filterLoop keep b i = if i < 64 then (b i).filter keep else b i := by
  unfold filterLoop
  suffices H : ∀ n i, ((List.range n).foldl (fun (c : Blk T) i => match b i with
      | some t => if keep t then c else c.erase i
      | none => c) b) i = if i < n then (b i).filter keep else b i from H 64 i
  intro n
  induction n with
  | zero => simp
  | succ n ih =>
    intro i
    rw [List.range_succ, List.foldl_append]
    simp only [List.foldl_cons, List.foldl_nil]
    rcases Nat.lt_trichotomy i n with h | h | h
    · rw [if_pos (show i < n + 1 by omega)]
      cases hb : b n with
      | none => simp [ih, h]
      | some t =>
        by_cases hk : keep t
        · simp [ih, h, hk]
        · have hne : ¬ i = n := by omega
          simp [Blk.erase, hk, ih, h, hne]
    · subst h
      cases hb : b i with
      | none => simp [ih, hb]
      | some t => by_cases hk : keep t <;> simp [Blk.erase, hk, ih, hb, Option.filter]
    · rw [if_neg (show ¬ i < n + 1 by omega)]
      have hn : ¬ i < n := by omega
      cases hb : b n with
      | none => simp [ih, hn]
      | some t =>
        by_cases hk : keep t
        · simp [ih, hk, hn]
        · have hne : ¬ i = n := by omega
          simp [Blk.erase, hk, ih, hne, hn]

theorem filterLoop_tuples (keep : T → Bool) (b : Blk T) :
    (filterLoop keep b).tuples = b.tuples.filter keep := by
  unfold Blk.tuples
  rw [← List.filterMap_eq_filter, List.filterMap_filterMap]
  apply List.filterMap_congr
  intro i hi
  rw [List.mem_range] at hi
  rw [filterLoop_apply]
  simp only [hi, if_true]
  cases b i with
  | none => rfl
  | some t => by_cases hk : keep t <;> simp [Option.filter, Option.guard, hk]

/-- A sink that preprocesses blocks with `f` and drops empty ones. -/
theorem feed_pre (f : Blk T → Blk T) (sink sink' : Sink σ T)
    (h : ∀ s b, (f b).empty = true → (sink' s b).st = s ∧ (sink' s b).unwound = false)
    (h' : ∀ s b, (f b).empty = false → (sink' s b).st = (sink s (f b)).st ∧ (sink' s b).unwound = (sink s (f b)).unwound)
    (s : σ) (bs : List (Blk T)) :
    feed sink' s bs = feed sink s ((bs.map f).filter fun b => !b.empty) := by
  induction bs generalizing s with
  | nil => rfl
  | cons b bs ih =>
    cases he : (f b).empty with
    | true =>
      have := h s b he
      simp [feed, he, this, ih]
    | false =>
      have := h' s b he
      simp [feed, he, this, ih]

theorem flat_filter_nonempty (bs : List (Blk T)) : flat (bs.filter fun b => !b.empty) = flat bs := by
  induction bs with
  | nil => rfl
  | cons b bs ih =>
    unfold flat at *
    cases he : b.empty with
    | true =>
      have := (Blk.empty_iff b).mp he
      simp [he, this, ih]
    | false => simp [he, ih]

theorem flat_map_filterLoop (keep : T → Bool) (bs : List (Blk T)) :
    flat (bs.map (filterLoop keep)) = (flat bs).filter keep := by
  induction bs with
  | nil => rfl
  | cons b bs ih =>
    unfold flat at *
    simp [filterLoop_tuples, ih]

theorem feed_filterSink (p : T → Option Bool) (sink : Sink σ T) (s : σ) (bs : List (Blk T)) :
    feed (filterSink p sink) s bs =
      feed sink s ((bs.map (filterLoop fun t => isTrue (p t))).filter fun b => !b.empty) := by
  apply feed_pre
  · intro s b h; simp [filterSink, h]
  · intro s b h; simp [filterSink, h]

theorem feed_dfilterSink (ps : List (T → Option Bool)) (sink : Sink σ T) (s : σ) (bs : List (Blk T)) :
    feed (dfilterSink ps sink) s bs =
      feed sink s ((bs.map (filterLoop (dfilterKeep ps))).filter fun b => !b.empty) := by
  apply feed_pre
  · intro s b h; simp [dfilterSink, h]
  · intro s b h; simp [dfilterSink, h]

theorem isTrue_iff (v : Option Bool) : isTrue v = true ↔ v = some true := by
  rcases v with _ | _ | _ <;> simp [isTrue]

theorem dfilterKeep_iff (ps : List (T → Option Bool)) (t : T) :
    dfilterKeep ps t = true ↔ ∃ p ∈ ps, p t = some true := by
  induction ps with
  | nil => simp [dfilterKeep]
  | cons p ps ih =>
    unfold dfilterKeep
    by_cases h : isTrue (p t) = true
    · simp [(isTrue_iff _).mp h, isTrue]
    · have : ¬ p t = some true := fun e => h ((isTrue_iff _).mpr e)
      simp [h, ih, this]

/-! ### Projection -/

theorem tuples_map (f : T → T) (b : Blk T) : Blk.tuples (fun i => (b i).map f) = b.tuples.map f := by
  unfold Blk.tuples
  rw [List.map_filterMap]

theorem feed_projSink (f : T → T) (sink : Sink σ T) (s : σ) (bs : List (Blk T)) :
    feed (projSink f sink) s bs = feed sink s (bs.map fun b i => (b i).map f) := by
  induction bs generalizing s with
  | nil => rfl
  | cons b bs ih => simp [feed, projSink, ih]

theorem flat_map_proj (f : T → T) (bs : List (Blk T)) :
    flat (bs.map fun b i => (b i).map f) = (flat bs).map f := by
  induction bs with
  | nil => rfl
  | cons b bs ih =>
    unfold flat at *
    simp [tuples_map, ih]

theorem keeps_proj (f : T → T) (sink : Sink σ T) : Keeps (projSink f sink) := fun _ _ => rfl

/-! ### Limit -/

/-- The tuples at positions `n`, `n+1`, ... that lie within `[off, hi)`. -/
def window (off hi : Nat) : Nat → List T → List T
  | _, [] => []
  | n, t :: ts => if n < off ∨ n ≥ hi then window off hi (n + 1) ts else t :: window off hi (n + 1) ts

theorem window_append (off hi n : Nat) (as bs : List T) :
    window off hi n (as ++ bs) = window off hi n as ++ window off hi (n + as.length) bs := by
  induction as generalizing n with
  | nil => simp [window]
  | cons a as ih =>
    simp only [List.cons_append, window, ih, List.length_cons, show n + (as.length + 1) = n + 1 + as.length by omega]
    split <;> simp

theorem window_past (off hi n : Nat) (ts : List T) (h : hi ≤ n) : window off hi n ts = [] := by
  induction ts generalizing n with
  | nil => rfl
  | cons t ts ih => simp [window, h, ih (n + 1) (by omega)]

theorem window_eq (off lim n : Nat) (ts : List T) :
    window off (off + lim) n ts = (ts.drop (off - n)).take (off + lim - max n off) := by
  induction ts generalizing n with
  | nil => simp [window]
  | cons t ts ih =>
    unfold window
    rw [ih]
    by_cases h1 : n < off
    · rw [if_pos (Or.inl h1), show off - n = (off - (n + 1)) + 1 by omega, List.drop_succ_cons,
        show max (n + 1) off = max n off by omega]
    · rw [show off - n = 0 by omega, List.drop_zero]
      by_cases h2 : n ≥ off + lim
      · rw [if_pos (Or.inr h2), show off - (n + 1) = 0 by omega, List.drop_zero,
          show off + lim - max n off = 0 by omega, show off + lim - max (n + 1) off = 0 by omega]
        simp
      · rw [if_neg (by omega), show off - (n + 1) = 0 by omega, List.drop_zero,
          show off + lim - max n off = (off + lim - max (n + 1) off) + 1 by omega, List.take_succ_cons]

theorem limitLoop_spec (off hi n : Nat) (b : Blk T) :
    (limitLoop off hi n b).1 = n + b.tuples.length ∧
    (limitLoop off hi n b).2.tuples = window off hi n b.tuples := by
  unfold limitLoop Blk.tuples
  suffices H : ∀ m, m ≤ 64 →
      let r := (List.range m).foldl (fun (st : Nat × Blk T) i => match b i with
        | some _ => (st.1 + 1, if st.1 < off ∨ st.1 ≥ hi then st.2.erase i else st.2)
        | none => st) (n, b)
      r.1 = n + ((List.range m).filterMap b).length ∧
      (List.range m).filterMap r.2 = window off hi n ((List.range m).filterMap b) ∧ ∀ i, m ≤ i → r.2 i = b i from
    ⟨(H 64 (le_refl _)).1, (H 64 (le_refl _)).2.1⟩
  intro m
  induction m with
  | zero => intro _; simp [window]
  | succ m ih =>
    intro hm
    obtain ⟨h1, h2, h3⟩ := ih (by omega)
    rw [List.range_succ, List.foldl_append]
    intro r'
    rw [List.filterMap_append, List.filterMap_append]
    subst r'
    simp only [List.foldl_cons, List.foldl_nil, List.filterMap_cons, List.filterMap_nil]
    generalize hr : (List.range m).foldl (fun (st : Nat × Blk T) i => match b i with
        | some _ => (st.1 + 1, if st.1 < off ∨ st.1 ≥ hi then st.2.erase i else st.2)
        | none => st) (n, b) = r at *
    have hrm := h3 m (le_refl _)
    cases hb : b m with
    | none =>
      rw [hb] at hrm
      simp only [hrm, List.append_nil]
      exact ⟨h1, h2, fun i hi => h3 i (by omega)⟩
    | some t =>
      rw [hb] at hrm
      simp only [List.length_append, List.length_singleton]
      rw [window_append]
      refine ⟨by omega, ?_, ?_⟩
      · by_cases hc : r.1 < off ∨ r.1 ≥ hi
        · simp only [hc, if_true]
          have he : (List.range m).filterMap (r.2.erase m) = (List.range m).filterMap r.2 := by
            apply List.filterMap_congr
            intro i hi
            rw [List.mem_range] at hi
            simp [Blk.erase, show ¬ i = m by omega]
          rw [he, h2]
          rw [h1] at hc
          simp only [Blk.erase, if_true, window, hc, List.append_nil]
        · simp only [hc, if_false, hrm, h2]
          rw [h1] at hc
          simp [window, hc]
      · intro i hmi
        by_cases hc : r.1 < off ∨ r.1 ≥ hi
        · simp only [hc, if_true, Blk.erase, show ¬ i = m by omega, if_false]
          exact h3 i (by omega)
        · simp only [hc, if_false]
          exact h3 i (by omega)

/-- The blocks a limit operator passes on. -/
def limBlocks (off hi : Nat) : Nat → List (Blk T) → List (Blk T)
  | _, [] => []
  | n, b :: bs =>
    let r := limitLoop off hi n b
    (if r.2.empty then [] else [r.2]) ++ if r.1 ≥ hi then [] else limBlocks off hi r.1 bs

theorem feed_limitSink (lim off : Nat) (h : off + lim < 2 ^ 64) (sink : Sink σ T) (n : Nat) (s : σ)
    (bs : List (Blk T)) :
    (feed (limitSink lim off sink) (n, s) bs).st.2 = (feed sink s (limBlocks off (off + lim) n bs)).st := by
  induction bs generalizing n s with
  | nil => rfl
  | cons b bs ih =>
    simp only [feed, limBlocks, limitSink, Nat.mod_eq_of_lt h]
    cases he : (limitLoop off (off + lim) n b).2.empty with
    | true =>
      by_cases hc : (limitLoop off (off + lim) n b).1 ≥ off + lim
      · simp [hc, feed]
      · simp [hc, ih]
    | false =>
      simp only [Bool.false_eq_true, if_false, List.singleton_append, feed]
      cases hu : (sink s (limitLoop off (off + lim) n b).2).unwound with
      | true => simp
      | false =>
        by_cases hc : (limitLoop off (off + lim) n b).1 ≥ off + lim
        · simp [hc, feed]
        · simp [hc, ih]

theorem flat_limBlocks (off hi n : Nat) (bs : List (Blk T)) :
    flat (limBlocks off hi n bs) = window off hi n (flat bs) := by
  induction bs generalizing n with
  | nil => rfl
  | cons b bs ih =>
    obtain ⟨h1, h2⟩ := limitLoop_spec off hi n b
    have hf : flat (b :: bs) = b.tuples ++ flat bs := by simp [flat]
    have ha : ∀ xs ys : List (Blk T), flat (xs ++ ys) = flat xs ++ flat ys := by intro xs ys; simp [flat]
    rw [hf, window_append]
    unfold limBlocks
    rw [ha]
    congr 1
    · rw [← h2]
      split
      · rename_i he
        rw [(Blk.empty_iff _).mp he]; rfl
      · simp [flat]
    · rw [← h1]
      split
      · rename_i hc
        rw [window_past off hi _ _ hc]; rfl
      · exact ih _

end Mutable.Interp
