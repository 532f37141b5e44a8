import Verif.HSearch.Term
import Mathlib.Data.List.Sort
/-! Beam search: invariants, termination, success. -/
namespace Mutable.HS
variable {σ K : Type} [DecidableEq σ] [Field K] [LinearOrder K]

/-- Beam search on a monotone search space: only the beam queue is used. -/
def Cfg.IsBeam (cfg : Cfg K) : Prop := cfg.hasRegular = false ∧ cfg.hasBeam = true

/-- Beams have at least one place. -/
def WidthOK : Option Nat → Prop
  | some k => 1 ≤ k
  | none => True

section
variable [IsStrictOrderedRing K] {cfg : Cfg K} {sp : Space σ K} {s₀ : σ} {rank : σ → Nat}

/-- What a push to the beam (`tb`) or besides it does. -/
inductive BEff (cfg : Cfg K) (m : Mgr σ K) (tb : Bool) (t : σ) (p : Option σ) (g h : K) (m' : Mgr σ K) : Prop
  | pruned : m' = m → cfg.prune = true → BEff cfg m tb t p g h m'
  | keep (i : Info σ K) : m'.map = m.map → m.map t = some i → (tb = true → i.queue ≠ .regular) → BEff cfg m tb t p g h m'
  | set (q : Queue) : m'.map = Function.update m.map t (some ⟨g, h, q, p⟩) →
      (∀ i, m.map t = some i → i.queue ≠ .regular → g < i.g) →
      (q = .out → ∃ i, m.map t = some i ∧ i.queue = .out) →
      (q = .regular → ∀ i, m.map t = some i → i.queue = .regular) →
      (tb = true → q = .beam) → BEff cfg m tb t p g h m'

omit [IsStrictOrderedRing K] in
theorem prunes_map (m : Mgr σ K) (t : σ) (g h : K) :
    (cfg.prunes sp m t g h = none ∧ cfg.prune = true) ∨ ∃ m', cfg.prunes sp m t g h = some m' ∧ m'.map = m.map := by
  unfold Cfg.prunes
  by_cases hp : cfg.prune = true
  · rw [if_pos hp]
    split
    · exact Or.inl ⟨rfl, hp⟩
    · split
      · exact Or.inr ⟨_, rfl, rfl⟩
      · exact Or.inr ⟨_, rfl, rfl⟩
  · right; rw [if_neg hp]; exact ⟨_, rfl, rfl⟩

omit [IsStrictOrderedRing K] in
theorem pushBeam_eff (m : Mgr σ K) (t : σ) (p : Option σ) (g h : K) (hv : ∀ i, m.map t = some i → i.h = h) :
    BEff cfg m true t p g h (cfg.pushBeam sp m t p g h) := by
  unfold Cfg.pushBeam Cfg.push
  rcases prunes_map (cfg := cfg) (sp := sp) m t g h with ⟨h1, h2⟩ | ⟨m', h1, h2⟩
  · rw [h1]; exact .pruned rfl h2
  · rw [h1]
    simp only [h2]
    cases hm : m.map t with
    | none => exact .set .beam (by simp [Mgr.set, h2]) (by simp [hm]) (by simp) (by simp) (by simp)
    | some i =>
      have hi := hv i hm
      simp only [Bool.true_and, decide_eq_true_eq, if_true]
      split
      · rename_i hq
        refine .set .beam (by simp [Mgr.set, Mgr.insist, h2, hi]) ?_ (by simp) (by simp) (by simp)
        intro j hj hr; rw [hm] at hj; cases hj; exact absurd hq hr
      · rename_i hq
        split
        · exact .keep i (by simp [Mgr.insist, h2]) hm (fun _ => hq)
        · rename_i hg
          have hlt : ∀ j, m.map t = some j → j.queue ≠ .regular → g < j.g := by
            intro j hj _; rw [hm] at hj; cases hj; exact lt_of_not_ge hg
          split
          · exact .set .beam (by simp [Mgr.set, Mgr.insist, h2, hi]) hlt (by simp) (by simp) (by simp)
          · rename_i ho
            have hb : i.queue = .beam := by cases hx : i.queue <;> simp_all
            exact .set .beam (by simp [Mgr.set, Mgr.insist, h2, hi, hb]) hlt (by simp) (by simp) (by simp)

omit [IsStrictOrderedRing K] in
theorem pushRegular_eff (hB : cfg.IsBeam) (m : Mgr σ K) (t : σ) (p : Option σ) (g h : K)
    (hv : ∀ i, m.map t = some i → i.h = h) :
    BEff cfg m false t p g h (cfg.pushRegular sp m t p g h) := by
  unfold Cfg.pushRegular
  rw [if_neg (by rw [hB.1]; simp)]
  rcases prunes_map (cfg := cfg) (sp := sp) m t g h with ⟨h1, h2⟩ | ⟨m', h1, h2⟩
  · rw [h1]; exact .pruned rfl h2
  · rw [h1]
    simp only [h2]
    cases hm : m.map t with
    | none => exact .set .regular (by simp [Mgr.set, h2]) (by simp [hm]) (by simp) (by simp [hm]) (by simp)
    | some i =>
      have hi := hv i hm
      simp only
      split
      · rename_i hg
        refine .set i.queue (by simp [Mgr.set, Mgr.insist, h2, hi]) ?_ (fun h => ⟨i, hm, h⟩) ?_ (by simp)
        · intro j hj _; rw [hm] at hj; cases hj; exact hg
        · intro h j hj; rw [hm] at hj; cases hj; exact h
      · exact .keep i (by simp [Mgr.insist, h2]) hm (by simp)

/-- Invariant of beam search. -/
structure BInv (cfg : Cfg K) (sp : Space σ K) (s₀ : σ) (ex : σ → Prop) (m : Mgr σ K) : Prop where
  root : ∀ (i : Info σ K), m.map s₀ = some i → i.g = 0 ∧ i.parent = none ∧ i.queue ≠ .regular
  path : ∀ (s : σ) (i : Info σ K), m.map s = some i → Path sp s₀ s i.g
  orphan : ∀ (s : σ) (i : Info σ K), m.map s = some i → i.parent = none → s = s₀
  par : ∀ (s p : σ) (i : Info σ K), m.map s = some i → i.parent = some p →
    ∃ j c, m.map p = some j ∧ j.queue ≠ .regular ∧ (s, c) ∈ sp.succ p ∧ j.g + c ≤ i.g
  hval : ∀ (s : σ) (i : Info σ K), m.map s = some i → i.h = hVal cfg sp s₀ s
  nogoal : ∀ (s : σ) (i : Info σ K), m.map s = some i → i.queue = .out → sp.goal s = false
  has : cfg.prune = false → ∀ (s : σ) (i : Info σ K), m.map s = some i → i.queue = .out → ¬ ex s → sp.succ s ≠ [] →
    ∃ t c j, (t, c) ∈ sp.succ s ∧ m.map t = some j ∧ j.queue ≠ .regular

/-- States that are or were in the beam remain so, and get no worse. -/
def BMono (m m' : Mgr σ K) : Prop :=
  ∀ (s : σ) (i : Info σ K), m.map s = some i → i.queue ≠ .regular →
    ∃ i', m'.map s = some i' ∧ i'.queue ≠ .regular ∧ i'.g ≤ i.g

theorem BMono.refl (m : Mgr σ K) : BMono m m := fun _ i h hq => ⟨i, h, hq, le_refl _⟩
theorem BMono.trans {m m' m'' : Mgr σ K} (h : BMono m m') (h' : BMono m' m'') : BMono m m'' := by
  intro s i hi hq
  obtain ⟨i', h1, h2, h3⟩ := h s i hi hq
  obtain ⟨i'', h4, h5, h6⟩ := h' s i' h1 h2
  exact ⟨i'', h4, h5, h6.trans h3⟩

theorem BEff.mono {m m' : Mgr σ K} {tb : Bool} {t : σ} {p : Option σ} {g h : K} (he : BEff cfg m tb t p g h m') : BMono m m' := by
  cases he with
  | pruned h1 _ => rw [h1]; exact BMono.refl m
  | keep i h1 _ _ => exact fun s i hi hq => ⟨i, by rw [h1, hi], hq, le_refl _⟩
  | set q h1 h2 _ h4 _ =>
    intro s i hi hq
    by_cases hs : s = t
    · subst hs
      refine ⟨_, by rw [h1, Function.update_self], fun hr => ?_, (h2 i hi hq).le⟩
      exact hq (h4 hr i hi)
    · exact ⟨i, by rw [h1, Function.update_of_ne hs, hi], hq, le_refl _⟩

theorem BEff.other {m m' : Mgr σ K} {tb : Bool} {t : σ} {p : Option σ} {g h : K} (he : BEff cfg m tb t p g h m') {s : σ}
    (hs : s ≠ t) : m'.map s = m.map s := by
  cases he with
  | pruned h1 _ => rw [h1]
  | keep i h1 _ _ => rw [h1]
  | set q h1 _ _ _ _ => rw [h1, Function.update_of_ne hs]

/-- The costs with which a state may still be dequeued. -/
def BOpen (sp : Space σ K) (s₀ : σ) (m : Mgr σ K) : Set (σ × K) :=
  {p | Path sp s₀ p.1 p.2 ∧ ∀ i, m.map p.1 = some i → i.queue ≠ .regular → (i.queue = .out → p.2 < i.g) ∧ p.2 ≤ i.g}

theorem bopen_finite (hS : sp.Sane rank) (m : Mgr σ K) : (BOpen sp s₀ m).Finite :=
  (finite_paths hS s₀).subset fun _ h => h.1

theorem BEff.open {m m' : Mgr σ K} {tb : Bool} {t : σ} {p : Option σ} {g h : K} (he : BEff cfg m tb t p g h m') :
    BOpen sp s₀ m' ⊆ BOpen sp s₀ m := by
  rintro ⟨s, c⟩ ⟨h1, h2⟩
  refine ⟨h1, fun i hi hq => ?_⟩
  cases he with
  | pruned e1 _ => rw [e1] at h2; exact h2 i hi hq
  | keep k e1 _ _ => rw [e1] at h2; exact h2 i hi hq
  | set q e1 e3 _ e4 _ =>
    by_cases hs : s = t
    · subst hs
      have := (h2 _ (by rw [e1]; exact Function.update_self ..) (fun hr => hq (e4 hr i hi))).2
      have h4 := e3 i hi hq
      simp only at this ⊢
      exact ⟨fun _ => this.trans_lt h4, (this.trans_lt h4).le⟩
    · exact h2 i (by rw [e1, Function.update_of_ne hs]; exact hi) hq

/-- A push of a successor keeps the invariant. -/
theorem BInv.push {ex : σ → Prop} (hS : sp.Sane rank) {m m' : Mgr σ K} (hI : BInv cfg sp s₀ ex m) {p t : σ} {j : Info σ K}
    {tb : Bool} {c h : K} (hp : m.map p = some j) (hjq : j.queue ≠ .regular) (hs : (t, c) ∈ sp.succ p)
    (hh : h = hVal cfg sp s₀ t) (he : BEff cfg m tb t (some p) (j.g + c) h m') : BInv cfg sp s₀ ex m' := by
  have hmono := he.mono
  have hrk := hS.rank _ _ _ hs
  have hpt : p ≠ t := by intro h; subst h; omega
  have hts : t ≠ s₀ := by
    intro h; have := (hI.path p j hp).rank_le hS; subst h; omega
  have hhas : cfg.prune = false → ∀ (s : σ) (i : Info σ K), m.map s = some i → i.queue = .out → ¬ ex s → sp.succ s ≠ [] →
      ∃ t c j, (t, c) ∈ sp.succ s ∧ m'.map t = some j ∧ j.queue ≠ .regular := by
    intro hpr s i hi ho hx hne
    obtain ⟨u, d, k, h1, h2, h3⟩ := hI.has hpr s i hi ho hx hne
    obtain ⟨k', h4, h5, _⟩ := hmono u k h2 h3
    exact ⟨u, d, k', h1, h4, h5⟩
  cases he with
  | pruned h1 _ => rw [h1]; exact hI
  | keep i h1 h2 h3 =>
    refine ⟨by rw [h1]; exact hI.root, by rw [h1]; exact hI.path, by rw [h1]; exact hI.orphan, by rw [h1]; exact hI.par,
      by rw [h1]; exact hI.hval, by rw [h1]; exact hI.nogoal, fun hpr s i hi => ?_⟩
    rw [h1] at hi; exact hhas hpr s i hi
  | set q h1 h2 h3 h4 h5 =>
    have key : ∀ (s : σ) (i : Info σ K), m'.map s = some i →
        (s = t ∧ i = ⟨j.g + c, h, q, some p⟩) ∨ (s ≠ t ∧ m.map s = some i) := by
      intro s i hi
      rw [h1] at hi
      by_cases hst : s = t
      · subst hst; rw [Function.update_self] at hi; cases hi; exact Or.inl ⟨rfl, rfl⟩
      · rw [Function.update_of_ne hst] at hi; exact Or.inr ⟨hst, hi⟩
    refine ⟨fun i hi => ?_, fun s i hi => ?_, fun s i hi ho => ?_, fun s r i hi hq => ?_, fun s i hi => ?_,
      fun s i hi ho => ?_, fun hpr s i hi ho hx hne => ?_⟩
    · rcases key _ _ hi with ⟨a, _⟩ | ⟨_, a⟩
      · exact absurd a.symm hts
      · exact hI.root i a
    · rcases key _ _ hi with ⟨a, b⟩ | ⟨_, a⟩
      · subst a b; exact (hI.path p j hp).snoc hs
      · exact hI.path s i a
    · rcases key _ _ hi with ⟨a, b⟩ | ⟨_, a⟩
      · subst b; simp at ho
      · exact hI.orphan s i a ho
    · rcases key _ _ hi with ⟨a, b⟩ | ⟨_, a⟩
      · subst a b; simp only [Option.some.injEq] at hq; subst hq
        exact ⟨j, c, by rw [h1, Function.update_of_ne hpt, hp], hjq, hs, le_refl _⟩
      · obtain ⟨k, d, e1, e2, e3, e6⟩ := hI.par s r i a hq
        obtain ⟨k', e4, e5, e7⟩ := hmono r k e1 e2
        exact ⟨k', d, e4, e5, e3, by linarith⟩
    · rcases key _ _ hi with ⟨a, b⟩ | ⟨_, a⟩
      · subst a b; exact hh
      · exact hI.hval s i a
    · rcases key _ _ hi with ⟨a, b⟩ | ⟨_, a⟩
      · subst a b; obtain ⟨i, e1, e2⟩ := h3 ho; exact hI.nogoal s i e1 e2
      · exact hI.nogoal s i a ho
    · rcases key _ _ hi with ⟨a, b⟩ | ⟨_, a⟩
      · subst a b; obtain ⟨i, e1, e2⟩ := h3 ho; exact hhas hpr s i e1 e2 hx hne
      · exact hhas hpr s i a ho hx hne

/-- Several pushes of successors of `s`, whose entry is `j`. -/
inductive Pushes (cfg : Cfg K) (sp : Space σ K) (s₀ s : σ) (j : Info σ K) : Mgr σ K → Mgr σ K → Prop
  | refl (m : Mgr σ K) : Pushes cfg sp s₀ s j m m
  | head {m m' m'' : Mgr σ K} {tb : Bool} {t : σ} {c : K} : (t, c) ∈ sp.succ s →
      BEff cfg m tb t (some s) (j.g + c) (hVal cfg sp s₀ t) m' → Pushes cfg sp s₀ s j m' m'' → Pushes cfg sp s₀ s j m m''

theorem Pushes.trans {s : σ} {j : Info σ K} {m m' m'' : Mgr σ K} (h : Pushes cfg sp s₀ s j m m') (h' : Pushes cfg sp s₀ s j m' m'') :
    Pushes cfg sp s₀ s j m m'' := by
  induction h with
  | refl => exact h'
  | head h1 h2 _ ih => exact .head h1 h2 (ih h')

theorem Pushes.spec {ex : σ → Prop} (hS : sp.Sane rank) {s : σ} {j : Info σ K} {m m' : Mgr σ K} (h : Pushes cfg sp s₀ s j m m')
    (hI : BInv cfg sp s₀ ex m) (hs : m.map s = some j) (hq : j.queue ≠ .regular) :
    BInv cfg sp s₀ ex m' ∧ BMono m m' ∧ m'.map s = some j ∧ BOpen sp s₀ m' ⊆ BOpen sp s₀ m := by
  induction h with
  | refl m => exact ⟨hI, BMono.refl m, hs, subset_refl _⟩
  | @head m m1 m2 tb t c h1 h2 h3 ih =>
    have hrk := hS.rank _ _ _ h1
    have hst : s ≠ t := by intro h; subst h; omega
    obtain ⟨a, b, c, d⟩ := ih (hI.push hS hs hq h1 rfl h2) (by rw [h2.other hst, hs])
    exact ⟨a, h2.mono.trans b, c, d.trans h2.open⟩

theorem hOf_eq_beam {ex : σ → Prop} {m : Mgr σ K} (hI : BInv cfg sp s₀ ex m) {s t : σ} {j : Info σ K} (hs : m.map s = some j)
    (ht : t ≠ s₀) : cfg.hOf sp m s t = hVal cfg sp s₀ t := by
  unfold Cfg.hOf
  by_cases hl : cfg.lazy = true
  · rw [if_pos hl, hs]
    show j.h = _
    rw [hI.hval s j hs]; simp [hVal, hl]
  · rw [if_neg hl]
    cases hm : m.map t with
    | none => simp [hVal, hl, ht]
    | some i => exact hI.hval t i hm

/-- A candidate is a successor with its costs. -/
def CandOK (cfg : Cfg K) (sp : Space σ K) (s₀ s : σ) (j : Info σ K) (c : Cand σ K) : Prop :=
  ∃ d, (c.s, d) ∈ sp.succ s ∧ c.g = j.g + d ∧ c.h = hVal cfg sp s₀ c.s

section gen
variable {ex : σ → Prop} {s : σ} {j : Info σ K}

theorem succ_ne (hS : sp.Sane rank) {m : Mgr σ K} (hI : BInv cfg sp s₀ ex m) (hs : m.map s = some j) {t : σ} {c : K}
    (h : (t, c) ∈ sp.succ s) : t ≠ s₀ := by
  intro hc; have := (hI.path s j hs).rank_le hS; have := hS.rank _ _ _ h; rw [hc] at this; omega

theorem newCand_ok (hS : sp.Sane rank) {m : Mgr σ K} (hI : BInv cfg sp s₀ ex m) (hs : m.map s = some j) {tc : σ × K}
    (h : tc ∈ sp.succ s) : CandOK cfg sp s₀ s j ⟨tc.1, m.gOf s + tc.2, cfg.hOf sp m s tc.1⟩ :=
  ⟨tc.2, h, by simp [Mgr.gOf, hs], hOf_eq_beam hI hs (succ_ne hS hI hs h)⟩

theorem pushRegular_pushes (hB : cfg.IsBeam) {m : Mgr σ K} (hI : BInv cfg sp s₀ ex m) {c : Cand σ K}
    (hc : CandOK cfg sp s₀ s j c) : Pushes cfg sp s₀ s j m (cfg.pushRegular sp m c.s (some s) c.g c.h) := by
  obtain ⟨d, h1, h2, h3⟩ := hc
  refine .head (tb := false) h1 ?_ (.refl _)
  rw [h2, h3]; exact pushRegular_eff hB _ _ _ _ _ (fun i hi => hI.hval _ i hi)

theorem pushBeam_pushes {m : Mgr σ K} (hI : BInv cfg sp s₀ ex m) {c : Cand σ K}
    (hc : CandOK cfg sp s₀ s j c) : Pushes cfg sp s₀ s j m (cfg.pushBeam sp m c.s (some s) c.g c.h) := by
  obtain ⟨d, h1, h2, h3⟩ := hc
  refine .head (tb := true) h1 ?_ (.refl _)
  rw [h2, h3]; exact pushBeam_eff _ _ _ _ _ (fun i hi => hI.hval _ i hi)

theorem beamGen_pushes (hB : cfg.IsBeam) (hS : sp.Sane rank) (hq : j.queue ≠ .regular) {k : Nat} (hk : 1 ≤ k) {m m' : Mgr σ K}
    {cands out : List (Cand σ K)} {l : List (σ × K)} (h : cfg.BeamGen sp k s m cands l m' out) (hl : ∀ tc ∈ l, tc ∈ sp.succ s)
    (hI : BInv cfg sp s₀ ex m) (hs : m.map s = some j) (hc : ∀ c ∈ cands, CandOK cfg sp s₀ s j c) :
    Pushes cfg sp s₀ s j m m' ∧ (∀ c ∈ out, CandOK cfg sp s₀ s j c) ∧ (cands ≠ [] ∨ l ≠ [] → out ≠ []) := by
  induction h with
  | nil => exact ⟨.refl _, hc, by simp⟩
  | @room m cands tc rest m' out h1 _ ih =>
    have hn := newCand_ok hS hI hs (hl tc (by simp))
    obtain ⟨a, b, c⟩ := ih (fun x hx => hl x (by simp [hx])) hI hs (fun c h => by
      rcases List.mem_append.1 h with h | h
      · exact hc c h
      · rw [List.mem_singleton.1 h]; exact hn)
    exact ⟨a, b, fun _ => c (by simp)⟩
  | @bypass m cands tc rest m' out top h1 h2 _ _ _ ih =>
    have hn := newCand_ok hS hI hs (hl tc (by simp))
    have hp := pushRegular_pushes hB hI hn
    obtain ⟨a1, a2, a3, _⟩ := hp.spec hS hI hs hq
    obtain ⟨a, b, c⟩ := ih (fun x hx => hl x (by simp [hx])) a1 a3 hc
    exact ⟨hp.trans a, b, fun _ => c (Or.inl (List.ne_nil_of_mem h2))⟩
  | @replace m cands tc rest m' out top worst cands' h1 h2 _ _ h5 _ _ ih =>
    have hn := newCand_ok hS hI hs (hl tc (by simp))
    have hall : ∀ c ∈ worst :: cands', CandOK cfg sp s₀ s j c := by
      intro c h
      rcases List.mem_append.1 (h5.mem_iff.2 h) with h | h
      · exact hc c h
      · rw [List.mem_singleton.1 h]; exact hn
    have hp := pushRegular_pushes hB hI (hall worst (by simp))
    obtain ⟨a1, a2, a3, _⟩ := hp.spec hS hI hs hq
    obtain ⟨a, b, c⟩ := ih (fun x hx => hl x (by simp [hx])) a1 a3 (fun c h => hall c (by simp [h]))
    refine ⟨hp.trans a, b, fun _ => c (Or.inl ?_)⟩
    have h6 := h5.length_eq
    have h7 := List.length_pos_of_mem h2
    simp only [List.length_append, List.length_cons, List.length_nil] at h6
    exact List.ne_nil_of_length_pos (by omega)

theorem pushCands_pushes (hS : sp.Sane rank) (hq : j.queue ≠ .regular) (l : List (Cand σ K)) (m : Mgr σ K)
    (hI : BInv cfg sp s₀ ex m) (hs : m.map s = some j) (hc : ∀ c ∈ l, CandOK cfg sp s₀ s j c) :
    Pushes cfg sp s₀ s j m (cfg.pushCands sp m s l) := by
  induction l generalizing m with
  | nil => exact .refl m
  | cons c l ih =>
    have hp := pushBeam_pushes hI (hc c (by simp))
    obtain ⟨a1, a2, a3, _⟩ := hp.spec hS hI hs hq
    exact hp.trans (ih _ a1 a3 (fun x hx => hc x (by simp [hx])))

theorem pushRest_pushes (hB : cfg.IsBeam) (hS : sp.Sane rank) (hq : j.queue ≠ .regular) (l : List (Cand σ K)) (m : Mgr σ K)
    (hI : BInv cfg sp s₀ ex m) (hs : m.map s = some j) (hc : ∀ c ∈ l, CandOK cfg sp s₀ s j c) :
    Pushes cfg sp s₀ s j m (cfg.pushRest sp m s l) := by
  induction l generalizing m with
  | nil => exact .refl m
  | cons c l ih =>
    have hp := pushRegular_pushes hB hI (hc c (by simp))
    obtain ⟨a1, a2, a3, _⟩ := hp.spec hS hI hs hq
    exact hp.trans (ih _ a1 a3 (fun x hx => hc x (by simp [hx])))

/-- Without pruning, a candidate pushed to the beam is or was in the beam. -/
theorem pushBeam_seen (hpr : cfg.prune = false) {m : Mgr σ K} (hI : BInv cfg sp s₀ ex m) {c : Cand σ K}
    (hc : CandOK cfg sp s₀ s j c) : ∃ i, (cfg.pushBeam sp m c.s (some s) c.g c.h).map c.s = some i ∧ i.queue ≠ .regular := by
  obtain ⟨d, h1, h2, h3⟩ := hc
  have he : BEff cfg m true c.s (some s) c.g c.h (cfg.pushBeam sp m c.s (some s) c.g c.h) :=
    pushBeam_eff _ _ _ _ _ (fun i hi => by rw [h3]; exact hI.hval _ i hi)
  cases he with
  | pruned _ h => rw [hpr] at h; cases h
  | keep i e1 e2 e3 => exact ⟨i, by rw [e1, e2], e3 rfl⟩
  | set q e1 _ _ _ e5 => exact ⟨_, by rw [e1, Function.update_self], by simp [e5 rfl]⟩

theorem pushCands_seen (hpr : cfg.prune = false) (hS : sp.Sane rank) (hq : j.queue ≠ .regular) (l : List (Cand σ K)) (hl : l ≠ [])
    (m : Mgr σ K) (hI : BInv cfg sp s₀ ex m) (hs : m.map s = some j) (hc : ∀ c ∈ l, CandOK cfg sp s₀ s j c) :
    ∃ t c i, (t, c) ∈ sp.succ s ∧ (cfg.pushCands sp m s l).map t = some i ∧ i.queue ≠ .regular := by
  cases l with
  | nil => exact absurd rfl hl
  | cons c l =>
    obtain ⟨i, h1, h2⟩ := pushBeam_seen hpr hI (hc c (by simp))
    have hp := pushBeam_pushes hI (hc c (by simp))
    obtain ⟨a1, a2, a3, _⟩ := hp.spec hS hI hs hq
    have hp2 := pushCands_pushes hS hq l _ a1 a3 (fun x hx => hc x (by simp [hx]))
    obtain ⟨_, b2, _, _⟩ := hp2.spec hS a1 a3 hq
    obtain ⟨i', h3, h4, _⟩ := b2 _ i h1 h2
    obtain ⟨d, h5, _, _⟩ := hc c (by simp)
    exact ⟨c.s, d, i', h5, h3, h4⟩

/-- One exploration. -/
theorem beamExplore_spec (hB : cfg.IsBeam) (hS : sp.Sane rank) (hq : j.queue ≠ .regular) {w : Option Nat} (hw : WidthOK w) {m m' : Mgr σ K}
    (hI : BInv cfg sp s₀ ex m) (hs : m.map s = some j) (h : cfg.BeamExplore sp w m s m') :
    Pushes cfg sp s₀ s j m m' ∧ (cfg.prune = false → sp.succ s ≠ [] →
      ∃ t c i, (t, c) ∈ sp.succ s ∧ m'.map t = some i ∧ i.queue ≠ .regular) := by
  cases h with
  | @fixed k m₁ cands cands' hk hg hperm =>
    rw [hk] at hw
    obtain ⟨a, b, c⟩ := beamGen_pushes hB hS hq hw hg (fun _ h => h) hI hs (by simp)
    obtain ⟨a1, a2, a3, _⟩ := a.spec hS hI hs hq
    have hc : ∀ c ∈ cands', CandOK cfg sp s₀ s j c := fun x hx => b x (hperm.mem_iff.2 hx)
    refine ⟨a.trans (pushCands_pushes hS hq cands' _ a1 a3 hc), fun hpr hne => ?_⟩
    refine pushCands_seen hpr hS hq cands' ?_ _ a1 a3 hc
    intro h0; rw [h0] at hperm; exact c (Or.inr hne) hperm.eq_nil
  | @dynamic l hk hperm _ =>
    have hall : ∀ c ∈ l, CandOK cfg sp s₀ s j c := by
      intro c h
      have := hperm.mem_iff.2 h
      simp only [Cfg.allCands, List.mem_map] at this
      obtain ⟨tc, h1, rfl⟩ := this
      exact newCand_ok hS hI hs h1
    have hc1 : ∀ c ∈ l.take (numBeamed l.length), CandOK cfg sp s₀ s j c := fun c h => hall c (List.mem_of_mem_take h)
    have hc2 : ∀ c ∈ l.drop (numBeamed l.length), CandOK cfg sp s₀ s j c := fun c h => hall c (List.mem_of_mem_drop h)
    have hp := pushCands_pushes hS hq _ m hI hs hc1
    obtain ⟨a1, a2, a3, _⟩ := hp.spec hS hI hs hq
    have hp2 := pushRest_pushes hB hS hq _ _ a1 a3 hc2
    refine ⟨hp.trans hp2, fun hpr hne => ?_⟩
    have hlen : 0 < l.length := by
      rw [← hperm.length_eq]; simp only [Cfg.allCands, List.length_map]; exact List.length_pos_of_ne_nil hne
    have hne2 : l.take (numBeamed l.length) ≠ [] := by
      apply List.ne_nil_of_length_pos; rw [List.length_take]; unfold numBeamed; omega
    obtain ⟨t, c, i, h1, h2, h3⟩ := pushCands_seen hpr hS hq _ hne2 m hI hs hc1
    obtain ⟨_, b2, _, _⟩ := hp2.spec hS a1 a3 hq
    obtain ⟨i', h4, h5, _⟩ := b2 _ i h2 h3
    exact ⟨t, c, i', h1, h4, h5⟩

end gen

theorem BInv.dequeue {m : Mgr σ K} (hI : BInv cfg sp s₀ (fun _ => False) m) {s : σ} {i : Info σ K} (hs : m.map s = some i)
    (hq : i.queue ≠ .regular) (hg : sp.goal s = false) : BInv cfg sp s₀ (· = s) (m.dequeue s i) := by
  have key : ∀ (t : σ) (k : Info σ K), (m.dequeue s i).map t = some k →
      (t = s ∧ k = { i with queue := .out }) ∨ (t ≠ s ∧ m.map t = some k) := by
    intro t k hk
    simp only [Mgr.dequeue, Mgr.set] at hk
    by_cases h : t = s
    · subst h; rw [Function.update_self] at hk; cases hk; exact Or.inl ⟨rfl, rfl⟩
    · rw [Function.update_of_ne h] at hk; exact Or.inr ⟨h, hk⟩
  have hmono : BMono m (m.dequeue s i) := by
    intro t k hk hkq
    by_cases h : t = s
    · subst h; rw [hs] at hk; cases hk; exact ⟨{ i with queue := .out }, by simp [Mgr.dequeue, Mgr.set], by simp, le_refl _⟩
    · exact ⟨k, by simp [Mgr.dequeue, Mgr.set, Function.update_of_ne h, hk], hkq, le_refl _⟩
  refine ⟨fun k hk => ?_, fun t k hk => ?_, fun t k hk ho => ?_, fun t q k hk hq => ?_, fun t k hk => ?_,
    fun t k hk ho => ?_, fun hpr t k hk ho hx hne => ?_⟩
  · rcases key _ _ hk with ⟨a, b⟩ | ⟨_, a⟩
    · subst a b; obtain ⟨h1, h2, _⟩ := hI.root i hs; exact ⟨h1, h2, by simp⟩
    · exact hI.root k a
  · rcases key _ _ hk with ⟨a, b⟩ | ⟨_, a⟩
    · subst a b; exact hI.path t i hs
    · exact hI.path t k a
  · rcases key _ _ hk with ⟨a, b⟩ | ⟨_, a⟩
    · subst a b; exact hI.orphan t i hs ho
    · exact hI.orphan t k a ho
  · have : ∃ j c, m.map q = some j ∧ j.queue ≠ .regular ∧ (t, c) ∈ sp.succ q ∧ j.g + c ≤ k.g := by
      rcases key _ _ hk with ⟨a, b⟩ | ⟨_, a⟩
      · subst a b; exact hI.par t q i hs hq
      · exact hI.par t q k a hq
    obtain ⟨j, c, h1, h2, h3, h6⟩ := this
    obtain ⟨j', h4, h5, h7⟩ := hmono q j h1 h2
    exact ⟨j', c, h4, h5, h3, by linarith⟩
  · rcases key _ _ hk with ⟨a, b⟩ | ⟨_, a⟩
    · subst a b; exact hI.hval t i hs
    · exact hI.hval t k a
  · rcases key _ _ hk with ⟨a, b⟩ | ⟨_, a⟩
    · subst a; exact hg
    · exact hI.nogoal t k a ho
  · rcases key _ _ hk with ⟨a, b⟩ | ⟨_, a⟩
    · exact absurd a hx
    · obtain ⟨u, d, k', h1, h2, h3⟩ := hI.has hpr t k a ho (by simp) hne
      obtain ⟨k'', h4, h5, _⟩ := hmono u k' h2 h3
      exact ⟨u, d, k'', h1, h4, h5⟩

theorem pop_beam (hB : cfg.IsBeam) {m : Mgr σ K} {s : σ} {i : Info σ K} (h : cfg.Pop m s i) : Top m .beam s i := by
  rcases h with ⟨_, h⟩ | ⟨_, h, _⟩
  · exact h
  · rw [hB.1] at h; cases h

theorem bdequeue_open {m : Mgr σ K} {s : σ} {i : Info σ K} (hp : Path sp s₀ s i.g) (hs : m.map s = some i) (hq : i.queue = .beam) :
    BOpen sp s₀ (m.dequeue s i) ⊂ BOpen sp s₀ m := by
  refine (Set.ssubset_iff_of_subset ?_).2 ⟨(s, i.g), ⟨hp, fun k hk _ => ?_⟩, fun hc => ?_⟩
  · rintro ⟨t, c⟩ ⟨h1, h2⟩
    refine ⟨h1, fun k hk hkq => ?_⟩
    by_cases ht : t = s
    · subst ht
      rw [hs] at hk; cases hk
      have := h2 { i with queue := .out } (by simp [Mgr.dequeue, Mgr.set]) (by simp)
      exact ⟨fun h => (by rw [hq] at h; cases h), this.2⟩
    · exact h2 k (by simp [Mgr.dequeue, Mgr.set, Function.update_of_ne ht]; exact hk) hkq
  · simp only at hk; rw [hs] at hk; cases hk
    exact ⟨fun h => (by rw [hq] at h; cases h), le_refl _⟩
  · have := (hc.2 { i with queue := .out } (by simp [Mgr.dequeue, Mgr.set]) (by simp)).1 rfl
    exact lt_irrefl _ this

theorem BInv.iter (hB : cfg.IsBeam) (hS : sp.Sane rank) {w : Option Nat} (hw : WidthOK w) {m m' : Mgr σ K}
    (hI : BInv cfg sp s₀ (fun _ => False) m) (h : cfg.Iter sp (.beam w) m m') :
    BInv cfg sp s₀ (fun _ => False) m' ∧ BMono m m' ∧ (BOpen sp s₀ m').ncard < (BOpen sp s₀ m).ncard := by
  obtain ⟨s, i, hp, hg, he⟩ := h
  have ht := pop_beam hB hp
  have hq : i.queue ≠ .regular := by rw [ht.2.1]; simp
  have hd : (m.dequeue s i).map s = some { i with queue := .out } := by simp [Mgr.dequeue, Mgr.set]
  have hI' := hI.dequeue ht.1 hq hg
  obtain ⟨h1, h2⟩ := beamExplore_spec hB hS (by simp) hw hI' hd he
  obtain ⟨a1, a2, a3, a4⟩ := h1.spec hS hI' hd (by simp)
  refine ⟨⟨a1.root, a1.path, a1.orphan, a1.par, a1.hval, a1.nogoal, fun hpr t k hk ho _ hne => ?_⟩, ?_, ?_⟩
  · by_cases hts : t = s
    · subst hts; exact h2 hpr hne
    · exact a1.has hpr t k hk ho hts hne
  · refine BMono.trans (m' := m.dequeue s i) (fun t k hk hkq => ?_) a2
    by_cases h : t = s
    · subst h; rw [ht.1] at hk; cases hk; exact ⟨_, hd, by simp, le_refl _⟩
    · exact ⟨k, by simp [Mgr.dequeue, Mgr.set, Function.update_of_ne h, hk], hkq, le_refl _⟩
  · exact Set.ncard_lt_ncard (lt_of_le_of_lt a4 (bdequeue_open (hI.path s i ht.1) ht.1 ht.2.1)) (bopen_finite hS m)

theorem BInv.start (hB : cfg.IsBeam) :
    BInv cfg sp s₀ (fun _ => False) (cfg.start sp s₀) ∧
    (cfg.prune = false → ∃ i, (cfg.start sp s₀).map s₀ = some i) := by
  have he : BEff cfg (⟨fun _ => none, if cfg.prune then cfg.bound else none, true⟩ : Mgr σ K) true s₀ none 0 0 (cfg.start sp s₀) := by
    unfold Cfg.start; rw [hB.1, hB.2]
    exact pushBeam_eff _ _ _ _ _ (by simp)
  cases he with
  | pruned h1 h2 =>
    rw [h1]
    exact ⟨⟨by simp, by simp, by simp, by simp, by simp, by simp, by simp⟩, fun h => by rw [h2] at h; cases h⟩
  | keep i _ h3 _ => simp at h3
  | set q h1 _ _ _ h5 =>
    have hq := h5 rfl
    subst hq
    have key : ∀ s i, (cfg.start sp s₀).map s = some i → s = s₀ ∧ i = ⟨0, 0, .beam, none⟩ := by
      intro s i hi
      rw [h1] at hi
      by_cases h : s = s₀
      · subst h; rw [Function.update_self] at hi; cases hi; exact ⟨rfl, rfl⟩
      · rw [Function.update_of_ne h] at hi; cases hi
    refine ⟨⟨fun i hi => ?_, fun s i hi => ?_, fun s i hi _ => (key s i hi).1, fun s p i hi hp => ?_, fun s i hi => ?_,
      fun s i hi ho => ?_, fun _ s i hi ho => ?_⟩, fun _ => ⟨_, by rw [h1, Function.update_self]⟩⟩
    · rw [(key _ _ hi).2]; exact ⟨rfl, rfl, by simp⟩
    · obtain ⟨rfl, rfl⟩ := key _ _ hi; exact .nil _
    · rw [(key _ _ hi).2] at hp; simp at hp
    · obtain ⟨rfl, rfl⟩ := key _ _ hi; simp [hVal]
    · rw [(key _ _ hi).2] at ho; simp at ho
    · rw [(key _ _ hi).2] at ho; simp at ho

theorem bsteps_inv (hB : cfg.IsBeam) (hS : sp.Sane rank) {w : Option Nat} (hw : WidthOK w) {n : Nat} {m m' : Mgr σ K}
    (hI : BInv cfg sp s₀ (fun _ => False) m) (h : cfg.Steps sp (.beam w) n m m') :
    BInv cfg sp s₀ (fun _ => False) m' ∧ BMono m m' ∧ n + (BOpen sp s₀ m').ncard ≤ (BOpen sp s₀ m).ncard := by
  induction h with
  | zero => exact ⟨hI, BMono.refl _, by omega⟩
  | succ _ h ih =>
    obtain ⟨h1, h2, h3⟩ := ih hI
    obtain ⟨h4, h5, h6⟩ := h1.iter hB hS hw h
    exact ⟨h4, h2.trans h5, by omega⟩

theorem exists_max (l : List (Cand σ K)) (h : l ≠ []) : ∃ c ∈ l, ∀ d ∈ l, d.f ≤ c.f := by
  induction l with
  | nil => exact absurd rfl h
  | cons a l ih =>
    by_cases hl : l = []
    · subst hl; exact ⟨a, by simp, by simp⟩
    · obtain ⟨c, h1, h2⟩ := ih hl
      by_cases hac : c.f ≤ a.f
      · refine ⟨a, by simp, fun d hd => ?_⟩
        rcases List.mem_cons.1 hd with rfl | hd
        · exact le_refl _
        · exact (h2 d hd).trans hac
      · refine ⟨c, by simp [h1], fun d hd => ?_⟩
        rcases List.mem_cons.1 hd with rfl | hd
        · exact (not_le.1 hac).le
        · exact h2 d hd

theorem beamGen_exists (k : Nat) (hk : 1 ≤ k) (s : σ) (l : List (σ × K)) (m : Mgr σ K) (cands : List (Cand σ K)) :
    ∃ m' out, cfg.BeamGen sp k s m cands l m' out := by
  induction l generalizing m cands with
  | nil => exact ⟨m, cands, .nil⟩
  | cons tc l ih =>
    by_cases h : cands.length < k
    · obtain ⟨m', out, h1⟩ := ih m (cands ++ [⟨tc.1, m.gOf s + tc.2, cfg.hOf sp m s tc.1⟩])
      exact ⟨m', out, .room h h1⟩
    · obtain ⟨top, h1, h2⟩ := exists_max cands (List.ne_nil_of_length_pos (by omega))
      by_cases hf : top.f ≤ m.gOf s + tc.2 + cfg.hOf sp m s tc.1
      · obtain ⟨m', out, h3⟩ := ih (cfg.pushRegular sp m tc.1 (some s) (m.gOf s + tc.2) (cfg.hOf sp m s tc.1)) cands
        exact ⟨m', out, .bypass h h1 h2 hf h3⟩
      · obtain ⟨worst, h3, h4⟩ := exists_max (cands ++ [(⟨tc.1, m.gOf s + tc.2, cfg.hOf sp m s tc.1⟩ : Cand σ K)]) (by simp)
        obtain ⟨a, b, hab⟩ := List.append_of_mem h3
        have hperm : (cands ++ [(⟨tc.1, m.gOf s + tc.2, cfg.hOf sp m s tc.1⟩ : Cand σ K)]).Perm (worst :: (a ++ b)) := by
          rw [hab]; exact List.perm_middle
        obtain ⟨m', out, h5⟩ := ih (cfg.pushRegular sp m worst.s (some s) worst.g worst.h) (a ++ b)
        exact ⟨m', out, .replace h h1 h2 (not_le.1 hf) hperm (fun c hc => h4 c (hperm.mem_iff.2 (by simp [hc]))) h5⟩

theorem beamExplore_exists {w : Option Nat} (hw : WidthOK w) (m : Mgr σ K) (s : σ) : ∃ m', cfg.BeamExplore sp w m s m' := by
  cases w with
  | some k =>
    obtain ⟨m', out, h⟩ := beamGen_exists (cfg := cfg) (sp := sp) k hw s (sp.succ s) m []
    exact ⟨_, .fixed rfl h (List.Perm.refl _)⟩
  | none =>
    refine ⟨_, .dynamic (l := (cfg.allCands sp m s).mergeSort (fun a b => decide (a.f ≤ b.f))) rfl (List.mergeSort_perm _ _).symm ?_⟩
    have := List.pairwise_mergeSort (le := fun (a b : Cand σ K) => decide (a.f ≤ b.f))
      (fun a b c h1 h2 => by simp only [decide_eq_true_eq] at *; exact h1.trans h2)
      (fun a b => by simp only [Bool.or_eq_true, decide_eq_true_eq]; exact le_total _ _) (cfg.allCands sp m s)
    exact this.imp (fun h => by simpa using h)

theorem exists_top_beam (hS : sp.Sane rank) {ex : σ → Prop} {m : Mgr σ K} (hI : BInv cfg sp s₀ ex m)
    (h : ¬ Empty m .beam) : ∃ s i, Top m .beam s i := by
  unfold Empty at h; push Not at h
  obtain ⟨t, j, h1, h2⟩ := h
  have hfin : {s | ∃ i, m.map s = some i ∧ i.queue = .beam}.Finite := by
    refine ((finite_paths hS s₀).image Prod.fst).subset ?_
    rintro s ⟨i, hi, _⟩
    exact ⟨(s, i.g), hI.path s i hi, rfl⟩
  obtain ⟨s, ⟨i, hi, hq⟩, hmin⟩ := Set.exists_min_image _ (fun s => (m.map s).elim 0 (fun i => i.g + i.h)) hfin ⟨t, j, h1, h2⟩
  refine ⟨s, i, hi, hq, fun u k hu hk => ?_⟩
  have := hmin u ⟨k, hu, hk⟩
  simpa [hi, hu] using this

theorem bprogress (hB : cfg.IsBeam) (hS : sp.Sane rank) {w : Option Nat} (hw : WidthOK w) {m : Mgr σ K}
    (hI : BInv cfg sp s₀ (fun _ => False) m) :
    cfg.QueuesEmpty m ∨ (∃ s i, cfg.Pop m s i ∧ sp.goal s = true) ∨ ∃ m', cfg.Iter sp (.beam w) m m' := by
  by_cases he : Empty m .beam
  · exact Or.inl ⟨fun h => (by rw [hB.1] at h; cases h), fun _ => he⟩
  · obtain ⟨s, i, ht⟩ := exists_top_beam hS hI he
    have hp : cfg.Pop m s i := Or.inl ⟨hB.2, ht⟩
    right
    by_cases hg : sp.goal s = true
    · exact Or.inl ⟨s, i, hp, hg⟩
    · obtain ⟨m', h⟩ := beamExplore_exists (cfg := cfg) (sp := sp) hw (m.dequeue s i) s
      exact Or.inr ⟨m', s, i, hp, by simpa using hg, h⟩

theorem BInv.trace (hS : sp.Sane rank) {ex : σ → Prop} {m : Mgr σ K} (hI : BInv cfg sp s₀ ex m) {s : σ} {i : Info σ K}
    (hs : m.map s = some i) : ∃ c, Trace sp m s₀ s c ∧ c ≤ i.g := by
  suffices h : ∀ n s i, rank s₀ - rank s < n → m.map s = some i → ∃ c, Trace sp m s₀ s c ∧ c ≤ i.g from
    h _ s i (Nat.lt_succ_self _) hs
  intro n
  induction n with
  | zero => intro s i h; omega
  | succ n ih =>
    intro s i hn hi
    cases hp : i.parent with
    | none =>
      have := hI.orphan s i hi hp; subst this
      exact ⟨0, .root hi hp, by rw [(hI.root i hi).1]⟩
    | some p =>
      obtain ⟨j, c, h1, _, h2, h3⟩ := hI.par s p i hi hp
      have hr := hS.rank _ _ _ h2
      have hr2 := (hI.path p j h1).rank_le hS
      obtain ⟨d, h4, h5⟩ := ih p j (by omega) h1
      exact ⟨d + c, .step hi hp h2 h4, by linarith⟩

theorem brun_found (hB : cfg.IsBeam) (hS : sp.Sane rank) {w : Option Nat} (hw : WidthOK w) {b : Option Nat} {m m' : Mgr σ K} {s : σ}
    (hI : BInv cfg sp s₀ (fun _ => False) m) (h : cfg.Run sp (.beam w) b m (.found s m')) :
    ∃ m₁ i, BInv cfg sp s₀ (fun _ => False) m₁ ∧ Top m₁ .beam s i ∧ sp.goal s = true ∧ m' = m₁.dequeue s i := by
  generalize hr : Result.found s m' = r at h
  induction h with
  | @found b m s' i _ h1 h2 => cases hr; exact ⟨m, i, hI, pop_beam hB h1, h2, rfl⟩
  | iter _ h1 _ ih => exact ih (hI.iter hB hS hw h1).1 hr
  | exhausted _ => cases hr
  | unreachable _ => cases hr

theorem brun_unreachable (hB : cfg.IsBeam) (hS : sp.Sane rank) {w : Option Nat} (hw : WidthOK w) {b : Option Nat} {m : Mgr σ K}
    (hI : BInv cfg sp s₀ (fun _ => False) m) (h : cfg.Run sp (.beam w) b m .unreachable) :
    ∃ m₁, BInv cfg sp s₀ (fun _ => False) m₁ ∧ BMono m m₁ ∧ Empty m₁ .beam := by
  generalize hr : (Result.unreachable : Result σ K) = r at h
  induction h with
  | found _ _ _ => cases hr
  | iter _ h1 _ ih =>
    obtain ⟨h2, h3, _⟩ := hI.iter hB hS hw h1
    obtain ⟨m₁, e1, e2, e3⟩ := ih h2 hr
    exact ⟨m₁, e1, h3.trans e2, e3⟩
  | exhausted _ => cases hr
  | @unreachable b m h => exact ⟨m, hI, BMono.refl m, h.2 hB.2⟩

/-- With the beam empty, all states that were ever in it are expanded, and so a goal was met. -/
theorem BInv.not_empty (hS : sp.Sane rank) (hpr : cfg.prune = false) {m : Mgr σ K} (hI : BInv cfg sp s₀ (fun _ => False) m)
    (hsucc : ∀ s c, Path sp s₀ s c → sp.goal s = false → sp.succ s ≠ []) {i : Info σ K} (h₀ : m.map s₀ = some i) : ¬ Empty m .beam := by
  intro he
  have hout : ∀ s i, m.map s = some i → i.queue ≠ .regular → i.queue = .out := by
    intro s i hi hq
    have := he s i hi
    cases h : i.queue <;> simp_all
  suffices h : ∀ n s i, rank s < n → m.map s = some i → i.queue ≠ .regular → False from
    h _ s₀ i (Nat.lt_succ_self _) h₀ (hI.root i h₀).2.2
  intro n
  induction n with
  | zero => intro s i h; omega
  | succ n ih =>
    intro s i hn hi hq
    have ho := hout s i hi hq
    obtain ⟨t, c, k, h1, h2, h3⟩ := hI.has hpr s i hi ho (by simp) (hsucc s _ (hI.path s i hi) (hI.nogoal s i hi ho))
    exact ih t k (by have := hS.rank _ _ _ h1; omega) h2 h3

theorem brun_exists (hB : cfg.IsBeam) (hS : sp.Sane rank) {w : Option Nat} (hw : WidthOK w) (b : Option Nat) {m : Mgr σ K}
    (hI : BInv cfg sp s₀ (fun _ => False) m) : ∃ r, cfg.Run sp (.beam w) b m r := by
  generalize hn : (BOpen sp s₀ m).ncard = n
  induction n using Nat.strong_induction_on generalizing m b with
  | _ n ih =>
    rcases bprogress hB hS hw hI with h | h
    · exact ⟨_, .unreachable h⟩
    · by_cases hb : b = some 0
      · subst hb
        by_cases hq : cfg.QueuesEmpty m
        · exact ⟨_, .unreachable hq⟩
        · exact ⟨_, .exhausted hq⟩
      · rcases h with ⟨s, i, h1, h2⟩ | ⟨m', h1⟩
        · exact ⟨_, .found hb h1 h2⟩
        · obtain ⟨r, hr⟩ := ih _ (by rw [← hn]; exact (hI.iter hB hS hw h1).2.2) (b.map (· - 1)) (hI.iter hB hS hw h1).1 rfl
          exact ⟨r, .iter hb h1 hr⟩

end
end Mutable.HS
