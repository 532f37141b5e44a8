import Verif.Greedy.Lin2
/-! The dynamic program of LinearizedDP over the windows of the linearization. -/
namespace Mutable
open SB
namespace PE

/-- The relations of a list. -/
def listSet (l : List Nat) : SB := l.foldl (fun S x => set S x true) 0#64

theorem mem_foldl_set {l : List Nat} (h : ∀ x ∈ l, x < 64) (S : SB) (i : Nat) :
    Mem (l.foldl (fun S x => set S x true) S) i ↔ Mem S i ∨ i ∈ l := by
  induction l generalizing S with
  | nil => simp
  | cons x l ih =>
    rw [List.foldl_cons, ih (fun y hy => h y (by simp [hy])), mem_setOp S x (h x (by simp)), List.mem_cons]
    by_cases hi : i = x
    · simp [hi]
    · simp [hi]

theorem mem_listSet {l : List Nat} (h : ∀ x ∈ l, x < 64) (i : Nat) : Mem (listSet l) i ↔ i ∈ l := by
  rw [listSet, mem_foldl_set h]
  exact or_iff_right (not_mem_zero i)

section
variable {lin : List Nat}

theorem mem_window (b e i : Nat) : i ∈ (lin.drop b).take (e - b) ↔ ∃ k, b ≤ k ∧ k < e ∧ lin[k]? = some i := by
  rw [List.mem_iff_getElem?]
  constructor
  · rintro ⟨k, hk⟩
    rw [List.getElem?_take] at hk
    split at hk
    · rw [List.getElem?_drop] at hk; exact ⟨b + k, by omega, by omega, hk⟩
    · cases hk
  · rintro ⟨k, h1, h2, h3⟩
    refine ⟨k - b, ?_⟩
    rw [List.getElem?_take, if_pos (by omega), List.getElem?_drop, show b + (k - b) = k by omega]; exact h3

theorem mem_seqSet (h : ∀ x ∈ lin, x < 64) (b e i : Nat) : Mem (seqSet lin b e) i ↔ ∃ k, b ≤ k ∧ k < e ∧ lin[k]? = some i := by
  rw [← mem_window]
  exact mem_listSet (fun x hx => h x (List.mem_of_mem_drop (List.mem_of_mem_take hx))) i

theorem nodup_idx (hnd : lin.Nodup) {k k' i : Nat} (h : lin[k]? = some i) (h' : lin[k']? = some i) : k = k' := by
  obtain ⟨a, b⟩ := List.getElem?_eq_some_iff.1 h
  obtain ⟨a', b'⟩ := List.getElem?_eq_some_iff.1 h'
  exact (hnd.getElem_inj_iff).1 (b.trans b'.symm)

variable (hlt : ∀ x ∈ lin, x < 64) (hnd : lin.Nodup)
include hlt hnd

theorem seqSet_disj (b m e : Nat) : seqSet lin b m &&& seqSet lin m e = 0#64 := by
  rw [disj_iff]
  intro i h1 h2
  rw [mem_seqSet hlt] at h1 h2
  obtain ⟨k, _, a, b⟩ := h1
  obtain ⟨k', c, _, d⟩ := h2
  have := nodup_idx hnd b d
  omega

omit hnd in
theorem seqSet_union {b m e : Nat} (h1 : b ≤ m) (h2 : m ≤ e) : seqSet lin b m ||| seqSet lin m e = seqSet lin b e := by
  refine SB.ext fun i => ?_
  rw [mem_or, mem_seqSet hlt, mem_seqSet hlt, mem_seqSet hlt]
  constructor
  · rintro (⟨k, a, b, c⟩ | ⟨k, a, b, c⟩)
    · exact ⟨k, a, by omega, c⟩
    · exact ⟨k, by omega, b, c⟩
  · rintro ⟨k, a, b, c⟩
    by_cases hk : k < m
    · exact Or.inl ⟨k, a, hk, c⟩
    · exact Or.inr ⟨k, by omega, b, c⟩

theorem seqSet_diff {b m e : Nat} (h1 : b ≤ m) (h2 : m ≤ e) : diff (seqSet lin b e) (seqSet lin b m) = seqSet lin m e := by
  refine SB.ext fun i => ?_
  have := (disj_iff _ _).1 (seqSet_disj hlt hnd b m e) i
  rw [mem_diff, ← seqSet_union hlt h1 h2, mem_or]
  constructor
  · rintro ⟨a | a, b⟩
    exacts [absurd a b, a]
  · intro a; exact ⟨Or.inr a, fun hc => this hc a⟩

omit hnd in
theorem seqSet_succ {b e : Nat} (h1 : b ≤ e) (h2 : e < lin.length) : seqSet lin b (e + 1) = set (seqSet lin b e) lin[e] true := by
  have he : lin[e] < 64 := hlt _ (List.getElem_mem h2)
  refine SB.ext fun i => ?_
  rw [mem_setOp _ _ he, mem_seqSet hlt, mem_seqSet hlt]
  constructor
  · rintro ⟨k, a, b, c⟩
    split
    · rfl
    · rename_i hne
      refine ⟨k, a, ?_, c⟩
      by_contra hk
      have : k = e := by omega
      subst this
      rw [List.getElem?_eq_getElem h2] at c
      exact hne (Option.some.inj c).symm
  · intro h
    split at h
    · rename_i hi; exact ⟨e, h1, by omega, by rw [List.getElem?_eq_getElem h2, hi]⟩
    · obtain ⟨k, a, b, c⟩ := h; exact ⟨k, a, by omega, c⟩

omit hnd in
theorem seqSet_pred {b e : Nat} (h0 : 0 < b) (h1 : b ≤ e) (h2 : e ≤ lin.length) :
    seqSet lin (b - 1) e = set (seqSet lin b e) (lin[b - 1]'(by omega)) true := by
  have hb : b - 1 < lin.length := by omega
  have he : lin[b - 1] < 64 := hlt _ (List.getElem_mem hb)
  refine SB.ext fun i => ?_
  rw [mem_setOp _ _ he, mem_seqSet hlt, mem_seqSet hlt]
  constructor
  · rintro ⟨k, a, b', c⟩
    split
    · rfl
    · rename_i hne
      refine ⟨k, ?_, b', c⟩
      by_contra hk
      have : k = b - 1 := by omega
      subst this
      rw [List.getElem?_eq_getElem hb] at c
      exact hne (Option.some.inj c).symm
  · intro h
    split at h
    · rename_i hi; exact ⟨b - 1, le_refl _, by omega, by rw [List.getElem?_eq_getElem hb, hi]⟩
    · obtain ⟨k, a, b', c⟩ := h; exact ⟨k, by omega, b', c⟩

theorem seqSet_dropFront {b e : Nat} (h1 : b < e) (h2 : e ≤ lin.length) :
    set (seqSet lin b e) (lin[b]'(by omega)) false = seqSet lin (b + 1) e := by
  have hb : b < lin.length := by omega
  have he : lin[b] < 64 := hlt _ (List.getElem_mem hb)
  refine SB.ext fun i => ?_
  rw [mem_setOp _ _ he, mem_seqSet hlt, mem_seqSet hlt]
  constructor
  · intro h
    split at h
    · cases h
    · rename_i hne
      obtain ⟨k, a, b', c⟩ := h
      refine ⟨k, ?_, b', c⟩
      by_contra hk
      have : k = b := by omega
      subst this
      rw [List.getElem?_eq_getElem hb] at c
      exact hne (Option.some.inj c).symm
  · rintro ⟨k, a, b', c⟩
    rw [if_neg]
    · exact ⟨k, by omega, b', c⟩
    · rintro rfl
      have := nodup_idx hnd c (List.getElem?_eq_getElem hb)
      omega

theorem seqSet_dropBack {b e : Nat} (h1 : b < e) (h2 : e ≤ lin.length) :
    set (seqSet lin b e) (lin[e - 1]'(by omega)) false = seqSet lin b (e - 1) := by
  have hb : e - 1 < lin.length := by omega
  have he : lin[e - 1] < 64 := hlt _ (List.getElem_mem hb)
  refine SB.ext fun i => ?_
  rw [mem_setOp _ _ he, mem_seqSet hlt, mem_seqSet hlt]
  constructor
  · intro h
    split at h
    · cases h
    · rename_i hne
      obtain ⟨k, a, b', c⟩ := h
      refine ⟨k, a, ?_, c⟩
      by_contra hk
      have : k = e - 1 := by omega
      subst this
      rw [List.getElem?_eq_getElem hb] at c
      exact hne (Option.some.inj c).symm
  · rintro ⟨k, a, b', c⟩
    rw [if_neg]
    · exact ⟨k, a, by omega, c⟩
    · rintro rfl
      have := nodup_idx hnd c (List.getElem?_eq_getElem hb)
      omega

omit hnd in
theorem seqSet_ne {b e : Nat} (h1 : b < e) (h2 : e ≤ lin.length) : seqSet lin b e ≠ 0#64 := by
  refine (ne_zero_iff _).2 ⟨lin[b], ?_⟩
  rw [mem_seqSet hlt]
  exact ⟨b, le_refl _, h1, List.getElem?_eq_getElem _⟩

theorem size_seqSet {b e : Nat} (h1 : b ≤ e) (h2 : e ≤ lin.length) : size (seqSet lin b e) = e - b := by
  induction e with
  | zero =>
    have : seqSet lin b 0 = 0#64 := SB.ext fun i => by
      rw [mem_seqSet hlt]
      exact ⟨fun ⟨k, a, b, c⟩ => by omega, fun hc => absurd hc (not_mem_zero i)⟩
    rw [this]
    rw [(size_eq_zero_iff _).2 rfl]; omega
  | succ e ih =>
    by_cases hb : b = e + 1
    · subst hb
      have : seqSet lin (e + 1) (e + 1) = 0#64 := SB.ext fun i => by
        rw [mem_seqSet hlt]
        exact ⟨fun ⟨k, a, b, c⟩ => by omega, fun hc => absurd hc (not_mem_zero i)⟩
      rw [this, (size_eq_zero_iff _).2 rfl]; omega
    · have hbe : b ≤ e := by omega
      have he : lin[e] < 64 := hlt _ (List.getElem_mem (by omega))
      rw [← seqSet_union hlt hbe (Nat.le_succ e), HS.size_union_disj (seqSet_disj hlt hnd b e (e + 1)), ih hbe (by omega)]
      have : seqSet lin e (e + 1) = SB.singleton lin[e] := by
        refine SB.ext fun i => ?_
        rw [mem_seqSet hlt, mem_singleton]
        constructor
        · rintro ⟨k, a, b, c⟩
          have : k = e := by omega
          subst this
          rw [List.getElem?_eq_getElem (by omega)] at c
          have := Option.some.inj c
          exact ⟨by omega, this.symm⟩
        · rintro ⟨_, rfl⟩
          exact ⟨e, le_refl _, by omega, List.getElem?_eq_getElem _⟩
      rw [this, size_singleton he]; omega

end

/-- Joins of two adjacent windows. -/
def SeqMay (M : AdjMat) (lin : List Nat) (A B : SB) : Prop :=
  Adjacent M A B ∧ ∃ b m e, b < m ∧ m < e ∧ e ≤ lin.length ∧
    ((A = seqSet lin b m ∧ B = seqSet lin m e) ∨ (A = seqSet lin m e ∧ B = seqSet lin b m))

theorem SeqMay.symm {M : AdjMat} (hM : M.Symm) {lin : List Nat} (A B : SB) (h : SeqMay M lin A B) : SeqMay M lin B A := by
  obtain ⟨h, b, m, e, h1, h2, h3, h4⟩ := h
  refine ⟨adjacent_symm' hM _ _ h, b, m, e, h1, h2, h3, ?_⟩
  rcases h4 with ⟨a, b⟩ | ⟨a, b⟩
  · exact Or.inr ⟨b, a⟩
  · exact Or.inl ⟨b, a⟩

variable {C D : Type} [LinearOrder C] {E : Env C D} {est : SB → D} {base : Nat → C} {W : Type} {X : LinEnv C D W}

/-- Invariant of the loop: `cov b' e'` — the window has been visited. -/
structure SeqInv (E : Env C D) (est : SB → D) (base : Nat → C) (lin : List Nat) (L : Nat) (cov : Nat → Nat → Prop) (done : List (SB × SB)) (T : PT C D) :
    Prop where
  dp : DPInv E est base E.n done T
  ok : ∀ p ∈ done, PairOK E.n (SeqMay E.M lin) p
  ord : done.Pairwise Before
  le : ∀ p ∈ done, size (p.1 ||| p.2) ≤ L
  cov : ∀ b m e, b < m → m < e → e ≤ lin.length → E.M.ConnSet (seqSet lin b e) → cov b e → (seqSet lin b m, seqSet lin m e) ∈ done

/-- What is needed of a linearization. -/
structure LinSeq (n : Nat) (lin : List Nat) : Prop where
  nd : lin.Nodup
  lt : ∀ x ∈ lin, x < n
  len : lin.length = n

theorem pair_size {n : Nat} {may : SB → SB → Prop} {p : SB × SB} (h : PairOK n may p) : size p.1 < size (p.1 ||| p.2) ∧ size p.2 < size (p.1 ||| p.2) := by
  have h1 := (size_eq_zero_iff p.1).not.2 h.ne1
  have h2 := (size_eq_zero_iff p.2).not.2 h.ne2
  have := HS.size_union_disj h.dis
  omega

theorem seqSplits_spec (hE : Sane E est) (hM : E.M.Symm) (hn : E.n ≤ 64) {lin : List Nat} (hl : LinSeq E.n lin) {b e : Nat} (hbe : b < e)
    (hel : e ≤ lin.length) {cov : Nat → Nat → Prop} {done : List (SB × SB)} {T : PT C D} (h : SeqInv E est base lin (e - b) cov done T) :
    ∃ T' done', seqSplits E lin b e (seqSet lin b e) T = some T' ∧
      SeqInv E est base lin (e - b) (fun b' e' => cov b' e' ∨ (b' = b ∧ e' = e)) done' T' := by
  have hlt : ∀ x ∈ lin, x < 64 := fun x hx => by have := hl.lt x hx; omega
  have hsub : ∀ b e, Sub (seqSet lin b e) (all E.n) := by
    intro b e i hi
    rw [mem_seqSet hlt] at hi
    obtain ⟨k, _, _, c⟩ := hi
    rw [mem_all hn]
    exact hl.lt i (List.mem_of_getElem? c)
  rw [seqSplits]
  by_cases hc : E.M.ConnSet (seqSet lin b e)
  · rw [if_pos ((AdjMat.isConnected_iff hM _).2 hc)]
    have hpairs : ∀ p ∈ (List.range' (b + 1) (e - 1 - b)).map (fun m => (seqSet lin b m, seqSet lin m e)),
        PairOK E.n (SeqMay E.M lin) p ∧ p.1 ||| p.2 = seqSet lin b e := by
      intro p hp
      obtain ⟨m, hm, rfl⟩ := List.mem_map.1 hp
      rw [List.mem_range'_1] at hm
      have hne1 := seqSet_ne hlt (show b < m by omega) (by omega)
      have hne2 := seqSet_ne hlt (show m < e by omega) hel
      have hdis := seqSet_disj hlt hl.nd b m e
      have hun := seqSet_union hlt (show b ≤ m by omega) (show m ≤ e by omega)
      refine ⟨⟨hne1, hne2, hdis, hsub _ _, hsub _ _, ?_, b, m, e, by omega, by omega, hel, Or.inl ⟨rfl, rfl⟩⟩, hun⟩
      obtain ⟨x, y, h1, h2, h3, h4⟩ := hc.cut (A := seqSet lin b m) (by rw [← hun]; exact sub_left _ _) hne1 (by
        intro hh
        rw [← hun] at hh
        exact union_ne hdis hne2 (Sub.refl _) hh.symm)
      refine ⟨x, y, h1, ?_, h4⟩
      rw [← hun, mem_or] at h2
      exact h2.resolve_left h3
    have hsize := size_seqSet hlt hl.nd (Nat.le_of_lt hbe) hel
    have hlarge : ∀ p ∈ done ++ (List.range' (b + 1) (e - 1 - b)).map (fun m => (seqSet lin b m, seqSet lin m e)),
        PairOK E.n (SeqMay E.M lin) p ∧ size (p.1 ||| p.2) ≤ e - b := by
      intro p hp
      rcases List.mem_append.1 hp with hp | hp
      · exact ⟨h.ok p hp, h.le p hp⟩
      · exact ⟨(hpairs p hp).1, by rw [(hpairs p hp).2, hsize]⟩
    have hbef : ∀ p ∈ done ++ (List.range' (b + 1) (e - 1 - b)).map (fun m => (seqSet lin b m, seqSet lin m e)),
        ∀ q ∈ (List.range' (b + 1) (e - 1 - b)).map (fun m => (seqSet lin b m, seqSet lin m e)), Before p q := by
      intro p hp q hq
      obtain ⟨h1, h2⟩ := hlarge p hp
      have := pair_size h1
      constructor
      · intro hh
        rw [(hpairs q hq).2] at hh
        have := congrArg size hh
        omega
      · intro hh
        rw [(hpairs q hq).2] at hh
        have := congrArg size hh
        omega
    have hpw : (done ++ (List.range' (b + 1) (e - 1 - b)).map (fun m => (seqSet lin b m, seqSet lin m e))).Pairwise Before := by
      rw [List.pairwise_append]
      refine ⟨h.ord, ?_, fun p hp q hq => hbef p (List.mem_append_left _ hp) q hq⟩
      exact List.pairwise_of_forall_mem_list fun p hp q hq => hbef p (List.mem_append_right _ hp) q hq
    obtain ⟨T', r1, r2⟩ := h.dp.run hE hn _ (fun p hp => (hpairs p hp).1) hpw
    refine ⟨T', _, ?_, r2, fun p hp => (hlarge p hp).1, hpw, fun p hp => (hlarge p hp).2, ?_⟩
    · rw [← r1, List.foldlM_map]
      have : ∀ l : List Nat, (∀ m ∈ l, b + 1 ≤ m ∧ m ≤ e) → ∀ T : PT C D,
          l.foldlM (fun T mid => tryUpdate E T (seqSet lin b mid) (diff (seqSet lin b e) (seqSet lin b mid))) T =
          l.foldlM (fun T mid => tryUpdate E T (seqSet lin b mid) (seqSet lin mid e)) T := by
        intro l
        induction l with
        | nil => intro _ T; rfl
        | cons m l ih =>
          intro hm T
          obtain ⟨g1, g2⟩ := hm m (by simp)
          rw [List.foldlM_cons, List.foldlM_cons, seqSet_diff hlt hl.nd (by omega) g2]
          cases tryUpdate E T (seqSet lin b m) (seqSet lin m e) with
          | none => rfl
          | some T1 => exact ih (fun m hm' => hm m (by simp [hm'])) T1
      exact this _ (fun m hm => by rw [List.mem_range'_1] at hm; omega) T
    · intro b' m' e' a1 a2 a3 a4 a5
      rcases a5 with a5 | ⟨rfl, rfl⟩
      · exact List.mem_append_left _ (h.cov b' m' e' a1 a2 a3 a4 a5)
      · exact List.mem_append_right _ (List.mem_map.2 ⟨m', by rw [List.mem_range'_1]; omega, rfl⟩)
  · rw [if_neg (fun hh => hc ((AdjMat.isConnected_iff hM _).1 hh))]
    refine ⟨T, done, rfl, h.dp, h.ok, h.ord, h.le, ?_⟩
    intro b' m' e' a1 a2 a3 a4 a5
    rcases a5 with a5 | ⟨rfl, rfl⟩
    · exact h.cov b' m' e' a1 a2 a3 a4 a5
    · exact absurd a4 hc

omit [LinearOrder C] in
theorem getD_get {lin : List Nat} {k : Nat} (h : k < lin.length) : lin.getD k 0 = lin[k] := by
  rw [List.getD_eq_getElem?_getD, List.getElem?_eq_getElem h]; rfl

/-- The windows visited when the current one begins at `b`. -/
def Cov (L b : Nat) (right : Bool) (b' e' : Nat) : Prop := e' - b' < L ∨ (e' - b' = L ∧ if right then b' < b else b < b')

theorem SeqInv.weaken {lin : List Nat} {L L' : Nat} {cov cov' : Nat → Nat → Prop} {done : List (SB × SB)} {T : PT C D}
    (h : SeqInv E est base lin L cov done T) (hL : L ≤ L') (hc : ∀ b e, b < e → e ≤ lin.length → cov' b e → cov b e) : SeqInv E est base lin L' cov' done T :=
  ⟨h.dp, h.ok, h.ord, fun p hp => (h.le p hp).trans hL, fun b m e h1 h2 h3 h4 h5 => h.cov b m e h1 h2 h3 h4 (hc b e (by omega) h3 h5)⟩

theorem seqLoop_spec (hE : Sane E est) (hM : E.M.Symm) (hn : E.n ≤ 64) {lin : List Nat} (hl : LinSeq E.n lin) (fuel : Nat) :
    ∀ (b e : Nat) (right : Bool) (T : PT C D) (done : List (SB × SB)), b + 2 ≤ e → e ≤ lin.length →
    SeqInv E est base lin (e - b) (Cov (e - b) b right) done T →
    (E.n - (e - b)) * E.n + (if right then E.n - e else b) + 1 ≤ fuel →
    ∃ T' done', seqLoop E lin fuel b e (seqSet lin b e) right T = some T' ∧ SeqInv E est base lin E.n (fun _ _ => True) done' T' := by
  have hlt : ∀ x ∈ lin, x < 64 := fun x hx => by have := hl.lt x hx; omega
  have hlen := hl.len
  induction fuel with
  | zero => intro b e right T done _ _ _ hf; omega
  | succ fuel ih =>
    intro b e right T done h1 h2 h3 hf
    obtain ⟨T1, done1, r1, r2⟩ := seqSplits_spec hE hM hn hl (by omega) h2 h3
    rw [seqLoop]
    simp only [r1]
    by_cases hend : e - b = E.n
    · rw [if_pos hend]
      refine ⟨T1, done1, rfl, r2.weaken (by omega) ?_⟩
      intro b' e' g1 g2 _
      by_cases hw : e' - b' < E.n
      · exact Or.inl (Or.inl (by omega))
      · exact Or.inr ⟨by omega, by omega⟩
    · rw [if_neg hend]
      have hmul : (E.n - (e - b)) * E.n = (E.n - (e - b) - 1) * E.n + E.n := by
        have : E.n - (e - b) = (E.n - (e - b) - 1) + 1 := by omega
        rw [this, Nat.add_mul]; simp
      cases right with
      | true =>
        simp only [if_true] at hf ⊢
        by_cases he : e = lin.length
        · rw [if_pos he, if_neg (by omega)]
          have hS : set (seqSet lin b e) (lin.getD (b - 1) 0) true = seqSet lin (b - 1) e := by
            rw [getD_get (by omega)]; exact (seqSet_pred hlt (by omega) (by omega) h2).symm
          rw [hS]
          refine ih (b - 1) e false T1 done1 (by omega) h2 (r2.weaken (by omega) ?_) ?_
          · rintro b' e' g1 g2 (g | ⟨g, g'⟩)
            · simp only [Cov]
              by_cases hw : e' - b' < e - b
              · exact Or.inl (Or.inl hw)
              · by_cases hb : b' = b
                · exact Or.inr ⟨hb, by omega⟩
                · exact Or.inl (Or.inr ⟨by omega, by simp; omega⟩)
            · simp at g'; omega
          · simp only [Bool.false_eq_true, if_false]
            have : E.n - (e - (b - 1)) = E.n - (e - b) - 1 := by omega
            rw [this]; omega
        · rw [if_neg he]
          have hS : set (set (seqSet lin b e) (lin.getD e 0) true) (lin.getD b 0) false = seqSet lin (b + 1) (e + 1) := by
            rw [getD_get (by omega), getD_get (by omega), ← seqSet_succ hlt (by omega) (by omega), seqSet_dropFront hlt hl.nd (by omega) (by omega)]
          rw [hS]
          refine ih (b + 1) (e + 1) true T1 done1 (by omega) (by omega) ?_ ?_
          · rw [show e + 1 - (b + 1) = e - b by omega]
            refine r2.weaken (le_refl _) ?_
            rintro b' e' g1 g2 (g | ⟨g, g'⟩)
            · exact Or.inl (Or.inl g)
            · simp at g'
              by_cases hb : b' = b
              · exact Or.inr ⟨hb, by omega⟩
              · exact Or.inl (Or.inr ⟨g, by simp; omega⟩)
          · rw [show e + 1 - (b + 1) = e - b by omega]; simp only [if_true]; omega
      | false =>
        simp only [Bool.false_eq_true, if_false] at hf ⊢
        by_cases hb0 : b = 0
        · rw [if_pos hb0, if_neg (by omega)]
          have hS : set (seqSet lin b e) (lin.getD e 0) true = seqSet lin b (e + 1) := by
            rw [getD_get (by omega)]; exact (seqSet_succ hlt (by omega) (by omega)).symm
          rw [hS]
          refine ih b (e + 1) true T1 done1 (by omega) (by omega) (r2.weaken (by omega) ?_) ?_
          · rintro b' e' g1 g2 (g | ⟨g, g'⟩)
            · simp only [Cov]
              by_cases hw : e' - b' < e - b
              · exact Or.inl (Or.inl hw)
              · by_cases hb : b' = b
                · exact Or.inr ⟨hb, by omega⟩
                · exact Or.inl (Or.inr ⟨by omega, by simp; omega⟩)
            · simp at g'; omega
          · simp only [if_true]
            have : E.n - (e + 1 - b) = E.n - (e - b) - 1 := by omega
            rw [this]; omega
        · rw [if_neg hb0]
          have hS : set (set (seqSet lin b e) (lin.getD (b - 1) 0) true) (lin.getD (e - 1) 0) false = seqSet lin (b - 1) (e - 1) := by
            rw [getD_get (by omega), getD_get (by omega), ← seqSet_pred hlt (by omega) (by omega) h2, seqSet_dropBack hlt hl.nd (by omega) h2]
          rw [hS]
          refine ih (b - 1) (e - 1) false T1 done1 (by omega) (by omega) ?_ ?_
          · rw [show e - 1 - (b - 1) = e - b by omega]
            refine r2.weaken (le_refl _) ?_
            rintro b' e' g1 g2 (g | ⟨g, g'⟩)
            · exact Or.inl (Or.inl g)
            · simp at g'
              by_cases hb : b' = b
              · exact Or.inr ⟨hb, by omega⟩
              · exact Or.inl (Or.inr ⟨g, by simp; omega⟩)
          · rw [show e - 1 - (b - 1) = e - b by omega]; simp only [Bool.false_eq_true, if_false]; omega

/-- Trees along the linearization use only joins of windows. -/
theorem along_may {M : AdjMat} {n : Nat} {lin : List Nat} (hlt : ∀ x ∈ lin, x < 64) {t : Tree} {l : List Nat} (h : Along t l) :
    ∀ (pre suf : List Nat) (S : SB), lin = pre ++ (l ++ suf) → IsPlan n (Adjacent M) t S →
      IsPlan n (SeqMay M lin) t S ∧ S = seqSet lin pre.length (pre.length + l.length) ∧ l ≠ [] := by
  have single : ∀ (pre suf : List Nat) (i : Nat), lin = pre ++ ([i] ++ suf) → SB.singleton i = seqSet lin pre.length (pre.length + 1) := by
    intro pre suf i he
    refine SB.ext fun j => ?_
    have hi : i < 64 := hlt i (by simp [he])
    rw [mem_singleton, mem_seqSet hlt]
    have hk : lin[pre.length]? = some i := by rw [he]; simp
    constructor
    · rintro ⟨_, rfl⟩
      exact ⟨pre.length, le_refl _, by omega, hk⟩
    · rintro ⟨k, a, b, c⟩
      have : k = pre.length := by omega
      subst this
      rw [hk] at c
      have := Option.some.inj c
      exact ⟨by omega, this.symm⟩
  induction h with
  | leaf i =>
    intro pre suf S he hp
    cases hp with
    | leaf _ hi => exact ⟨.leaf i hi, single pre suf i he, by simp⟩
  | @node l r xs ys hl hr ihl ihr =>
    intro pre suf S he hp
    cases hp with
    | @node _ _ A B hpl hpr hd hm =>
      obtain ⟨a1, a2, a3⟩ := ihl pre (ys ++ suf) A (by rw [he]; simp) hpl
      obtain ⟨b1, b2, b3⟩ := ihr (pre ++ xs) suf B (by rw [he]; simp) hpr
      have hx := List.length_pos_of_ne_nil a3
      have hy := List.length_pos_of_ne_nil b3
      have hlen : pre.length + xs.length + ys.length ≤ lin.length := by rw [he]; simp only [List.length_append]; omega
      rw [List.length_append] at b2
      refine ⟨.node a1 b1 hd ⟨hm, pre.length, pre.length + xs.length, pre.length + xs.length + ys.length, by omega, by omega, hlen, Or.inl ⟨a2, b2⟩⟩, ?_, by simp [a3]⟩
      rw [a2, b2, seqSet_union hlt (by omega) (by omega), List.length_append, Nat.add_assoc]
  | @swap l r xs ys hl hr ihl ihr =>
    intro pre suf S he hp
    cases hp with
    | @node _ _ A B hpr hpl hd hm =>
      obtain ⟨a1, a2, a3⟩ := ihl pre (ys ++ suf) B (by rw [he]; simp) hpl
      obtain ⟨b1, b2, b3⟩ := ihr (pre ++ xs) suf A (by rw [he]; simp) hpr
      have hx := List.length_pos_of_ne_nil a3
      have hy := List.length_pos_of_ne_nil b3
      have hlen : pre.length + xs.length + ys.length ≤ lin.length := by rw [he]; simp only [List.length_append]; omega
      rw [List.length_append] at b2
      refine ⟨.node b1 a1 hd ⟨hm, pre.length, pre.length + xs.length, pre.length + xs.length + ys.length, by omega, by omega, hlen, Or.inr ⟨b2, a2⟩⟩, ?_, by simp [a3]⟩
      rw [a2, b2, BitVec.or_comm, seqSet_union hlt (by omega) (by omega), List.length_append, Nat.add_assoc]

/-- A linear plan along the linearization whose cost is that of the linearization. -/
theorem linCost_tree {M : AdjMat} (hM : M.Symm) (hn : E.n ≤ 64) (xs : List Nat) : ∀ (t : Tree) (S : SB) (pre : List Nat), Along t pre → IsPlan E.n (Adjacent M) t S →
    (∀ q ∈ chain S xs, PairOK E.n (Adjacent M) q) →
    ∃ t', Along t' (pre ++ xs) ∧ IsPlan E.n (Adjacent M) t' (joinAll S xs) ∧ t'.cost E est base = linCost E est base (t.cost E est base) S xs := by
  induction xs with
  | nil => intro t S pre h1 h2 _; exact ⟨t, by simpa using h1, h2, rfl⟩
  | cons x xs ih =>
    intro t S pre h1 h2 hch
    obtain ⟨n1, n2, hd, s1, s2, hadj⟩ := hch _ (List.mem_cons_self ..)
    simp only at n1 n2 hd s1 s2 hadj
    obtain ⟨i, hi⟩ := (ne_zero_iff _).1 n2
    obtain ⟨hi64, rfl⟩ := (mem_singleton _ _).1 hi
    have hlf : IsPlan E.n (Adjacent M) (.leaf i) (SB.singleton i) := .leaf i ((mem_all hn i).1 (s2 i hi))
    have hrest := fun q hq => hch q (List.mem_cons_of_mem _ hq)
    rcases le_total (E.J est S (SB.singleton i) (t.cost E est base) (base i)) (E.J est (SB.singleton i) S (base i) (t.cost E est base)) with hle | hle
    · obtain ⟨t', g1, g2, g3⟩ := ih (.node t (.leaf i)) (S ||| SB.singleton i) (pre ++ [i]) (.node h1 (.leaf i)) (.node h2 hlf hd hadj) hrest
      refine ⟨t', by simpa using g1, g2, ?_⟩
      rw [g3, linCost, min_eq_left hle, Tree.cost, isPlan_rels h2]; rfl
    · have hp := IsPlan.node hlf h2 (HS.disj_comm hd) (adjacent_symm' hM _ _ hadj)
      rw [BitVec.or_comm] at hp
      obtain ⟨t', g1, g2, g3⟩ := ih (.node (.leaf i) t) (S ||| SB.singleton i) (pre ++ [i]) (.swap h1 (.leaf i)) hp hrest
      refine ⟨t', by simpa using g1, g2, ?_⟩
      rw [g3, linCost, min_eq_right hle, Tree.cost, isPlan_rels h2]; rfl

theorem RootLin.seq {F : AdjMat} {better : W → W → Prop} (hn : E.n ≤ 64) {r : Nat} {xs : List Nat} (h : RootLin E est X F better r xs) : LinSeq E.n (r :: xs) := by
  have key : ∀ (xs : List Nat) (S : SB), (∀ q ∈ chain S xs, PairOK E.n (Adjacent E.M) q) → xs.Nodup ∧ ∀ x ∈ xs, ¬ Mem S x ∧ x < E.n := by
    intro xs
    induction xs with
    | nil => intro S _; simp
    | cons x xs ih =>
      intro S hch
      obtain ⟨n1, n2, hd, s1, s2, hadj⟩ := hch _ (List.mem_cons_self ..)
      simp only at n1 n2 hd s1 s2 hadj
      obtain ⟨i, hi⟩ := (ne_zero_iff _).1 n2
      obtain ⟨hi64, rfl⟩ := (mem_singleton _ _).1 hi
      obtain ⟨a, b⟩ := ih (S ||| SB.singleton i) fun q hq => hch q (List.mem_cons_of_mem _ hq)
      refine ⟨List.nodup_cons.2 ⟨fun hc => (b i hc).1 (sub_right _ _ i hi), a⟩, ?_⟩
      intro y hy
      rcases List.mem_cons.1 hy with rfl | hy
      · exact ⟨fun hc => (disj_iff _ _).1 hd y hc hi, (mem_all hn y).1 (s2 y hi)⟩
      · exact ⟨fun hc => (b y hy).1 (sub_left _ _ y hc), (b y hy).2⟩
  obtain ⟨a, b⟩ := key xs _ h.ok
  have hr := h.root
  refine ⟨List.nodup_cons.2 ⟨fun hc => (b r hc).1 ((mem_singleton _ _).2 ⟨by omega, rfl⟩), a⟩, ?_, h.length hn⟩
  intro y hy
  rcases List.mem_cons.1 hy with rfl | hy
  · exact hr
  · exact (b y hy).2

theorem linDP_spec (hE : Sane E est) (hn : E.n ≤ 64) (h0 : 1 ≤ E.n) (hW : E.M.WF) (hS : E.M.Symm) (hMn : E.M.n = E.n) (hc : E.M.ConnSet (all E.n))
    (hpk : AdjMat.PickAny X.pick) {better : W → W → Prop} (hp : PickR better X.pickR) (dflt : D) {T : PT C D} (hT : Init est base E.n T) {F : AdjMat}
    (hF : F = AdjMat.msf X.pick E.M (selectivity E X T dflt))
    (hfin : ∀ r xs, RootLin E est X F better r xs → linCost E est base (base r) (SB.singleton r) xs < X.inf) :
    ∃ T' t r xs, linDP E X dflt T = some T' ∧ (∃ T1, linearize E X dflt T = some (T1, r :: xs)) ∧ RootLin E est X F better r xs ∧
      Recorded T' (all E.n) t ∧ IsPlan E.n (Adjacent E.M) t (all E.n) ∧ t.cost E est base = (T' (all E.n)).cost ∧
      (∀ t', Along t' (r :: xs) → IsPlan E.n (Adjacent E.M) t' (all E.n) → t.cost E est base ≤ t'.cost E est base) ∧
      t.cost E est base ≤ linCost E est base (base r) (SB.singleton r) xs ∧
      ∀ r' , r' < E.n → ∃ xs', RootLin E est X F better r' xs' ∧
        t.cost E est base ≤ linCost E est base (base r') (SB.singleton r') xs' := by
  obtain ⟨T1, r, xs, a1, a2, a3, a4⟩ := linearize_spec hE hn h0 hW hS hMn hc hpk hp dflt hT hF hfin
  have hl := a3.seq hn
  have hr := a3.root
  have hlt : ∀ x ∈ r :: xs, x < 64 := fun x hx => by have := hl.lt x hx; omega
  have wrap : ∀ (T' : PT C D) (t : Tree), linDP E X dflt T = some T' → Recorded T' (all E.n) t → IsPlan E.n (Adjacent E.M) t (all E.n) →
      t.cost E est base = (T' (all E.n)).cost →
      (∀ t', Along t' (r :: xs) → IsPlan E.n (Adjacent E.M) t' (all E.n) → t.cost E est base ≤ t'.cost E est base) →
      ∃ T' t r xs, linDP E X dflt T = some T' ∧ (∃ T1, linearize E X dflt T = some (T1, r :: xs)) ∧ RootLin E est X F better r xs ∧
      Recorded T' (all E.n) t ∧ IsPlan E.n (Adjacent E.M) t (all E.n) ∧ t.cost E est base = (T' (all E.n)).cost ∧
      (∀ t', Along t' (r :: xs) → IsPlan E.n (Adjacent E.M) t' (all E.n) → t.cost E est base ≤ t'.cost E est base) ∧
      t.cost E est base ≤ linCost E est base (base r) (SB.singleton r) xs ∧
      ∀ r' , r' < E.n → ∃ xs', RootLin E est X F better r' xs' ∧
        t.cost E est base ≤ linCost E est base (base r') (SB.singleton r') xs' := by
    intro T' t b1 b2 b3 b4 b5
    have hle : t.cost E est base ≤ linCost E est base (base r) (SB.singleton r) xs := by
      obtain ⟨t', g1, g2, g3⟩ := linCost_tree (est := est) (base := base) hS hn xs (.leaf r) (SB.singleton r) [r] (.leaf r) (.leaf r hr) a3.ok
      rw [a3.all] at g2
      exact (b5 t' g1 g2).trans (le_of_eq g3)
    refine ⟨T', t, r, xs, b1, ⟨T1, a1⟩, a3, b2, b3, b4, b5, hle, fun r' hr' => ?_⟩
    obtain ⟨xs', g1, g2⟩ := a4 r' hr'
    exact ⟨xs', g1, hle.trans g2⟩
  by_cases h1 : E.n ≤ 1
  · have hr0 : r = 0 := by omega
    have hxs : xs = [] := by
      have := hl.len
      rw [List.length_cons] at this
      exact List.eq_nil_of_length_eq_zero (by omega)
    subst hr0 hxs
    have hall : all E.n = SB.singleton 0 := by rw [← a3.all]; rfl
    refine wrap T (.leaf 0) (by rw [linDP, if_pos h1]) (by rw [hall]; exact .leaf 0 (by omega)) (by rw [hall]; exact .leaf 0 hr)
      (by rw [hall, (hT.single 0 hr).2]; rfl) ?_
    intro t' ht _
    have : t' = .leaf 0 := by
      generalize hL : [0] = L at ht
      have hne : ∀ {t : Tree} {l : List Nat}, Along t l → l ≠ [] := by
        intro t l h
        induction h with
        | leaf => simp
        | node _ _ ih => simp [ih]
        | swap _ _ ih => simp [ih]
      cases ht with
      | leaf i => simp only [List.cons.injEq, and_true] at hL; rw [hL]
      | node p q =>
        have x1 := List.length_pos_of_ne_nil (hne p)
        have x2 := List.length_pos_of_ne_nil (hne q)
        have := congrArg List.length hL
        simp only [List.length_append, List.length_cons, List.length_nil] at this; omega
      | swap p q =>
        have x1 := List.length_pos_of_ne_nil (hne p)
        have x2 := List.length_pos_of_ne_nil (hne q)
        have := congrArg List.length hL
        simp only [List.length_append, List.length_cons, List.length_nil] at this; omega
    rw [this]
  · have hlen := hl.len
    obtain ⟨T2, done, b1, b2⟩ := seqLoop_spec (base := base) hE hS hn hl (E.n * E.n) 0 2 true T1 [] (by omega) (by omega)
      ⟨DPInv.init hn a2, by simp, by simp, by simp, by
        intro b m e g1 g2 g3 g4 g5
        rcases g5 with g5 | ⟨_, g5⟩
        · omega
        · simp at g5⟩
      (by
        simp only [if_true]
        have : E.n * E.n = (E.n - 2) * E.n + 2 * E.n := by rw [← Nat.add_mul]; congr 1; omega
        rw [show (2 : Nat) - 0 = 2 from rfl, this]; omega)
    have hcomp : ∀ l s A B, IsPlan E.n (SeqMay E.M (r :: xs)) l A → IsPlan E.n (SeqMay E.M (r :: xs)) s B → A &&& B = 0#64 → SeqMay E.M (r :: xs) A B →
        (A, B) ∈ done ∨ (B, A) ∈ done := by
      intro l s A B h1 h2 h3 h4
      have weak : ∀ {t : Tree} {S : SB}, IsPlan E.n (SeqMay E.M (r :: xs)) t S → IsPlan E.n (Adjacent E.M) t S := by
        intro t S h
        induction h with
        | leaf i hi => exact .leaf i hi
        | node _ _ hd hm ih1 ih2 => exact .node ih1 ih2 hd hm.1
      have hcn := plan_conn hS (IsPlan.node (weak h1) (weak h2) h3 h4.1)
      obtain ⟨hadj, b, m, e, g1, g2, g3, g4⟩ := h4
      rcases g4 with ⟨rfl, rfl⟩ | ⟨rfl, rfl⟩
      · rw [seqSet_union hlt (by omega) (by omega)] at hcn
        exact Or.inl (b2.cov b m e g1 g2 g3 hcn trivial)
      · rw [BitVec.or_comm, seqSet_union hlt (by omega) (by omega)] at hcn
        exact Or.inr (b2.cov b m e g1 g2 g3 hcn trivial)
    obtain ⟨c1, c2⟩ := b2.dp.final hE (SeqMay.symm hS) hn b2.ok hcomp
    have hwin : all E.n = seqSet (r :: xs) 0 (r :: xs).length := by
      rw [← a3.all]
      refine SB.ext fun i => ?_
      rw [mem_joinAll (fun x hx => hlt x (by simp [hx])), mem_singleton, mem_seqSet hlt]
      constructor
      · intro h
        have : i ∈ r :: xs := by
          rcases h with h | h
          · simp [h.2]
          · simp [h]
        obtain ⟨k, hk, hki⟩ := List.mem_iff_getElem.1 this
        exact ⟨k, by omega, hk, by rw [List.getElem?_eq_getElem hk, hki]⟩
      · rintro ⟨k, _, _, c⟩
        have := List.mem_of_getElem? c
        rcases List.mem_cons.1 this with rfl | h
        · exact Or.inl ⟨by omega, rfl⟩
        · exact Or.inr h
    obtain ⟨t0, g1, g2, g3⟩ := linCost_tree (est := est) (base := base) hS hn xs (.leaf r) (SB.singleton r) [r] (.leaf r) (.leaf r hr) a3.ok
    rw [a3.all] at g2
    have conv : ∀ t', Along t' (r :: xs) → IsPlan E.n (Adjacent E.M) t' (all E.n) → IsPlan E.n (SeqMay E.M (r :: xs)) t' (all E.n) := fun t' h1 h2 =>
      (along_may hlt h1 [] [] _ (by simp) h2).1
    obtain ⟨⟨t, d1, d2, d3⟩, d4⟩ := c2 (all E.n) (Sub.refl _) (c1 _ _ (conv t0 g1 g2))
    have weak : ∀ {t : Tree} {S : SB}, IsPlan E.n (SeqMay E.M (r :: xs)) t S → IsPlan E.n (Adjacent E.M) t S := by
      intro t S h
      induction h with
      | leaf i hi => exact .leaf i hi
      | node _ _ hd hm ih1 ih2 => exact .node ih1 ih2 hd hm.1
    refine wrap T2 t ?_ d1 (weak d2) d3 (fun t' h1 h2 => by rw [d3]; exact d4 t' (conv t' h1 h2))
    rw [linDP, if_neg h1, a1]
    simp only
    rw [if_neg (by omega)]
    exact b1

end PE
end Mutable
