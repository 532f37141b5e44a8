import Verif.Graph.AGaTModel
import Verif.Graph.CSG
namespace Mutable
open SB
namespace AdjMat
variable (M : AdjMat) (S : SB)

structure AInv (e : AgatEntry) : Prop where
  sub : Sub e.1 S
  ne0 : e.1 ≠ 0#64
  neS : e.1 ≠ S
  conn : M.ConnSet e.1
  dis : ∀ i, Mem e.1 i → ¬ Mem e.2.1 i
  tsub : Sub e.2.2 e.1
  touch : ∀ x, Mem S x → ¬ Mem e.1 x → ∃ n, Mem S n ∧ ¬ Mem e.1 n ∧ (∃ t, Mem e.2.2 t ∧ M.Edge t n) ∧
    Relation.ReflTransGen (M.EdgeIn (diff S e.1)) n x

theorem mem_NT {C T : SB} (hT : Sub T C) (i : Nat) :
    Mem (diff (M.neighbors T &&& S) C) i ↔ Mem S i ∧ ¬ Mem C i ∧ ∃ t, Mem T t ∧ M.Edge t i := by
  rw [mem_diff, mem_and, mem_neighbors]
  constructor
  · rintro ⟨⟨⟨h1, h2⟩, h3⟩, h4⟩; exact ⟨h3, h4, h2⟩
  · rintro ⟨h3, h4, h2⟩; exact ⟨⟨⟨fun h => h4 (hT _ h), h2⟩, h3⟩, h4⟩

variable {M S}

theorem agatConn_iff (hM : M.Symm) {e : AgatEntry} (h : AInv M S e) :
    M.agatConn S e.1 e.2.2 = true ↔ M.ConnSet (diff S e.1) := by
  obtain ⟨C, X, T⟩ := e
  have hNT := mem_NT M S h.tsub
  simp only at *
  set NT := diff (M.neighbors T &&& S) C with hdef
  have hD : ∀ x, Mem (diff S C) x ↔ Mem S x ∧ ¬ Mem C x := fun x => mem_diff S C x
  -- NT is nonempty
  have hne : NT ≠ 0#64 := by
    obtain ⟨x, hx⟩ : ∃ x, Mem S x ∧ ¬ Mem C x := by
      by_contra hc
      push Not at hc
      exact h.neS (ext fun i => ⟨h.sub i, hc i⟩)
    obtain ⟨n, h1, h2, h3, _⟩ := h.touch x hx.1 hx.2
    exact (ne_zero_iff _).2 ⟨n, (hNT n).2 ⟨h1, h2, h3⟩⟩
  obtain ⟨z, hz⟩ := exists_least hne
  have hzl : lo NT = singleton z := lo_eq_singleton hz
  have hzm := (hNT z).1 hz.1
  have key : M.ConnSet (diff S C) ↔ ∀ n, Mem NT n → Relation.ReflTransGen (M.EdgeIn (diff S C)) z n := by
    constructor
    · intro hc n hn
      exact hc z n ((hD z).2 ⟨hzm.1, hzm.2.1⟩) ((hD n).2 ⟨((hNT n).1 hn).1, ((hNT n).1 hn).2.1⟩)
    · intro hall
      apply connSet_of_root hM z
      intro j hj
      obtain ⟨n, h1, h2, h3, hp⟩ := h.touch j ((hD j).1 hj).1 ((hD j).1 hj).2
      exact (hall n ((hNT n).2 ⟨h1, h2, h3⟩)).trans hp
  rw [key]
  show (if size NT ≤ 1 then true else isSubset NT (M.reachableIn (lo NT) (diff S C))) = true ↔ _
  split
  · rename_i hs
    simp only [true_iff]
    intro n hn
    have : n = z := by
      by_contra hc
      have hsub : Sub (singleton z) NT := by
        intro i hi; rw [mem_singleton] at hi; rw [hi.2]; exact hz.1
      have := size_lt_of_ssub hsub (fun he => by
        rw [← he, mem_singleton] at hn; exact hc hn.2)
      rw [size_singleton (mem_lt hz.1)] at this
      omega
    rw [this]
  · rw [isSubset_iff]
    constructor
    · intro hs n hn
      have := hs n hn
      rw [mem_reachableIn, hzl] at this
      obtain ⟨s, h1, h2, h3⟩ := this
      rw [mem_singleton] at h1
      rw [← h1.2]; exact h3
    · intro hall n hn
      rw [mem_reachableIn, hzl]
      exact ⟨z, (mem_singleton _ _).2 ⟨mem_lt hz.1, rfl⟩, (hD z).2 ⟨hzm.1, hzm.2.1⟩, hall n hn⟩

theorem last_exit {α} {r : α → α → Prop} (P : α → Prop) {c y : α} (h : Relation.ReflTransGen r c y) (hc : P c)
    (hy : ¬ P y) : ∃ t n, P t ∧ r t n ∧ ¬ P n ∧ Relation.ReflTransGen (fun a b => r a b ∧ ¬ P a ∧ ¬ P b) n y := by
  induction h with
  | refl => contradiction
  | @tail p y h1 h2 ih =>
    by_cases hp : P p
    · exact ⟨p, y, hp, h2, hy, .refl⟩
    · obtain ⟨t, n, h3, h4, h5, h6⟩ := ih hp
      exact ⟨t, n, h3, h4, h5, h6.tail ⟨h2, hp, hy⟩⟩

/-- invariant of a pushed child -/
theorem AInv.child (hM : M.Symm) (hS : M.ConnSet S) {e : AgatEntry} (h : AInv M S e) (hsz : ¬ size e.1 + 1 ≥ size S)
    {v : Nat} {X' : SB} (hv : Mem S v) (hvC : ¬ Mem e.1 v) (hadj : ∃ c, Mem e.1 c ∧ M.Edge c v)
    (hX' : ∀ i, Mem X' i → ¬ Mem e.1 i ∧ i ≠ v) :
    AInv M S (e.1 ||| singleton v, X', (if M.agatConn S e.1 e.2.2 then 0#64 else e.1) ||| singleton v) := by
  obtain ⟨C, X, T⟩ := e
  have hsub := h.sub
  have hci := agatConn_iff hM h
  simp only at *
  have hv64 := mem_lt hv
  have hmem : ∀ i, Mem (C ||| singleton v) i ↔ Mem C i ∨ i = v := by
    intro i; rw [mem_or, mem_singleton]
    constructor
    · rintro (h | h); exacts [Or.inl h, Or.inr h.2]
    · rintro (h | h); exacts [Or.inl h, Or.inr ⟨h ▸ hv64, h⟩]
  obtain ⟨c, hc, hcv⟩ := hadj
  refine ⟨?_, ?_, ?_, ?_, ?_, ?_, ?_⟩
  · intro i hi; rcases (hmem i).1 hi with h1 | rfl; exacts [hsub i h1, hv]
  · exact (ne_zero_iff _).2 ⟨v, (hmem v).2 (Or.inr rfl)⟩
  · intro he
    simp only at he
    have h1 : size (diff S C) = 1 := by
      rw [← size_singleton hv64]; congr 1
      apply ext; intro i
      rw [mem_diff, ← he, hmem, mem_singleton]
      constructor
      · rintro ⟨h1 | h1, h2⟩
        · contradiction
        · exact ⟨h1 ▸ hv64, h1⟩
      · rintro ⟨_, rfl⟩; exact ⟨Or.inr rfl, hvC⟩
    have h2 : size S = size C + size (diff S C) := by
      rw [size_eq_card, size_eq_card, size_eq_card, ← Finset.card_union_of_disjoint]
      · congr 1
        ext i
        simp only [Finset.mem_union, mem_toFin, mem_diff]
        constructor
        · intro hi; by_cases hC : Mem C i
          · exact Or.inl hC
          · exact Or.inr ⟨hi, hC⟩
        · rintro (h | h); exacts [hsub i h, h.1]
      · rw [Finset.disjoint_left]
        intro i
        simp only [mem_toFin, mem_diff]
        exact fun h1 h2 => h2.2 h1
    omega
  · exact h.conn.union hM (connSet_singleton M v) hc ((mem_singleton _ _).2 ⟨hv64, rfl⟩) hcv
  · intro i hi hx
    rcases (hmem i).1 hi with h1 | h1
    · exact (hX' i hx).1 h1
    · exact (hX' i hx).2 h1
  · intro i hi
    simp only [mem_or] at hi ⊢
    rcases hi with hi | hi
    · split at hi
      · exact absurd hi (not_mem_zero i)
      · exact Or.inl hi
    · exact Or.inr hi
  · intro x hx hxC
    simp only at hxC ⊢
    by_cases hconn : M.agatConn S C T = true
    · rw [if_pos hconn]
      have hci := hci.1 hconn
      have hxC' : ¬ Mem C x ∧ x ≠ v := by
        rw [hmem] at hxC; exact ⟨fun h => hxC (Or.inl h), fun h => hxC (Or.inr h)⟩
      have hp := hci v x ((mem_diff _ _ _).2 ⟨hv, hvC⟩) ((mem_diff _ _ _).2 ⟨hx, hxC'.1⟩)
      obtain ⟨t, n, h1, h2, h3, h4⟩ := last_exit (fun i => i = v) hp rfl hxC'.2
      have hn := (mem_diff _ _ _).1 h2.2.2
      refine ⟨n, hn.1, ?_, ⟨t, by simp [h1, hv64], h2.1⟩, ?_⟩
      · rw [hmem]; rintro (h | h); exacts [hn.2 h, h3 h]
      · refine rtg_mono ?_ h4
        rintro a b ⟨⟨he, ha, hb⟩, hav, hbv⟩
        rw [mem_diff] at ha hb
        refine ⟨he, ?_, ?_⟩ <;> rw [mem_diff, hmem]
        · exact ⟨ha.1, by rintro (h | h); exacts [ha.2 h, hav h]⟩
        · exact ⟨hb.1, by rintro (h | h); exacts [hb.2 h, hbv h]⟩
    · rw [if_neg hconn]
      have hp := hS v x hv hx
      obtain ⟨t, n, h1, h2, h3, h4⟩ := last_exit (fun i => Mem (C ||| SB.singleton v) i) hp ((hmem v).2 (Or.inr rfl)) hxC
      refine ⟨n, h2.2.2, h3, ⟨t, h1, h2.1⟩, ?_⟩
      refine rtg_mono ?_ h4
      rintro a b ⟨⟨he, ha, hb⟩, hav, hbv⟩
      exact ⟨he, (mem_diff _ _ _).2 ⟨ha, hav⟩, (mem_diff _ _ _).2 ⟨hb, hbv⟩⟩

/-- the initial entry -/
theorem AInv.init (hS : M.ConnSet S) {z : Nat} (hz : IsLeast S z) (hne : S ≠ singleton z) :
    AInv M S (singleton z, 0#64, singleton z) := by
  have hz64 := mem_lt hz.1
  refine ⟨?_, ?_, fun h => hne h.symm, connSet_singleton M z, ?_, fun i h => h, ?_⟩
  · intro i hi; rw [mem_singleton] at hi; rw [hi.2]; exact hz.1
  · exact (ne_zero_iff _).2 ⟨z, by simp [hz64]⟩
  · intro i _; exact not_mem_zero i
  · intro x hx hxC
    obtain ⟨t, n, h1, h2, h3, h4⟩ := last_exit (fun i => Mem (SB.singleton z) i) (hS z x hz.1 hx) (by simp [hz64]) hxC
    refine ⟨n, h2.2.2, h3, ⟨t, h1, h2.1⟩, rtg_mono ?_ h4⟩
    rintro a b ⟨⟨he, ha, hb⟩, hav, hbv⟩
    exact ⟨he, (mem_diff _ _ _).2 ⟨ha, hav⟩, (mem_diff _ _ _).2 ⟨hb, hbv⟩⟩

/-- The sets visited from an entry, in order. -/
def agatRec (M : AdjMat) (S : SB) : Nat → AgatEntry → List AgatEntry
  | 0, e => [e]
  | k+1, e => e :: (M.agatChildren S e).reverse.flatMap (agatRec M S k)

/-- sets to be found below an entry -/
def Below (M : AdjMat) (S : SB) (C X U : SB) : Prop :=
  Sub C U ∧ Sub U S ∧ U ≠ S ∧ M.ConnSet U ∧ ∀ i, Mem U i → ¬ Mem X i

theorem agatPush_spec (hM : M.Symm) (hS : M.ConnSet S) {e : AgatEntry} (h : AInv M S e) (hsz : ¬ size e.1 + 1 ≥ size S)
    (f : AgatEntry → List AgatEntry)
    (hf : ∀ e', AInv M S e' → size (diff S e'.1) < size (diff S e.1) → (f e').Pairwise (fun a b => a.1 ≠ b.1) ∧ 
      (∀ a ∈ f e', AInv M S a) ∧ 
      ∀ U, (∃ a ∈ f e', a.1 = U) ↔ M.Below S e'.1 e'.2.1 U)
    (l : List (Nat × SB)) (hl : ∀ it ∈ l, it.2 = singleton it.1 ∧ Mem S it.1 ∧ ¬ Mem e.1 it.1 ∧ ∃ c, Mem e.1 c ∧ M.Edge c it.1)
    (hnd : (l.map Prod.fst).Nodup)
    (X' : SB) (hX' : ∀ i, Mem X' i → ¬ Mem e.1 i ∧ i ∉ l.map Prod.fst) :
    let L := (agatPush e.1 (if M.agatConn S e.1 e.2.2 then 0#64 else e.1) l X').flatMap f
    L.Pairwise (fun a b => a.1 ≠ b.1) ∧ (∀ a ∈ L, AInv M S a) ∧
    ∀ U, (∃ a ∈ L, a.1 = U) ↔ M.Below S e.1 X' U ∧ ∃ it ∈ l, Mem U it.1 := by
  induction l generalizing X' with
  | nil => simp [agatPush]
  | cons it l ih =>
    obtain ⟨hit, hvS, hvC, hadj⟩ := hl it (by simp)
    have hv64 := mem_lt hvS
    rw [List.map_cons, List.nodup_cons] at hnd
    have hmem : ∀ i, Mem (e.1 ||| singleton it.1) i ↔ Mem e.1 i ∨ i = it.1 := by
      intro i; rw [mem_or, mem_singleton]
      constructor
      · rintro (h | h); exacts [Or.inl h, Or.inr h.2]
      · rintro (h | h); exacts [Or.inl h, Or.inr ⟨h ▸ hv64, h⟩]
    have hX'' : ∀ i, Mem (X' ||| it.2) i ↔ Mem X' i ∨ i = it.1 := by
      intro i; rw [mem_or, hit, mem_singleton]
      constructor
      · rintro (h | h); exacts [Or.inl h, Or.inr h.2]
      · rintro (h | h); exacts [Or.inl h, Or.inr ⟨h ▸ hv64, h⟩]
    obtain ⟨i1, i2, i3⟩ := ih (fun a ha => hl a (List.mem_cons_of_mem _ ha)) hnd.2 (X' ||| it.2) (by
      intro i hi
      rcases (hX'' i).1 hi with hi | rfl
      · exact ⟨(hX' i hi).1, fun hc => (hX' i hi).2 (by simp at hc ⊢; exact Or.inr hc)⟩
      · exact ⟨hvC, hnd.1⟩)
    have hch := h.child hM hS hsz hvS hvC hadj (X' := X') (fun i hi => ⟨(hX' i hi).1, fun hc =>
      (hX' i hi).2 (by simp [hc])⟩)
    rw [← hit] at hch
    obtain ⟨j1, j2, j3⟩ := hf _ hch (by
      apply size_lt_of_ssub
      · intro i hi
        rw [mem_diff] at hi ⊢
        exact ⟨hi.1, fun hc => hi.2 (by simp only [mem_or]; exact Or.inl hc)⟩
      · intro he
        have : Mem (diff S (e.1 ||| it.2)) it.1 := by
          simp only at he
          rw [he, mem_diff]; exact ⟨hvS, hvC⟩
        rw [mem_diff, hit, hmem] at this
        exact this.2 (Or.inr rfl))
    simp only at i1 i2 i3 j1 j2 j3 ⊢
    rw [agatPush, List.flatMap_cons]
    refine ⟨?_, ?_, ?_⟩
    · rw [List.pairwise_append]
      refine ⟨j1, i1, ?_⟩
      intro a ha b hb hab
      have h1 := (j3 a.1).1 ⟨a, ha, rfl⟩
      have h2 := (i3 b.1).1 ⟨b, hb, rfl⟩
      rw [← hab] at h2
      have h3 : Mem a.1 it.1 := h1.1 _ (by rw [hit, hmem]; exact Or.inr rfl)
      exact h2.1.2.2.2.2 _ h3 ((hX'' _).2 (Or.inr rfl))
    · intro a ha
      rcases List.mem_append.1 ha with ha | ha
      exacts [j2 a ha, i2 a ha]
    · intro U
      have : (∃ a ∈ f (e.1 ||| it.2, X', (if M.agatConn S e.1 e.2.2 then 0#64 else e.1) ||| it.2) ++
          List.flatMap f (agatPush e.1 (if M.agatConn S e.1 e.2.2 then 0#64 else e.1) l (X' ||| it.2)), a.1 = U) ↔
          M.Below S (e.1 ||| it.2) X' U ∨ (M.Below S e.1 (X' ||| it.2) U ∧ ∃ it ∈ l, Mem U it.1) := by
        rw [← j3, ← i3]
        simp only [List.mem_append]
        constructor
        · rintro ⟨a, ha | ha, hU⟩
          exacts [Or.inl ⟨a, ha, hU⟩, Or.inr ⟨a, ha, hU⟩]
        · rintro (⟨a, ha, hU⟩ | ⟨a, ha, hU⟩)
          exacts [⟨a, Or.inl ha, hU⟩, ⟨a, Or.inr ha, hU⟩]
      rw [this]
      constructor
      · rintro (⟨h1, h2⟩ | ⟨⟨h1, h2, h3, h4, h5⟩, it', h6, h7⟩)
        · refine ⟨⟨fun i hi => h1 i (by rw [hit, hmem]; exact Or.inl hi), h2⟩, it, by simp, h1 _ (by rw [hit, hmem]; exact Or.inr rfl)⟩
        · exact ⟨⟨h1, h2, h3, h4, fun i hi hx => h5 i hi ((hX'' i).2 (Or.inl hx))⟩, it', by simp [h6], h7⟩
      · rintro ⟨⟨h1, h2, h3, h4, h5⟩, it', h6, h7⟩
        by_cases hU : Mem U it.1
        · left
          refine ⟨?_, h2, h3, h4, h5⟩
          intro i hi
          rw [hit, hmem] at hi
          rcases hi with hi | rfl
          exacts [h1 i hi, hU]
        · right
          refine ⟨⟨h1, h2, h3, h4, ?_⟩, it', ?_, h7⟩
          · intro i hi hx
            rcases (hX'' i).1 hx with hx | rfl
            exacts [h5 i hi hx, hU hi]
          · rcases List.mem_cons.1 h6 with rfl | h6
            · contradiction
            · exact h6

theorem size_diff_pos {e : AgatEntry} (h : AInv M S e) : 0 < size (diff S e.1) := by
  rw [Nat.pos_iff_ne_zero]
  intro h0
  rw [size_eq_zero_iff] at h0
  refine h.neS (ext fun i => ⟨h.sub i, fun hi => ?_⟩)
  by_contra hc
  have : Mem (diff S e.1) i := (mem_diff _ _ _).2 ⟨hi, hc⟩
  rw [h0] at this
  exact not_mem_zero i this

theorem size_add_diff {C S : SB} (hsub : Sub C S) : size S = size C + size (diff S C) := by
  rw [size_eq_card, size_eq_card, size_eq_card, ← Finset.card_union_of_disjoint]
  · congr 1
    ext i
    simp only [Finset.mem_union, mem_toFin, mem_diff]
    constructor
    · intro hi; by_cases hC : Mem C i
      · exact Or.inl hC
      · exact Or.inr ⟨hi, hC⟩
    · rintro (h | h); exacts [hsub i h, h.1]
  · rw [Finset.disjoint_left]
    intro i
    simp only [mem_toFin, mem_diff]
    exact fun h1 h2 => h2.2 h1

theorem agatRec_spec (hM : M.Symm) (hS : M.ConnSet S) (k : Nat) (e : AgatEntry) (h : AInv M S e)
    (hk : size (diff S e.1) ≤ k + 1) :
    (agatRec M S k e).Pairwise (fun a b => a.1 ≠ b.1) ∧ (∀ a ∈ agatRec M S k e, AInv M S a) ∧
    ∀ U, (∃ a ∈ agatRec M S k e, a.1 = U) ↔ M.Below S e.1 e.2.1 U := by
  have hself : M.Below S e.1 e.2.1 e.1 := ⟨fun _ h => h, h.sub, h.neS, h.conn, h.dis⟩
  have hpos := size_diff_pos h
  have hadd := size_add_diff h.sub
  -- with one vertex left nothing else is below
  have honly : size e.1 + 1 ≥ size S → ∀ U, M.Below S e.1 e.2.1 U → U = e.1 := by
    intro hs U hU
    by_contra hne
    have h1 := size_lt_of_ssub hU.1 (fun h => hne h.symm)
    have h2 := size_lt_of_ssub hU.2.1 hU.2.2.1
    omega
  induction k generalizing e with
  | zero =>
    refine ⟨by simp [agatRec], by simpa [agatRec] using h, ?_⟩
    intro U
    simp only [agatRec, List.mem_singleton]
    constructor
    · rintro ⟨a, rfl, rfl⟩; exact hself
    · intro hU; exact ⟨e, rfl, (honly (by omega) U hU).symm⟩
  | succ k ih =>
    by_cases hsz : size e.1 + 1 ≥ size S
    · have : M.agatChildren S e = [] := by rw [agatChildren]; exact if_pos hsz
      simp only [agatRec, this, List.reverse_nil, List.flatMap_nil, List.mem_singleton]
      refine ⟨by simp, by simpa using h, fun U => ?_⟩
      constructor
      · rintro ⟨a, rfl, rfl⟩; exact hself
      · intro hU; exact ⟨e, rfl, (honly hsz U hU).symm⟩
    · have hch : M.agatChildren S e = agatPush e.1 (if M.agatConn S e.1 e.2.2 then 0#64 else e.1)
          (iterate (diff (M.neighbors e.1 &&& S) e.2.1)) e.2.1 := by
        rw [agatChildren]; exact if_neg hsz
      have hN : ∀ i, Mem (diff (M.neighbors e.1 &&& S) e.2.1) i ↔
          (¬ Mem e.1 i ∧ ∃ x, Mem e.1 x ∧ M.Edge x i) ∧ Mem S i ∧ ¬ Mem e.2.1 i := by
        intro i; rw [mem_diff, mem_and, mem_neighbors, and_assoc]
      have hsp := agatPush_spec hM hS h hsz (agatRec M S k)
        (fun e' he' hlt => ih e' he' (by omega) ⟨fun _ h => h, he'.sub, he'.neS, he'.conn, he'.dis⟩
          (size_diff_pos he') (size_add_diff he'.sub) (by
            intro hs U hU
            by_contra hne
            have h1 := size_lt_of_ssub hU.1 (fun h => hne h.symm)
            have h2 := size_lt_of_ssub hU.2.1 hU.2.2.1
            omega))
        (iterate (diff (M.neighbors e.1 &&& S) e.2.1))
        (by
          intro it hit
          rw [mem_iterate, hN] at hit
          exact ⟨hit.2, hit.1.2.1, hit.1.1.1, hit.1.1.2⟩)
        (by
          have := members_sorted (diff (M.neighbors e.1 &&& S) e.2.1)
          exact this.imp (fun h => Nat.ne_of_lt h))
        e.2.1
        (by
          intro i hi
          refine ⟨fun hc => h.dis i hc hi, fun hc => ?_⟩
          have : i ∈ members (diff (M.neighbors e.1 &&& S) e.2.1) := hc
          rw [mem_members, hN] at this
          exact this.2.2 hi)
      rw [← hch] at hsp
      obtain ⟨s1, s2, s3⟩ := hsp
      have hperm : ((M.agatChildren S e).reverse.flatMap (agatRec M S k)).Perm ((M.agatChildren S e).flatMap (agatRec M S k)) :=
        (List.reverse_perm _).flatMap_right _
      simp only [agatRec, List.pairwise_cons, List.mem_cons]
      refine ⟨⟨?_, ?_⟩, ?_, ?_⟩
      · intro a ha hab
        obtain ⟨⟨h1, h2, h3, h4, h5⟩, it, h6, h7⟩ := (s3 a.1).1 ⟨a, hperm.mem_iff.1 ha, rfl⟩
        rw [mem_iterate, hN] at h6
        rw [← hab] at h7
        exact h6.1.1.1 h7
      · exact hperm.symm.pairwise s1 (fun h => h.symm)
      · rintro a (rfl | ha)
        exacts [h, s2 a (hperm.mem_iff.1 ha)]
      · intro U
        constructor
        · rintro ⟨a, rfl | ha, rfl⟩
          · exact hself
          · exact ((s3 _).1 ⟨a, hperm.mem_iff.1 ha, rfl⟩).1
        · intro hU
          by_cases hUC : U = e.1
          · exact ⟨e, Or.inl rfl, hUC.symm⟩
          · obtain ⟨x, y, hx, hy, hyC, hxy⟩ := hU.2.2.2.1.cut hU.1 h.ne0 (fun h => hUC h.symm)
            obtain ⟨a, ha, haU⟩ := (s3 U).2 ⟨hU, (y, singleton y), by
              rw [mem_iterate, hN]
              exact ⟨⟨⟨hyC, x, hx, hxy⟩, hU.2.1 _ hy, hU.2.2.2.2 _ hy⟩, rfl⟩, hy⟩
            exact ⟨a, Or.inr (hperm.mem_iff.2 ha), haU⟩

theorem agatRec_self (k : Nat) (e : AgatEntry) : e ∈ agatRec M S k e := by
  cases k <;> simp [agatRec]

theorem agatChild_inv (hM : M.Symm) (hS : M.ConnSet S) {e e' : AgatEntry} (h : AInv M S e) (he : e' ∈ M.agatChildren S e) :
    AInv M S e' ∧ size (diff S e'.1) < size (diff S e.1) := by
  obtain ⟨h1, h2, h3⟩ := agatRec_spec hM hS 64 e h (by have := size_le (diff S e.1); omega)
  have hmem : e' ∈ (M.agatChildren S e).reverse.flatMap (agatRec M S 63) := by
    rw [List.mem_flatMap]; exact ⟨e', by simpa using he, agatRec_self 63 e'⟩
  have hi := h2 e' (by rw [agatRec]; exact List.mem_cons_of_mem _ hmem)
  refine ⟨hi, ?_⟩
  have hb := (h3 e'.1).1 ⟨e', by rw [agatRec]; exact List.mem_cons_of_mem _ hmem, rfl⟩
  rw [agatRec, List.pairwise_cons] at h1
  have hne := h1.1 e' hmem
  have := size_lt_of_ssub hb.1 hne
  have a1 := size_add_diff h.sub
  have a2 := size_add_diff hi.sub
  omega

theorem agatRec_stable (hM : M.Symm) (hS : M.ConnSet S) (k : Nat) (e : AgatEntry) (h : AInv M S e)
    (hk : size (diff S e.1) ≤ k + 1) : agatRec M S (k+1) e = agatRec M S k e := by
  induction k generalizing e with
  | zero =>
    have hadd := size_add_diff h.sub
    have : M.agatChildren S e = [] := by rw [agatChildren]; exact if_pos (by omega)
    simp [agatRec, this]
  | succ k ih =>
    rw [agatRec, agatRec]
    congr 1
    apply List.flatMap_congr
    intro e' he'
    have := agatChild_inv hM hS h (List.mem_reverse.1 he')
    exact ih e' this.1 (by omega)

theorem agatInsist_ok (hM : M.Symm) (hS : M.ConnSet S) {e : AgatEntry} (h : AInv M S e) :
    M.agatInsist S e.1 e.2.2 = true := by
  have hc := agatConn_iff hM h
  rw [agatInsist]
  have h1 : isSubset e.1 S = true := (isSubset_iff _ _).2 h.sub
  have h2 : M.isConnected e.1 = true := (isConnected_iff hM _).2 h.conn
  have h3 : isSubset e.2.2 e.1 = true := (isSubset_iff _ _).2 h.tsub
  have h4 : M.isConnected2 e.1 (diff S e.1) = true := by
    rw [isConnected2_iff]
    obtain ⟨x, y, hx, hy, hyC, hxy⟩ := hS.cut h.sub h.ne0 h.neS
    exact ⟨y, x, (mem_diff _ _ _).2 ⟨hy, hyC⟩, hx, hM _ _ hxy⟩
  rw [← isConnected_iff hM] at hc
  simp only [h1, h2, h3, h4, Bool.true_and, Bool.and_true, Bool.not_true, Bool.or_false]
  split
  · rename_i h5; exact hc.1 h5
  · rename_i h5
    rw [Bool.not_eq_true']
    rw [hc] at h5
    simpa using h5

theorem agatLoop_eq (hM : M.Symm) (hS : M.ConnSet S) (fuel : Nat) (W : List AgatEntry) (hW : ∀ e ∈ W, AInv M S e)
    (hf : (W.flatMap (agatRec M S 64)).length ≤ fuel) :
    M.agatLoop S fuel W = some (((W.flatMap (agatRec M S 64)).filter (fun e => M.agatConn S e.1 e.2.2)).map
      (fun e => (e.1, diff S e.1))) := by
  induction fuel generalizing W with
  | zero =>
    cases W with
    | nil => simp [agatLoop]
    | cons e W =>
      rw [List.flatMap_cons, List.length_append] at hf
      have := List.length_pos_of_mem (agatRec_self (M := M) (S := S) 64 e)
      omega
  | succ fuel ih =>
    cases W with
    | nil => simp [agatLoop]
    | cons e W =>
      have he := hW e (by simp)
      have hst : agatRec M S 64 e = e :: (M.agatChildren S e).reverse.flatMap (agatRec M S 64) := by
        rw [← agatRec_stable hM hS 64 e he (by have := size_le (diff S e.1); omega), agatRec]
      have hfl : (e :: W).flatMap (agatRec M S 64) =
          e :: ((M.agatChildren S e).reverse ++ W).flatMap (agatRec M S 64) := by
        rw [List.flatMap_cons, hst, List.flatMap_append]; rfl
      rw [hfl] at hf ⊢
      rw [agatLoop, if_pos (agatInsist_ok hM hS he), ih _ (by
        intro e' he'
        rcases List.mem_append.1 he' with h | h
        · exact (agatChild_inv hM hS he (List.mem_reverse.1 h)).1
        · exact hW e' (by simp [h])) (by simp only [List.length_cons] at hf; omega)]
      simp only [Option.map_some, List.filter_cons]
      split <;> simp

theorem agatRec_length (hM : M.Symm) (hS : M.ConnSet S) {e : AgatEntry} (h : AInv M S e) :
    (agatRec M S 64 e).length ≤ S.toNat + 1 := by
  obtain ⟨h1, h2, h3⟩ := agatRec_spec hM hS 64 e h (by have := size_le (diff S e.1); omega)
  have hnd : ((agatRec M S 64 e).map (fun a => a.1.toNat)).Nodup := by
    rw [List.Nodup, List.pairwise_map]
    exact h1.imp (fun hne heq => hne (BitVec.eq_of_toNat_eq heq))
  have hsub : (agatRec M S 64 e).map (fun a => a.1.toNat) ⊆ List.range (S.toNat + 1) := by
    intro n hn
    rw [List.mem_map] at hn
    obtain ⟨a, ha, rfl⟩ := hn
    have := le_of_sub (h2 a ha).sub
    rw [BitVec.le_def] at this
    rw [List.mem_range]; omega
  have := (hnd.subperm hsub).length_le
  simpa using this

theorem agatPartition_spec (hM : M.Symm) (hS : M.ConnSet S) (hsz : 2 ≤ size S) :
    ∃ L, M.agatPartition S = some L ∧ (L.map Prod.fst).Nodup ∧
      ∀ A B, (A, B) ∈ L ↔ Sub A S ∧ A ≠ S ∧ (∃ z, IsLeast S z ∧ Mem A z) ∧ B = diff S A ∧ M.ConnSet A ∧ M.ConnSet B := by
  have hne0 : S ≠ 0#64 := by intro h; rw [h, size_zero] at hsz; omega
  obtain ⟨z, hz⟩ := exists_least hne0
  have hsing : S ≠ singleton z := by
    intro h; rw [h, size_singleton (mem_lt hz.1)] at hsz; omega
  have hinit := AInv.init hS hz hsing
  rw [agatPartition, lo_eq_singleton hz]
  have hg : (!isEmpty S && !isSingleton S && M.isConnected S) = true := by
    have h1 : isEmpty S = false := by
      rw [← Bool.not_eq_true, SB.isEmpty_iff]; push Not; exact ⟨z, hz.1⟩
    have h2 : isSingleton S = false := by
      rw [isSingleton, beq_eq_false_iff_ne]; omega
    rw [h1, h2, (isConnected_iff hM S).2 hS]; rfl
  rw [if_pos hg, agatLoop_eq hM hS _ _ (by simpa using hinit) (by simpa using agatRec_length hM hS hinit)]
  simp only [List.flatMap_cons, List.flatMap_nil, List.append_nil]
  obtain ⟨h1, h2, h3⟩ := agatRec_spec hM hS 64 _ hinit (by have := size_le (diff S (singleton z)); simp only; omega)
  refine ⟨_, rfl, ?_, ?_⟩
  · rw [List.map_map, List.Nodup, List.pairwise_map]
    exact (h1.filter _)
  · intro A B
    simp only [List.mem_map, List.mem_filter, Prod.mk.injEq]
    constructor
    · rintro ⟨e, ⟨he, hc⟩, rfl, rfl⟩
      have hi := h2 e he
      have hb := (h3 e.1).1 ⟨e, he, rfl⟩
      exact ⟨hi.sub, hi.neS, ⟨z, hz, hb.1 z (by simp [mem_lt hz.1])⟩, rfl, hi.conn, (agatConn_iff hM hi).1 hc⟩
    · rintro ⟨a1, a2, ⟨z', a3, a4⟩, rfl, a5, a6⟩
      have hzz : z' = z := Nat.le_antisymm (a3.2 z hz.1) (hz.2 z' a3.1)
      obtain ⟨e, he, rfl⟩ := (h3 A).2 ⟨by
        intro i hi
        simp only [mem_singleton] at hi
        rw [hi.2, ← hzz]; exact a4, a1, a2, a5, fun i _ => not_mem_zero i⟩
      exact ⟨e, ⟨he, (agatConn_iff hM (h2 e he)).2 a6⟩, rfl, rfl⟩

end AdjMat
end Mutable
