import Verif.HSearch.JoinModel
import Verif.HSearch.Beam
import Verif.PlanEnum.Enumerators
import Verif.PlanEnum.TopDown
import Mathlib.Algebra.BigOperators.Group.List.Basic
import Mathlib.Data.List.Perm.Basic
import Mathlib.Data.List.Nodup
/-! Join ordering as heuristic search: both expansions lose no join tree. -/
namespace Mutable.HS
open SB PE

/-! ### Order of disjoint sets -/

theorem slt_irr (A : SB) : ¬ A < A := by rw [BitVec.lt_def]; omega
theorem slt_trans {A B X : SB} (h : A < B) (h' : B < X) : A < X := by rw [BitVec.lt_def] at *; omega
theorem slt_asymm {A B : SB} (h : A < B) : ¬ B < A := by rw [BitVec.lt_def] at *; omega
theorem slt_total {A B : SB} (h : A ≠ B) : A < B ∨ B < A := by
  rw [BitVec.lt_def, BitVec.lt_def]
  have : A.toNat ≠ B.toNat := fun hc => h (BitVec.eq_of_toNat_eq hc)
  omega
theorem slt_of_lt_of_le {A B X : SB} (h : A < B) (h' : B ≤ X) : A < X := by
  rw [BitVec.lt_def] at *; rw [BitVec.le_def] at h'; omega

theorem disj_comm {A B : SB} (h : A &&& B = 0#64) : B &&& A = 0#64 := by rw [and_comm']; exact h

theorem disj_mem {A B : SB} (h : A &&& B = 0#64) {i : Nat} (ha : Mem A i) (hb : Mem B i) : False := (disj_iff A B).1 h i ha hb

theorem lt_above {X Y : SB} (hd : X &&& Y = 0#64) (h : X < Y) : ∃ y, Mem Y y ∧ ∀ x, Mem X x → x < y := by
  obtain ⟨z, h1, h2, h3⟩ := (lt_iff X Y).1 h
  refine ⟨z, h2, fun x hx => ?_⟩
  by_contra hc
  have hne : x ≠ z := fun h => h1 (h ▸ hx)
  exact disj_mem hd hx ((h3 x (by omega)).1 hx)

theorem lt_of_above {X Y : SB} (h : ∃ y, Mem Y y ∧ ∀ x, Mem X x → x < y) : X < Y := by
  obtain ⟨y, h1, h2⟩ := h
  obtain ⟨z, hz1, hz2⟩ := exists_greatest ((ne_zero_iff Y).2 ⟨y, h1⟩)
  have hyz : y ≤ z := by by_contra hc; exact absurd (hz2 y h1) (by omega)
  refine (lt_iff X Y).2 ⟨z, fun hc => by have := h2 z hc; omega, hz1, fun j hj => ⟨fun hc => ?_, fun hc => ?_⟩⟩
  · have := h2 j hc; omega
  · have := hz2 j hc; omega

theorem join_lt {A B X : SB} (hA : A &&& X = 0#64) (hB : B &&& X = 0#64) (h1 : A < X) (h2 : B < X) : A ||| B < X := by
  obtain ⟨a, ha1, ha2⟩ := lt_above hA h1
  obtain ⟨b, hb1, hb2⟩ := lt_above hB h2
  rcases Nat.le_total a b with h | h
  · exact lt_of_above ⟨b, hb1, fun x hx => by
      rcases (mem_or _ _ _).1 hx with hx | hx
      · have := ha2 x hx; omega
      · exact hb2 x hx⟩
  · exact lt_of_above ⟨a, ha1, fun x hx => by
      rcases (mem_or _ _ _).1 hx with hx | hx
      · exact ha2 x hx
      · have := hb2 x hx; omega⟩

theorem lt_join {A B X : SB} (h : X < B) : X < A ||| B := slt_of_lt_of_le h (le_of_sub (sub_right A B))

theorem lt_of_lt_join {A B X : SB} (hAB : A &&& B = 0#64) (hlt : A < B) (hA : X &&& A = 0#64) (hB : X &&& B = 0#64) (h : X < A ||| B) :
    X < B := by
  have hd : X &&& (A ||| B) = 0#64 := by
    rw [disj_iff]; intro i hi hc
    rcases (mem_or _ _ _).1 hc with h | h
    · exact disj_mem hA hi h
    · exact disj_mem hB hi h
  obtain ⟨y, hy1, hy2⟩ := lt_above hd h
  obtain ⟨z, hz1, hz2⟩ := lt_above hAB hlt
  rcases (mem_or _ _ _).1 hy1 with h | h
  · exact lt_of_above ⟨z, hz1, fun x hx => by have := hy2 x hx; have := hz2 y h; omega⟩
  · exact lt_of_above ⟨y, h, hy2⟩

/-! ### States -/

/-- Subproblems in ascending order, pairwise disjoint, not empty, connected, together all relations. -/
structure Wf (M : AdjMat) (n : Nat) (l : List SB) : Prop where
  sorted : l.Pairwise (· < ·)
  disj : ∀ P ∈ l, ∀ Q ∈ l, P ≠ Q → P &&& Q = 0#64
  ne : ∀ P ∈ l, P ≠ 0#64
  cover : ∀ i, i < n ↔ ∃ P ∈ l, Mem P i
  conn : ∀ P ∈ l, M.ConnSet P

variable {M : AdjMat} {n : Nat}

theorem nodup_of_sorted {l : List SB} (h : l.Pairwise (· < ·)) : l.Nodup :=
  h.imp (fun {a b} hab => fun hc => by subst hc; exact slt_irr _ hab)

theorem eq_of_sorted {l l' : List SB} (h : l.Pairwise (· < ·)) (h' : l'.Pairwise (· < ·)) (hm : ∀ X, X ∈ l ↔ X ∈ l') : l = l' := by
  have hp : l.Perm l' := (List.perm_ext_iff_of_nodup (nodup_of_sorted h) (nodup_of_sorted h')).2 hm
  exact List.Perm.eq_of_pairwise (fun a b _ _ h1 h2 => absurd h2 (slt_asymm h1)) h h' hp

theorem mem_joinParts {l : List SB} {A B : SB} (hB : B ∈ l) (hne : A ≠ B) (X : SB) :
    X ∈ joinParts l A B ↔ X = A ||| B ∨ (X ∈ l ∧ X ≠ A ∧ X ≠ B) := by
  simp only [joinParts, List.mem_filterMap]
  constructor
  · rintro ⟨Y, h1, h2⟩
    by_cases ha : Y = A
    · rw [if_pos ha] at h2; cases h2
    · rw [if_neg ha] at h2
      by_cases hb : Y = B
      · rw [if_pos hb] at h2; cases h2; exact Or.inl rfl
      · rw [if_neg hb] at h2; cases h2; exact Or.inr ⟨h1, ha, hb⟩
  · rintro (h | ⟨h1, h2, h3⟩)
    · exact ⟨B, hB, by rw [if_neg (Ne.symm hne), if_pos rfl, h]⟩
    · exact ⟨X, h1, by rw [if_neg h2, if_neg h3]⟩

theorem joinParts_sorted {l : List SB} {A B : SB} (hs : l.Pairwise (· < ·)) (hA : A ∈ l) (hB : B ∈ l)
    (hd : ∀ P ∈ l, ∀ Q ∈ l, P ≠ Q → P &&& Q = 0#64) (hlt : A < B) : (joinParts l A B).Pairwise (· < ·) := by
  refine List.Pairwise.filterMap _ ?_ (List.Pairwise.and_mem.1 hs)
  rintro X Y ⟨hX, hY, hXY⟩ X' hX' Y' hY'
  have hne : A ≠ B := fun h => by subst h; exact slt_irr _ hlt
  by_cases ha : X = A
  · simp only [ha, if_true] at hX'; cases hX'
  rw [if_neg ha] at hX'
  by_cases ha' : Y = A
  · simp only [ha', if_true] at hY'; cases hY'
  rw [if_neg ha'] at hY'
  by_cases hb : X = B
  · subst hb
    have hYX : Y ≠ X := fun h => by subst h; exact slt_irr _ hXY
    simp only [if_true, Option.some.injEq] at hX'
    rw [if_neg hYX] at hY'
    simp only [Option.some.injEq] at hY'
    subst hX' hY'
    exact join_lt (hd A hA Y hY (Ne.symm ha')) (hd X hX Y hY (Ne.symm hYX)) (slt_trans hlt hXY) hXY
  · rw [if_neg hb] at hX'; simp only [Option.some.injEq] at hX'; subst hX'
    by_cases hb' : Y = B
    · subst hb'; simp only [if_true, Option.some.injEq] at hY'; subst hY'; exact lt_join hXY
    · rw [if_neg hb'] at hY'; simp only [Option.some.injEq] at hY'; subst hY'; exact hXY

/-- `after` is `before` with `A` and `B` joined. -/
structure JoinRel (M : AdjMat) (before after : List SB) (A B : SB) : Prop where
  memA : A ∈ before
  memB : B ∈ before
  lt : A < B
  adj : Adjacent M A B
  eq : after = joinParts before A B

theorem JoinRel.ne {before after : List SB} {A B : SB} (h : JoinRel M before after A B) : A ≠ B :=
  fun hc => by have := h.lt; rw [hc] at this; exact slt_irr _ this

theorem JoinRel.mem {before after : List SB} {A B : SB} (h : JoinRel M before after A B) (X : SB) :
    X ∈ after ↔ X = A ||| B ∨ (X ∈ before ∧ X ≠ A ∧ X ≠ B) := by
  rw [h.eq]; exact mem_joinParts h.memB h.ne X

theorem disj_union {A B X : SB} (hA : A &&& X = 0#64) (hB : B &&& X = 0#64) : (A ||| B) &&& X = 0#64 := by
  rw [disj_iff]; intro i hi hc
  rcases (mem_or _ _ _).1 hi with h | h
  · exact disj_mem hA h hc
  · exact disj_mem hB h hc

theorem JoinRel.wf (hM : M.Symm) {before after : List SB} {A B : SB} (h : JoinRel M before after A B) (hw : Wf M n before) :
    Wf M n after := by
  refine ⟨by rw [h.eq]; exact joinParts_sorted hw.sorted h.memA h.memB hw.disj h.lt, fun P hP Q hQ hPQ => ?_, fun P hP => ?_,
    fun i => ?_, fun P hP => ?_⟩
  · rw [h.mem] at hP hQ
    rcases hP with rfl | ⟨hP, hPA, hPB⟩
    · rcases hQ with rfl | ⟨hQ, hQA, hQB⟩
      · exact absurd rfl hPQ
      · exact disj_union (hw.disj _ h.memA _ hQ (Ne.symm hQA)) (hw.disj _ h.memB _ hQ (Ne.symm hQB))
    · rcases hQ with rfl | ⟨hQ, hQA, hQB⟩
      · exact disj_comm (disj_union (hw.disj _ h.memA _ hP (Ne.symm hPA)) (hw.disj _ h.memB _ hP (Ne.symm hPB)))
      · exact hw.disj _ hP _ hQ hPQ
  · rw [h.mem] at hP
    rcases hP with rfl | ⟨hP, _, _⟩
    · obtain ⟨i, hi⟩ := (ne_zero_iff _).1 (hw.ne _ h.memA)
      exact (ne_zero_iff _).2 ⟨i, (mem_or _ _ _).2 (Or.inl hi)⟩
    · exact hw.ne P hP
  · rw [hw.cover]
    constructor
    · rintro ⟨P, hP, hi⟩
      by_cases hPA : P = A
      · subst hPA; exact ⟨P ||| B, (h.mem _).2 (Or.inl rfl), (mem_or _ _ _).2 (Or.inl hi)⟩
      · by_cases hPB : P = B
        · subst hPB; exact ⟨A ||| P, (h.mem _).2 (Or.inl rfl), (mem_or _ _ _).2 (Or.inr hi)⟩
        · exact ⟨P, (h.mem _).2 (Or.inr ⟨hP, hPA, hPB⟩), hi⟩
    · rintro ⟨P, hP, hi⟩
      rcases (h.mem _).1 hP with rfl | ⟨hP, _, _⟩
      · rcases (mem_or _ _ _).1 hi with hi | hi
        · exact ⟨A, h.memA, hi⟩
        · exact ⟨B, h.memB, hi⟩
      · exact ⟨P, hP, hi⟩
  · rcases (h.mem _).1 hP with rfl | ⟨hP, _, _⟩
    · obtain ⟨x, y, h1, h2, h3⟩ := h.adj
      exact (hw.conn _ h.memA).union hM (hw.conn _ h.memB) h1 h2 h3
    · exact hw.conn P hP

/-- The join takes two parts out and puts one in. -/
theorem JoinRel.perm {before after : List SB} {A B : SB} (h : JoinRel M before after A B) (hw : Wf M n before)
    (ha : after.Nodup) : ∃ rest, before.Perm (A :: B :: rest) ∧ after.Perm ((A ||| B) :: rest) ∧
      (∀ X ∈ rest, X ∈ before ∧ X ≠ A ∧ X ≠ B) := by
  have hnd := nodup_of_sorted hw.sorted
  refine ⟨before.filter (fun X => X ≠ A ∧ X ≠ B), ?_, ?_, ?_⟩
  · refine (List.perm_ext_iff_of_nodup hnd ?_).2 fun X => ?_
    · simp only [List.nodup_cons, List.mem_cons, List.mem_filter, decide_eq_true_eq]
      exact ⟨fun hc => hc.elim h.ne (fun hc => hc.2.1 rfl), fun hc => hc.2.2 rfl, hnd.filter _⟩
    · simp only [List.mem_cons, List.mem_filter, decide_eq_true_eq]
      constructor
      · intro hX
        by_cases hA : X = A
        · exact Or.inl hA
        · by_cases hB : X = B
          · exact Or.inr (Or.inl hB)
          · exact Or.inr (Or.inr ⟨hX, hA, hB⟩)
      · rintro (rfl | rfl | ⟨hX, _⟩); exacts [h.memA, h.memB, hX]
  · refine (List.perm_ext_iff_of_nodup ha ?_).2 fun X => ?_
    · simp only [List.nodup_cons, List.mem_filter, decide_eq_true_eq]
      refine ⟨fun hc => ?_, hnd.filter _⟩
      have h1 := hw.disj _ hc.1 _ h.memA hc.2.1
      obtain ⟨i, hi⟩ := (ne_zero_iff _).1 (hw.ne _ h.memA)
      exact disj_mem h1 ((mem_or _ _ _).2 (Or.inl hi)) hi
    · rw [h.mem]
      simp only [List.mem_cons, List.mem_filter, decide_eq_true_eq]
  · intro X hX
    simpa [List.mem_filter] using hX

theorem mergeParts_spec (S : SB) (l r : List SB) (hl : l.Pairwise (· < ·)) (hr : r.Pairwise (· < ·))
    (hne : ∀ x ∈ l, x ≠ S → ∀ y ∈ r, x ≠ y) :
    (mergeParts S l r).Pairwise (· < ·) ∧ ∀ X, X ∈ mergeParts S l r ↔ (X ∈ l ∧ X ≠ S) ∨ X ∈ r := by
  induction l generalizing r with
  | nil => unfold mergeParts; exact ⟨hr, by simp⟩
  | cons x l ih =>
    have hl' := List.pairwise_cons.1 hl
    induction r with
    | nil =>
      unfold mergeParts
      obtain ⟨h1, h2⟩ := ih [] hl'.2 .nil (by simp)
      split
      · rename_i hx; subst hx
        refine ⟨h1, fun X => ?_⟩
        rw [h2]; simp only [List.mem_cons, List.not_mem_nil, or_false]
        exact ⟨fun h => ⟨Or.inr h.1, h.2⟩, fun h => ⟨h.1.resolve_left h.2, h.2⟩⟩
      · rename_i hx
        refine ⟨List.pairwise_cons.2 ⟨fun y hy => ?_, h1⟩, fun X => ?_⟩
        · rw [h2] at hy; simp only [List.not_mem_nil, or_false] at hy; exact hl'.1 y hy.1
        · rw [List.mem_cons, h2]; simp only [List.mem_cons, List.not_mem_nil, or_false]
          constructor
          · rintro (rfl | h)
            · exact ⟨Or.inl rfl, hx⟩
            · exact ⟨Or.inr h.1, h.2⟩
          · rintro ⟨h | h, h'⟩
            · exact Or.inl h
            · exact Or.inr ⟨h, h'⟩
    | cons y r ihr =>
      have hr' := List.pairwise_cons.1 hr
      unfold mergeParts
      split
      · rename_i hx; subst hx
        obtain ⟨h1, h2⟩ := ih (y :: r) hl'.2 hr (fun z hz => hne z (by simp [hz]))
        refine ⟨h1, fun X => ?_⟩
        rw [h2]; simp only [List.mem_cons]
        constructor
        · rintro (h | h)
          · exact Or.inl ⟨Or.inr h.1, h.2⟩
          · exact Or.inr h
        · rintro (h | h)
          · exact Or.inl ⟨h.1.resolve_left h.2, h.2⟩
          · exact Or.inr h
      · rename_i hx
        simp only
        split
        · rename_i hxy
          obtain ⟨h1, h2⟩ := ih (y :: r) hl'.2 hr (fun z hz => hne z (by simp [hz]))
          refine ⟨List.pairwise_cons.2 ⟨fun z hz => ?_, h1⟩, fun X => ?_⟩
          · rw [h2, List.mem_cons] at hz
            rcases hz with hz | rfl | hz
            · exact hl'.1 z hz.1
            · exact hxy
            · exact slt_trans hxy (hr'.1 z hz)
          · rw [List.mem_cons, h2]; simp only [List.mem_cons]
            constructor
            · rintro (rfl | h | h)
              · exact Or.inl ⟨Or.inl rfl, hx⟩
              · exact Or.inl ⟨Or.inr h.1, h.2⟩
              · exact Or.inr h
            · rintro (⟨h | h, h'⟩ | h)
              · exact Or.inl h
              · exact Or.inr (Or.inl ⟨h, h'⟩)
              · exact Or.inr (Or.inr h)
        · rename_i hxy
          have hyx : y < x := (slt_total (hne x (by simp) hx y (by simp))).resolve_left hxy
          obtain ⟨h1, h2⟩ := ihr hr'.2 (fun z hz hzS w hw => hne z hz hzS w (by simp [hw]))
          refine ⟨List.pairwise_cons.2 ⟨fun z hz => ?_, h1⟩, fun X => ?_⟩
          · rw [h2, List.mem_cons] at hz
            rcases hz with ⟨rfl | hz, _⟩ | hz
            · exact hyx
            · exact slt_trans hyx (hl'.1 z hz)
            · exact hr'.1 z hz
          · rw [List.mem_cons, h2]; simp only [List.mem_cons]
            constructor
            · rintro (rfl | h | h)
              · exact Or.inr (Or.inl rfl)
              · exact Or.inl h
              · exact Or.inr (Or.inr h)
            · rintro (h | h | h)
              · exact Or.inr (Or.inl h)
              · exact Or.inl h
              · exact Or.inr (Or.inr h)

/-- Splitting a part is the reverse of a join. -/
theorem merge_joinRel {l : List SB} (hw : Wf M n l) {A B : SB} (hS : A ||| B ∈ l) (hA : A ≠ 0#64) (hB : B ≠ 0#64)
    (hd : A &&& B = 0#64) (hlt : A < B) (hadj : Adjacent M A B) (hcA : M.ConnSet A) (hcB : M.ConnSet B) :
    JoinRel M (mergeParts (A ||| B) l [A, B]) l A B ∧ Wf M n (mergeParts (A ||| B) l [A, B]) := by
  have hsub : ∀ X, X ∈ l → X ≠ A ||| B → (X &&& A = 0#64 ∧ X &&& B = 0#64) := by
    intro X hX hne
    have h1 := hw.disj X hX _ hS hne
    constructor
    · rw [disj_iff] at h1 ⊢; exact fun i hi hc => h1 i hi ((mem_or _ _ _).2 (Or.inl hc))
    · rw [disj_iff] at h1 ⊢; exact fun i hi hc => h1 i hi ((mem_or _ _ _).2 (Or.inr hc))
  have hnd : ∀ X Y : SB, X ≠ 0#64 → X &&& Y = 0#64 → X ≠ Y := by
    intro X Y hX h hc; subst hc
    obtain ⟨i, hi⟩ := (ne_zero_iff _).1 hX
    exact disj_mem h hi hi
  obtain ⟨h1, h2⟩ := mergeParts_spec (A ||| B) l [A, B] hw.sorted (by simp [hlt]) (by
    intro x hx hxS y hy
    have := hsub x hx hxS
    rcases List.mem_cons.1 hy with rfl | hy
    · exact hnd _ _ (hw.ne x hx) this.1
    · rw [List.mem_singleton.1 hy]; exact hnd _ _ (hw.ne x hx) this.2)
  have hmem : ∀ X, X ∈ mergeParts (A ||| B) l [A, B] ↔ (X ∈ l ∧ X ≠ A ||| B) ∨ X = A ∨ X = B := by
    intro X; rw [h2]; simp
  have hne : A ≠ B := fun h => by subst h; exact slt_irr _ hlt
  have hdisj : ∀ P ∈ mergeParts (A ||| B) l [A, B], ∀ Q ∈ mergeParts (A ||| B) l [A, B], P ≠ Q → P &&& Q = 0#64 := by
    intro P hP Q hQ hPQ
    rw [hmem] at hP hQ
    rcases hP with ⟨hP, hPS⟩ | rfl | rfl
    · rcases hQ with ⟨hQ, _⟩ | rfl | rfl
      · exact hw.disj P hP Q hQ hPQ
      · exact (hsub P hP hPS).1
      · exact (hsub P hP hPS).2
    · rcases hQ with ⟨hQ, hQS⟩ | rfl | rfl
      · exact disj_comm (hsub Q hQ hQS).1
      · exact absurd rfl hPQ
      · exact hd
    · rcases hQ with ⟨hQ, hQS⟩ | rfl | rfl
      · exact disj_comm (hsub Q hQ hQS).2
      · exact disj_comm hd
      · exact absurd rfl hPQ
  refine ⟨⟨(hmem A).2 (Or.inr (Or.inl rfl)), (hmem B).2 (Or.inr (Or.inr rfl)), hlt, hadj, ?_⟩, ⟨h1, hdisj, ?_, ?_, ?_⟩⟩
  · refine eq_of_sorted hw.sorted (joinParts_sorted h1 ((hmem A).2 (Or.inr (Or.inl rfl))) ((hmem B).2 (Or.inr (Or.inr rfl))) hdisj hlt) fun X => ?_
    rw [mem_joinParts ((hmem B).2 (Or.inr (Or.inr rfl))) hne, hmem]
    constructor
    · intro hX
      by_cases hXS : X = A ||| B
      · exact Or.inl hXS
      · have := hsub X hX hXS
        exact Or.inr ⟨Or.inl ⟨hX, hXS⟩, hnd _ _ (hw.ne X hX) this.1, hnd _ _ (hw.ne X hX) this.2⟩
    · rintro (rfl | ⟨⟨hX, _⟩ | rfl | rfl, h3, h4⟩)
      · exact hS
      · exact hX
      · exact absurd rfl h3
      · exact absurd rfl h4
  · intro P hP; rw [hmem] at hP
    rcases hP with ⟨hP, _⟩ | rfl | rfl
    exacts [hw.ne P hP, hA, hB]
  · intro i
    rw [hw.cover]
    constructor
    · rintro ⟨P, hP, hi⟩
      by_cases hPS : P = A ||| B
      · subst hPS
        rcases (mem_or _ _ _).1 hi with hi | hi
        · exact ⟨A, (hmem A).2 (Or.inr (Or.inl rfl)), hi⟩
        · exact ⟨B, (hmem B).2 (Or.inr (Or.inr rfl)), hi⟩
      · exact ⟨P, (hmem P).2 (Or.inl ⟨hP, hPS⟩), hi⟩
    · rintro ⟨P, hP, hi⟩
      rcases (hmem P).1 hP with ⟨hP, _⟩ | rfl | rfl
      · exact ⟨P, hP, hi⟩
      · exact ⟨_, hS, (mem_or _ _ _).2 (Or.inl hi)⟩
      · exact ⟨_, hS, (mem_or _ _ _).2 (Or.inr hi)⟩
  · intro P hP
    rcases (hmem P).1 hP with ⟨hP, _⟩ | rfl | rfl
    exacts [hw.conn P hP, hcA, hcB]

/-! ### Sizes -/

theorem size_union_disj {A B : SB} (h : A &&& B = 0#64) : size (A ||| B) = size A + size B := by
  rw [size_eq_card, size_eq_card, size_eq_card, ← Finset.card_union_of_disjoint]
  · congr 1; ext i; simp [toFin]
    constructor
    · rintro ⟨h1, h2⟩; rcases h2 with h2 | h2
      · exact Or.inl ⟨h1, h2⟩
      · exact Or.inr ⟨h1, h2⟩
    · rintro (⟨h1, h2⟩ | ⟨h1, h2⟩)
      · exact ⟨h1, Or.inl h2⟩
      · exact ⟨h1, Or.inr h2⟩
  · rw [Finset.disjoint_left]; intro i hi hc
    simp [toFin] at hi hc
    exact disj_mem h hi.2 hc.2

theorem size_pos' {A : SB} (h : A ≠ 0#64) : 1 ≤ size A := by
  have := (size_eq_zero_iff A).not.2 h; omega

/-- The number of joins still to be undone. -/
def excess (l : List SB) : Nat := (l.map (fun P => size P - 1)).sum

theorem JoinRel.excess (hM : M.Symm) {before after : List SB} {A B : SB} (h : JoinRel M before after A B) (hw : Wf M n before) :
    excess after = excess before + 1 := by
  obtain ⟨rest, h1, h2, _⟩ := h.perm hw (nodup_of_sorted (h.wf hM hw).sorted)
  unfold HS.excess
  rw [(h1.map _).sum_eq, (h2.map _).sum_eq]
  simp only [List.map_cons, List.sum_cons]
  have := size_union_disj (hw.disj _ h.memA _ h.memB h.ne)
  have := size_pos' (hw.ne _ h.memA)
  have := size_pos' (hw.ne _ h.memB)
  omega

theorem size_foldr (l : List SB) (h : l.Pairwise (fun P Q => P &&& Q = 0#64)) :
    size (l.foldr (· ||| ·) 0#64) = (l.map size).sum ∧ ∀ X : SB, (∀ P ∈ l, X &&& P = 0#64) → X &&& l.foldr (· ||| ·) 0#64 = 0#64 := by
  induction l with
  | nil => exact ⟨by simp [size_zero], fun X _ => by simp⟩
  | cons P l ih =>
    obtain ⟨h1, h2⟩ := List.pairwise_cons.1 h
    obtain ⟨i1, i2⟩ := ih h2
    simp only [List.foldr_cons, List.map_cons, List.sum_cons]
    constructor
    · rw [size_union_disj (i2 P h1), i1]
    · intro X hX
      exact disj_comm (disj_union (disj_comm (hX P (by simp))) (disj_comm (i2 X (fun Q hQ => hX Q (by simp [hQ])))))

theorem mem_foldr_or (l : List SB) (i : Nat) : Mem (l.foldr (· ||| ·) 0#64) i ↔ ∃ P ∈ l, Mem P i := by
  induction l with
  | nil => simp
  | cons P l ih => simp [ih]

theorem Wf.sizes (hn : n ≤ 64) {l : List SB} (hw : Wf M n l) : (l.map size).sum = n := by
  have hp : l.Pairwise (fun P Q => P &&& Q = 0#64) := by
    refine (List.Pairwise.and_mem.1 hw.sorted).imp ?_
    rintro P Q ⟨hP, hQ, hlt⟩
    exact hw.disj P hP Q hQ (fun h => by subst h; exact slt_irr _ hlt)
  rw [← (size_foldr l hp).1]
  have : l.foldr (· ||| ·) 0#64 = all n := by
    apply SB.ext; intro i; rw [mem_foldr_or, mem_all hn, hw.cover]
  rw [this, size_all hn]

theorem excess_length (l : List SB) (h : ∀ P ∈ l, P ≠ 0#64) : excess l + l.length = (l.map size).sum := by
  induction l with
  | nil => rfl
  | cons P l ih =>
    have h1 := size_pos' (h P (by simp))
    have h2 := ih (fun Q hQ => h Q (by simp [hQ]))
    simp only [excess, List.map_cons, List.sum_cons, List.length_cons] at h2 ⊢
    omega

theorem Wf.excess (hn : n ≤ 64) {l : List SB} (hw : Wf M n l) : excess l + l.length = n := by
  rw [excess_length l hw.ne, hw.sizes hn]

theorem excess_zero {l : List SB} (hne : ∀ P ∈ l, P ≠ 0#64) (h : excess l = 0) : ∀ P ∈ l, isSingleton P = true := by
  intro P hP
  have h1 : size P - 1 = 0 := List.sum_eq_zero_iff_forall_eq_nat.1 h _ (List.mem_map_of_mem hP)
  have := size_pos' (hne P hP)
  rw [isSingleton]; simp; omega

theorem excess_zero_of {l : List SB} (h : ∀ P ∈ l, isSingleton P = true) : excess l = 0 := by
  refine List.sum_eq_zero_iff_forall_eq_nat.2 fun x hx => ?_
  obtain ⟨P, hP, rfl⟩ := List.mem_map.1 hx
  have := h P hP
  rw [isSingleton] at this; simp at this; omega

/-- All parts are single relations: the bottom. -/
theorem Wf.eq_bottom (hn : n ≤ 64) {l : List SB} (hw : Wf M n l) (h : ∀ P ∈ l, isSingleton P = true) : l = (bottom n).parts := by
  refine eq_of_sorted hw.sorted ?_ fun X => ?_
  · simp only [bottom, List.pairwise_map]
    refine (List.Pairwise.and_mem.1 List.pairwise_lt_range).imp ?_
    rintro a b ⟨ha, hb, hab⟩
    rw [List.mem_range] at ha hb
    exact lt_of_above ⟨b, (mem_singleton _ _).2 ⟨by omega, rfl⟩, fun x hx => by have := ((mem_singleton _ _).1 hx).2; omega⟩
  · simp only [bottom, List.mem_map, List.mem_range]
    constructor
    · intro hX
      obtain ⟨k, hk, rfl⟩ := (isSingleton_iff X).1 (h X hX)
      exact ⟨k, (hw.cover k).2 ⟨_, hX, (mem_singleton _ _).2 ⟨hk, rfl⟩⟩, rfl⟩
    · rintro ⟨k, hk, rfl⟩
      obtain ⟨P, hP, hm⟩ := (hw.cover k).1 hk
      obtain ⟨j, hj, rfl⟩ := (isSingleton_iff P).1 (h P hP)
      have := ((mem_singleton _ _).1 hm).2
      subst this; exact hP

theorem bottom_wf (hn : n ≤ 64) : Wf M n (bottom n).parts := by
  have hmem : ∀ P ∈ (bottom n).parts, ∃ k, k < n ∧ P = SB.singleton k := by
    intro P hP; simp only [bottom, List.mem_map, List.mem_range] at hP
    obtain ⟨k, h1, h2⟩ := hP; exact ⟨k, h1, h2.symm⟩
  refine ⟨?_, ?_, ?_, ?_, ?_⟩
  · simp only [bottom, List.pairwise_map]
    refine (List.Pairwise.and_mem.1 List.pairwise_lt_range).imp ?_
    rintro a b ⟨ha, hb, hab⟩
    rw [List.mem_range] at ha hb
    exact lt_of_above ⟨b, (mem_singleton _ _).2 ⟨by omega, rfl⟩, fun x hx => by have := ((mem_singleton _ _).1 hx).2; omega⟩
  · intro P hP Q hQ hne
    obtain ⟨a, _, rfl⟩ := hmem P hP
    obtain ⟨b, _, rfl⟩ := hmem Q hQ
    rw [disj_iff]; intro i hi hc
    have h1 := ((mem_singleton _ _).1 hi).2
    have h2 := ((mem_singleton _ _).1 hc).2
    exact hne (by rw [← h1, ← h2])
  · intro P hP
    obtain ⟨a, ha, rfl⟩ := hmem P hP
    exact (ne_zero_iff _).2 ⟨a, (mem_singleton _ _).2 ⟨by omega, rfl⟩⟩
  · intro i
    constructor
    · intro hi
      exact ⟨SB.singleton i, by simp only [bottom, List.mem_map, List.mem_range]; exact ⟨i, hi, rfl⟩, (mem_singleton _ _).2 ⟨by omega, rfl⟩⟩
    · rintro ⟨P, hP, hi⟩
      obtain ⟨a, ha, rfl⟩ := hmem P hP
      have := ((mem_singleton _ _).1 hi).2; omega
  · intro P hP
    obtain ⟨a, ha, rfl⟩ := hmem P hP
    exact AdjMat.connSet_singleton M a

theorem top_wf (hn : n ≤ 64) (h1 : 1 ≤ n) (hc : M.ConnSet (all n)) : Wf M n (top n) := by
  refine ⟨by simp [top], by simp [top], ?_, fun i => ?_, ?_⟩
  · simp only [top, List.mem_singleton, forall_eq]
    exact (ne_zero_iff _).2 ⟨0, (mem_all hn 0).2 (by omega)⟩
  · simp only [top, List.mem_singleton, exists_eq_left]; exact (mem_all hn i).symm
  · simp only [top, List.mem_singleton, forall_eq]; exact hc

theorem Wf.eq_top (hn : n ≤ 64) {l : List SB} (hw : Wf M n l) (h1 : 1 ≤ n) (h : l.length ≤ 1) : l = top n := by
  match l, h with
  | [], _ => exact absurd ((hw.cover 0).1 (by omega)) (by simp)
  | [P], _ =>
    have : P = all n := by
      apply SB.ext; intro i; rw [mem_all hn, hw.cover]; simp
    rw [this, top]

/-! ### delta -/

theorem JoinRel.delta {before after : List SB} {A B : SB} (h : JoinRel M before after A B) (hw : Wf M n before) :
    delta 2 before after = [A, B] := by
  have hAB : (A ||| B) ≠ B := by
    intro hc
    obtain ⟨i, hi⟩ := (ne_zero_iff _).1 (hw.ne _ h.memA)
    exact disj_mem (hw.disj _ h.memA _ h.memB h.ne) hi (by rw [← hc]; exact (mem_or _ _ _).2 (Or.inl hi))
  rw [h.eq]
  -- after A was found
  have step2 : ∀ l : List SB, B ∈ l → A ∉ l → HS.delta 1 l (joinParts l A B) = [B] := by
    intro l
    induction l with
    | nil => simp
    | cons X l ih =>
      intro hB hA
      have hXA : X ≠ A := fun hc => hA (by simp [hc])
      unfold joinParts
      rw [List.filterMap_cons]
      by_cases hXB : X = B
      · subst hXB
        simp only [if_neg hXA, if_true]
        rw [HS.delta, if_neg (Ne.symm hAB)]; simp [HS.delta]
      · simp only [if_neg hXA, if_neg hXB]
        rw [HS.delta, if_pos rfl]
        exact ih ((List.mem_cons.1 hB).resolve_left (Ne.symm hXB)) (fun hc => hA (by simp [hc]))
  have step1 : ∀ l : List SB, l.Pairwise (· < ·) → A ∈ l → B ∈ l → HS.delta 2 l (joinParts l A B) = [A, B] := by
    intro l
    induction l with
    | nil => simp
    | cons X l ih =>
      intro hs hA hB
      obtain ⟨h1, h2⟩ := List.pairwise_cons.1 hs
      by_cases hXA : X = A
      · subst hXA
        have hAl : X ∉ l := fun hc => slt_irr _ (h1 X hc)
        have hBl : B ∈ l := (List.mem_cons.1 hB).resolve_left (Ne.symm h.ne)
        have hj : joinParts (X :: l) X B = joinParts l X B := by
          unfold joinParts; rw [List.filterMap_cons]; simp
        rw [hj]
        have hs2 := step2 l hBl hAl
        -- X is not the head of the rest
        cases hq : joinParts l X B with
        | nil => rw [HS.delta]; rw [hq] at hs2; rw [hs2]
        | cons a q =>
          have : X ≠ a := by
            intro hc
            have hmem : X ∈ joinParts l X B := by rw [hq, hc]; simp
            rcases (mem_joinParts hBl h.ne X).1 hmem with hc | ⟨hc, _, _⟩
            · have := h.lt
              have h3 : (X ||| B) &&& B = B := by
                apply SB.ext; intro i; simp only [mem_and, mem_or]; exact ⟨fun h => h.2, fun h => ⟨Or.inr h, h⟩⟩
              rw [← hc, hw.disj _ h.memA _ h.memB h.ne] at h3
              exact hw.ne _ h.memB h3.symm
            · exact hAl hc
          rw [HS.delta, if_neg this]; rw [hq] at hs2; rw [hs2]
      · have hXB : X ≠ B := by
          intro hc; subst hc
          have hAl : A ∈ l := (List.mem_cons.1 hA).resolve_left (Ne.symm hXA)
          exact slt_asymm h.lt (h1 A hAl)
        have hj : joinParts (X :: l) A B = X :: joinParts l A B := by
          unfold joinParts; rw [List.filterMap_cons]; simp [hXA, hXB]
        rw [hj, HS.delta, if_pos rfl]
        exact ih h2 ((List.mem_cons.1 hA).resolve_left (Ne.symm hXA)) ((List.mem_cons.1 hB).resolve_left (Ne.symm hXB))
  exact step1 before hw.sorted h.memA h.memB

end Mutable.HS
