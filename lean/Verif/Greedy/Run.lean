import Verif.PlanEnum.Props
import Verif.Greedy.Model
/-! Issuing a sequence of joins, each of relations or of results of earlier joins. -/
namespace Mutable
open SB
namespace PE
variable {C D : Type} [LinearOrder C] {E : Env C D} {est : SB → D} {base : Nat → C} {n : Nat}

/-- `X` can be used after the joins `done`: it is a relation or one of their results. -/
def Avail (done : List (SB × SB)) (X : SB) : Prop := size X = 1 ∨ ∃ q ∈ done, q.1 ||| q.2 = X

/-- The invariant together with: every join so far has a plan. -/
structure RunInv (E : Env C D) (est : SB → D) (base : Nat → C) (may : SB → SB → Prop) (done : List (SB × SB)) (T : PT C D) :
    Prop where
  dp : DPInv E est base E.n done T
  ok : ∀ p ∈ done, PairOK E.n may p
  has : ∀ p ∈ done, hasPlan T (p.1 ||| p.2) = true
  only : ∀ S, size S ≠ 1 → hasPlan T S = true → ∃ p ∈ done, p.1 ||| p.2 = S

theorem RunInv.init (hn : E.n ≤ 64) {may : SB → SB → Prop} {T : PT C D} (hT : Init est base E.n T) : RunInv E est base may [] T := by
  refine ⟨DPInv.init hn hT, by simp, by simp, fun S hS hp => ?_⟩
  obtain ⟨A, B, h, _⟩ := (DPInv.init (E := E) hn hT).split S hS hp
  simp at h

theorem RunInv.avail {may : SB → SB → Prop} {done : List (SB × SB)} {T : PT C D} (h : RunInv E est base may done T) {X : SB}
    (hX : Avail done X) : hasPlan T X = true := by
  rcases hX with hX | ⟨q, hq, rfl⟩
  · simp [hasPlan, hX]
  · exact h.has q hq

theorem RunInv.step (hE : Sane E est) (hn : E.n ≤ 64) {may : SB → SB → Prop} {done : List (SB × SB)} {T : PT C D}
    (h : RunInv E est base may done T) {A B : SB} (hp : PairOK E.n may (A, B)) (hord : ∀ q ∈ done, Before q (A, B))
    (hA : Avail done A) (hB : Avail done B) :
    ∃ T', update E T A B = some T' ∧ RunInv E est base may (done ++ [(A, B)]) T' ∧ (∀ X, X ≠ A ||| B → T' X = T X) ∧
      (hasPlan T (A ||| B) = false → (T' (A ||| B)).cost =
        min (E.J est A B (T A).cost (T B).cost) (E.J est B A (T B).cost (T A).cost)) := by
  have hpA := h.avail hA
  have hpB := h.avail hB
  obtain ⟨T', h1, h2⟩ := h.dp.step hE hn hp hord
  simp only [tryUpdate, hpA, hpB, Bool.not_true, Bool.false_eq_true, if_false] at h1
  obtain ⟨T'', h3, h4, _⟩ := update_ok hE h.dp.models hp.ne1 hp.ne2 hp.dis (h.dp.models.some A hp.sub1 hpA) (h.dp.models.some B hp.sub2 hpB)
  simp only [h1, Option.some.injEq] at h3
  subst h3
  refine ⟨T', h1, ⟨h2, ?_, ?_, ?_⟩, h4.other, fun hno => ?_⟩
  rotate_left 3
  · refine le_antisymm (le_min h4.le1 h4.le2) ?_
    rcases h4.cases with ⟨_, _, c⟩ | ⟨_, _, c⟩ | ⟨c, _⟩
    · simp only at c; rw [c]; exact min_le_left _ _
    · simp only at c; rw [c]; exact min_le_right _ _
    · simp only at c; rw [c] at hno; cases hno
  · intro p hp'
    rcases List.mem_append.1 hp' with hp' | hp'
    · exact h.ok p hp'
    · rw [List.mem_singleton] at hp'; subst hp'; exact hp
  · intro p hp'
    rcases List.mem_append.1 hp' with hp' | hp'
    · exact h4.mono (h.has p hp')
    · rw [List.mem_singleton] at hp'; subst hp'; exact h4.hasp
  · intro S hS hpl
    by_cases hSS : S = A ||| B
    · exact ⟨(A, B), by simp, hSS.symm⟩
    · rw [hasPlan_other (h4.other S hSS)] at hpl
      obtain ⟨p, a, b⟩ := h.only S hS hpl
      exact ⟨p, by simp [a], b⟩

/-- Sequences of joins that can be issued one after the other. -/
structure SeqOK (n : Nat) (may : SB → SB → Prop) (done ps : List (SB × SB)) : Prop where
  ok : ∀ p ∈ ps, PairOK n may p
  ord : (done ++ ps).Pairwise Before
  av : ∀ l₁ p l₂, ps = l₁ ++ p :: l₂ → Avail (done ++ l₁) p.1 ∧ Avail (done ++ l₁) p.2

theorem RunInv.run (hE : Sane E est) (hn : E.n ≤ 64) {may : SB → SB → Prop} (ps : List (SB × SB)) {done : List (SB × SB)}
    {T : PT C D} (h : RunInv E est base may done T) (hs : SeqOK E.n may done ps) :
    ∃ T', ps.foldlM (fun T p => update E T p.1 p.2) T = some T' ∧ RunInv E est base may (done ++ ps) T' := by
  induction ps generalizing done T with
  | nil => exact ⟨T, rfl, by simpa using h⟩
  | cons p ps ih =>
    obtain ⟨a1, a2⟩ := hs.av [] p ps rfl
    rw [List.append_nil] at a1 a2
    obtain ⟨T1, h1, h2, _⟩ := h.step hE hn (A := p.1) (B := p.2) (hs.ok p (by simp)) (fun q hq => by
      have := hs.ord
      rw [List.pairwise_append] at this
      exact this.2.2 q hq p (by simp)) a1 a2
    obtain ⟨T2, h3, h4⟩ := ih h2 ⟨fun q hq => hs.ok q (by simp [hq]), by simpa using hs.ord, fun l₁ q l₂ he => by
      have := hs.av (p :: l₁) q l₂ (by rw [he]; rfl)
      simpa using this⟩
    refine ⟨T2, ?_, by simpa using h4⟩
    rw [List.foldlM_cons, h1]
    exact h3

/-- Filling in a model does not matter. -/
theorem RunInv.models {may : SB → SB → Prop} {done : List (SB × SB)} {T T' : PT C D} (h : RunInv E est base may done T)
    (he : ∀ S, (T' S).left = (T S).left ∧ (T' S).right = (T S).right ∧ (T' S).cost = (T S).cost)
    (hm : ∀ S, (T' S).model = (T S).model ∨ (T' S).model = some (est S)) : RunInv E est base may done T' := by
  have hp : ∀ S, hasPlan T' S = hasPlan T S := by intro S; rw [hasPlan, hasPlan, (he S).1]
  refine ⟨⟨⟨?_, ?_⟩, ?_, ?_, ?_⟩, h.ok, ?_, ?_⟩
  · intro S d hd
    rcases hm S with hS | hS
    · exact h.dp.models.ok S d (by rw [← hS]; exact hd)
    · rw [hS] at hd; exact (Option.some.inj hd).symm
  · intro S h1 h2
    rcases hm S with hS | hS
    · rw [hS]; exact h.dp.models.some S h1 (by rw [← hp]; exact h2)
    · exact hS
  · intro i hi; rw [(he _).2.2]; exact h.dp.base i hi
  · intro S h1 h2
    rw [hp] at h2
    obtain ⟨A, B, a, b, c, d, e, f, g⟩ := h.dp.split S h1 h2
    exact ⟨A, B, a, by rw [(he S).1, b], by rw [(he S).2.1, c], d, by rw [hp, e], by rw [hp, f], by
      rw [(he S).2.2, (he A).2.2, (he B).2.2, g]⟩
  · intro p h1 h2 h3
    rw [hp] at h2 h3
    rw [hp, (he _).2.2, (he p.1).2.2, (he p.2).2.2]
    exact h.dp.did p h1 h2 h3
  · intro p h1; rw [hp]; exact h.has p h1
  · intro S h1 h2; rw [hp] at h2; exact h.only S h1 h2

/-- What the table holds for a result of one of the joins. -/
theorem RunInv.tree {may : SB → SB → Prop} (hsym : ∀ A B, may A B → may B A) (hn : E.n ≤ 64) {done : List (SB × SB)} {T : PT C D}
    (h : RunInv E est base may done T) {S : SB} (hS : Sub S (all E.n)) (hav : Avail done S) :
    ∃ t, Recorded T S t ∧ IsPlan E.n may t S ∧ t.cost E est base = (T S).cost :=
  h.dp.recorded hsym hn h.ok hS (h.avail hav)

/-- `ensureModel` on a table with the models of both sides. -/
theorem ensureModel_spec (hE : Sane E est) {T : PT C D} {A B : SB} (hd : A &&& B = 0#64) (hok : ∀ S d, (T S).model = some d → d = est S)
    (hA : (T A).model = some (est A)) (hB : (T B).model = some (est B)) :
    ∃ T', ensureModel E T A B = some T' ∧ (T' (A ||| B)).model = some (est (A ||| B)) ∧
      (∀ S, (T' S).left = (T S).left ∧ (T' S).right = (T S).right ∧ (T' S).cost = (T S).cost) ∧
      (∀ S, (T' S).model = (T S).model ∨ (T' S).model = some (est S)) := by
  unfold ensureModel
  cases hm : (T (A ||| B)).model with
  | some m =>
    refine ⟨T, rfl, by rw [hm, hok _ _ hm], fun S => ⟨rfl, rfl, rfl⟩, fun S => Or.inl rfl⟩
  | none =>
    simp only [hA, hB]
    refine ⟨_, rfl, ?_, fun S => ?_, fun S => ?_⟩
    · simp [setEntry, hE.join A B hd]
    · by_cases h : S = A ||| B
      · subst h; simp [setEntry]
      · simp [setEntry, h]
    · by_cases h : S = A ||| B
      · subst h; right; simp [setEntry, hE.join A B hd]
      · left; simp [setEntry, h]

theorem adjacent_symm' {M : AdjMat} (hM : M.Symm) (A B : SB) (h : Adjacent M A B) : Adjacent M B A := by
  obtain ⟨x, y, h1, h2, h3⟩ := h; exact ⟨y, x, h2, h1, hM _ _ h3⟩

end PE
end Mutable
