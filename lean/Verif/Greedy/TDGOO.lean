import Mathlib.Algebra.Group.Defs
import Verif.Greedy.GOO
/-! Top-down greedy operator ordering. -/
namespace Mutable
open SB
namespace PE
variable {C D : Type} [LinearOrder C] {E : Env C D} {est : SB → D} {base : Nat → C} {K : Type} [LinearOrder K] [AddCommMonoid K]
  {card : D → K} {estAll : SB → D}

/-- A best cut. -/
def TCut (M : AdjMat) (size : SB → K) (A B : SB) : Prop :=
  Adjacent M A B ∧ M.ConnSet A ∧ M.ConnSet B ∧ ∀ A' B', A' ≠ 0#64 → B' ≠ 0#64 → A' &&& B' = 0#64 → A' ||| B' = A ||| B →
    M.ConnSet A' → M.ConnSet B' → size A + size B ≤ size A' + size B'

theorem TCut.symm {M : AdjMat} (hM : M.Symm) {size : SB → K} (A B : SB) (h : TCut M size A B) : TCut M size B A := by
  obtain ⟨h1, h2, h3, h4⟩ := h
  refine ⟨adjacent_symm' hM _ _ h1, h3, h2, fun A' B' a b c d e f => ?_⟩
  rw [add_comm (size B)]
  exact h4 A' B' a b c (by rw [d, or_comm']) e f

omit [LinearOrder C] in
theorem ensureAll_spec (hA : ∀ S, estAll S = est S) {T : PT C D} (hok : ∀ S d, (T S).model = some d → d = est S) (S : SB) :
    Filled est T (ensureAll estAll T S) ∧ ((ensureAll estAll T S) S).model = some (est S) := by
  unfold ensureAll
  cases hm : (T S).model with
  | some m => exact ⟨Filled.refl T, by simp only; rw [hm, hok S m hm]⟩
  | none =>
    refine ⟨⟨fun X => ?_, fun X => ?_⟩, by simp [setEntry, hA]⟩
    · by_cases h : X = S
      · subst h; simp [setEntry]
      · simp [setEntry, h]
    · by_cases h : X = S
      · subst h; right; simp [setEntry, hA]
      · left; simp [setEntry, h]

/-- The running minimum. -/
def TBest (est : SB → D) (card : D → K) (vis : List (SB × SB)) : Option (K × SB × SB) → Prop
  | none => vis = []
  | some best => best.2 ∈ vis ∧ best.1 = card (est best.2.1) + card (est best.2.2) ∧
      ∀ p ∈ vis, best.1 ≤ card (est p.1) + card (est p.2)

omit [LinearOrder C] in
theorem tdgooScan_spec (hA : ∀ S, estAll S = est S) {T0 : PT C D} (hok : ∀ S d, (T0 S).model = some d → d = est S)
    (l : List (SB × SB)) : ∀ (T : PT C D) (vis : List (SB × SB)) (best : Option (K × SB × SB)), Filled est T0 T →
    TBest est card vis best →
    ∃ T' best', l.foldlM (tdgooVisit card estAll) (T, best) = some (T', best') ∧ Filled est T0 T' ∧ TBest est card (vis ++ l) best' := by
  induction l with
  | nil => intro T vis best hF hb; exact ⟨T, best, rfl, hF, by simpa using hb⟩
  | cons p l ih =>
    intro T vis best hF hb
    have step : ∃ T1 b1, tdgooVisit card estAll (T, best) p = some (T1, b1) ∧ Filled est T0 T1 ∧ TBest est card (vis ++ [p]) b1 := by
      obtain ⟨f1, m1⟩ := ensureAll_spec hA (hF.ok hok) p.1
      obtain ⟨f2, m2⟩ := ensureAll_spec hA (f1.ok (hF.ok hok)) p.2
      have m1' := f2.model m1
      have hF' := hF.trans (f1.trans f2)
      unfold tdgooVisit
      simp only [m1', m2]
      cases best with
      | none =>
        simp only [TBest] at hb
        subst hb
        exact ⟨_, _, rfl, hF', by simp, rfl, by simp⟩
      | some best =>
        obtain ⟨h1, h2, h3⟩ := hb
        simp only
        split
        · rename_i hlt
          refine ⟨_, _, rfl, hF', by simp, rfl, fun q hq => ?_⟩
          rcases List.mem_append.1 hq with hq | hq
          · exact hlt.le.trans (h3 q hq)
          · rw [List.mem_singleton] at hq; subst hq; exact le_rfl
        · rename_i hlt
          refine ⟨_, _, rfl, hF', by simp [h1], h2, fun q hq => ?_⟩
          rcases List.mem_append.1 hq with hq | hq
          · exact h3 q hq
          · rw [List.mem_singleton] at hq; subst hq; exact not_lt.1 hlt
    obtain ⟨T1, b1, h1, h2, h3⟩ := step
    obtain ⟨T2, b2, h4, h5, h6⟩ := ih T1 _ b1 h2 h3
    refine ⟨T2, b2, ?_, h5, by simpa using h6⟩
    rw [List.foldlM_cons, h1]
    exact h4

/-- Worklist and saved joins. -/
structure TDInv (M : AdjMat) (n : Nat) (size : SB → K) (work : List SB) (joins : List (SB × SB)) : Prop where
  ne : ∀ X ∈ work, X ≠ 0#64
  sub : ∀ X ∈ work, Sub X (all n)
  conn : ∀ X ∈ work, M.ConnSet X
  dis : work.Pairwise (fun A B => A &&& B = 0#64)
  ok : ∀ p ∈ joins, PairOK n (TCut M size) p
  big : ∀ p ∈ joins, ∀ X ∈ work, ¬ Sub (p.1 ||| p.2) X
  ord : joins.Pairwise Before
  av : ∀ l₁ p l₂, joins = l₁ ++ p :: l₂ → (Avail l₁ p.1 ∨ p.1 ∈ work) ∧ (Avail l₁ p.2 ∨ p.2 ∈ work)
  root : Avail joins (all n) ∨ all n ∈ work

/-- Number of iterations needed. -/
def workSize (work : List SB) : Nat := (work.map fun X => 2 * size X - 1).sum

theorem Avail.mono {l l' : List (SB × SB)} (h : ∀ p ∈ l, p ∈ l') {X : SB} (hX : Avail l X) : Avail l' X := by
  rcases hX with hX | ⟨q, a, b⟩
  · exact Or.inl hX
  · exact Or.inr ⟨q, h q a, b⟩

theorem TDInv.pop {M : AdjMat} {n : Nat} {sz : SB → K} {top : SB} {work : List SB} {joins : List (SB × SB)}
    (h : TDInv M n sz (top :: work) joins) (hs : size top = 1) : TDInv M n sz work joins := by
  have hd := h.dis
  rw [List.pairwise_cons] at hd
  have aux : ∀ {l : List (SB × SB)} {X : SB}, (Avail l X ∨ X ∈ top :: work) → (Avail l X ∨ X ∈ work) := by
    rintro l X (h | h)
    · exact Or.inl h
    · rcases List.mem_cons.1 h with rfl | h
      · exact Or.inl (Or.inl hs)
      · exact Or.inr h
  exact ⟨fun X hX => h.ne X (by simp [hX]), fun X hX => h.sub X (by simp [hX]), fun X hX => h.conn X (by simp [hX]), hd.2, h.ok,
    fun p hp X hX => h.big p hp X (by simp [hX]), h.ord, fun l₁ p l₂ he => ⟨aux (h.av l₁ p l₂ he).1, aux (h.av l₁ p l₂ he).2⟩, aux h.root⟩

theorem TDInv.cut {M : AdjMat} {n : Nat} {sz : SB → K} {A B : SB} {work : List SB} {joins : List (SB × SB)}
    (h : TDInv M n sz ((A ||| B) :: work) joins) (hA : A ≠ 0#64) (hB : B ≠ 0#64) (hd : A &&& B = 0#64)
    (hT : TCut M sz A B) : TDInv M n sz (B :: A :: work) ((A, B) :: joins) := by
  have hdis := h.dis
  rw [List.pairwise_cons] at hdis
  have hs := h.sub (A ||| B) (by simp)
  have subA : Sub A (all n) := fun i hi => hs i (sub_left _ _ i hi)
  have subB : Sub B (all n) := fun i hi => hs i (sub_right _ _ i hi)
  have dA : ∀ X ∈ work, A &&& X = 0#64 := fun X hX => (disj_iff _ _).2 fun i hi hi' =>
    HS.disj_mem (hdis.1 X hX) (sub_left _ _ i hi) hi'
  have dB : ∀ X ∈ work, B &&& X = 0#64 := fun X hX => (disj_iff _ _).2 fun i hi hi' =>
    HS.disj_mem (hdis.1 X hX) (sub_right _ _ i hi) hi'
  have nsubA : ¬ Sub (A ||| B) A := fun hc => by
    obtain ⟨i, hi⟩ := (ne_zero_iff _).1 hB
    exact HS.disj_mem hd (hc i (sub_right _ _ i hi)) hi
  have nsubB : ¬ Sub (A ||| B) B := fun hc => by
    obtain ⟨i, hi⟩ := (ne_zero_iff _).1 hA
    exact HS.disj_mem hd hi (hc i (sub_left _ _ i hi))
  have all3 : ∀ {P : SB → Prop}, P A → P B → (∀ X ∈ work, P X) → ∀ X ∈ B :: A :: work, P X := by
    intro P a b c X hX
    rcases List.mem_cons.1 hX with rfl | hX
    · exact b
    · rcases List.mem_cons.1 hX with rfl | hX
      · exact a
      · exact c X hX
  have aux : ∀ {l : List (SB × SB)} {X : SB}, (Avail l X ∨ X ∈ (A ||| B) :: work) → (Avail ((A, B) :: l) X ∨ X ∈ B :: A :: work) := by
    rintro l X (h | h)
    · exact Or.inl (h.mono (by simp +contextual))
    · rcases List.mem_cons.1 h with rfl | h
      · exact Or.inl (Or.inr ⟨(A, B), by simp, rfl⟩)
      · exact Or.inr (by simp [h])
  refine ⟨all3 hA hB fun X hX => h.ne X (by simp [hX]), all3 subA subB fun X hX => h.sub X (by simp [hX]),
    all3 hT.2.1 hT.2.2.1 fun X hX => h.conn X (by simp [hX]), ?_, ?_, ?_, ?_, ?_, aux h.root⟩
  · rw [List.pairwise_cons, List.pairwise_cons]
    refine ⟨fun X hX => ?_, dA, hdis.2⟩
    rcases List.mem_cons.1 hX with rfl | hX
    · exact HS.disj_comm hd
    · exact dB X hX
  · intro p hp
    rcases List.mem_cons.1 hp with rfl | hp
    · exact ⟨hA, hB, hd, subA, subB, hT⟩
    · exact h.ok p hp
  · intro p hp
    rcases List.mem_cons.1 hp with rfl | hp
    · refine all3 nsubA nsubB fun X hX hc => ?_
      obtain ⟨i, hi⟩ := (ne_zero_iff _).1 hA
      exact HS.disj_mem (dA X hX) hi (hc i (sub_left _ _ i hi))
    · have hb := h.big p hp (A ||| B) (by simp)
      refine all3 (fun hc => hb fun i hi => sub_left _ _ i (hc i hi)) (fun hc => hb fun i hi => sub_right _ _ i (hc i hi))
        fun X hX => h.big p hp X (by simp [hX])
  · rw [List.pairwise_cons]
    refine ⟨fun q hq => ?_, h.ord⟩
    have hb := h.big q hq (A ||| B) (by simp)
    constructor
    · intro hc; exact hb (by rw [hc]; exact sub_left _ _)
    · intro hc; exact hb (by rw [hc]; exact sub_right _ _)
  · intro l₁ p l₂ he
    cases l₁ with
    | nil =>
      rw [List.nil_append, List.cons.injEq] at he
      obtain ⟨rfl, rfl⟩ := he
      exact ⟨Or.inr (by simp), Or.inr (by simp)⟩
    | cons q l₁ =>
      rw [List.cons_append, List.cons.injEq] at he
      obtain ⟨rfl, he⟩ := he
      exact ⟨aux (h.av l₁ p l₂ he).1, aux (h.av l₁ p l₂ he).2⟩

theorem tdgooLoop_spec (hM : E.M.Symm) (hA : ∀ S, estAll S = est S) {T0 : PT C D}
    (hok : ∀ S d, (T0 S).model = some d → d = est S) (fuel : Nat) : ∀ (work : List SB) (joins : List (SB × SB)) (T : PT C D),
    TDInv E.M E.n (fun S => card (est S)) work joins → Filled est T0 T → workSize work ≤ fuel →
    ∃ joins' T', tdgooLoop E card estAll fuel work joins T = some (joins', T') ∧
      TDInv E.M E.n (fun S => card (est S)) [] joins' ∧ Filled est T0 T' := by
  induction fuel with
  | zero =>
    intro work joins T h hF hf
    cases work with
    | nil => exact ⟨joins, T, rfl, h, hF⟩
    | cons top work =>
      exfalso
      have := size_pos (h.ne top (by simp))
      simp only [workSize, List.map_cons, List.sum_cons] at hf
      omega
  | succ fuel ih =>
    intro work joins T h hF hf
    cases work with
    | nil => exact ⟨joins, T, rfl, h, hF⟩
    | cons top work =>
      simp only [workSize, List.map_cons, List.sum_cons] at hf
      have hpos := size_pos (h.ne top (by simp))
      rw [tdgooLoop]
      by_cases hs : isSingleton top = true
      · rw [if_pos hs]
        have h1 : size top = 1 := by simpa [isSingleton] using hs
        exact ih work joins T (h.pop h1) hF (by simp only [workSize]; omega)
      · rw [if_neg hs]
        have h1 : size top ≠ 1 := by simpa [isSingleton] using hs
        have h2 : 2 ≤ size top := by omega
        obtain ⟨L, h3, h4, h5⟩ := AdjMat.agatPartition_spec hM (h.conn top (by simp)) h2
        obtain ⟨T1, best, e1, e2, e3⟩ := tdgooScan_spec (card := card) hA (hF.ok hok) L T [] none (Filled.refl T) rfl
        rw [List.nil_append] at e3
        -- every cut is on the list, one way or the other
        have hsplit : ∀ A' B', A' ≠ 0#64 → B' ≠ 0#64 → A' &&& B' = 0#64 → A' ||| B' = top → E.M.ConnSet A' → E.M.ConnSet B' →
            (A', B') ∈ L ∨ (B', A') ∈ L := by
          intro A' B' a b c d e f
          obtain ⟨z, hz⟩ := exists_least (h.ne top (by simp))
          have half : ∀ A' B' : SB, B' ≠ 0#64 → A' &&& B' = 0#64 → A' ||| B' = top → E.M.ConnSet A' → E.M.ConnSet B' → Mem A' z → (A', B') ∈ L := by
            intro A' B' b c d e f hzA
            refine (h5 A' B').2 ⟨d ▸ sub_left _ _, ?_, ⟨z, hz, hzA⟩, ?_, e, f⟩
            · rintro rfl; exact union_ne_left c b d
            · apply SB.ext; intro i; rw [mem_diff, ← d, mem_or]
              constructor
              · intro hi; exact ⟨Or.inr hi, fun hc => HS.disj_mem c hc hi⟩
              · rintro ⟨hi | hi, hc⟩
                · exact absurd hi hc
                · exact hi
          have hzt := hz.1
          rw [← d, mem_or] at hzt
          rcases hzt with hzA | hzB
          · exact Or.inl (half A' B' b c d e f hzA)
          · exact Or.inr (half B' A' a (HS.disj_comm c) (by rw [or_comm']; exact d) f e hzB)
        cases best with
        | none =>
          simp only [TBest] at e3
          exfalso
          obtain ⟨t, ht⟩ := conn_plan (n := 64) (by omega) (h.conn top (by simp)) (h.ne top (by simp)) (fun i hi => (mem_all (by omega) i).2 (mem_lt hi))
          rcases ht.split_ok with ⟨i, hi, _, he⟩ | ⟨l, r, A, B, _, he, pl, pr, hd, _⟩
          · rw [he, size_singleton hi] at h2; omega
          · rcases hsplit A B (isPlan_ne (by omega) pl) (isPlan_ne (by omega) pr) hd he.symm (plan_conn hM pl) (plan_conn hM pr) with hh | hh
            · rw [e3] at hh; cases hh
            · rw [e3] at hh; cases hh
        | some best =>
          obtain ⟨c, A, B⟩ := best
          obtain ⟨m1, m2, m3⟩ := e3
          simp only at m1 m2 m3
          obtain ⟨q1, q2, q3, q4, q5, q6, q7, q8⟩ := HS.agat_cases (M := E.M) hM (S := top) (p := (A, B)) (by rw [h3]; exact m1)
          simp only at q3 q4 q5 q6 q7 q8
          have hcut : TCut E.M (fun S => card (est S)) A B := by
            refine ⟨adjacent_of_parts (by rw [q6]; exact q1) q3 q4 q5, q7, q8, fun A' B' a b c d e f => ?_⟩
            simp only
            rw [← m2]
            rcases hsplit A' B' a b c (d.trans q6) e f with hh | hh
            · exact m3 _ hh
            · rw [add_comm]; exact m3 _ hh
          subst q6
          have hAe : isEmpty A = false := by rw [isEmpty]; simpa using q3
          have hBe : isEmpty B = false := by rw [isEmpty]; simpa using q4
          obtain ⟨joins', T', r1, r2, r3⟩ := ih (B :: A :: work) ((A, B) :: joins) T1 (h.cut q3 q4 q5 hcut) (hF.trans e2) (by
            have := HS.size_union_disj q5
            have := size_pos q3
            have := size_pos q4
            simp only [workSize, List.map_cons, List.sum_cons]
            omega)
          refine ⟨joins', T', ?_, r2, r3⟩
          simp only [h3, e1, hAe, hBe, Bool.or_self, Bool.false_eq_true, if_false]
          exact r1

theorem cut_plan {M : AdjMat} {n : Nat} {sz : SB → K} {t : Tree} {S : SB} (h : IsPlan n (TCut M sz) t S) (hn : n ≤ 64) :
    IsPlan n (Adjacent M) t S ∧ GreedyCut M sz t S := by
  induction h with
  | leaf i hi => exact ⟨.leaf i hi, .leaf i⟩
  | node hl hr hd hm ihl ihr =>
    refine ⟨.node ihl.1 ihr.1 hd hm.1, .node ihl.2 ihr.2 (isPlan_ne hn hl) (isPlan_ne hn hr) hd ((AdjMat.connected_iff _ _).2 hm.2.1)
      ((AdjMat.connected_iff _ _).2 hm.2.2.1) fun A' B' a b c d e f => ?_⟩
    exact hm.2.2.2 A' B' a b c d ((AdjMat.connected_iff _ _).1 e) ((AdjMat.connected_iff _ _).1 f)

theorem tdgoo_spec (hE : Sane E est) (hM : E.M.Symm) (hn : E.n ≤ 64) (h1 : 1 ≤ E.n) (hc : E.M.ConnSet (all E.n))
    (hA : ∀ S, estAll S = est S) {T : PT C D} (hT : Init est base E.n T) :
    ∃ js T', tdgoo E card estAll T = some (js, T') ∧ RunInv E est base (TCut E.M (fun S => card (est S))) js T' ∧ Avail js (all E.n) := by
  have hne : all E.n ≠ 0#64 := (ne_zero_iff _).2 ⟨0, (mem_all hn 0).2 (by omega)⟩
  obtain ⟨js, T1, r1, r2, r3⟩ := tdgooLoop_spec (card := card) hM hA hT.model 128 [all E.n] [] T
    ⟨by simpa using hne, by simpa using Sub.refl _, by simpa using hc, by simp, by simp, by simp, by simp, by simp, by simp⟩
    (Filled.refl T) (by simp [workSize, size_all hn]; omega)
  have hR : RunInv E est base (TCut E.M (fun S => card (est S))) [] T1 := (RunInv.init hn hT).models r3.same r3.mod
  obtain ⟨T2, r4, r5⟩ := hR.run hE hn js ⟨r2.ok, by simpa using r2.ord, fun l₁ p l₂ he => by
    have := r2.av l₁ p l₂ he
    simpa using this⟩
  refine ⟨js, T2, ?_, by simpa using r5, by simpa using r2.root⟩
  rw [tdgoo, r1]
  simp only [r4, Option.map_some]

end PE
end Mutable
