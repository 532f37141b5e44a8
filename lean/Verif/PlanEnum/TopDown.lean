import Verif.PlanEnum.Enumerators
import Verif.Graph.AGaT
/-! Top-down enumeration with memoization (`TDbasic`, `TDMinCutAGaT`). -/
namespace Mutable
open SB
namespace PE
variable {C D : Type} [LinearOrder C] {E : Env C D} {est : SB → D} {base : Nat → C} {n : Nat}

/-- The recorded split of `S` is a joinable pair of sets with plans and the recorded cost is the cost of joining them. -/
def SplitAt (E : Env C D) (est : SB → D) (n : Nat) (may : SB → SB → Prop) (T : PT C D) (S : SB) : Prop :=
  ∃ A B, PairOK n may (A, B) ∧ (T S).left = A ∧ (T S).right = B ∧ A ||| B = S ∧ hasPlan T A = true ∧ hasPlan T B = true ∧
    (T S).cost = E.J est A B (T A).cost (T B).cost

/-- If `S` has a plan on record, it is properly recorded and at least as good as every plan. -/
def Good (E : Env C D) (est : SB → D) (base : Nat → C) (n : Nat) (may : SB → SB → Prop) (T : PT C D) (S : SB) : Prop :=
  hasPlan T S = true → (size S ≠ 1 → SplitAt E est n may T S) ∧ ∀ t, IsPlan n may t S → (T S).cost ≤ t.cost E est base

/-- Entries with a plan are kept. -/
def Ext (T T' : PT C D) : Prop := ∀ X, hasPlan T X = true → T' X = T X

theorem Ext.refl (T : PT C D) : Ext T T := fun _ _ => rfl

theorem Ext.trans {T T' T'' : PT C D} (h : Ext T T') (h' : Ext T' T'') : Ext T T'' := by
  intro X hX
  rw [h' X (by rw [hasPlan_other (h X hX)]; exact hX), h X hX]

theorem SplitAt.ext {may : SB → SB → Prop} {T T' : PT C D} {S : SB} (hx : Ext T T') (hs : T' S = T S)
    (h : SplitAt E est n may T S) : SplitAt E est n may T' S := by
  obtain ⟨A, B, h1, h2, h3, h4, h5, h6, h7⟩ := h
  refine ⟨A, B, h1, by rw [hs, h2], by rw [hs, h3], h4, ?_, ?_, ?_⟩
  · rw [hasPlan_other (hx A h5)]; exact h5
  · rw [hasPlan_other (hx B h6)]; exact h6
  · rw [hs, h7, hx A h5, hx B h6]

theorem Good.ext {may : SB → SB → Prop} {T T' : PT C D} {S : SB} (hx : Ext T T') (hs : T' S = T S)
    (h : Good E est base n may T S) : Good E est base n may T' S := by
  intro hp
  rw [hasPlan_other hs] at hp
  obtain ⟨h1, h2⟩ := h hp
  exact ⟨fun h3 => (h1 h3).ext hx hs, by rw [hs]; exact h2⟩

/-- What a partitioning has to provide for each connected set of at least two relations. -/
structure PartsOK (M : AdjMat) (n : Nat) (parts : SB → Option (List (SB × SB))) : Prop where
  ok : ∀ S, M.ConnSet S → 2 ≤ size S → Sub S (all n) → ∃ l, parts S = some l ∧
    (∀ p ∈ l, p.1 ≠ 0#64 ∧ p.2 ≠ 0#64 ∧ p.1 &&& p.2 = 0#64 ∧ p.1 ||| p.2 = S ∧ M.ConnSet p.1 ∧ M.ConnSet p.2) ∧
    ∀ A B, A ≠ 0#64 → B ≠ 0#64 → A &&& B = 0#64 → A ||| B = S → M.ConnSet A → M.ConnSet B → (A, B) ∈ l ∨ (B, A) ∈ l

theorem adjacent_of_parts {M : AdjMat} {A B : SB} (hS : M.ConnSet (A ||| B)) (hA : A ≠ 0#64) (hB : B ≠ 0#64)
    (hd : A &&& B = 0#64) : Adjacent M A B := by
  obtain ⟨x, y, h1, h2, h3, h4⟩ := hS.cut (sub_left A B) hA (union_ne_left hd hB).symm
  rw [mem_or] at h2
  exact ⟨x, y, h1, h2.resolve_left h3, h4⟩

theorem tdGen_spec (hE : Sane E est) (hM : E.M.Symm) (hn : E.n ≤ 64) {parts : SB → Option (List (SB × SB))}
    (hparts : PartsOK E.M E.n parts) :
    ∀ (fuel : Nat) (S : SB) (T : PT C D), size S < fuel → S ≠ 0#64 → Sub S (all E.n) → E.M.ConnSet S →
      ModelOK est E.n T → (∀ i, i < E.n → (T (SB.singleton i)).cost = base i) →
      (∀ U, Sub U S → Good E est base E.n (Adjacent E.M) T U) →
      ∃ T', tdGen E parts fuel S T = some T' ∧ ModelOK est E.n T' ∧ Ext T T' ∧ (∀ X, ¬ Sub X S → T' X = T X) ∧
        hasPlan T' S = true ∧ ∀ U, Sub U S → Good E est base E.n (Adjacent E.M) T' U := by
  intro fuel
  induction fuel with
  | zero => intro S T h; omega
  | succ fuel ih =>
    intro S T hf h0 hsub hconn hmod hbase hgood
    rw [tdGen]
    by_cases hp : hasPlan T S = true
    · rw [if_pos hp]
      exact ⟨T, rfl, hmod, Ext.refl T, fun _ _ => rfl, hp, hgood⟩
    rw [if_neg hp]
    have hs1 : size S ≠ 1 := by intro h; apply hp; simp [hasPlan, h]
    have h2 : 2 ≤ size S := two_le_of h0 hs1
    obtain ⟨l, hl, hlok, hlall⟩ := hparts.ok S hconn h2 hsub
    rw [hl]
    simp only
    -- the loop over the partitions
    have loop : ∀ (todo done : List (SB × SB)) (T1 : PT C D), (∀ p ∈ done ++ todo, p ∈ l) → ModelOK est E.n T1 → Ext T T1 →
        (∀ X, ¬ Sub X S → T1 X = T X) → (∀ U, Sub U S → U ≠ S → Good E est base E.n (Adjacent E.M) T1 U) →
        (hasPlan T1 S = true → SplitAt E est E.n (Adjacent E.M) T1 S) →
        (∀ p ∈ done, hasPlan T1 S = true ∧ hasPlan T1 p.1 = true ∧ hasPlan T1 p.2 = true ∧
          (T1 S).cost ≤ E.J est p.1 p.2 (T1 p.1).cost (T1 p.2).cost ∧
          (T1 S).cost ≤ E.J est p.2 p.1 (T1 p.2).cost (T1 p.1).cost) →
        ∃ T', todo.foldlM (fun T p => (tdGen E parts fuel p.1 T).bind fun T =>
            (tdGen E parts fuel p.2 T).bind fun T => update E T p.1 p.2) T1 = some T' ∧
          ModelOK est E.n T' ∧ Ext T T' ∧ (∀ X, ¬ Sub X S → T' X = T X) ∧
          (∀ U, Sub U S → U ≠ S → Good E est base E.n (Adjacent E.M) T' U) ∧
          (hasPlan T' S = true → SplitAt E est E.n (Adjacent E.M) T' S) ∧
          (∀ p ∈ done ++ todo, hasPlan T' S = true ∧ hasPlan T' p.1 = true ∧ hasPlan T' p.2 = true ∧
            (T' S).cost ≤ E.J est p.1 p.2 (T' p.1).cost (T' p.2).cost ∧
            (T' S).cost ≤ E.J est p.2 p.1 (T' p.2).cost (T' p.1).cost) := by
      intro todo
      induction todo with
      | nil => intro done T1 _ a b c d e f; exact ⟨T1, rfl, a, b, c, d, e, by simpa using f⟩
      | cons p todo ih2 =>
        obtain ⟨A, B⟩ := p
        intro done T1 htodo hmod1 hext1 hout1 hgood1 hsplit1 hdone1
        obtain ⟨hA, hB, hd, hu, hcA, hcB⟩ := hlok _ (htodo (A, B) (by simp))
        simp only at hA hB hd hu hcA hcB
        have hAS : Sub A S := by rw [← hu]; exact sub_left A B
        have hBS : Sub B S := by rw [← hu]; exact sub_right A B
        have hAne : A ≠ S := by rw [← hu]; exact (union_ne_left hd hB).symm
        have hBne : B ≠ S := by rw [← hu]; exact (union_ne_right hd hA).symm
        have hsA := size_lt_of_ssub hAS hAne
        have hsB := size_lt_of_ssub hBS hBne
        have hSA : ¬ Sub S A := fun h => hAne (ext fun i => ⟨hAS i, h i⟩)
        have hSB : ¬ Sub S B := fun h => hBne (ext fun i => ⟨hBS i, h i⟩)
        have hbase1 : ∀ T', Ext T T' → ∀ i, i < E.n → (T' (SB.singleton i)).cost = base i := by
          intro T' hx i hi
          rw [hx _ (by simp [hasPlan, size_singleton (show i < 64 by omega)]), hbase i hi]
        -- first recursive call
        obtain ⟨T2, e2, mod2, ext2, out2, pl2, good2⟩ := ih A T1 (by omega) hA (hAS.trans hsub) hcA hmod1
          (hbase1 T1 hext1) (fun U hU => hgood1 U (hU.trans hAS) (fun h => hSA (h ▸ hU)))
        have good2' : ∀ U, Sub U S → U ≠ S → Good E est base E.n (Adjacent E.M) T2 U := by
          intro U hU hne
          by_cases h : Sub U A
          · exact good2 U h
          · exact (hgood1 U hU hne).ext ext2 (out2 U h)
        have hext2 := hext1.trans ext2
        -- second recursive call
        obtain ⟨T3, e3, mod3, ext3, out3, pl3, good3⟩ := ih B T2 (by omega) hB (hBS.trans hsub) hcB mod2
          (hbase1 T2 hext2) (fun U hU => good2' U (hU.trans hBS) (fun h => hSB (h ▸ hU)))
        have good3' : ∀ U, Sub U S → U ≠ S → Good E est base E.n (Adjacent E.M) T3 U := by
          intro U hU hne
          by_cases h : Sub U B
          · exact good3 U h
          · exact (good2' U hU hne).ext ext3 (out3 U h)
        have hext3 := hext2.trans ext3
        have hS3 : T3 S = T1 S := by rw [out3 S hSB, out2 S hSA]
        have plA3 : hasPlan T3 A = true := by rw [hasPlan_other (ext3 A pl2)]; exact pl2
        -- the update
        obtain ⟨T4, e4, hU4, mod4⟩ := update_ok hE mod3 hA hB hd (mod3.some A (hAS.trans hsub) plA3)
          (mod3.some B (hBS.trans hsub) pl3)
        have oth : ∀ X, X ≠ S → T4 X = T3 X := fun X hX => hU4.other X (by rw [hu]; exact hX)
        have hpok : PairOK E.n (Adjacent E.M) (A, B) := ⟨hA, hB, hd, hAS.trans hsub, hBS.trans hsub,
          adjacent_of_parts (by rw [hu]; exact hconn) hA hB hd⟩
        have hpS4 : hasPlan T4 S = true := by rw [← hu]; exact hU4.hasp
        have hpres : ∀ X, X ≠ S → hasPlan T1 X = true → T4 X = T1 X ∧ hasPlan T4 X = true := by
          intro X hX hX1
          have h3 := (ext2.trans ext3) X hX1
          have : T4 X = T1 X := by rw [oth X hX, h3]
          exact ⟨this, by rw [hasPlan_other this]; exact hX1⟩
        have split4 : SplitAt E est E.n (Adjacent E.M) T4 S := by
          have hA4 := oth A hAne
          have hB4 := oth B hBne
          rcases hU4.cases with ⟨c1, c2, c3⟩ | ⟨c1, c2, c3⟩ | ⟨c0, c1, c2, c3⟩
          · rw [hu] at c1 c2 c3
            exact ⟨A, B, hpok, c1, c2, hu, hU4.mono plA3, hU4.mono pl3, by rw [c3, hA4, hB4]⟩
          · rw [hu] at c1 c2 c3
            exact ⟨B, A, ⟨hB, hA, by rw [and_comm']; exact hd, hBS.trans hsub, hAS.trans hsub, adjacent_symm hM hpok.may⟩,
              c1, c2, by rw [or_comm', hu], hU4.mono pl3, hU4.mono plA3, by rw [c3, hA4, hB4]⟩
          · rw [hu] at c0 c1 c2 c3
            have c0' : hasPlan T1 S = true := by rw [← hasPlan_other hS3]; exact c0
            obtain ⟨A', B', g1, g2, g3, g4, g5, g6, g7⟩ := hsplit1 c0'
            have hA'ne : A' ≠ S := by rw [← g4]; exact (union_ne_left g1.dis g1.ne2).symm
            have hB'ne : B' ≠ S := by rw [← g4]; exact (union_ne_right g1.dis g1.ne1).symm
            obtain ⟨p1, p2⟩ := hpres A' hA'ne g5
            obtain ⟨q1, q2⟩ := hpres B' hB'ne g6
            exact ⟨A', B', g1, by rw [c1, hS3, g2], by rw [c2, hS3, g3], g4, p2, q2, by rw [c3, hS3, g7, p1, q1]⟩
        have hpS : hasPlan T S = false := by simpa using hp
        have ext4 : Ext T T4 := by
          intro X hX
          have hXS : X ≠ S := by rintro rfl; rw [hpS] at hX; exact absurd hX (by simp)
          rw [oth X hXS, hext3 X hX]
        obtain ⟨T', f1, f2, f3, f4, f5, f6, f7⟩ := ih2 (done ++ [(A, B)]) T4 (by simpa using htodo) mod4 ext4
          (by
            intro X hX
            have hXS : X ≠ S := by rintro rfl; exact hX (Sub.refl _)
            rw [oth X hXS, out3 X (fun h => hX (h.trans hBS)), out2 X (fun h => hX (h.trans hAS)), hout1 X hX])
          (by
            intro U hU hne hpU
            rw [hasPlan_other (oth U hne)] at hpU
            obtain ⟨g1, g2⟩ := good3' U hU hne hpU
            refine ⟨fun h => ?_, by rw [oth U hne]; exact g2⟩
            obtain ⟨A', B', k1, k2, k3, k4, k5, k6, k7⟩ := g1 h
            have hA' : A' ≠ S := by
              rintro rfl
              exact hne (ext fun i => ⟨hU i, fun hi => by rw [← k4]; exact sub_left _ _ i hi⟩)
            have hB' : B' ≠ S := by
              rintro rfl
              exact hne (ext fun i => ⟨hU i, fun hi => by rw [← k4]; exact sub_right _ _ i hi⟩)
            exact ⟨A', B', k1, by rw [oth U hne, k2], by rw [oth U hne, k3], k4, hU4.mono k5, hU4.mono k6,
              by rw [oth U hne, k7, oth A' hA', oth B' hB']⟩)
          (fun _ => split4)
          (by
            intro q hq
            rcases List.mem_append.1 hq with hq | hq
            · obtain ⟨d1, d2, d3, d4, d5⟩ := hdone1 q hq
              have hqne : q.1 ≠ S ∧ q.2 ≠ S := by
                obtain ⟨k1, k2, k3, k4, _⟩ := hlok q (htodo q (by simp [hq]))
                exact ⟨by rw [← k4]; exact (union_ne_left k3 k2).symm, by rw [← k4]; exact (union_ne_right k3 k1).symm⟩
              obtain ⟨p1, p2⟩ := hpres _ hqne.1 d2
              obtain ⟨q1, q2⟩ := hpres _ hqne.2 d3
              have hold : (T4 S).cost ≤ (T1 S).cost := by
                rw [← hS3]
                have := hU4.old (by rw [hu, hasPlan_other hS3]; exact d1)
                rwa [hu] at this
              exact ⟨hpS4, p2, q2, by rw [p1, q1]; exact hold.trans d4, by rw [p1, q1]; exact hold.trans d5⟩
            · rw [List.mem_singleton] at hq; subst hq
              have := hU4.le1; have h' := hU4.le2
              rw [hu] at this h'
              simp only [oth A hAne, oth B hBne]
              exact ⟨hpS4, hU4.mono plA3, hU4.mono pl3, this, h'⟩)
        refine ⟨T', ?_, f2, f3, f4, f5, f6, by simpa using f7⟩
        rw [List.foldlM_cons]
        simp only
        rw [e2]
        simp only [Option.bind_some]
        rw [e3]
        simp only [Option.bind_some]
        rw [e4]
        exact f1
    obtain ⟨T', f1, f2, f3, f4, f5, f6, f7⟩ := loop l [] T (by simp) hmod (Ext.refl T) (fun _ _ => rfl)
      (fun U hU _ => hgood U hU) (fun h => absurd h hp) (by simp)
    rw [List.nil_append] at f7
    -- a plan exists, hence some split was tried
    have hplanS : hasPlan T' S = true := by
      obtain ⟨t, ht⟩ := conn_plan hn hconn h0 hsub
      rcases ht.split_ok with ⟨i, hi, _, rfl⟩ | ⟨l', r', A, B, rfl, rfl, hl', hr', hd, hm⟩
      · exact absurd (size_singleton (show i < 64 by omega)) hs1
      · rcases hlall A B (isPlan_ne hn hl') (isPlan_ne hn hr') hd rfl (plan_conn hM hl') (plan_conn hM hr') with h | h
        · exact (f7 _ h).1
        · exact (f7 _ h).1
    refine ⟨T', f1, f2, f3, f4, hplanS, ?_⟩
    intro U hU
    by_cases hne : U = S
    swap
    · exact f5 U hU hne
    subst hne
    intro hpU
    refine ⟨fun _ => f6 hpU, ?_⟩
    intro t ht
    rcases ht.split_ok with ⟨i, hi, _, rfl⟩ | ⟨l', r', A, B, rfl, rfl, hl', hr', hd, hm⟩
    · exact absurd (size_singleton (show i < 64 by omega)) hs1
    · have hA := isPlan_ne hn hl'
      have hB := isPlan_ne hn hr'
      have hAne := (union_ne_left hd hB).symm
      have hBne := (union_ne_right hd hA).symm
      have hcost : hasPlan T' A = true → hasPlan T' B = true →
          E.J est A B (T' A).cost (T' B).cost ≤ (Tree.node l' r').cost E est base := by
        intro pA pB
        rw [Tree.cost, isPlan_rels hl', isPlan_rels hr']
        exact hE.mono _ _ _ _ _ _ ((f5 A (sub_left _ _) hAne pA).2 l' hl') ((f5 B (sub_right _ _) hBne pB).2 r' hr')
      rcases hlall A B hA hB hd rfl (plan_conn hM hl') (plan_conn hM hr') with h | h
      · obtain ⟨_, d2, d3, d4, d5⟩ := f7 _ h
        exact d4.trans (hcost d2 d3)
      · obtain ⟨_, d2, d3, d4, d5⟩ := f7 _ h
        exact d5.trans (hcost d3 d2)

/-- Well recorded splits yield recorded trees. -/
theorem recorded_of_good {may : SB → SB → Prop} (hn : n ≤ 64) {T : PT C D}
    (hbase : ∀ i, i < n → (T (SB.singleton i)).cost = base i)
    (hg : ∀ U, Sub U (all n) → hasPlan T U = true → size U ≠ 1 → SplitAt E est n may T U) :
    ∀ k S, size S ≤ k → Sub S (all n) → hasPlan T S = true →
      ∃ t, Recorded T S t ∧ IsPlan n may t S ∧ t.cost E est base = (T S).cost := by
  intro k
  induction k with
  | zero =>
    intro S hk hsub hp
    have h0 : S = 0#64 := (size_eq_zero_iff S).1 (by omega)
    obtain ⟨A, B, h1, h2, h3, h4, _⟩ := hg S hsub hp (by omega)
    obtain ⟨i, hi⟩ := (ne_zero_iff A).1 h1.ne1
    have : Mem S i := by rw [← h4]; simp [hi]
    rw [h0] at this; exact absurd this (not_mem_zero i)
  | succ k ih =>
    intro S hk hS hp
    by_cases h1 : size S = 1
    · have : isSingleton S = true := by simp [isSingleton, h1]
      obtain ⟨i, hi, rfl⟩ := (isSingleton_iff S).1 this
      have hin : i < n := by
        have := hS i (by simp [hi]); rwa [mem_all hn] at this
      exact ⟨.leaf i, .leaf i hi, .leaf i hin, (hbase i hin).symm⟩
    · obtain ⟨A, B, h2, h3, h4, h5, h6, h7, h8⟩ := hg S hS hp h1
      have s1 := size_union_left h2.dis h2.ne2
      have s2 := size_union_right h2.dis h2.ne1
      simp only [h5] at s1 s2
      obtain ⟨l, l1, l2, l3⟩ := ih A (by omega) h2.sub1 h6
      obtain ⟨r, r1, r2, r3⟩ := ih B (by omega) h2.sub2 h7
      refine ⟨.node l r, .node h1 (h3 ▸ l1) (h4 ▸ r1) (by rw [h3, h4, h5]), ?_, ?_⟩
      · rw [← h5]; exact .node l2 r2 h2.dis h2.may
      · rw [Tree.cost, isPlan_rels l2, isPlan_rels r2, l3, r3, h8]; rfl

/-- What a top-down enumerator achieves on a connected query. -/
def SolvesTop (E : Env C D) (est : SB → D) (base : Nat → C) (may : SB → SB → Prop) (r : Option (PT C D)) : Prop :=
  ∃ T', r = some T' ∧ hasPlan T' (all E.n) = true ∧
    ∀ S, Sub S (all E.n) → hasPlan T' S = true → OptAt E est base E.n may T' S

theorem td_solves (hE : Sane E est) (hM : E.M.Symm) (hn : E.n ≤ 64) (h0 : 1 ≤ E.n) {parts : SB → Option (List (SB × SB))}
    (hparts : PartsOK E.M E.n parts) (hconn : E.M.ConnSet (all E.n)) {T : PT C D} (hT : Init est base E.n T) :
    SolvesTop E est base (Adjacent E.M) (tdGen E parts 65 (all E.n) T) := by
  have hI := DPInv.init (E := E) hn hT
  have hne : all E.n ≠ 0#64 := (ne_zero_iff _).2 ⟨0, by rw [mem_all hn]; omega⟩
  have hpl : ∀ S, hasPlan T S = true → size S = 1 := by
    intro S hp
    by_contra h
    rw [hasPlan, hT.noplan S h] at hp
    simp [h, isEmpty] at hp
  have hgood : ∀ U, Sub U (all E.n) → Good E est base E.n (Adjacent E.M) T U := by
    intro U hU hp
    have h1 := hpl U hp
    refine ⟨fun h => absurd h1 h, ?_⟩
    intro t ht
    rcases ht.split_ok with ⟨i, hi, rfl, rfl⟩ | ⟨l, r, A, B, rfl, rfl, hl, hr, hd, hm⟩
    · rw [hI.base i hi]; rfl
    · exact absurd h1 (size_union_ne_one hd (isPlan_ne hn hl) (isPlan_ne hn hr))
  obtain ⟨T', a, b, c, d, e, f⟩ := tdGen_spec hE hM hn hparts 65 (all E.n) T (by have := size_le (all E.n); omega) hne
    (Sub.refl _) hconn hI.models hI.base hgood
  refine ⟨T', a, e, fun S hS hp => ⟨?_, (f S hS hp).2⟩⟩
  refine recorded_of_good hn (fun i hi => ?_) (fun U hU hpU => (f U hU hpU).1) (size S) S le_rfl hS hp
  rw [c _ (by simp [hasPlan, size_singleton (show i < 64 by omega)]), hI.base i hi]

theorem lo_diff (S : SB) : Sub (diff S S) 0#64 := fun i hi => absurd ((mem_diff _ _ _).1 hi).1 ((mem_diff _ _ _).1 hi).2

theorem agat_partsOK (hM : E.M.Symm) : PartsOK E.M E.n E.M.agatPartition := by
  constructor
  intro S hS h2 hsub
  obtain ⟨L, h3, h4, h5⟩ := AdjMat.agatPartition_spec hM hS h2
  refine ⟨L, h3, ?_, ?_⟩
  · rintro ⟨A, B⟩ hp
    obtain ⟨a, b, ⟨z, c, d⟩, rfl, f, g⟩ := (h5 A B).1 hp
    have hA : A ≠ 0#64 := (ne_zero_iff A).2 ⟨z, d⟩
    exact ⟨hA, diff_ne_zero a b, inter_diff _ _, union_diff a, f, g⟩
  · intro A B hA hB hd hu hcA hcB
    have hne : S ≠ 0#64 := by intro h; rw [h, size_zero] at h2; omega
    obtain ⟨z, hz⟩ := exists_least hne
    have hd' : B &&& A = 0#64 := by rw [and_comm']; exact hd
    have hu' : B ||| A = S := by rw [or_comm']; exact hu
    have hzm := hz.1
    rw [← hu, mem_or] at hzm
    rcases hzm with h | h
    · left; rw [h5]
      refine ⟨hu ▸ sub_left A B, ?_, ⟨z, hz, h⟩, ?_, hcA, hcB⟩
      · rw [← hu]; exact (union_ne_left hd hB).symm
      · rw [← hu]; exact (diff_union hd).symm
    · right; rw [h5]
      refine ⟨hu ▸ sub_right A B, ?_, ⟨z, hz, h⟩, ?_, hcB, hcA⟩
      · rw [← hu']; exact (union_ne_left hd' hA).symm
      · rw [← hu']; exact (diff_union hd').symm

theorem basic_partsOK (hM : E.M.Symm) : PartsOK E.M E.n (basicParts E) := by
  constructor
  intro S hS h2 hsub
  have hne : S ≠ 0#64 := by intro h; rw [h, size_zero] at h2; omega
  refine ⟨_, rfl, ?_, ?_⟩
  · rintro p hp
    simp only [List.mem_map, List.mem_filter, Bool.and_eq_true, decide_eq_true_eq] at hp
    obtain ⟨A, ⟨a, ⟨b, c⟩, d⟩, rfl⟩ := hp
    rw [mem_until_self hne] at a
    rw [AdjMat.isConnected_iff hM] at c d
    exact ⟨a.2.1, diff_ne_zero a.1 a.2.2, inter_diff _ _, union_diff a.1, c, d⟩
  · intro A B hA hB hd hu hcA hcB
    have hd' : B &&& A = 0#64 := by rw [and_comm']; exact hd
    have hu' : B ||| A = S := by rw [or_comm']; exact hu
    have hAS : Sub A S := hu ▸ sub_left A B
    have hBS : Sub B S := hu ▸ sub_right A B
    have hAne : A ≠ S := by rw [← hu]; exact (union_ne_left hd hB).symm
    have hBne : B ≠ S := by rw [← hu]; exact (union_ne_right hd hA).symm
    have dA : diff S A = B := by rw [← hu]; exact diff_union hd
    have dB : diff S B = A := by rw [← hu']; exact diff_union hd'
    obtain ⟨x, hx⟩ := exists_least hA
    obtain ⟨y, hy⟩ := exists_least hB
    have hlA : leastSubset A = SB.singleton x := lo_eq_singleton hx
    have hlB : leastSubset B = SB.singleton y := lo_eq_singleton hy
    have hxy : x ≠ y := fun h => (disj_iff A B).1 hd x hx.1 (h ▸ hy.1)
    have hord : ∀ {a b : Nat}, a < 64 → b < 64 → a < b → SB.singleton a < SB.singleton b := by
      intro a b ha hb h
      rw [lt_iff]
      refine ⟨b, ?_, by simp [hb], ?_⟩
      · rw [mem_singleton]; omega
      · intro j hj; rw [mem_singleton, mem_singleton]; omega
    have cA := (AdjMat.isConnected_iff hM A).2 hcA
    have cB := (AdjMat.isConnected_iff hM B).2 hcB
    simp only [List.mem_map, List.mem_filter, Bool.and_eq_true, decide_eq_true_eq, Prod.mk.injEq]
    rcases Nat.lt_or_gt_of_ne hxy with h | h
    · left
      exact ⟨A, ⟨(mem_until_self hne A).2 ⟨hAS, hA, hAne⟩, ⟨by rw [dA, hlA, hlB]; exact hord (mem_lt hx.1) (mem_lt hy.1) h, cA⟩,
        by rw [dA]; exact cB⟩, rfl, dA⟩
    · right
      exact ⟨B, ⟨(mem_until_self hne B).2 ⟨hBS, hB, hBne⟩, ⟨by rw [dB, hlA, hlB]; exact hord (mem_lt hy.1) (mem_lt hx.1) h, cB⟩,
        by rw [dB]; exact cA⟩, rfl, dB⟩

theorem solves_tdBasic (hE : Sane E est) (hM : E.M.Symm) (hn : E.n ≤ 64) (h0 : 1 ≤ E.n) (hconn : E.M.ConnSet (all E.n))
    {T : PT C D} (hT : Init est base E.n T) : SolvesTop E est base (Adjacent E.M) (tdBasic E T) :=
  td_solves hE hM hn h0 (basic_partsOK hM) hconn hT

theorem solves_tdMinCut (hE : Sane E est) (hM : E.M.Symm) (hn : E.n ≤ 64) (h0 : 1 ≤ E.n) (hconn : E.M.ConnSet (all E.n))
    {T : PT C D} (hT : Init est base E.n T) : SolvesTop E est base (Adjacent E.M) (tdMinCut E T) := by
  have h := td_solves hE hM hn h0 (agat_partsOK hM) hconn hT
  rw [tdMinCut]
  split
  · exact h
  · have h1 : E.n = 1 := by omega
    have hp : hasPlan T (all E.n) = true := by
      rw [hasPlan, size_all hn, h1]; rfl
    rw [tdGen, if_pos hp] at h
    exact h

end PE
end Mutable
