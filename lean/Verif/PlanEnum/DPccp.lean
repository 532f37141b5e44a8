import Verif.PlanEnum.Enumerators
import Verif.Graph.CSGOrder
/-! `DPccp`: always a valid plan; optimal when subsets are enumerated first. -/
namespace Mutable
open SB AdjMat
namespace PE
variable {C D : Type} [LinearOrder C] {E : Env C D} {est : SB → D} {base : Nat → C} {n : Nat}

/-- Weak invariant: recorded splits are plans whose present cost does not exceed the recorded cost. -/
structure WInv (E : Env C D) (est : SB → D) (base : Nat → C) (n : Nat) (may : SB → SB → Prop) (T : PT C D) : Prop where
  models : ModelOK est n T
  base : ∀ i, i < n → (T (SB.singleton i)).cost = base i
  split : ∀ S, size S ≠ 1 → hasPlan T S = true → ∃ A B, PairOK n may (A, B) ∧ (T S).left = A ∧ (T S).right = B ∧
    A ||| B = S ∧ hasPlan T A = true ∧ hasPlan T B = true ∧ E.J est A B (T A).cost (T B).cost ≤ (T S).cost

theorem WInv.step (hE : Sane E est) {may : SB → SB → Prop} (hsym : ∀ A B, may A B → may B A) (hn : n ≤ 64) {T : PT C D}
    (h : WInv E est base n may T) {A B : SB} (hp : PairOK n may (A, B)) (hA : hasPlan T A = true) (hB : hasPlan T B = true) :
    ∃ T', update E T A B = some T' ∧ tryUpdate E T A B = some T' ∧ WInv E est base n may T' ∧
      (∀ S, hasPlan T S = true → hasPlan T' S = true) ∧ hasPlan T' (A ||| B) = true := by
  obtain ⟨h1, h2, h3, h4, h5, h6⟩ := hp
  simp only at h1 h2 h3 h4 h5 h6
  obtain ⟨T', hu, hU, hmod⟩ := update_ok hE h.models h1 h2 h3 (h.models.some A h4 hA) (h.models.some B h5 hB)
  have hle : ∀ S, hasPlan T S = true → (T' S).cost ≤ (T S).cost := by
    intro S hS
    by_cases hS' : S = A ||| B
    · subst hS'; exact hU.old hS
    · rw [hU.other S hS']
  have hA' : T' A = T A := hU.other _ (union_ne_left h3 h2).symm
  have hB' : T' B = T B := hU.other _ (union_ne_right h3 h1).symm
  refine ⟨T', hu, by simp [tryUpdate, hA, hB, hu], ⟨hmod, ?_, ?_⟩, fun S hS => hU.mono hS, hU.hasp⟩
  · intro i hi
    rw [hU.other, h.base i hi]
    intro hc
    apply size_union_ne_one h3 h1 h2
    rw [← hc, size_singleton (by omega)]
  · intro S hs hpS
    have old : hasPlan T S = true → (T' S).left = (T S).left → (T' S).right = (T S).right → (T' S).cost = (T S).cost →
        ∃ A B, PairOK n may (A, B) ∧ (T' S).left = A ∧ (T' S).right = B ∧
          A ||| B = S ∧ hasPlan T' A = true ∧ hasPlan T' B = true ∧ E.J est A B (T' A).cost (T' B).cost ≤ (T' S).cost := by
      intro hp l1 l2 l3
      obtain ⟨A', B', g1, g2, g3, g4, g5, g6, g7⟩ := h.split S hs hp
      exact ⟨A', B', g1, by rw [l1, g2], by rw [l2, g3], g4, hU.mono g5, hU.mono g6,
        by rw [l3]; exact (hE.mono _ _ _ _ _ _ (hle A' g5) (hle B' g6)).trans g7⟩
    by_cases hS : S = A ||| B
    · subst hS
      rcases hU.cases with ⟨c1, c2, c3⟩ | ⟨c1, c2, c3⟩ | ⟨c0, c1, c2, c3⟩
      · exact ⟨A, B, ⟨h1, h2, h3, h4, h5, h6⟩, c1, c2, rfl, hU.mono hA, hU.mono hB, by rw [c3, hA', hB']⟩
      · exact ⟨B, A, ⟨h2, h1, by rw [and_comm']; exact h3, h5, h4, hsym _ _ h6⟩, c1, c2, or_comm' _ _, hU.mono hB, hU.mono hA,
          by rw [c3, hA', hB']⟩
      · exact old c0 c1 c2 c3
    · have e := hU.other S hS
      rw [hasPlan_other e] at hpS
      exact old hpS (by rw [e]) (by rw [e]) (by rw [e])

theorem WInv.recorded (hE : Sane E est) {may : SB → SB → Prop} (hn : n ≤ 64) {T : PT C D} (h : WInv E est base n may T) :
    ∀ k S, size S ≤ k → Sub S (all n) → hasPlan T S = true →
      ∃ t, Recorded T S t ∧ IsPlan n may t S ∧ t.cost E est base ≤ (T S).cost := by
  intro k
  induction k with
  | zero =>
    intro S hk hsub hp
    have h0 : S = 0#64 := (size_eq_zero_iff S).1 (by omega)
    obtain ⟨A, B, h1, h2, h3, h4, _⟩ := h.split S (by omega) hp
    obtain ⟨i, hi⟩ := (ne_zero_iff A).1 h1.ne1
    have : Mem S i := by rw [← h4]; simp [hi]
    rw [h0] at this; exact absurd this (not_mem_zero i)
  | succ k ih =>
    intro S hk hS hp
    by_cases h1 : size S = 1
    · have : isSingleton S = true := by simp [isSingleton, h1]
      obtain ⟨i, hi, rfl⟩ := (isSingleton_iff S).1 this
      have hin : i < n := by
        have := hS i (by simp [hi]); rwa [mem_all hn] at this
      exact ⟨.leaf i, .leaf i hi, .leaf i hin, (h.base i hin).symm.le⟩
    · obtain ⟨A, B, h2, h3, h4, h5, h6, h7, h8⟩ := h.split S h1 hp
      have s1 := size_union_left h2.dis h2.ne2
      have s2 := size_union_right h2.dis h2.ne1
      simp only [h5] at s1 s2
      obtain ⟨l, l1, l2, l3⟩ := ih A (by omega) h2.sub1 h6
      obtain ⟨r, r1, r2, r3⟩ := ih B (by omega) h2.sub2 h7
      refine ⟨.node l r, .node h1 (h3 ▸ l1) (h4 ▸ r1) (by rw [h3, h4, h5]), ?_, ?_⟩
      · rw [← h5]; exact .node l2 r2 h2.dis h2.may
      · rw [Tree.cost, isPlan_rels l2, isPlan_rels r2]
        exact (hE.mono _ _ _ _ _ _ l3 r3).trans h8

/-- the seconds enumerated for a first -/
def seconds (E : Env C D) (F : SB) : List SB :=
  E.M.csgs (diff (all E.n) F &&& maskToLo (hi F)) (E.M.neighbors F &&& all E.n)

theorem csgPairs_eq : E.M.csgPairs (all E.n) =
    (E.M.csgs (all E.n) (all E.n)).flatMap fun F => (seconds E F).map fun B => (F, B) := rfl

theorem mem_seconds (hM : E.M.Symm) {F : SB} (hF : F ∈ E.M.csgs (all E.n) (all E.n)) (B : SB) :
    B ∈ seconds E F ↔ Sub B (all E.n) ∧ E.M.ConnSet B ∧ F &&& B = 0#64 ∧ Adjacent E.M F B ∧ ∃ a, Mem F a ∧ ∀ b, Mem B b → b < a := by
  have h := (csgPairs_spec E.M (all E.n) hM).1 F B
  have h' : (F, B) ∈ E.M.csgPairs (all E.n) ↔ B ∈ seconds E F := by
    rw [csgPairs_eq, List.mem_flatMap]
    constructor
    · rintro ⟨F', _, h2⟩
      obtain ⟨B', h3, h4⟩ := List.mem_map.1 h2
      obtain ⟨rfl, rfl⟩ := Prod.mk.inj h4
      exact h3
    · intro h2; exact ⟨F, hF, List.mem_map.2 ⟨B, h2, rfl⟩⟩
  rw [← h', h]
  obtain ⟨f1, f2, _⟩ := ((csgs_spec E.M (all E.n) hM (all E.n)).1 F).1 hF
  have hd : (∀ i, ¬ (Mem F i ∧ Mem B i)) ↔ F &&& B = 0#64 := by
    rw [disj_iff]; exact ⟨fun h i a b => h i ⟨a, b⟩, fun h i hc => h i hc.1 hc.2⟩
  rw [hd]
  constructor
  · rintro ⟨a, b, c, d, e, f, g⟩; exact ⟨b, d, e, f, g⟩
  · rintro ⟨b, d, e, f, g⟩; exact ⟨f1, b, f2, d, e, f, g⟩

theorem dpCcp_run (hE : Sane E est) (hM : E.M.Symm) (hn : E.n ≤ 64) {T : PT C D} (hT : Init est base E.n T) :
    ∃ T', dpCcp E T = some T' ∧
      (E.M.csgPairs (all E.n)).foldlM (fun T p => tryUpdate E T p.1 p.2) T = some T' ∧
      WInv E est base E.n (Adjacent E.M) T' ∧
      ∀ F ∈ E.M.csgs (all E.n) (all E.n), ∀ B ∈ seconds E F, hasPlan T' (F ||| B) = true := by
  have hI := DPInv.init (E := E) hn hT
  have hW : WInv E est base E.n (Adjacent E.M) T := by
    refine ⟨hI.models, hI.base, ?_⟩
    intro S hs hp
    obtain ⟨A, B, h, _⟩ := hI.split S hs hp
    simp at h
  have hcsg := (csgs_spec E.M (all E.n) hM (all E.n)).1
  have hpair : ∀ F ∈ E.M.csgs (all E.n) (all E.n), ∀ B ∈ seconds E F, PairOK E.n (Adjacent E.M) (F, B) := by
    intro F hF B hB
    obtain ⟨f1, f2, i, f3, _⟩ := (hcsg F).1 hF
    obtain ⟨b1, b2, b3, ⟨x, y, hx, hy, he⟩, b5⟩ := (mem_seconds hM hF B).1 hB
    exact ⟨(ne_zero_iff F).2 ⟨i, f3⟩, (ne_zero_iff B).2 ⟨y, hy⟩, b3, f1, b1, ⟨x, y, hx, hy, he⟩⟩
  -- a set on the list whose predecessors were handled has a plan
  have hready : ∀ (l1 l2 : List SB) (F : SB) (T : PT C D), E.M.csgs (all E.n) (all E.n) = l1 ++ F :: l2 →
      (∀ F' ∈ l1, ∀ B ∈ seconds E F', hasPlan T (F' ||| B) = true) → hasPlan T F = true := by
    intro l1 l2 F T he hd
    have hF : F ∈ E.M.csgs (all E.n) (all E.n) := by rw [he]; simp
    obtain ⟨f1, f2, _⟩ := (hcsg F).1 hF
    obtain ⟨i, hi, h | ⟨y, hy, hlt, hmem⟩⟩ := csgs_pred E.M (all E.n) he
    · rw [h, hasPlan, size_singleton (mem_lt hi.1)]; rfl
    · have hmem' : diff F (SB.singleton y) ∈ E.M.csgs (all E.n) (all E.n) := by rw [he]; exact List.mem_append_left _ hmem
      have hy64 := mem_lt hy
      have hu : diff F (SB.singleton y) ||| SB.singleton y = F := by
        apply SB.ext; intro j
        simp only [mem_or, mem_diff, mem_singleton]
        constructor
        · rintro (h | h)
          · exact h.1
          · rw [h.2]; exact hy
        · intro h
          by_cases hj : j = y
          · exact Or.inr ⟨mem_lt h, hj⟩
          · exact Or.inl ⟨h, fun hc => hj hc.2⟩
      have := hd _ hmem (SB.singleton y) ((mem_seconds hM hmem' _).2 ⟨?_, connSet_singleton _ _, ?_, ?_, i, ?_, ?_⟩)
      · rw [hu] at this; exact this
      · intro j hj; rw [mem_singleton] at hj; rw [hj.2]; exact f1 y hy
      · rw [disj_iff]; intro j hj hc; exact ((mem_diff _ _ _).1 hj).2 hc
      · have hd : diff F (SB.singleton y) &&& SB.singleton y = 0#64 := by
          rw [disj_iff]; intro j hj hc; exact ((mem_diff _ _ _).1 hj).2 hc
        obtain ⟨_, _, k, hk, _⟩ := (hcsg _).1 hmem'
        obtain ⟨a, b, e1, e2, e3, e4⟩ := f2.cut (A := diff F (SB.singleton y)) (fun j hj => ((mem_diff _ _ _).1 hj).1)
          ((ne_zero_iff _).2 ⟨k, hk⟩) (by
            intro h
            have : Mem (diff F (SB.singleton y)) y := by rw [h]; exact hy
            rw [mem_diff, mem_singleton] at this; exact this.2 ⟨hy64, rfl⟩)
        refine ⟨a, b, e1, ?_, e4⟩
        by_contra hc
        exact e3 ((mem_diff _ _ _).2 ⟨e2, hc⟩)
      · rw [mem_diff, mem_singleton]; exact ⟨hi.1, fun hc => by omega⟩
      · intro b hb; rw [mem_singleton] at hb; omega
  -- outer loop
  have outer : ∀ (todo done : List SB) (T : PT C D), E.M.csgs (all E.n) (all E.n) = done ++ todo →
      WInv E est base E.n (Adjacent E.M) T → (∀ F' ∈ done, ∀ B ∈ seconds E F', hasPlan T (F' ||| B) = true) →
      ∃ T', (todo.flatMap fun F => (seconds E F).map fun B => (F, B)).foldlM (fun T p => update E T p.1 p.2) T = some T' ∧
        (todo.flatMap fun F => (seconds E F).map fun B => (F, B)).foldlM (fun T p => tryUpdate E T p.1 p.2) T = some T' ∧
        WInv E est base E.n (Adjacent E.M) T' ∧
        ∀ F ∈ done ++ todo, ∀ B ∈ seconds E F, hasPlan T' (F ||| B) = true := by
    intro todo
    induction todo with
    | nil => intro done T _ hW hd; exact ⟨T, rfl, rfl, hW, by simpa using hd⟩
    | cons F todo ih =>
      intro done T he hW hd
      have hF : F ∈ E.M.csgs (all E.n) (all E.n) := by rw [he]; simp
      have hpF := hready done todo F T he hd
      have inner : ∀ (bs ds : List SB) (T : PT C D), (∀ B ∈ bs, B ∈ seconds E F) → WInv E est base E.n (Adjacent E.M) T →
          (∀ F' ∈ done, ∀ B ∈ seconds E F', hasPlan T (F' ||| B) = true) → hasPlan T F = true →
          (∀ B ∈ ds, hasPlan T (F ||| B) = true) →
          ∃ T', (bs.map fun B => (F, B)).foldlM (fun T p => update E T p.1 p.2) T = some T' ∧
            (bs.map fun B => (F, B)).foldlM (fun T p => tryUpdate E T p.1 p.2) T = some T' ∧
            WInv E est base E.n (Adjacent E.M) T' ∧
            (∀ F' ∈ done, ∀ B ∈ seconds E F', hasPlan T' (F' ||| B) = true) ∧
            (∀ B ∈ ds ++ bs, hasPlan T' (F ||| B) = true) := by
        intro bs
        induction bs with
        | nil => intro ds T _ hW hd _ hds; exact ⟨T, rfl, rfl, hW, hd, by simpa using hds⟩
        | cons B bs ih2 =>
          intro ds T hbs hW hd hpF hds
          have hB := hbs B (by simp)
          obtain ⟨b1, b2, b3, ⟨x, y, hx, hy, _⟩, a, ha, hb⟩ := (mem_seconds hM hF B).1 hB
          -- the second has a plan
          have hpB : hasPlan T B = true := by
            obtain ⟨f1, f2, i, f3, _⟩ := (hcsg F).1 hF
            obtain ⟨z, hz⟩ := exists_greatest ((ne_zero_iff F).2 ⟨i, f3⟩)
            obtain ⟨w, hw⟩ := exists_greatest ((ne_zero_iff B).2 ⟨y, hy⟩)
            have hwz : w < z := by have := hb w hw.1; have := hz.2 a ha; omega
            have hBm := csgs_smaller_max E.M (all E.n) hM he b2 b1 hw hz hwz
            obtain ⟨k1, k2, hk⟩ := List.append_of_mem hBm
            refine hready k1 (k2 ++ F :: todo) B T (by rw [he, hk]; simp) ?_
            intro F' hF'
            exact hd F' (by rw [hk]; exact List.mem_append_left _ hF')
          obtain ⟨T1, u1, u2, u3, u4, u5⟩ := hW.step hE (fun _ _ => adjacent_symm hM) hn (hpair F hF B hB) hpF hpB
          obtain ⟨T2, v1, v2, v3, v4, v5⟩ := ih2 (ds ++ [B]) T1 (fun B' hB' => hbs B' (by simp [hB'])) u3
            (fun F' hF' B' hB' => u4 _ (hd F' hF' B' hB')) (u4 _ hpF) (by
              intro B' hB'
              rcases List.mem_append.1 hB' with h | h
              · exact u4 _ (hds B' h)
              · rw [List.mem_singleton] at h; subst h; exact u5)
          refine ⟨T2, ?_, ?_, v3, v4, by simpa using v5⟩
          · rw [List.map_cons, List.foldlM_cons]; simp only [u1]; exact v1
          · rw [List.map_cons, List.foldlM_cons]; simp only [u2]; exact v2
      obtain ⟨T1, u1, u2, u3, u4, u5⟩ := inner (seconds E F) [] T (fun _ h => h) hW hd hpF (by simp)
      obtain ⟨T2, v1, v2, v3, v4⟩ := ih (done ++ [F]) T1 (by rw [he]; simp) u3 (by
        intro F' hF'
        rcases List.mem_append.1 hF' with h | h
        · exact u4 F' h
        · rw [List.mem_singleton] at h; subst h; simpa using u5)
      refine ⟨T2, ?_, ?_, v3, by simpa using v4⟩
      · rw [List.flatMap_cons, List.foldlM_append, u1]; exact v1
      · rw [List.flatMap_cons, List.foldlM_append, u2]; exact v2
  obtain ⟨T', h1, h2, h3, h4⟩ := outer _ [] T rfl hW (by simp)
  exact ⟨T', h1, h2, h3, h4⟩

/-- Every connected set has a plan in the end. -/
theorem dpCcp_hasPlan (hM : E.M.Symm) {T' : PT C D}
    (h : ∀ F ∈ E.M.csgs (all E.n) (all E.n), ∀ B ∈ seconds E F, hasPlan T' (F ||| B) = true)
    {S : SB} (hS : E.M.ConnSet S) (h0 : S ≠ 0#64) (hsub : Sub S (all E.n)) (hn : E.n ≤ 64) : hasPlan T' S = true := by
  obtain ⟨t, ht⟩ := conn_plan hn hS h0 hsub
  have hcsg := (csgs_spec E.M (all E.n) hM (all E.n)).1
  rcases ht.split_ok with ⟨i, hi, rfl, rfl⟩ | ⟨l, r, A, B, rfl, rfl, hl, hr, hd, hm⟩
  · simp [hasPlan, size_singleton (show i < 64 by omega)]
  · have a0 := isPlan_ne hn hl
    have b0 := isPlan_ne hn hr
    have key : ∀ A B, IsPlan E.n (Adjacent E.M) l A ∨ IsPlan E.n (Adjacent E.M) r A → E.M.ConnSet A → E.M.ConnSet B → Sub A (all E.n) →
        Sub B (all E.n) → A &&& B = 0#64 → Adjacent E.M A B → (∃ a, Mem A a ∧ ∀ b, Mem B b → b < a) → hasPlan T' (A ||| B) = true := by
      intro A B _ h1 h2 h3 h4 h5 h6 h7
      obtain ⟨a, ha, _⟩ := id h7
      have hA : A ∈ E.M.csgs (all E.n) (all E.n) := (hcsg A).2 ⟨h3, h1, a, ha, h3 a ha⟩
      exact h A hA B ((mem_seconds hM hA B).2 ⟨h4, h2, h5, h6, h7⟩)
    obtain ⟨x, hx⟩ := exists_greatest a0
    obtain ⟨y, hy⟩ := exists_greatest b0
    have hxy : x ≠ y := fun h => (disj_iff A B).1 hd x hx.1 (h ▸ hy.1)
    rcases Nat.lt_or_gt_of_ne hxy with hlt | hlt
    · rw [or_comm']
      exact key B A (Or.inr hr) (plan_conn hM hr) (plan_conn hM hl) (isPlan_sub hn hr) (isPlan_sub hn hl)
        (by rw [and_comm']; exact hd) (adjacent_symm hM hm) ⟨y, hy.1, fun b hb => by have := hx.2 b hb; omega⟩
    · exact key A B (Or.inl hl) (plan_conn hM hl) (plan_conn hM hr) (isPlan_sub hn hl) (isPlan_sub hn hr) hd hm
        ⟨x, hx.1, fun b hb => by have := hy.2 b hb; omega⟩

/-- If no connected set is called back before one of its connected subsets, `DPccp` is optimal. -/
theorem solves_dpCcp (hE : Sane E est) (hM : E.M.Symm) (hn : E.n ≤ 64) {T : PT C D} (hT : Init est base E.n T)
    (hord : (E.M.csgs (all E.n) (all E.n)).Pairwise (fun a b => ¬ Sub b a)) :
    Solves E est base (Adjacent E.M) (dpCcp E T) := by
  obtain ⟨T', h1, h2, _, _⟩ := dpCcp_run hE hM hn hT
  have hspec := (csgPairs_spec E.M (all E.n) hM).1
  have hps : ∀ p ∈ E.M.csgPairs (all E.n), PairOK E.n (Adjacent E.M) p := by
    rintro ⟨A, B⟩ hp
    obtain ⟨a, b, c, d, e, ⟨x, y, hx, hy, he⟩, g⟩ := (hspec A B).1 hp
    exact ⟨(ne_zero_iff A).2 ⟨x, hx⟩, (ne_zero_iff B).2 ⟨y, hy⟩, (disj_iff _ _).2 (fun i h1 h2 => e i ⟨h1, h2⟩), a, b, ⟨x, y, hx, hy, he⟩⟩
  refine solves_of_list hE (fun _ _ => adjacent_symm hM) hn hT (E.M.csgPairs (all E.n)) (by rw [h1, h2]) hps ?_ ?_
  · have hmax : ∀ F ∈ E.M.csgs (all E.n) (all E.n), ∀ B ∈ seconds E F, ∃ a, Mem F a ∧ (∀ b, Mem B b → b < a) ∧ F &&& B = 0#64 ∧ B ≠ 0#64 := by
      intro F hF B hB
      obtain ⟨b1, b2, b3, ⟨x, y, hx, hy, _⟩, a, ha, hb⟩ := (mem_seconds hM hF B).1 hB
      exact ⟨a, ha, hb, b3, (ne_zero_iff B).2 ⟨y, hy⟩⟩
    rw [csgPairs_eq, List.pairwise_flatMap]
    constructor
    · intro F hF
      rw [List.pairwise_map]
      apply List.pairwise_of_forall_mem_list
      intro B1 hB1 B2 hB2
      obtain ⟨a, ha, hb, hd, h0⟩ := hmax F hF B2 hB2
      obtain ⟨a', ha', hb', _, _⟩ := hmax F hF B1 hB1
      refine ⟨union_ne_left hd h0, ?_⟩
      intro h
      have : Mem B1 a' := by simp only at h; rw [← h]; simp [ha']
      have := hb' a' this
      omega
    · -- needs the order of the groups: a later first has at least the same maximum
      have hgroup : (E.M.csgs (all E.n) (all E.n)).Pairwise (fun F1 F2 => ∀ a, Mem F1 a → ∃ b, Mem F2 b ∧ a ≤ b) := by
        rw [csgs_groups, List.pairwise_flatMap]
        constructor
        · intro i hi
          rw [mem_groups] at hi
          apply List.pairwise_of_forall_mem_list
          intro A hA B hB a ha
          rw [mem_csgGroup _ _ hi] at hA hB
          exact ⟨i, hB.1.1, hA.1.2 a ha⟩
        · refine (groups_sorted _).imp_of_mem ?_
          intro i j hi hj hlt A hA B hB a ha
          rw [mem_groups] at hi hj
          rw [mem_csgGroup _ _ hi] at hA
          rw [mem_csgGroup _ _ hj] at hB
          exact ⟨j, hB.1.1, by have := hA.1.2 a ha; omega⟩
      refine (hord.and hgroup).imp_of_mem ?_
      rintro F1 F2 hF1 hF2 ⟨hsub, hge⟩ p hp q hq
      obtain ⟨B1, hB1, rfl⟩ := List.mem_map.1 hp
      obtain ⟨B2, hB2, rfl⟩ := List.mem_map.1 hq
      constructor
      · intro h
        apply hsub
        simp only at h
        rw [← h]; exact sub_left _ _
      · intro h
        obtain ⟨a, ha, hb, _, _⟩ := hmax F1 hF1 B1 hB1
        obtain ⟨b, hb2, hab⟩ := hge a ha
        have : Mem B1 b := by simp only at h; rw [← h]; simp [hb2]
        have := hb b this
        omega
  · intro l t A B hl ht hd hm
    have a0 := isPlan_ne hn hl
    have b0 := isPlan_ne hn ht
    obtain ⟨x, hx⟩ := exists_greatest a0
    obtain ⟨y, hy⟩ := exists_greatest b0
    have hxy : x ≠ y := fun h => (disj_iff A B).1 hd x hx.1 (h ▸ hy.1)
    have hdi := (disj_iff A B).1 hd
    rcases Nat.lt_or_gt_of_ne hxy with hlt | hlt
    · right
      rw [hspec]
      exact ⟨isPlan_sub hn ht, isPlan_sub hn hl, plan_conn hM ht, plan_conn hM hl, fun i hi => hdi i hi.2 hi.1,
        adjacent_symm hM hm, y, hy.1, fun b hb => by have := hx.2 b hb; omega⟩
    · left
      rw [hspec]
      exact ⟨isPlan_sub hn hl, isPlan_sub hn ht, plan_conn hM hl, plan_conn hM ht, fun i hi => hdi i hi.1 hi.2,
        hm, x, hx.1, fun b hb => by have := hy.2 b hb; omega⟩

end PE
end Mutable
