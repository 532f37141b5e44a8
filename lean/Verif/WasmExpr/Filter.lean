import Verif.WasmExpr.Main

/-! Conditions, filters and projections. -/
namespace Mutable.WX
open SQL
variable {P : FP}

theorem k3_ne_N {v : V P} {k : K3} (hk : v.k3 = some k) (h : v ≠ .null) : k ≠ .N := by
  rintro rfl
  cases v <;> first | exact h rfl | cases hk | (rename_i q; cases q <;> cases hk)

theorem const_false {ρ : Nat → V P} {e : X P} {v : V P} {k : K3}
    (h : (match e with | .boolC b => !b | _ => false) = true) (hs : sem ρ e = some v) (hk : v.k3 = some k) : k = .F := by
  cases e with
  | boolC b => cases b with
    | false => cases hs; cases hk; rfl
    | true => cases h
  | _ => cases h

theorem const_true {ρ : Nat → V P} {e : X P} {v : V P} {k : K3}
    (h : (match e with | .boolC b => b | _ => false) = true) (hs : sem ρ e = some v) (hk : v.k3 = some k) : k = .T := by
  cases e with
  | boolC b => cases b with
    | true => cases hs; cases hk; rfl
    | false => cases h
  | _ => cases h

/-- An expression that cannot be NULL is not NULL. -/
theorem canBeNull_ok {σ : Locals P} {ρ : Nat → V P} : ∀ (e : X P) (v : V P), e.canBeNull = false → Holds σ ρ e →
    sem ρ e = some v → v ≠ .null
  | .attr i t n, v, hn, hh, hs => by
    have hn : n = false := hn
    subst hn
    cases hs
    exact hh.2.2
  | .null, v, hn, _, _ => by cases hn
  | .boolC b, v, _, _, hs => by cases hs; simp
  | .intC w z, v, _, _, hs => by cases hs; simp
  | .floatC x, v, _, _, hs => by cases hs; simp
  | .doubleC x, v, _, _, hs => by cases hs; simp
  | .dateC z, v, _, _, hs => by cases hs; simp
  | .datetimeC z, v, _, _, hs => by cases hs; simp
  | .un op e, v, hn, hh, hs => by
    simp only [sem] at hs
    obtain ⟨a, ha, hs⟩ := bind_some_iff hs
    obtain ⟨t, ht, hs⟩ := bind_some_iff hs
    have hne := canBeNull_ok e a hn hh ha
    rintro rfl
    cases op with
    | not =>
      simp only [semUn] at hs
      obtain ⟨k, hk, hs⟩ := bind_some_iff hs
      cases k with
      | T => cases hs
      | F => cases hs
      | N =>
        cases a with
        | null => exact hne rfl
        | bool b => cases b <;> cases hk
        | int _ => cases hk
        | date _ => cases hk
        | float _ => cases hk
        | double _ => cases hk
    | plus => cases a <;> first | exact hne rfl | cases hs
    | minus =>
      cases a with
      | null => exact hne rfl
      | int z =>
        simp only [semUn] at hs
        split at hs
        · split at hs <;> cases hs
        · cases hs
      | bool _ => cases hs
      | date _ => cases hs
      | float _ => cases hs
      | double _ => cases hs
    | tilde => cases a <;> first | exact hne rfl | cases hs
  | .ar op l r, v, hn, hh, hs => by
    simp only [X.canBeNull, Bool.or_eq_false_iff] at hn
    simp only [sem] at hs
    obtain ⟨a, ha, hs⟩ := bind_some_iff hs
    obtain ⟨b, hb, hs⟩ := bind_some_iff hs
    obtain ⟨t, ht, hs⟩ := bind_some_iff hs
    have h1 := canBeNull_ok l a hn.1 hh.1 ha
    have h2 := canBeNull_ok r b hn.2 hh.2 hb
    rw [ne_null_iff] at *
    rw [strict_null (arithIn_ne_null op t) hs, h1, h2]; rfl
  | .cmp c l r, v, hn, hh, hs => by
    simp only [X.canBeNull, Bool.or_eq_false_iff] at hn
    simp only [sem] at hs
    obtain ⟨a, ha, hs⟩ := bind_some_iff hs
    obtain ⟨b, hb, hs⟩ := bind_some_iff hs
    obtain ⟨t, ht, hs⟩ := bind_some_iff hs
    have h1 := canBeNull_ok l a hn.1 hh.1 ha
    have h2 := canBeNull_ok r b hn.2 hh.2 hb
    rw [ne_null_iff] at *
    rw [strict_null (cmpIn_ne_null c t) hs, h1, h2]; rfl
  | .and l r, v, hn, hh, hs => by
    simp only [sem] at hs
    obtain ⟨a, ha, hs⟩ := bind_some_iff hs
    obtain ⟨b, hb, hs⟩ := bind_some_iff hs
    obtain ⟨k, hk, hs⟩ := bind_some_iff hs
    obtain ⟨m, hm, hs⟩ := bind_some_iff hs
    cases hs
    have key : k = .F ∨ m = .F ∨ (k ≠ .N ∧ m ≠ .N) := by
      simp only [X.canBeNull] at hn
      simp only [Bool.and_eq_false_iff, Bool.not_eq_eq_eq_not, Bool.not_false, Bool.or_eq_false_iff] at hn
      rcases hn with (h | h) | h
      · exact .inl (const_false h ha hk)
      · exact .inr (.inl (const_false h hb hm))
      · right; right
        have h1 := canBeNull_ok l a h.1 hh.1 ha
        have h2 := canBeNull_ok r b h.2 hh.2 hb
        exact ⟨k3_ne_N hk h1, k3_ne_N hm h2⟩
    intro e
    rcases key with rfl | rfl | ⟨h1, h2⟩
    · cases m <;> cases e
    · cases k <;> cases e
    · cases k <;> cases m <;> first | exact h1 rfl | exact h2 rfl | cases e
  | .or l r, v, hn, hh, hs => by
    simp only [sem] at hs
    obtain ⟨a, ha, hs⟩ := bind_some_iff hs
    obtain ⟨b, hb, hs⟩ := bind_some_iff hs
    obtain ⟨k, hk, hs⟩ := bind_some_iff hs
    obtain ⟨m, hm, hs⟩ := bind_some_iff hs
    cases hs
    have key : k = .T ∨ m = .T ∨ (k ≠ .N ∧ m ≠ .N) := by
      simp only [X.canBeNull] at hn
      simp only [Bool.and_eq_false_iff, Bool.not_eq_eq_eq_not, Bool.not_false, Bool.or_eq_false_iff] at hn
      rcases hn with (h | h) | h
      · exact .inl (const_true h ha hk)
      · exact .inr (.inl (const_true h hb hm))
      · right; right
        have h1 := canBeNull_ok l a h.1 hh.1 ha
        have h2 := canBeNull_ok r b h.2 hh.2 hb
        exact ⟨k3_ne_N hk h1, k3_ne_N hm h2⟩
    intro e
    rcases key with rfl | rfl | ⟨h1, h2⟩
    · cases m <;> cases e
    · cases k <;> cases e
    · cases k <;> cases m <;> first | exact h1 rfl | exact h2 rfl | cases e
  | .isNull e, v, _, hh, hs => by
    simp only [sem] at hs
    obtain ⟨a, ha, hs⟩ := bind_some_iff hs
    rintro rfl
    cases a <;> cases hs

/-! ### Literals, clauses, conditions -/

theorem bool_ok {e : X P} (h : WellFormed e .bool) :
    ∃ c, (∃ c', compile e = some c' ∧ c'.asBool = some c) ∧ ∀ σ ρ v k, Holds σ ρ e → sem ρ e = some v → v.k3 = some k →
      GoodK (DividesNull ρ e) σ c k := by
  obtain ⟨⟨ct, cv, cn⟩, hc, hct, hg⟩ := compile_ok e _ h.typed h.supported h.literals
  have hct : ct = .bool := hct
  subst hct
  exact ⟨⟨cv, cn⟩, ⟨_, hc, rfl⟩, fun σ ρ v k hh hv hk => goodK_of_good hk (hg σ ρ v hh hv).2⟩

theorem lit_ok {p : X P × Bool} (h : WellFormed p.1 .bool) (nb : Bool) :
    ∃ c, litCode nb p = some c ∧ ∀ σ ρ k, Holds σ ρ p.1 → (nb = false → p.1.canBeNull = false) → semLit ρ p = some k →
      GoodK (DividesNull ρ p.1) σ c k := by
  obtain ⟨c, ⟨c', h1, h2⟩, hg⟩ := bool_ok h
  refine ⟨_, by simp [litCode, h1, h2]; rfl, fun σ ρ k hh hn hk => ?_⟩
  simp only [semLit] at hk
  obtain ⟨v, hv, hk⟩ := bind_some_iff hk
  obtain ⟨m, hm, hk⟩ := bind_some_iff hk
  have g := hg σ ρ v m hh hv hm
  have g' : GoodK (DividesNull ρ p.1) σ (if nb then c else ⟨c.val, none⟩) m := by
    cases nb with
    | true => exact g
    | false => exact g.notNull (k3_ne_N hm (canBeNull_ok p.1 v (hn rfl) hh hv))
  have hk : (if p.2 then m.not else m) = k := by simpa using hk
  subst hk
  cases hp : p.2 with
  | true => simpa [hp] using g'.not
  | false => simpa [hp] using g'

theorem orLoop_ok (nb : Bool) : ∀ (ps : List (X P × Bool)) (acc : BCode P), ClauseOK ps →
    ∃ c, orLoop nb acc ps = some c ∧ ∀ (H : Prop) σ ρ k k', ClauseHolds σ ρ ps →
      (nb = false → ∀ p ∈ ps, p.1.canBeNull = false) → (ClauseDividesNull ρ ps → H) → GoodK H σ acc k →
      semClause ρ ps = some k' → GoodK H σ c (k.or k')
  | [], acc, _ => ⟨acc, rfl, fun H σ ρ k k' _ _ _ hg hk => by
      cases hk; rw [K3.or_F]; exact hg⟩
  | p :: ps, acc, h => by
    obtain ⟨c, hc, hg⟩ := lit_ok (h p List.mem_cons_self) nb
    obtain ⟨d, hd, hg'⟩ := orLoop_ok nb ps (acc.or c) fun q hq => h q (List.mem_cons_of_mem _ hq)
    refine ⟨d, by simp [orLoop, hc, hd], fun H σ ρ k k' hh hn hH hacc hk => ?_⟩
    simp only [semClause] at hk
    obtain ⟨a, ha, hk⟩ := bind_some_iff hk
    obtain ⟨b, hb, hk⟩ := bind_some_iff hk
    cases hk
    rw [← K3.or_assoc]
    refine hg' H σ ρ _ b (fun q hq => hh q (List.mem_cons_of_mem _ hq))
      (fun e q hq => hn e q (List.mem_cons_of_mem _ hq)) (fun ⟨q, hq, hd⟩ => hH ⟨q, List.mem_cons_of_mem _ hq, hd⟩) ?_ hb
    exact hacc.or ((hg σ ρ a (hh p List.mem_cons_self) (fun e => hn e p List.mem_cons_self) ha).imp
      fun hd => hH ⟨p, List.mem_cons_self, hd⟩)

theorem clause_ok (nb : Bool) {ps : List (X P × Bool)} (hne : ps ≠ []) (h : ClauseOK ps) :
    ∃ c, clauseCode nb ps = some c ∧ ∀ σ ρ k, ClauseHolds σ ρ ps →
      (nb = false → ∀ p ∈ ps, p.1.canBeNull = false) → semClause ρ ps = some k → GoodK (ClauseDividesNull ρ ps) σ c k := by
  cases ps with
  | nil => exact absurd rfl hne
  | cons p ps =>
    obtain ⟨c, hc, hg⟩ := lit_ok (h p List.mem_cons_self) nb
    obtain ⟨d, hd, hg'⟩ := orLoop_ok nb ps c fun q hq => h q (List.mem_cons_of_mem _ hq)
    refine ⟨d, by simp [clauseCode, hc, hd], fun σ ρ k hh hn hk => ?_⟩
    simp only [semClause] at hk
    obtain ⟨a, ha, hk⟩ := bind_some_iff hk
    obtain ⟨b, hb, hk⟩ := bind_some_iff hk
    cases hk
    refine hg' _ σ ρ _ b (fun q hq => hh q (List.mem_cons_of_mem _ hq))
      (fun e q hq => hn e q (List.mem_cons_of_mem _ hq)) (fun ⟨q, hq, hd⟩ => ⟨q, List.mem_cons_of_mem _ hq, hd⟩) ?_ hb
    exact (hg σ ρ a (hh p List.mem_cons_self) (fun e => hn e p List.mem_cons_self) ha).imp
      fun hd => ⟨p, List.mem_cons_self, hd⟩

theorem andLoop_ok (nb : Bool) : ∀ (Cs : Cnf P) (acc : BCode P), CnfOK Cs →
    ∃ c, andLoop nb acc Cs = some c ∧ ∀ (H : Prop) σ ρ k k', CnfHolds σ ρ Cs →
      (nb = false → ∀ C ∈ Cs, ∀ p ∈ C, p.1.canBeNull = false) → (CnfDividesNull ρ Cs → H) → GoodK H σ acc k →
      semCnf ρ Cs = some k' → GoodK H σ c (k.and k')
  | [], acc, _ => ⟨acc, rfl, fun H σ ρ k k' _ _ _ hg hk => by
      cases hk; rw [K3.and_T]; exact hg⟩
  | C :: Cs, acc, h => by
    obtain ⟨c, hc, hg⟩ := clause_ok nb (h C List.mem_cons_self).1 (h C List.mem_cons_self).2
    obtain ⟨d, hd, hg'⟩ := andLoop_ok nb Cs (acc.and c) fun q hq => h q (List.mem_cons_of_mem _ hq)
    refine ⟨d, by simp [andLoop, hc, hd], fun H σ ρ k k' hh hn hH hacc hk => ?_⟩
    simp only [semCnf] at hk
    obtain ⟨a, ha, hk⟩ := bind_some_iff hk
    obtain ⟨b, hb, hk⟩ := bind_some_iff hk
    cases hk
    rw [← K3.and_assoc]
    refine hg' H σ ρ _ b (fun q hq => hh q (List.mem_cons_of_mem _ hq))
      (fun e q hq => hn e q (List.mem_cons_of_mem _ hq)) (fun ⟨q, hq, hd⟩ => hH ⟨q, List.mem_cons_of_mem _ hq, hd⟩) ?_ hb
    exact hacc.and ((hg σ ρ a (hh C List.mem_cons_self) (fun e => hn e C List.mem_cons_self) ha).imp
      fun hd => hH ⟨C, List.mem_cons_self, hd⟩)

theorem cnf_ok {cnf : Cnf P} (h : CnfOK cnf) :
    ∃ c, cnfCode cnf = some c ∧ ∀ σ ρ k, CnfHolds σ ρ cnf → semCnf ρ cnf = some k →
      GoodK (CnfDividesNull ρ cnf) σ c k := by
  cases cnf with
  | nil =>
    refine ⟨_, rfl, fun σ ρ k _ hk => ?_⟩
    cases hk
    exact ⟨true, false, ⟨rfl, rfl⟩, rfl⟩
  | cons C Cs =>
    have hnb : cnfNullable (C :: Cs) = false → ∀ D ∈ C :: Cs, ∀ p ∈ D, p.1.canBeNull = false := by
      intro e D hD p hp
      simp only [cnfNullable, List.any_eq_false] at e
      have := e D hD
      simp only [List.any_eq_true, not_exists, not_and, Bool.not_eq_true] at this
      exact this p hp
    obtain ⟨c, hc, hg⟩ := clause_ok (cnfNullable (C :: Cs)) (h C List.mem_cons_self).1 (h C List.mem_cons_self).2
    obtain ⟨d, hd, hg'⟩ := andLoop_ok (cnfNullable (C :: Cs)) Cs c fun q hq => h q (List.mem_cons_of_mem _ hq)
    refine ⟨d, by simp [cnfCode, hc, hd], fun σ ρ k hh hk => ?_⟩
    simp only [semCnf] at hk
    obtain ⟨a, ha, hk⟩ := bind_some_iff hk
    obtain ⟨b, hb, hk⟩ := bind_some_iff hk
    cases hk
    refine hg' _ σ ρ _ b (fun q hq => hh q (List.mem_cons_of_mem _ hq))
      (fun e q hq => hnb e q (List.mem_cons_of_mem _ hq)) (fun ⟨q, hq, hd⟩ => ⟨q, List.mem_cons_of_mem _ hq, hd⟩) ?_ hb
    exact (hg σ ρ a (hh C List.mem_cons_self) (fun e => hnb e C List.mem_cons_self) ha).imp
      fun hd => ⟨C, List.mem_cons_self, hd⟩

theorem branch_of_ev {H : Prop} {σ : Locals P} {a : W P .i32} {b : Bool} (h : Ev H σ a (fun w => w = b2w b)) :
    branch σ a = some b ∨ (branch σ a = none ∧ H) := by
  unfold Ev at h
  unfold branch
  cases he : eval σ a with
  | none => rw [he] at h; exact .inr ⟨rfl, h⟩
  | some w =>
    rw [he] at h
    have h : w = b2w b := h
    subst h
    left
    cases b <;> rfl

/-- A literal in a lazy filter. -/
theorem lazyLit_ok {p : X P × Bool} (h : WellFormed p.1 .bool) :
    ∃ c, (∃ c', compile p.1 = some c' ∧ c'.asBool = some c) ∧ ∀ σ ρ k, Holds σ ρ p.1 → semLit ρ p = some k →
      (branch σ (if p.2 then c.isFalse else c.isTrue) = some (decide (k = .T)) ∨
        (branch σ (if p.2 then c.isFalse else c.isTrue) = none ∧ DividesNull ρ p.1)) := by
  obtain ⟨c, hc, hg⟩ := bool_ok h
  refine ⟨c, hc, fun σ ρ k hh hk => ?_⟩
  simp only [semLit] at hk
  obtain ⟨v, hv, hk⟩ := bind_some_iff hk
  obtain ⟨m, hm, hk⟩ := bind_some_iff hk
  have g := hg σ ρ v m hh hv hm
  have hk : (if p.2 then m.not else m) = k := by simpa using hk
  subst hk
  cases hp : p.2 with
  | true =>
    have := branch_of_ev g.isFalse
    have e : decide (m.not = .T) = decide (m = .F) := by cases m <;> rfl
    simpa [e] using this
  | false =>
    have := branch_of_ev g.isTrue
    simpa using this

theorem lazy_ok : ∀ (ps : List (X P × Bool)) (σ : Locals P) (ρ : Nat → V P) (b : Bool), ClauseOK ps →
    ClauseHolds σ ρ ps → firstTrue ρ ps = some b →
    lazyKeep σ ps = some b ∨ (lazyKeep σ ps = none ∧ ClauseDividesNull ρ ps)
  | [], σ, ρ, b, _, _, hb => by cases hb; exact .inl rfl
  | p :: ps, σ, ρ, b, h, hh, hb => by
    obtain ⟨c, ⟨c', h1, h2⟩, hg⟩ := lazyLit_ok (h p List.mem_cons_self)
    simp only [firstTrue] at hb
    obtain ⟨k, hk, hb⟩ := bind_some_iff hb
    rcases hg σ ρ k (hh p List.mem_cons_self) hk with g | ⟨g, hd⟩
    · have e : lazyKeep σ (p :: ps) = if decide (k = .T) then some true else lazyKeep σ ps := by
        simp [lazyKeep, h1, h2, g]
      rw [e]
      by_cases hT : k = .T
      · rw [if_pos hT] at hb
        cases hb
        exact .inl (by simp [hT])
      · rw [if_neg hT] at hb
        rw [if_neg (by simpa using hT)]
        rcases lazy_ok ps σ ρ b (fun q hq => h q (List.mem_cons_of_mem _ hq))
          (fun q hq => hh q (List.mem_cons_of_mem _ hq)) hb with r | ⟨r, q, hq, hd⟩
        · exact .inl r
        · exact .inr ⟨r, q, List.mem_cons_of_mem _ hq, hd⟩
    · exact .inr ⟨by simp [lazyKeep, h1, h2, g], p, List.mem_cons_self, hd⟩

theorem firstTrue_of_semClause {ρ : Nat → V P} : ∀ (ps : List (X P × Bool)) (k : K3), semClause ρ ps = some k →
    firstTrue ρ ps = some (decide (k = .T))
  | [], k, h => by cases h; rfl
  | p :: ps, k, h => by
    simp only [semClause] at h
    obtain ⟨a, ha, h⟩ := bind_some_iff h
    obtain ⟨b, hb, h⟩ := bind_some_iff h
    cases h
    have := firstTrue_of_semClause ps b hb
    simp only [firstTrue, ha, Option.bind_eq_bind, Option.bind_some, this]
    cases a <;> cases b <;> rfl

/-! ### Projections -/

theorem run_ok {H : Prop} {σ : Locals P} {c : Code P} {v : V P} (h : Good H σ c v) :
    (∃ r, run σ c = some r ∧ Shows ⟨c.t, r⟩ v) ∨ (run σ c = none ∧ H) := by
  obtain ⟨h1, h2⟩ := h
  obtain ⟨ct, cv, cn⟩ := c
  unfold Ev at h1
  simp only [run]
  simp only at h1 h2 cv
  cases he : eval σ cv with
  | none => rw [he] at h1; exact .inr ⟨rfl, h1⟩
  | some w =>
    rw [he] at h1
    cases cn with
    | none => exact .inl ⟨some w, rfl, h2, h1⟩
    | some m =>
      simp only [Ev] at h2
      cases hm : eval σ m with
      | none => rw [hm] at h2; exact .inr ⟨by simp [hm], h2⟩
      | some b =>
        rw [hm] at h2
        have h2 : b = nullBit v := h2
        subst h2
        left
        cases hv : v.isNull with
        | true =>
          refine ⟨none, by simp [hm, nullBit, hv, b2w], ?_⟩
          cases v <;> first | rfl | cases hv
        | false => exact ⟨some w, by simp [hm, nullBit, hv, b2w], (ne_null_iff v).mpr hv, h1⟩

theorem project_ok : ∀ (es : List (X P)), (∀ e ∈ es, ∃ τ, WellFormed e τ) →
    ∃ cs, compileList es = some cs ∧ ∀ σ ρ vs, (∀ e ∈ es, Holds σ ρ e) → semList ρ es = some vs →
      (∃ rs, project σ cs = some rs ∧ List.Forall₂ Shows rs vs) ∨
        (project σ cs = none ∧ ∃ e ∈ es, DividesNull ρ e)
  | [], _ => ⟨[], rfl, fun σ ρ vs _ hv => by cases hv; exact .inl ⟨[], rfl, .nil⟩⟩
  | e :: es, h => by
    obtain ⟨τ, hw⟩ := h e List.mem_cons_self
    obtain ⟨c, hc, hct, hg⟩ := compile_ok e τ hw.typed hw.supported hw.literals
    obtain ⟨cs, hcs, hgs⟩ := project_ok es fun x hx => h x (List.mem_cons_of_mem _ hx)
    refine ⟨c :: cs, by simp [compileList, hc, hcs], fun σ ρ vs hh hv => ?_⟩
    simp only [semList] at hv
    obtain ⟨v, hv1, hv⟩ := bind_some_iff hv
    obtain ⟨ws, hv2, hv⟩ := bind_some_iff hv
    cases hv
    rcases run_ok (hg σ ρ v (hh e List.mem_cons_self) hv1).2 with ⟨r, hr, hsh⟩ | ⟨hr, hd⟩
    · rcases hgs σ ρ ws (fun x hx => hh x (List.mem_cons_of_mem _ hx)) hv2 with ⟨rs, hrs, hf⟩ | ⟨hrs, x, hx, hd⟩
      · exact .inl ⟨⟨c.t, r⟩ :: rs, by simp [project, hr, hrs], .cons hsh hf⟩
      · exact .inr ⟨by simp [project, hr, hrs], x, List.mem_cons_of_mem _ hx, hd⟩
    · exact .inr ⟨by simp [project, hr], e, List.mem_cons_self, hd⟩

/-! ### What the code generator supports -/

theorem unary_t {op : UnOp} {c c' : Code P} (h : unary op c = some c') : c'.t = c.t := by
  obtain ⟨t, v, n⟩ := c
  cases op <;> cases t <;> cases h <;> rfl

theorem supported_of_compile : ∀ (e : X P) (τ : Ty), e.ty = some τ → ∀ c, compile e = some c → Supported e ∧ c.t = τ.d
  | .attr i t n, τ, ht, c, hc => by
    simp only [X.ty] at ht
    split at ht
    · cases ht
    · cases ht; cases hc; exact ⟨trivial, rfl⟩
  | .null, τ, ht, c, hc => by cases ht; cases hc; exact ⟨trivial, rfl⟩
  | .boolC _, τ, ht, c, hc => by cases ht; cases hc; exact ⟨trivial, rfl⟩
  | .intC w _, τ, ht, c, hc => by cases ht; cases w <;> cases hc <;> exact ⟨trivial, rfl⟩
  | .floatC _, τ, ht, c, hc => by cases ht; cases hc; exact ⟨trivial, rfl⟩
  | .doubleC _, τ, ht, c, hc => by cases ht; cases hc; exact ⟨trivial, rfl⟩
  | .dateC _, τ, ht, c, hc => by cases ht; cases hc; exact ⟨trivial, rfl⟩
  | .datetimeC _, τ, ht, c, hc => by cases ht; cases hc; exact ⟨trivial, rfl⟩
  | .un op e, τ, ht, c, hc => by
    have ht : (do
      let t ← e.ty
      match op with
      | .not => if t = .bool then some t else Option.none
      | _ => if t.numeric then some t else Option.none) = some τ := ht
    obtain ⟨t, he, ht⟩ := bind_some_iff ht
    have hu : unTyped op t ∧ τ = t := by
      cases op <;> simp only at ht <;> split at ht <;> first | (cases ht; exact ⟨by assumption, rfl⟩) | cases ht
    obtain ⟨hu, rfl⟩ := hu
    simp only [compile] at hc
    obtain ⟨d, hd, hc⟩ := bind_some_iff hc
    obtain ⟨hs, hdt⟩ := supported_of_compile e τ he d hd
    refine ⟨⟨hs, ?_⟩, (unary_t hc).trans hdt⟩
    rintro rfl
    rw [he]
    obtain ⟨dt, dv, dn⟩ := d
    have hdt : dt = τ.d := hdt
    subst hdt
    have hu : τ.numeric = true := hu
    cases τ with
    | int w => exact ⟨w, rfl⟩
    | float => cases hc
    | double => cases hc
    | none => cases hu
    | bool => cases hu
    | date => cases hu
    | datetime => cases hu
  | .ar op l r, τ, ht, c, hc => by
    simp only [X.ty] at ht
    obtain ⟨tl, htl, ht⟩ := bind_some_iff ht
    obtain ⟨tr, htr, ht⟩ := bind_some_iff ht
    simp only [compile] at hc
    obtain ⟨a, ha, hc⟩ := bind_some_iff hc
    obtain ⟨b, hb, hc⟩ := bind_some_iff hc
    rw [htl, htr] at hc
    obtain ⟨hsl, -⟩ := supported_of_compile l tl htl a ha
    obtain ⟨hsr, -⟩ := supported_of_compile r tr htr b hb
    simp only [Option.bind_eq_bind, Option.bind_some, ht, binArith] at hc
    obtain ⟨x, hx, hc⟩ := bind_some_iff hc
    obtain ⟨y, hy, hc⟩ := bind_some_iff hc
    obtain ⟨o, ho, hc⟩ := bind_some_iff hc
    cases hc
    refine ⟨⟨hsl, hsr, ?_⟩, rfl⟩
    rintro rfl
    rw [htl, htr]
    have hnum := (join_conv ht).2.2
    cases τ with
    | int w =>
      cases tl <;> cases tr <;> simp only [join, Option.some.injEq, reduceCtorEq] at ht <;>
        first | exact ⟨⟨_, rfl⟩, _, rfl⟩ | (split at ht <;> cases ht)
    | float => cases ho
    | double => cases ho
    | none => cases hnum
    | bool => cases hnum
    | date => cases hnum
    | datetime => cases hnum
  | .cmp c' l r, τ, ht, c, hc => by
    simp only [X.ty] at ht
    obtain ⟨tl, htl, ht⟩ := bind_some_iff ht
    obtain ⟨tr, htr, ht⟩ := bind_some_iff ht
    split at ht
    swap
    · cases ht
    cases ht
    simp only [compile] at hc
    obtain ⟨a, ha, hc⟩ := bind_some_iff hc
    obtain ⟨b, hb, hc⟩ := bind_some_iff hc
    rw [htl, htr] at hc
    obtain ⟨hsl, -⟩ := supported_of_compile l tl htl a ha
    obtain ⟨hsr, -⟩ := supported_of_compile r tr htr b hb
    simp only [Option.bind_eq_bind, Option.bind_some, binCmp] at hc
    obtain ⟨x, hx, hc⟩ := bind_some_iff hc
    obtain ⟨y, hy, hc⟩ := bind_some_iff hc
    obtain ⟨o, ho, hc⟩ := bind_some_iff hc
    cases hc
    exact ⟨⟨hsl, hsr⟩, rfl⟩
  | .and l r, τ, ht, c, hc => by
    simp only [X.ty] at ht
    obtain ⟨tl, htl, ht⟩ := bind_some_iff ht
    obtain ⟨tr, htr, ht⟩ := bind_some_iff ht
    split at ht
    swap
    · cases ht
    cases ht
    simp only [compile] at hc
    obtain ⟨a, ha, hc⟩ := bind_some_iff hc
    obtain ⟨a', ha', hc⟩ := bind_some_iff hc
    obtain ⟨b, hb, hc⟩ := bind_some_iff hc
    obtain ⟨b', hb', hc⟩ := bind_some_iff hc
    cases hc
    exact ⟨⟨(supported_of_compile l tl htl a ha).1, (supported_of_compile r tr htr b hb).1⟩, rfl⟩
  | .or l r, τ, ht, c, hc => by
    simp only [X.ty] at ht
    obtain ⟨tl, htl, ht⟩ := bind_some_iff ht
    obtain ⟨tr, htr, ht⟩ := bind_some_iff ht
    split at ht
    swap
    · cases ht
    cases ht
    simp only [compile] at hc
    obtain ⟨a, ha, hc⟩ := bind_some_iff hc
    obtain ⟨a', ha', hc⟩ := bind_some_iff hc
    obtain ⟨b, hb, hc⟩ := bind_some_iff hc
    obtain ⟨b', hb', hc⟩ := bind_some_iff hc
    cases hc
    exact ⟨⟨(supported_of_compile l tl htl a ha).1, (supported_of_compile r tr htr b hb).1⟩, rfl⟩
  | .isNull e, τ, ht, c, hc => by
    simp only [X.ty] at ht
    obtain ⟨t, he, ht⟩ := bind_some_iff ht
    cases ht
    simp only [compile] at hc
    obtain ⟨d, hd, hc⟩ := bind_some_iff hc
    cases hc
    exact ⟨(supported_of_compile e t he d hd).1, rfl⟩

end Mutable.WX
