import Verif.WasmHT.Look

/-! # Sequences of operations on the open-addressing hash table -/

namespace Mutable.WasmHT
namespace OA

variable {K V : Type} {c : Cfg K} {L : Lawful c.strat} {t : OA K V}

/-- A freshly created table. -/
theorem inv_init (ic : Nat) (p : Nat × Nat) (hic : ic < 2 ^ 31) :
    Inv c L ((init ic : OA K V).setHighWatermark p) ∧
      forEach ((init ic : OA K V).setHighWatermark p) = [] ∧
      ((init ic : OA K V).setHighWatermark p).num = 0 ∧
      ((init ic : OA K V).setHighWatermark p).cap ≤ max 4 (2 * ic) := by
  have hlog : Nat.clog 2 (ic + 1) ≤ 31 := Nat.clog_le_of_le_pow (by omega)
  obtain ⟨n, h2, h31, hn⟩ : ∃ n, 2 ≤ n ∧ n ≤ 31 ∧ max 4 (2 ^ Nat.clog 2 (ic + 1)) = 2 ^ n := by
    rcases Nat.le_total 2 (Nat.clog 2 (ic + 1)) with h | h
    · refine ⟨_, h, hlog, max_eq_right ?_⟩
      calc 4 = 2 ^ 2 := rfl
        _ ≤ _ := Nat.pow_le_pow_right (by decide) h
    · refine ⟨2, by omega, by omega, max_eq_left ?_⟩
      calc _ ≤ 2 ^ 2 := Nat.pow_le_pow_right (by decide) h
        _ = 4 := rfl
  have hcap4 : 4 ≤ 2 ^ n := by
    calc 4 = 2 ^ 2 := rfl
      _ ≤ _ := Nat.pow_le_pow_right (by decide) h2
  have hsmall : 2 ^ n ≤ max 4 (2 * ic) := by
    rw [← hn]
    apply max_le (le_max_left _ _)
    rcases Nat.eq_zero_or_pos ic with rfl | hpos
    · simp
    · refine le_trans ?_ (le_max_right _ _)
      have h1 : 0 < Nat.clog 2 (ic + 1) := Nat.clog_pos (by decide) (by omega)
      have := Nat.pow_pred_clog_lt_self (b := 2) (by decide) (x := ic + 1) (by omega)
      obtain ⟨m, hm⟩ := Nat.exists_eq_succ_of_ne_zero h1.ne'
      rw [hm] at this ⊢
      simp only [Nat.pred_eq_sub_one, Nat.succ_eq_add_one, Nat.add_sub_cancel] at this
      rw [Nat.succ_eq_add_one, pow_succ]; omega
  have hinit : (init ic : OA K V) = ⟨2 ^ n, fun _ => 0, fun _ => none, 0, 2 ^ n - 1, (1, 1)⟩ := by
    unfold init; simp only [hn]
  have hcore := core_empty (c := c) (L := L) (V := V) h2 h31 (fun _ => none)
  unfold setHighWatermark
  rw [hinit]
  split
  · next hp =>
    refine ⟨⟨hcore _ _, Nat.zero_le _, ?_, .inl rfl⟩, ?_, rfl, hsmall⟩
    · simp
    · simp [forEach]
  · next hp =>
    push Not at hp
    refine ⟨⟨hcore _ _, Nat.zero_le _, rfl, .inr ⟨hp.1, hp.2⟩⟩, ?_, rfl, hsmall⟩
    simp [forEach, updateHighWatermark]

/-- As long as a table is filled by at most `N` insertions, its capacity stays below `4 * N` or the
capacity it had. -/
theorem Inv.cap_step (h : Inv c L t) {M : Nat} (hM : t.cap ≤ M) {t' : OA K V}
    (hc : t'.cap = t.cap ∨ t'.cap = 2 * t.cap ∧ t.num = t.hwm) (hn : t.num ≤ M / 4) :
    t'.cap ≤ M := by
  rcases hc with hc | ⟨hc, hf⟩
  · omega
  · have hp := pct_pos h.pct
    have := (hwm_bounds h.cap4 hp.1 hp.2.1 _ h.hwm).1
    omega

theorem Inv.room (h : Inv c L t) {M : Nat} (hM : M ≤ 2 ^ 31) (hn : t.num ≤ M / 4) :
    t.num = t.hwm → 2 * t.cap ≤ 2 ^ 31 := by
  intro hf
  have hp := pct_pos h.pct
  have := (hwm_bounds h.cap4 hp.1 hp.2.1 _ h.hwm).1
  omega

/-- A sequence of `emplace`. -/
theorem Inv.emplaces (es : List (K × V)) : ∀ {t : OA K V}, Inv c L t →
    t.num + es.length ≤ 2 ^ 29 →
    ∃ t', OA.emplaces c t es = some t' ∧ Inv c L t' ∧ (forEach t').Perm (es ++ forEach t) := by
  induction es with
  | nil => intro t h _; exact ⟨t, rfl, h, .refl _⟩
  | cons e es ih =>
    intro t h hlen
    simp only [List.length_cons] at hlen
    obtain ⟨t1, e1, i1, p1, q1, q2⟩ := h.emplace e (h.room (M := 2 ^ 31) (Nat.le_refl _) (by omega))
    obtain ⟨t2, e2, i2, p2⟩ := ih i1 (by omega)
    refine ⟨t2, ?_, i2, ?_⟩
    · rw [OA.emplaces, e1]; exact e2
    · refine p2.trans ((p1.append_left es).trans ?_)
      simpa using List.perm_middle

/-! ## Grouping -/

/-- Specification of a grouping: the value of the group of `k`, `none` if there is no row with this
key. -/
def groupValue {X : Type} (eq : K → K → Bool) (init : X → V) (upd : X → V → V)
    (rows : List (K × X)) (k : K) : Option V :=
  match rows.filter fun r => eq r.1 k with
  | [] => none
  | r :: rs => some (rs.foldl (fun v r => upd r.2 v) (init r.2))

/-- A list of entries represents the function `f` from keys to values. -/
structure Repr (c : Cfg K) (l : List (K × V)) (f : K → Option V) : Prop where
  distinct : l.Pairwise fun a b => c.eq a.1 b.1 = false
  sound : ∀ e ∈ l, f e.1 = some e.2
  complete : ∀ k v, f k = some v → ∃ e ∈ l, c.eq e.1 k = true ∧ e.2 = v

theorem Repr.perm (g : Good c) {l l' : List (K × V)} {f : K → Option V} (h : Repr c l f)
    (p : l'.Perm l) : Repr c l' f where
  distinct := by
    refine (p.pairwise_iff ?_).2 h.distinct
    intro a b hab
    rw [Bool.eq_false_iff] at hab ⊢
    exact fun hba => hab (g.symm _ _ hba)
  sound e he := h.sound e (p.mem_iff.1 he)
  complete k v hk := by
    obtain ⟨e, he, h1⟩ := h.complete k v hk
    exact ⟨e, p.mem_iff.2 he, h1⟩

theorem good_congr (g : Good c) {a b : K} (h : c.eq a b = true) (x : K) : c.eq x a = c.eq x b := by
  rw [Bool.eq_iff_iff]
  exact ⟨fun h1 => g.trans _ _ _ h1 h, fun h1 => g.trans _ _ _ h1 (g.symm _ _ h)⟩

theorem groupValue_congr {X : Type} (g : Good c) (init : X → V) (upd : X → V → V)
    (rows : List (K × X)) {a b : K} (h : c.eq a b = true) :
    groupValue c.eq init upd rows a = groupValue c.eq init upd rows b := by
  unfold groupValue
  have : (fun r : K × X => c.eq r.1 a) = fun r => c.eq r.1 b := by
    funext r; exact good_congr g h r.1
  rw [this]

theorem groupValue_snoc {X : Type} (init : X → V) (upd : X → V → V) (rows : List (K × X)) (r : K × X)
    (k : K) : groupValue c.eq init upd (rows ++ [r]) k =
      if c.eq r.1 k then
        (match groupValue c.eq init upd rows k with
          | none => some (init r.2)
          | some v => some (upd r.2 v))
      else groupValue c.eq init upd rows k := by
  unfold groupValue
  rw [List.filter_append]
  by_cases h : c.eq r.1 k = true
  · simp only [List.filter_cons, h, if_true, List.filter_nil]
    cases (rows.filter fun r => c.eq r.1 k) with
    | nil => simp
    | cons a l => simp [List.foldl_append]
  · simp [h]

/-- One `try_emplace` step of a grouping. -/
theorem Repr.step {X : Type} (g : Good c) (init : X → V) (upd : X → V → V)
    (rows : List (K × X)) (r : K × X) {l0 l1 : List (K × V)} {ins : Bool}
    (hr : Repr c l0 (groupValue c.eq init upd rows))
    (hcase : (ins = true ∧ (∀ e ∈ l0, c.eq e.1 r.1 = false) ∧ l1.Perm ((r.1, init r.2) :: l0)) ∨
       (ins = false ∧ ∃ e l, c.eq e.1 r.1 = true ∧ l0.Perm (e :: l) ∧
          l1.Perm ((e.1, upd r.2 e.2) :: l))) :
    Repr c l1 (groupValue c.eq init upd (rows ++ [r])) ∧
      (ins = true ↔ groupValue c.eq init upd rows r.1 = none) := by
  constructor
  · rcases hcase with ⟨rfl, habs, hp⟩ | ⟨rfl, e, l, heq, hp1, hp2⟩
    · -- a new group
      have hnone : groupValue c.eq init upd rows r.1 = none := by
        cases hv : groupValue c.eq init upd rows r.1 with
        | none => rfl
        | some v =>
          obtain ⟨e, he, h1, -⟩ := hr.complete _ _ hv
          rw [habs e he] at h1; cases h1
      refine Repr.perm g ?_ hp
      refine ⟨List.pairwise_cons.2 ⟨?_, hr.distinct⟩, ?_, ?_⟩
      · intro e he
        rw [Bool.eq_false_iff]
        intro h1
        exact absurd (g.symm _ _ h1) (by rw [habs e he]; simp)
      · intro e he
        rcases List.mem_cons.1 he with rfl | he
        · rw [groupValue_snoc, if_pos (g.refl _), hnone]
        · rw [groupValue_snoc, if_neg]
          · exact hr.sound e he
          · intro h1
            have := habs e he
            rw [g.symm _ _ h1] at this; cases this
      · intro k v hk
        rw [groupValue_snoc] at hk
        split at hk
        · next h1 =>
          rw [← groupValue_congr g init upd rows h1, hnone] at hk
          exact ⟨_, List.mem_cons_self, h1, by simpa using hk⟩
        · obtain ⟨e, he, h2⟩ := hr.complete k v hk
          exact ⟨e, List.mem_cons_of_mem _ he, h2⟩
    · -- an existing group
      have hr' := hr.perm g hp1.symm
      have hd := List.pairwise_cons.1 hr'.distinct
      have hsome : groupValue c.eq init upd rows r.1 = some e.2 := by
        rw [← groupValue_congr g init upd rows heq]
        exact hr'.sound e List.mem_cons_self
      refine Repr.perm g ?_ hp2
      refine ⟨List.pairwise_cons.2 ⟨hd.1, hd.2⟩, ?_, ?_⟩
      · intro e' he'
        rcases List.mem_cons.1 he' with rfl | he'
        · rw [groupValue_snoc, if_pos (g.symm _ _ heq)]
          simp only
          rw [groupValue_congr g init upd rows heq, hsome]
        · rw [groupValue_snoc, if_neg]
          · exact hr'.sound e' (List.mem_cons_of_mem _ he')
          · intro h1
            have := hd.1 e' he'
            rw [g.trans _ _ _ heq h1] at this; cases this
      · intro k v hk
        rw [groupValue_snoc] at hk
        split at hk
        · next h1 =>
          rw [← groupValue_congr g init upd rows h1, hsome] at hk
          exact ⟨_, List.mem_cons_self, g.trans _ _ _ heq h1, by simpa using hk⟩
        · next h1 =>
          obtain ⟨e', he', h2, h3⟩ := hr'.complete k v hk
          rcases List.mem_cons.1 he' with rfl | he'
          · exact absurd (g.trans _ _ _ (g.symm _ _ heq) h2) h1
          · exact ⟨e', List.mem_cons_of_mem _ he', h2, h3⟩
  · rcases hcase with ⟨rfl, habs, hp⟩ | ⟨rfl, e, l, heq, hp1, hp2⟩
    · simp only [true_iff]
      cases hv : groupValue c.eq init upd rows r.1 with
      | none => rfl
      | some v =>
        obtain ⟨e, he, h1, -⟩ := hr.complete _ _ hv
        rw [habs e he] at h1; cases h1
    · simp only [Bool.false_eq_true, false_iff]
      have hr' := hr.perm g hp1.symm
      rw [← groupValue_congr g init upd rows heq, hr'.sound e List.mem_cons_self]
      simp

theorem Inv.upsert_repr {X : Type} (g : Good c) (h : Inv c L t) (init : X → V) (upd : X → V → V)
    (rows : List (K × X)) (r : K × X) (hr : Repr c (forEach t) (groupValue c.eq init upd rows))
    (hcap : t.num = t.hwm → 2 * t.cap ≤ 2 ^ 31) :
    ∃ t' ins, OA.upsert c t r.1 (init r.2) (upd r.2) = some (t', ins) ∧ Inv c L t' ∧ t'.num ≤ t.num + 1 ∧
      Repr c (forEach t') (groupValue c.eq init upd (rows ++ [r])) ∧
      (ins = true ↔ groupValue c.eq init upd rows r.1 = none) := by
  obtain ⟨t', ins, e1, i1, -, hcase⟩ := h.upsert g r.1 (init r.2) (upd r.2) hcap
  refine ⟨t', ins, e1, i1, ?_, Repr.step g init upd rows r hr ?_⟩
  · rcases hcase with ⟨_, _, h1, _⟩ | ⟨_, h1, _⟩ <;> omega
  · rcases hcase with ⟨h1, h2, -, h3⟩ | ⟨h1, -, h2⟩
    · exact .inl ⟨h1, h2, h3⟩
    · exact .inr ⟨h1, h2⟩

theorem Inv.upserts {X : Type} (g : Good c) (init : X → V) (upd : X → V → V) (rows : List (K × X)) :
    ∀ {t : OA K V} (done : List (K × X)), Inv c L t → t.num + rows.length ≤ 2 ^ 29 →
      Repr c (forEach t) (groupValue c.eq init upd done) →
      ∃ t', OA.upserts c init upd t rows = some t' ∧ Inv c L t' ∧
        Repr c (forEach t') (groupValue c.eq init upd (done ++ rows)) := by
  induction rows with
  | nil => intro t done h _ hr; exact ⟨t, rfl, h, by simpa using hr⟩
  | cons r rows ih =>
    intro t done h hlen hr
    simp only [List.length_cons] at hlen
    obtain ⟨t1, ins, e1, i1, q1, r1, -⟩ := h.upsert_repr g init upd done r hr
      (h.room (M := 2 ^ 31) (Nat.le_refl _) (by omega))
    obtain ⟨t2, e2, i2, r2⟩ := ih (done ++ [r]) i1 (by omega) r1
    refine ⟨t2, ?_, i2, by simpa using r2⟩
    obtain ⟨k, x⟩ := r
    rw [OA.upserts, e1]; exact e2

end OA
end Mutable.WasmHT
