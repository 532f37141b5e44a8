import Verif.Sema.Spec
import Mathlib.Data.List.Nodup

namespace Mutable.Sema

variable {V : Type}

/-! ## Scopes -/

def cands (a : Label) (ss : List Src) : List (Name × Col) :=
  ss.flatMap fun s => (s.cols.filter fun x => decide (x.label = a)).map fun x => (s.name, x)

theorem candidates_eq (a : Label) (c : Ctx V) : candidates a c = cands a c.sources := rfl

theorem cands_cons (a : Label) (s : Src) (ss : List Src) :
    cands a (s :: ss) = (colsOf a s).map (fun x => (s.name, x)) ++ cands a ss := by
  simp [cands, colsOf]

theorem scanSources_eq (a : Label) : ∀ (ss : List Src) (t : Option (Name × Col)),
    scanSources a t ss = match t.toList ++ cands a ss with
      | [] => some none
      | [x] => some (some x)
      | _ => none
  | [], t => by cases t <;> rfl
  | s :: ss, t => by
    unfold scanSources
    rw [cands_cons]
    split
    · rename_i h
      rw [scanSources_eq a ss t, h]; simp
    · rename_i c h
      rw [h]
      cases t with
      | none => simp [scanSources_eq a ss]
      | some x => simp
    · rename_i h1 h2
      match hc : colsOf a s with
      | [] => exact absurd hc h1
      | [c] => exact absurd hc (h2 c)
      | c :: d :: l => cases t <;> simp

theorem findUnqualified_spec (a : Label) : ∀ (cs : List (Ctx V)) (n : Nat),
    (∀ d s c, findUnqualified a cs n = .found d s c ↔ n ≤ d ∧ ∃ x, Innermost a cs (d - n) x ∧ candidates a x = [(s, c)]) ∧
    (findUnqualified a cs n = .ambiguous ↔ ∃ d x, Innermost a cs d x ∧ 2 ≤ (candidates a x).length) ∧
    (findUnqualified a cs n = .notFound ↔ ∀ x ∈ cs, candidates a x = [])
  | [], n => by
    simp [findUnqualified, Innermost]
  | c :: cs, n => by
    have ih := findUnqualified_spec a cs (n + 1)
    have hs := scanSources_eq a c.sources none
    simp only [Option.toList_none, List.nil_append, ← candidates_eq] at hs
    match hc : candidates a c with
    | [] =>
      rw [hc] at hs
      have he : findUnqualified a (c :: cs) n = findUnqualified a cs (n + 1) := by
        rw [findUnqualified, hs]
      have hin : ∀ d x, Innermost a (c :: cs) (d + 1) x ↔ Innermost a cs d x := by
        intro d x
        unfold Innermost
        simp only [List.getElem?_cons_succ]
        refine and_congr_right fun _ => and_congr_right fun _ => ?_
        constructor
        · intro h i c' hi hx
          exact h (i + 1) c' (by omega) (by simpa using hx)
        · intro h i c' hi hx
          cases i with
          | zero => simp only [List.getElem?_cons_zero, Option.some.injEq] at hx; subst hx; exact hc
          | succ i => exact h i c' (by omega) (by simpa using hx)
      have h0 : ∀ x, ¬ Innermost a (c :: cs) 0 x := by
        rintro x ⟨h1, h2, _⟩
        simp only [List.getElem?_cons_zero, Option.some.injEq] at h1
        subst h1; exact h2 hc
      rw [he]
      refine ⟨?_, ?_, ?_⟩
      · intro d s col
        rw [ih.1]
        constructor
        · rintro ⟨h1, x, h2, h3⟩
          refine ⟨by omega, x, ?_, h3⟩
          have : d - n = (d - (n + 1)) + 1 := by omega
          rw [this, hin]; exact h2
        · rintro ⟨h1, x, h2, h3⟩
          cases hd : d - n with
          | zero => rw [hd] at h2; exact absurd h2 (h0 x)
          | succ m =>
            rw [hd, hin] at h2
            refine ⟨by omega, x, ?_, h3⟩
            have : d - (n + 1) = m := by omega
            rw [this]; exact h2
      · rw [ih.2.1]
        constructor
        · rintro ⟨d, x, h1, h2⟩
          exact ⟨d + 1, x, (hin d x).mpr h1, h2⟩
        · rintro ⟨d, x, h1, h2⟩
          cases d with
          | zero => exact absurd h1 (h0 x)
          | succ d => exact ⟨d, x, (hin d x).mp h1, h2⟩
      · rw [ih.2.2]
        simp [hc]
    | [p] =>
      rw [hc] at hs
      obtain ⟨s, col⟩ := p
      have he : findUnqualified a (c :: cs) n = .found n s col := by
        rw [findUnqualified, hs]
      have hin : ∀ d x, Innermost a (c :: cs) d x → d = 0 ∧ x = c := by
        rintro d x ⟨h1, h2, h3⟩
        cases d with
        | zero => simp only [List.getElem?_cons_zero, Option.some.injEq] at h1; exact ⟨rfl, h1.symm⟩
        | succ d =>
          have := h3 0 c (by omega) (by simp)
          rw [hc] at this; cases this
      have h0 : Innermost a (c :: cs) 0 c := ⟨by simp, by rw [hc]; simp, fun i _ hi => by omega⟩
      rw [he]
      refine ⟨?_, ?_, ?_⟩
      · intro d s' col'
        constructor
        · intro h
          injection h with h1 h2 h3
          subst h1 h2 h3
          exact ⟨Nat.le_refl _, c, by simpa using h0, hc⟩
        · rintro ⟨h1, x, h2, h3⟩
          obtain ⟨hd, rfl⟩ := hin _ _ h2
          rw [hc] at h3
          have : d = n := by omega
          subst this
          injection h3 with h3 _
          injection h3 with h3 h4
          rw [h3, h4]
      · constructor
        · intro h; cases h
        · rintro ⟨d, x, h1, h2⟩
          obtain ⟨_, rfl⟩ := hin _ _ h1
          rw [hc] at h2; simp at h2
      · constructor
        · intro h; cases h
        · intro h
          have := h c List.mem_cons_self
          rw [hc] at this; cases this
    | p :: q :: l =>
      rw [hc] at hs
      have he : findUnqualified a (c :: cs) n = .ambiguous := by
        rw [findUnqualified, hs]
      have hin : ∀ d x, Innermost a (c :: cs) d x → d = 0 ∧ x = c := by
        rintro d x ⟨h1, h2, h3⟩
        cases d with
        | zero => simp only [List.getElem?_cons_zero, Option.some.injEq] at h1; exact ⟨rfl, h1.symm⟩
        | succ d =>
          have := h3 0 c (by omega) (by simp)
          rw [hc] at this; cases this
      have h0 : Innermost a (c :: cs) 0 c := ⟨by simp, by rw [hc]; simp, fun i _ hi => by omega⟩
      rw [he]
      refine ⟨?_, ?_, ?_⟩
      · intro d s' col'
        constructor
        · intro h; cases h
        · rintro ⟨h1, x, h2, h3⟩
          obtain ⟨hd, rfl⟩ := hin _ _ h2
          rw [hc] at h3; cases h3
      · simp only [true_iff]
        exact ⟨0, c, h0, by rw [hc]; simp⟩
      · constructor
        · intro h; cases h
        · intro h
          have := h c List.mem_cons_self
          rw [hc] at this; cases this

theorem findSource_spec (t : Name) : ∀ (cs : List (Ctx V)) (n : Nat), (∀ c ∈ cs, DistinctNames c) →
    (∀ d s, findSource t cs n = some (d, s) ↔ n ≤ d ∧ InnermostSource t cs (d - n) s) ∧
    (findSource t cs n = none ↔ ∀ c ∈ cs, ∀ s ∈ c.sources, s.name ≠ t)
  | [], n, _ => by simp [findSource, InnermostSource]
  | c :: cs, n, hd => by
    have ih := findSource_spec t cs (n + 1) fun c' h => hd c' (List.mem_cons_of_mem _ h)
    cases hf : c.sources.find? (fun s => decide (s.name = t)) with
    | none =>
      have hno : ∀ s ∈ c.sources, s.name ≠ t := by
        intro s hs
        simpa using List.find?_eq_none.mp hf s hs
      have he : findSource t (c :: cs) n = findSource t cs (n + 1) := by rw [findSource, hf]
      have hin : ∀ d s, InnermostSource t (c :: cs) (d + 1) s ↔ InnermostSource t cs d s := by
        intro d s
        unfold InnermostSource
        simp only [List.getElem?_cons_succ]
        refine and_congr_right fun _ => ?_
        constructor
        · intro h i c' hi hx
          exact h (i + 1) c' (by omega) (by simpa using hx)
        · intro h i c' hi hx
          cases i with
          | zero => simp only [List.getElem?_cons_zero, Option.some.injEq] at hx; subst hx; exact hno
          | succ i => exact h i c' (by omega) (by simpa using hx)
      have h0 : ∀ s, ¬ InnermostSource t (c :: cs) 0 s := by
        rintro s ⟨⟨x, h1, h2, h3⟩, _⟩
        simp only [List.getElem?_cons_zero, Option.some.injEq] at h1
        subst h1; exact hno s h2 h3
      rw [he]
      constructor
      · intro d s
        rw [ih.1]
        constructor
        · rintro ⟨h1, h2⟩
          refine ⟨by omega, ?_⟩
          have : d - n = (d - (n + 1)) + 1 := by omega
          rw [this, hin]; exact h2
        · rintro ⟨h1, h2⟩
          cases hd' : d - n with
          | zero => rw [hd'] at h2; exact absurd h2 (h0 s)
          | succ m =>
            rw [hd', hin] at h2
            refine ⟨by omega, ?_⟩
            have : d - (n + 1) = m := by omega
            rw [this]; exact h2
      · rw [ih.2]
        simp only [List.mem_cons, forall_eq_or_imp]
        exact ⟨fun h => ⟨hno, h⟩, fun h => h.2⟩
    | some s0 =>
      have hm := List.mem_of_find?_eq_some hf
      have hn : s0.name = t := by simpa using List.find?_some hf
      have he : findSource t (c :: cs) n = some (n, s0) := by rw [findSource, hf]
      have huniq : ∀ s ∈ c.sources, s.name = t → s = s0 := by
        intro s hs hst
        have hnd := hd c List.mem_cons_self
        exact List.inj_on_of_nodup_map hnd hs hm (hst.trans hn.symm)
      rw [he]
      constructor
      · intro d s
        constructor
        · intro h
          injection h with h
          injection h with h1 h2
          subst h1 h2
          refine ⟨Nat.le_refl _, ⟨⟨c, by simp, hm, hn⟩, fun i c' hi => by omega⟩⟩
        · rintro ⟨h1, ⟨x, hx, hs, hst⟩, h3⟩
          cases hd' : d - n with
          | zero =>
            rw [hd'] at hx
            simp only [List.getElem?_cons_zero, Option.some.injEq] at hx
            subst hx
            have : d = n := by omega
            subst this
            rw [huniq s hs hst]
          | succ m =>
            exact absurd hn (h3 0 c (by omega) (by simp) s0 hm)
      · constructor
        · intro h; cases h
        · intro h; exact absurd hn (h c List.mem_cons_self s0 hm)

end Mutable.Sema
