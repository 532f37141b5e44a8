import Verif.WasmStr.Cmp3
/-! # Copying and concatenation -/
namespace Mutable.WStr

/-- The value of a string from its bytes: the list `v` has no NUL, its bytes are those of the memory, and then comes a NUL or the end. -/
theorem val_unique (s : NChar) (v : List Byte) (hn : NoNul v) (hl : v.length ≤ s.length) (hm : ∀ i (h : i < v.length), s.mem i = v[i])
    (he : v.length = s.length ∨ s.mem v.length = 0) : s.val = v := by
  have h1 : ¬ s.val.length < v.length := by
    intro h
    rcases val_end s with h' | h'
    · omega
    · rw [hm _ h] at h'
      exact hn _ (List.getElem_mem h) h'
  have h2 : ¬ v.length < s.val.length := by
    intro h
    rcases he with h' | h'
    · have := val_len s; omega
    · exact (val_get s h).2 h'
  refine List.ext_getElem (by omega) fun i h3 h4 => ?_
  rw [(val_get s h3).1, hm i h4]

theorem strncpy_spec (fuel : Nat) (out : Nat → Byte) (dst : Nat) (s : NChar) (hf : s.length + 2 ≤ fuel) :
    ∃ out', strncpy fuel out dst s.mem s.length = some (out', dst + s.val.length) ∧ (∀ i, i < dst → out' i = out i) ∧
      (∀ i (h : i < s.val.length), out' (dst + i) = s.val[i]) ∧ (s.val.length < s.length → out' (dst + s.val.length) = 0) := by
  obtain ⟨x, h1, h2, h3⟩ := loopW_spec (cond := fun (t : CpySt) => !t.done && decide (t.src ≠ s.length)) (body := cpyBody s.mem)
    (fun t => t.src ≤ s.val.length ∧ t.dst = dst + t.src ∧ (∀ i, i < dst → t.out i = out i) ∧
      (∀ i, i < t.src → t.out (dst + i) = s.mem i) ∧ (t.done = true → t.src = s.val.length ∧ t.out (dst + t.src) = 0))
    (fun t => (if t.done then 0 else 1) + (s.length - t.src)) (by
      rintro ⟨d, c, o, dn⟩ ⟨i1, i2, i3, i4, i5⟩ hc
      simp only [Bool.and_eq_true, Bool.not_eq_true', decide_eq_true_eq] at hc
      obtain ⟨hd, hne⟩ := hc
      dsimp only at i1 i2 i3 i4 hd hne ⊢
      subst hd i2
      have := val_len s
      unfold cpyBody
      by_cases h0 : s.mem c = 0
      · have hcv : c = s.val.length := by
          by_contra hn
          exact (val_get s (i := c) (by omega)).2 h0
        simp only [h0, if_true]
        refine ⟨⟨by omega, trivial, fun i hi => ?_, fun i hi => ?_, fun _ => ⟨hcv, trivial⟩⟩, ?_⟩
        · rw [if_neg (by omega)]; exact i3 i hi
        · rw [if_neg (by omega)]; exact i4 i hi
        · simp
      · have hcv : c < s.val.length := by
          rcases Nat.lt_or_eq_of_le i1 with h | h
          · exact h
          · rcases val_end s with h' | h'
            · omega
            · rw [← h] at h'; exact absurd h' h0
        simp only [h0, if_false]
        refine ⟨⟨by omega, by omega, fun i hi => ?_, fun i hi => ?_, by simp⟩, ?_⟩
        · rw [if_neg (by omega)]; exact i3 i hi
        · by_cases hi' : i = c
          · subst hi'; simp
          · rw [if_neg (by omega)]; exact i4 i (by omega)
        · simp only [Bool.false_eq_true, if_false]; omega)
    ⟨dst, 0, out, false⟩ ⟨Nat.zero_le _, by simp, fun _ _ => rfl, fun _ h => absurd h (by simp), by simp⟩
  obtain ⟨i1, i2, i3, i4, i5⟩ := h2
  have hv := val_len s
  have hsrc : x.src = s.val.length := by
    by_cases hd : x.done = true
    · exact (i5 hd).1
    · simp [hd] at h3; omega
  refine ⟨x.out, ?_, i3, fun i hi => ?_, fun hlt => ?_⟩
  · unfold strncpy
    rw [h1 fuel (by simp only [Bool.false_eq_true, if_false]; omega)]
    simp only [Option.map_some, i2, hsrc]
  · rw [(val_get s hi).1]; exact i4 i (by omega)
  · by_cases hd : x.done = true
    · rw [← hsrc]; exact (i5 hd).2
    · simp [hd] at h3; omega

/-- The exact value of a concatenation. -/
theorem concat_spec (fresh : Nat → Byte) (l r : NChar) (hr : r.WF) (fuel : Nat) (hf : l.length + r.length + 3 ≤ fuel) :
    ∃ c, concat fuel fresh l r = some c ∧ c.varying = true ∧ c.WF ∧ c.length = l.length + r.length + 1 ∧
      c.val = if r.varying then l.val ++ r.val else l.val := by
  obtain ⟨m1, e1, -, b1, -⟩ := strncpy_spec fuel fresh 0 l (by omega)
  have hsz : r.size ≤ r.length + 1 := by unfold NChar.size; split <;> omega
  obtain ⟨m2, e2, a2, b2, c2⟩ := strncpy_spec fuel m1 (0 + l.val.length) ⟨r.mem, r.size, r.varying⟩ (by dsimp only; omega)
  dsimp only at e2 c2
  have vl := val_len l
  have vr := val_len r
  unfold concat
  rw [e1]
  simp only
  rw [e2]
  simp only
  refine ⟨_, rfl, rfl, ?_⟩
  by_cases hv : r.varying = true
  · have hrv : (⟨r.mem, r.size, r.varying⟩ : NChar).val = r.val := by
      refine val_unique _ r.val (val_noNul r) ?_ (fun i h => (val_get r h).1.symm) (Or.inr (val_lt_of_wf hr hv))
      show r.val.length ≤ r.size
      unfold NChar.size; rw [if_pos hv]; omega
    simp only [hrv] at a2 b2 c2
    have hsz2 : r.val.length < r.size := by unfold NChar.size; rw [if_pos hv]; omega
    have c2' := c2 hsz2
    have hval : ∀ n, l.length + r.length + 1 ≤ n → (⟨m2, n, true⟩ : NChar).val = l.val ++ r.val := by
      intro n hn
      refine val_unique _ _ ?_ (by simp; omega) (fun i h => ?_) (Or.inr ?_)
      · intro x hx
        rcases List.mem_append.1 hx with h | h
        · exact val_noNul l x h
        · exact val_noNul r x h
      · show m2 i = _
        by_cases hi : i < l.val.length
        · rw [List.getElem_append_left hi, a2 i (by omega)]
          have := b1 i hi
          rwa [Nat.zero_add] at this
        · rw [List.getElem_append_right (by omega)]
          have := b2 (i - l.val.length) (by simp at h; omega)
          rw [← this]
          congr 1; omega
      · show m2 _ = 0
        rw [List.length_append, ← c2']
        congr 1; omega
    rw [hv]
    refine ⟨fun _ => ⟨l.val.length + r.val.length, by show _ ≤ l.length + r.length + 1; omega, ?_⟩, rfl, ?_⟩
    · show m2 _ = 0
      rw [← c2']; congr 1; omega
    · simp only [Bool.not_true, Bool.false_eq_true, if_false, if_true]
      exact hval _ le_rfl
  · have hv' : r.varying = false := by simpa using hv
    rw [hv']
    simp only [Bool.not_false, if_true, Nat.zero_add, Bool.false_eq_true, if_false]
    refine ⟨fun _ => ⟨l.val.length, by show _ ≤ l.length + r.length + 1; omega, by simp⟩, trivial, ?_⟩
    refine val_unique _ _ (val_noNul l) (by show _ ≤ l.length + r.length + 1; omega) (fun i h => ?_) (Or.inr (by simp))
    show (if i = l.val.length then 0 else m2 i) = _
    rw [if_neg (by omega), a2 i (by omega)]
    have := b1 i h
    rwa [Nat.zero_add] at this

end Mutable.WStr
