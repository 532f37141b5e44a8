import Verif.Pool.Model
/-! Invariants of the pool. -/
namespace Mutable.Pool
variable {V : Type}

/-- Does the object in this slot refer to node `n`? -/
def refsTo (n : Nat) : Option Handle → Bool
  | some h => h.ref == some n
  | none => false

namespace Core

/-- Number of live handles that refer to node `n`. -/
def live (c : Core V) (n : Nat) : Nat := c.slots.countP (refsTo n)

/-- Counters agree with the live handles, and handles refer to nodes. -/
structure CntInv (c : Core V) : Prop where
  refs : ∀ i h n, c.handle i = some h → h.ref = some n → n < c.tab.length
  cnt : ∀ (n : Nat) (e : Node V), c.tab[n]? = some e → e.cnt = c.live n % 4294967296

/-- The keys are pairwise different and all come from calls. -/
structure KeyInv (eq : V → V → Bool) (c : Core V) : Prop where
  uniq : ∀ (m n : Nat) (a b : Node V), c.tab[m]? = some a → c.tab[n]? = some b → eq a.val b.val = true → m = n
  got : ∀ (v : V) (n : Nat), (v, n) ∈ c.got → ∃ e : Node V, c.tab[n]? = some e ∧ eq e.val v = true
  src : ∀ n, n < c.tab.length → ∃ v, (v, n) ∈ c.got

/-- The values of a table stay the same (entries may be added). -/
def Keeps (c c' : Core V) : Prop := ∀ (n : Nat) (e : Node V), c.tab[n]? = some e → ∃ e' : Node V, c'.tab[n]? = some e' ∧ e'.val = e.val

theorem Keeps.refl (c : Core V) : Keeps c c := fun _ e h => ⟨e, h, rfl⟩
theorem Keeps.trans {a b c : Core V} (h : Keeps a b) (h' : Keeps b c) : Keeps a c := fun n e he => by
  obtain ⟨e1, h1, h2⟩ := h n e he
  obtain ⟨e3, h3, h4⟩ := h' n e1 h1
  exact ⟨e3, h3, h4.trans h2⟩

/-- Same values, same calls. -/
def SameKeys (c c' : Core V) : Prop := c'.tab.map Node.val = c.tab.map Node.val ∧ c'.got = c.got

theorem SameKeys.trans {a b c : Core V} (h : SameKeys a b) (h' : SameKeys b c) : SameKeys a c :=
  ⟨h'.1.trans h.1, h'.2.trans h.2⟩

theorem val_of_map {l l' : List (Node V)} (h : l'.map Node.val = l.map Node.val) {n : Nat} {e : Node V}
    (he : l[n]? = some e) : ∃ e' : Node V, l'[n]? = some e' ∧ e'.val = e.val := by
  have := congrArg (fun x : List V => x[n]?) h
  simp only [List.getElem?_map, he, Option.map_some, Option.map_eq_some_iff] at this
  exact this

theorem SameKeys.keeps {c c' : Core V} (h : SameKeys c c') : Keeps c c' := fun _ _ he => val_of_map h.1 he

theorem KeyInv.same {eq : V → V → Bool} {c c' : Core V} (hk : KeyInv eq c) (h : SameKeys c c') : KeyInv eq c' := by
  have hl : c'.tab.length = c.tab.length := by simpa using congrArg List.length h.1
  refine ⟨fun m n a b ha hb hab => ?_, fun v n hv => ?_, fun n hn => ?_⟩
  · obtain ⟨a', ha', ea⟩ := val_of_map h.1.symm ha
    obtain ⟨b', hb', eb⟩ := val_of_map h.1.symm hb
    exact hk.uniq m n a' b' ha' hb' (by rw [ea, eb]; exact hab)
  · obtain ⟨e, h1, h2⟩ := hk.got v n (h.2 ▸ hv)
    obtain ⟨e', h3, h4⟩ := val_of_map h.1 h1
    exact ⟨e', h3, by rw [h4]; exact h2⟩
  · rw [h.2]; exact hk.src n (hl ▸ hn)

/-! ### Counting -/

theorem handle_lt {c : Core V} {i : Nat} {h : Handle} (hh : c.handle i = some h) :
    ∃ hi : i < c.slots.length, c.slots[i] = some h := by
  unfold handle at hh
  rcases hs : c.slots[i]? with _ | s
  · rw [hs] at hh; simp at hh
  · rw [hs] at hh
    obtain ⟨hi, e⟩ := List.getElem?_eq_some_iff.1 hs
    exact ⟨hi, by rw [e]; simpa using hh⟩

theorem live_put (c : Core V) {i : Nat} {h : Handle} (hh : c.handle i = some h) (x : Option Handle) (n : Nat) :
    (c.put i x).live n + (if h.ref = some n then 1 else 0) = c.live n + if refsTo n x then 1 else 0 := by
  obtain ⟨hi, e⟩ := handle_lt hh
  unfold live put
  rw [List.countP_set hi, e]
  have hle : (if refsTo n (some h) = true then 1 else 0) ≤ c.slots.countP (refsTo n) := by
    split
    · next ht => exact List.countP_pos_iff.2 ⟨some h, by rw [← e]; exact List.getElem_mem hi, ht⟩
    · omega
  simp only [refsTo, beq_iff_eq] at hle ⊢
  split at hle <;> rename_i h1 <;> simp only [h1, if_true, if_false] <;> omega

theorem live_push (c : Core V) (h : Handle) (n : Nat) :
    (c.push h).live n = c.live n + if h.ref = some n then 1 else 0 := by
  simp [live, push, List.countP_append, List.countP_cons, refsTo]

theorem live_upd (c : Core V) (m : Nat) (f : Nat → Nat) (n : Nat) : (c.upd m f).live n = c.live n := rfl

theorem handle_put (c : Core V) (i j : Nat) (x : Option Handle) (hi : i < c.slots.length) :
    (c.put i x).handle j = if i = j then x else c.handle j := by
  unfold handle put
  by_cases h : i = j
  · subst h; simp [hi]
  · simp [h]

theorem handle_push (c : Core V) (h : Handle) (j : Nat) :
    (c.push h).handle j = if j = c.slots.length then some h else c.handle j := by
  unfold handle push
  by_cases hj : j = c.slots.length
  · subst hj; simp
  · rw [if_neg hj]
    rcases Nat.lt_or_ge j c.slots.length with h1 | h1
    · rw [List.getElem?_append_left h1]
    · have h2 : c.slots.length < j := by omega
      simp [List.getElem?_append_right h1, List.getElem?_eq_none_iff.2 h1,
        show j - c.slots.length ≠ 0 by omega]

theorem tab_upd (c : Core V) (m : Nat) (f : Nat → Nat) (n : Nat) :
    (c.upd m f).tab[n]? = (c.tab[n]?).map fun e => if m = n then { e with cnt := f e.cnt } else e := by
  unfold upd
  simp only [List.getElem?_modify]
  rcases c.tab[n]? with _ | e
  · rfl
  · simp

theorem handle_upd (c : Core V) (m : Nat) (f : Nat → Nat) (i : Nat) : (c.upd m f).handle i = c.handle i := rfl
theorem len_upd (c : Core V) (m : Nat) (f : Nat → Nat) : (c.upd m f).tab.length = c.tab.length := by simp [upd]
theorem same_upd (c : Core V) (m : Nat) (f : Nat → Nat) : SameKeys c (c.upd m f) := by
  refine ⟨List.ext_getElem? fun n => ?_, rfl⟩
  simp only [List.getElem?_map, tab_upd]
  rcases c.tab[n]? with _ | e
  · rfl
  · simp only [Option.map_some]; split <;> rfl
theorem same_put (c : Core V) (i : Nat) (x : Option Handle) : SameKeys c (c.put i x) := ⟨rfl, rfl⟩
theorem same_push (c : Core V) (x : Handle) : SameKeys c (c.push x) := ⟨rfl, rfl⟩

/-- A new handle referring to an existing node, with `++` of its counter. -/
theorem cnt_give {c : Core V} (hc : CntInv c) {n : Nat} (hn : n < c.tab.length) (o : Bool) :
    CntInv ((c.upd n inc32).push ⟨o, some n⟩) := by
  refine ⟨fun i h m hh hr => ?_, fun m e he => ?_⟩
  · change m < (c.upd n inc32).tab.length
    rw [len_upd]
    rw [handle_push] at hh
    split at hh
    · cases hh; cases hr; exact hn
    · exact hc.refs i h m hh hr
  · rw [live_push, live_upd]
    change (c.upd n inc32).tab[m]? = some e at he
    rw [tab_upd, Option.map_eq_some_iff] at he
    obtain ⟨e0, h0, rfl⟩ := he
    have := hc.cnt m e0 h0
    by_cases hnm : n = m
    · subst hnm
      simp only [if_true, inc32, this]; omega
    · simp only [hnm, if_false, Option.some.injEq, this, Nat.add_zero]

/-- A new null handle. -/
theorem cnt_push_none {c : Core V} (hc : CntInv c) (o : Bool) : CntInv (c.push ⟨o, none⟩) := by
  refine ⟨fun i h m hh hr => ?_, fun m e he => ?_⟩
  · rw [handle_push] at hh
    split at hh
    · cases hh; cases hr
    · exact hc.refs i h m hh hr
  · rw [live_push]; simpa using hc.cnt m e he

theorem construct_inv {c c' : Core V} {o : Bool} {r : Option Nat} (hc : CntInv c)
    (hr : ∀ n, r = some n → n < c.tab.length) (h : c.construct o r = some c') : CntInv c' ∧ SameKeys c c' := by
  unfold construct at h
  split at h
  · next n => cases h; exact ⟨cnt_give hc (hr n rfl) o, (same_upd c n inc32).trans (same_push _ _)⟩
  · split at h
    · cases h; exact ⟨cnt_push_none hc o, same_push c _⟩
    · cases h

theorem copy_inv {c c' : Core V} {i : Nat} {o : Bool} (hc : CntInv c) (h : c.copy i o = some c') :
    CntInv c' ∧ SameKeys c c' := by
  unfold copy at h
  split at h
  · cases h
  · next hd hh =>
    have hr : ∀ n, hd.ref = some n → n < c.tab.length := fun n => hc.refs i hd n hh
    split at h
    · exact construct_inv hc hr h
    · split at h
      · exact construct_inv hc hr h
      · cases h

theorem move_inv {c c' : Core V} {i : Nat} {o : Bool} (hc : CntInv c) (h : c.move i o = some c') :
    CntInv c' ∧ SameKeys c c' := by
  unfold move at h
  split at h
  · cases h
  · next hd hh =>
    split at h
    · cases h
      refine ⟨⟨fun j x m hx hm => ?_, fun m e he => ?_⟩, (same_put c i _).trans (same_push _ _)⟩
      · rw [handle_push, handle_put _ _ _ _ (handle_lt hh).1] at hx
        split at hx
        · cases hx; exact hc.refs i hd m hh hm
        · split at hx
          · cases hx; cases hm
          · exact hc.refs j x m hx hm
      · rw [live_push]
        have h1 := live_put c hh (some ⟨hd.opt, none⟩) m
        simp only [refsTo, beq_iff_eq, reduceCtorEq, if_false, Nat.add_zero] at h1
        simp only at h1 ⊢
        rw [h1]
        exact hc.cnt m e he
    · cases h

theorem swap_inv {c c' : Core V} {i j : Nat} (hc : CntInv c) (h : c.swap i j = some c') :
    CntInv c' ∧ SameKeys c c' := by
  unfold swap at h
  split at h
  · next a b ha hb =>
    split at h
    · cases h
      have hi := (handle_lt ha).1
      have hj := (handle_lt hb).1
      refine ⟨⟨fun k x m hx hm => ?_, fun m e he => ?_⟩, (same_put c i _).trans (same_put _ j _)⟩
      · rw [handle_put _ _ _ _ (by simpa [put] using hj), handle_put _ _ _ _ hi] at hx
        split at hx
        · cases hx; exact hc.refs i a m ha hm
        · split at hx
          · cases hx; exact hc.refs j b m hb hm
          · exact hc.refs k x m hx hm
      · have h1 := live_put c ha (some ⟨a.opt, b.ref⟩) m
        have e2 : (c.put i (some ⟨a.opt, b.ref⟩)).handle j = some ⟨b.opt, b.ref⟩ := by
          rw [handle_put _ _ _ _ hi]
          split
          · next hij => subst hij; rw [ha] at hb; cases hb; rfl
          · exact hb
        have h2 := live_put _ e2 (some ⟨b.opt, a.ref⟩) m
        simp only [refsTo, beq_iff_eq] at h1 h2
        have : ((c.put i (some ⟨a.opt, b.ref⟩)).put j (some ⟨b.opt, a.ref⟩)).live m = c.live m := by omega
        rw [this]; exact hc.cnt m e he
    · cases h
  · cases h

theorem destroy_inv {c c' : Core V} {i : Nat} (hc : CntInv c) (h : c.destroy i = some c') :
    CntInv c' ∧ SameKeys c c' := by
  unfold destroy at h
  split at h
  · cases h
  · next hd hh =>
    have hi := (handle_lt hh).1
    split at h
    · next hr =>
      cases h
      refine ⟨⟨fun k x m hx hm => ?_, fun m e he => ?_⟩, same_put c i _⟩
      · rw [handle_put _ _ _ _ (by exact hi)] at hx
        split at hx
        · cases hx
        · exact hc.refs k x m hx hm
      · have h1 := live_put c hh none m
        simp only [hr, refsTo, reduceCtorEq, Bool.false_eq_true, if_false, Nat.add_zero] at h1
        rw [h1]; exact hc.cnt m e he
    · next n hr =>
      split at h
      · cases h
      · next e0 he0 =>
        split at h
        · next hpos =>
          cases h
          refine ⟨⟨fun k x m hx hm => ?_, fun m e he => ?_⟩, (same_upd c n dec32).trans (same_put _ i _)⟩
          · change m < (c.upd n dec32).tab.length
            rw [len_upd]
            rw [handle_put (c.upd n dec32) _ _ _ hi] at hx
            split at hx
            · cases hx
            · exact hc.refs k x m hx hm
          · have h1 := live_put (c.upd n dec32) hh none m
            simp only [hr, refsTo, Bool.false_eq_true, if_false, Nat.add_zero, live_upd, Option.some.injEq] at h1
            change (c.upd n dec32).tab[m]? = some e at he
            rw [tab_upd, Option.map_eq_some_iff] at he
            obtain ⟨e1, h2, rfl⟩ := he
            have := hc.cnt m e1 h2
            by_cases hnm : n = m
            · subst hnm
              simp only [if_true] at h1 ⊢
              rw [h2] at he0; cases he0
              simp only [dec32]
              omega
            · simp only [hnm, if_false, Nat.add_zero] at h1 ⊢
              rw [h1]; exact this
        · cases h

theorem op_inv {c c' : Core V} {o : HOp} (hc : CntInv c) (h : o.run c = some c') : CntInv c' ∧ SameKeys c c' := by
  cases o with
  | default_ => cases h; exact ⟨cnt_push_none hc true, same_push c _⟩
  | copy i o => exact copy_inv hc h
  | move i o => exact move_inv hc h
  | swap i j => exact swap_inv hc h
  | destroy i => exact destroy_inv hc h
  | assign i j =>
    change c.assign i j = some c' at h
    unfold assign at h
    split at h
    · cases h
    · simp only [Option.bind_eq_some_iff] at h
      obtain ⟨c1, h1, c2, h2, h3⟩ := h
      obtain ⟨i1, k1⟩ := copy_inv hc h1
      obtain ⟨i2, k2⟩ := swap_inv i1 h2
      obtain ⟨i3, k3⟩ := destroy_inv i2 h3
      exact ⟨i3, (k1.trans k2).trans k3⟩

/-! ### Interning -/

/-- `KeyEqual` is an equivalence. -/
structure IsEqv (eq : V → V → Bool) : Prop where
  refl : ∀ a, eq a a = true
  symm : ∀ a b, eq a b = true → eq b a = true
  trans : ∀ a b c, eq a b = true → eq b c = true → eq a c = true

theorem find_some {c : Core V} {eq : V → V → Bool} {v : V} {n : Nat} (h : c.find eq v = some n) :
    ∃ e : Node V, c.tab[n]? = some e ∧ eq e.val v = true := by
  unfold find at h
  rw [List.findIdx?_eq_some_iff_getElem] at h
  obtain ⟨hn, h1, _⟩ := h
  exact ⟨c.tab[n], List.getElem?_eq_getElem hn, h1⟩

theorem find_none {c : Core V} {eq : V → V → Bool} {v : V} (h : c.find eq v = none) {n : Nat} {e : Node V}
    (he : c.tab[n]? = some e) : eq e.val v = false := by
  unfold find at h
  rw [List.findIdx?_eq_none_iff] at h
  exact h e (List.mem_of_getElem? he)

theorem find_none_of {c : Core V} {eq : V → V → Bool} {v : V}
    (h : ∀ (n : Nat) (e : Node V), c.tab[n]? = some e → eq e.val v = false) : c.find eq v = none := by
  unfold find
  rw [List.findIdx?_eq_none_iff]
  intro x hx
  obtain ⟨n, hn⟩ := List.mem_iff_getElem?.1 hx
  exact h n x hn

theorem give_found {c : Core V} {eq : V → V → Bool} (hc : CntInv c) (hk : KeyInv eq c) {v : V} {n : Nat}
    (h : c.find eq v = some n) : CntInv (c.give v n) ∧ KeyInv eq (c.give v n) ∧ Keeps c (c.give v n) := by
  obtain ⟨e, he, hv⟩ := find_some h
  have hn : n < c.tab.length := (List.getElem?_eq_some_iff.1 he).1
  have hs := ((same_upd c n inc32).trans (same_push _ ⟨false, some n⟩))
  have hk' := hk.same hs
  have hcnt : CntInv (c.give v n) := by
    have := cnt_give hc hn false
    exact ⟨this.refs, this.cnt⟩
  refine ⟨hcnt, ⟨hk'.uniq, fun w m hw => ?_, fun m hm => ?_⟩, hs.keeps⟩
  · rcases List.mem_append.1 hw with hw | hw
    · exact hk'.got w m hw
    · simp only [List.mem_singleton, Prod.mk.injEq] at hw
      obtain ⟨rfl, rfl⟩ := hw
      obtain ⟨e', h1, h2⟩ := hs.keeps m e he
      exact ⟨e', h1, by rw [h2]; exact hv⟩
  · obtain ⟨w, hw⟩ := hk'.src m hm
    exact ⟨w, List.mem_append_left _ hw⟩

theorem emplace_cnt {c : Core V} (hc : CntInv c) (v : V) : CntInv (c.emplace v) := by
  refine ⟨fun i h n hh hr => ?_, fun n e he => ?_⟩
  · have := hc.refs i h n hh hr
    simp [emplace]; omega
  · change (c.tab ++ [(⟨v, 0⟩ : Node V)])[n]? = some e at he
    change e.cnt = c.live n % 4294967296
    rw [List.getElem?_append] at he
    split at he
    · exact hc.cnt n e he
    · next hn =>
      have : c.live n = 0 := by
        unfold live
        rw [List.countP_eq_zero]
        intro x hx hp
        rcases x with _ | h
        · simp [refsTo] at hp
        · obtain ⟨i, hi⟩ := List.mem_iff_getElem?.1 hx
          have := hc.refs i h n (by simp [handle, hi]) (by simpa [refsTo] using hp)
          omega
      have : e.cnt = 0 := by
        have hz : n - c.tab.length = 0 := by
          by_contra hne
          rw [List.getElem?_eq_none_iff.2 (by simp; omega)] at he
          cases he
        rw [hz] at he; simp at he; rw [← he]
      simp [*]

theorem give_new {c : Core V} {eq : V → V → Bool} (he : IsEqv eq) (hc : CntInv c) (hk : KeyInv eq c) {v : V}
    (h : c.find eq v = none) : CntInv ((c.emplace v).give v c.tab.length) ∧
      KeyInv eq ((c.emplace v).give v c.tab.length) ∧ Keeps c ((c.emplace v).give v c.tab.length) := by
  have hl : c.tab.length < (c.emplace v).tab.length := by simp [emplace]
  have hs : SameKeys (c.emplace v) (((c.emplace v).upd c.tab.length inc32).push ⟨false, some c.tab.length⟩) :=
    (same_upd _ _ _).trans (same_push _ _)
  have hkeep : Keeps c (c.emplace v) := fun n e hn =>
    ⟨e, by simp [emplace, List.getElem?_append_left (List.getElem?_eq_some_iff.1 hn).1, hn], rfl⟩
  have hnew : (c.emplace v).tab[c.tab.length]? = some ⟨v, 0⟩ := by simp [emplace]
  have hcase : ∀ (n : Nat) (e : Node V), (c.emplace v).tab[n]? = some e → c.tab[n]? = some e ∨ n = c.tab.length ∧ e.val = v := by
    intro n e hn
    change (c.tab ++ [(⟨v, 0⟩ : Node V)])[n]? = some e at hn
    rw [List.getElem?_append] at hn
    split at hn
    · exact .inl hn
    · next hnl =>
      right
      have hz : n - c.tab.length = 0 := by
        by_contra hne
        rw [List.getElem?_eq_none_iff.2 (by simp; omega)] at hn
        cases hn
      rw [hz] at hn; simp at hn
      exact ⟨by omega, by rw [← hn]⟩
  have hcnt : CntInv ((c.emplace v).give v c.tab.length) := by
    have := cnt_give (emplace_cnt hc v) hl false
    exact ⟨this.refs, this.cnt⟩
  have huniq : ∀ (m n : Nat) (a b : Node V), (c.emplace v).tab[m]? = some a → (c.emplace v).tab[n]? = some b → eq a.val b.val = true →
      m = n := by
    intro m n a b ha hb hab
    rcases hcase m a ha with h1 | ⟨h1, h1'⟩ <;> rcases hcase n b hb with h2 | ⟨h2, h2'⟩
    · exact hk.uniq m n a b h1 h2 hab
    · rw [h2'] at hab; rw [find_none h h1] at hab; cases hab
    · rw [h1'] at hab; have := he.symm _ _ hab; rw [find_none h h2] at this; cases this
    · omega
  refine ⟨hcnt, ⟨fun m n a b ha hb hab => ?_, fun w m hw => ?_, fun m hm => ?_⟩, hkeep.trans hs.keeps⟩
  · obtain ⟨a', ha', ea⟩ := val_of_map hs.1.symm ha
    obtain ⟨b', hb', eb⟩ := val_of_map hs.1.symm hb
    exact huniq m n a' b' ha' hb' (by rw [ea, eb]; exact hab)
  · rcases List.mem_append.1 hw with hw | hw
    · obtain ⟨e, h1, h2⟩ := hk.got w m hw
      obtain ⟨e', h3, h4⟩ := (hkeep.trans hs.keeps) m e h1
      exact ⟨e', h3, by rw [h4]; exact h2⟩
    · simp only [List.mem_singleton, Prod.mk.injEq] at hw
      obtain ⟨rfl, rfl⟩ := hw
      obtain ⟨e', h1, h2⟩ := hs.keeps _ _ hnew
      exact ⟨e', h1, by rw [h2]; exact he.refl _⟩
  · change m < ((c.emplace v).upd c.tab.length inc32).tab.length at hm
    rw [len_upd] at hm
    rcases Nat.lt_or_ge m c.tab.length with h1 | h1
    · obtain ⟨w, hw⟩ := hk.src m h1
      exact ⟨w, List.mem_append_left _ hw⟩
    · have : m = c.tab.length := by simp [emplace] at hm; omega
      exact ⟨v, List.mem_append_right _ (by simp [this])⟩

theorem init_inv (eq : V → V → Bool) : CntInv ({} : Core V) ∧ KeyInv eq ({} : Core V) := by
  refine ⟨⟨?_, ?_⟩, ⟨?_, ?_, ?_⟩⟩ <;> simp [handle]

theorem reach1_inv {eq : V → V → Bool} (he : IsEqv eq) {c : Core V} (h : Reach1 eq c) : CntInv c ∧ KeyInv eq c := by
  induction h with
  | init => exact init_inv eq
  | @intern c v _ ih =>
    unfold intern
    generalize hf : c.find eq v = r
    cases r with
    | some n => have := give_found ih.1 ih.2 hf; exact ⟨this.1, this.2.1⟩
    | none => have := give_new he ih.1 ih.2 hf; exact ⟨this.1, this.2.1⟩
  | op o _ ho ih => have := op_inv ih.1 ho; exact ⟨this.1, ih.2.same this.2⟩

end Core
end Mutable.Pool
