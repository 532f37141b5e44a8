import Verif.Insert.Spec
import Verif.StackMachine.Props

namespace Mutable.Ins

open SM Layout

/-! ### Positions of visible columns -/

/-- Number of visible columns before position `i`. -/
def vcount (cols : List Col) (i : Nat) : Nat := (cols.take i).countP (fun c => !c.hidden)

theorem vcount_zero (cols : List Col) : vcount cols 0 = 0 := by simp [vcount]

theorem vcount_succ {cols : List Col} {i : Nat} (hi : i < cols.length) :
    vcount cols (i + 1) = vcount cols i + if (cols.getD i noCol).hidden then 0 else 1 := by
  unfold vcount
  rw [List.take_succ, List.getElem?_eq_getElem hi, List.countP_append, List.getD_eq_getElem?_getD,
    List.getElem?_eq_getElem hi]
  simp only [Option.toList, Option.getD]
  by_cases h : (cols[i]).hidden = true <;> simp [List.countP_cons, h]

theorem vcount_le (cols : List Col) (i : Nat) : vcount cols i ≤ i :=
  (List.countP_le_length).trans (by simp)

theorem vcount_mono (cols : List Col) {i j : Nat} (h : i ≤ j) : vcount cols i ≤ vcount cols j := by
  unfold vcount
  exact (List.take_prefix_take_left h).sublist.countP_le

theorem vcount_cons (c : Col) (cs : List Col) (i : Nat) :
    vcount (c :: cs) (i + 1) = (if c.hidden then 0 else 1) + vcount cs i := by
  unfold vcount
  rw [List.take_succ_cons, List.countP_cons]
  cases c.hidden <;> simp; omega

theorem vcount_visible {cols : List Col} {p : Nat} (hp : p < cols.length) (hv : (cols.getD p noCol).hidden = false) :
    (visible cols)[vcount cols p]? = some (cols.getD p noCol) := by
  induction cols generalizing p with
  | nil => simp at hp
  | cons c cs ih =>
    cases p with
    | zero =>
      simp only [List.getD_cons_zero] at hv ⊢
      simp [visible, hv, vcount_zero]
    | succ p =>
      simp only [List.getD_cons_succ] at hv ⊢
      have := ih (by simpa using hp) hv
      rw [vcount_cons]
      cases hc : c.hidden with
      | true => simpa [visible, hc] using this
      | false =>
        have e : visible (c :: cs) = c :: visible cs := by simp [visible, hc]
        rw [e]
        simp only [Bool.false_eq_true, if_false]
        rw [Nat.add_comm]; simpa using this

theorem exists_pos {cols : List Col} {j : Nat} (hj : j < (visible cols).length) :
    ∃ p < cols.length, (cols.getD p noCol).hidden = false ∧ vcount cols p = j := by
  induction cols generalizing j with
  | nil => simp [visible] at hj
  | cons c cs ih =>
    cases hc : c.hidden with
    | true =>
      have e : visible (c :: cs) = visible cs := by simp [visible, hc]
      rw [e] at hj
      obtain ⟨p, h1, h2, h3⟩ := ih hj
      exact ⟨p + 1, by simpa using h1, by simpa using h2, by rw [vcount_cons, hc, h3]; simp⟩
    | false =>
      have e : visible (c :: cs) = c :: visible cs := by simp [visible, hc]
      rw [e] at hj
      cases j with
      | zero => exact ⟨0, by simp, by simpa using hc, vcount_zero _⟩
      | succ j =>
        obtain ⟨p, h1, h2, h3⟩ := ih (by simpa using hj)
        exact ⟨p + 1, by simpa using h1, by simpa using h2, by rw [vcount_cons, hc, h3]; simp; omega⟩

theorem vcount_inj {cols : List Col} {p q : Nat} (hp : p < cols.length) (hq : q < cols.length)
    (hpv : (cols.getD p noCol).hidden = false) (hqv : (cols.getD q noCol).hidden = false)
    (h : vcount cols p = vcount cols q) : p = q := by
  rcases Nat.lt_trichotomy p q with hlt | he | hlt
  · have := vcount_mono cols (Nat.succ_le_of_lt hlt)
    rw [Nat.succ_eq_add_one, vcount_succ hp, hpv] at this
    simp at this; omega
  · exact he
  · have := vcount_mono cols (Nat.succ_le_of_lt hlt)
    rw [Nat.succ_eq_add_one, vcount_succ hq, hqv] at this
    simp at this; omega

theorem convertLoop_eq {cols : List Col} {p : Nat} (hp : p < cols.length) (hv : (cols.getD p noCol).hidden = false) :
    ∀ (f i : Nat), i ≤ p + 1 → p + 1 ≤ i + f →
      convertLoop cols f i (vcount cols p + (i - vcount cols i)) = p := by
  intro f
  induction f with
  | zero =>
    intro i h1 h2
    have : i = p + 1 := by omega
    subst this
    rw [convertLoop, vcount_succ hp, hv]
    have := vcount_le cols p
    simp; omega
  | succ f ih =>
    intro i h1 h2
    rw [convertLoop]
    by_cases hi : i ≤ p
    · have hm := vcount_mono cols hi
      have hm' := vcount_le cols i
      rw [if_pos (by omega)]
      have hil : i < cols.length := by omega
      have := ih (i + 1) (by omega) (by omega)
      rw [vcount_succ hil] at this
      cases hh : (cols.getD i noCol).hidden with
      | true =>
        rw [hh] at this
        simp only [if_true, Nat.add_zero] at this ⊢
        rw [show vcount cols p + (i - vcount cols i) + 1 = vcount cols p + (i + 1 - vcount cols i) by omega]
        exact this
      | false =>
        rw [hh] at this
        simp only [Bool.false_eq_true, if_false] at this ⊢
        rw [show vcount cols p + (i - vcount cols i) = vcount cols p + (i + 1 - (vcount cols i + 1)) by omega]
        exact this
    · have : i = p + 1 := by omega
      subst this
      have hm' := vcount_le cols p
      rw [vcount_succ hp, hv]
      simp only [Bool.false_eq_true, if_false]
      rw [show vcount cols p + (p + 1 - (vcount cols p + 1)) = p by omega, if_neg (by omega)]

/-- `convert_id` finds the visible column of a given rank. -/
theorem convertId_eq {cols : List Col} {p : Nat} (hp : p < cols.length) (hv : (cols.getD p noCol).hidden = false) :
    convertId cols (vcount cols p) = p := by
  have := convertLoop_eq hp hv (cols.length + vcount cols p + 1) 0 (by omega) (by omega)
  simpa [convertId, vcount_zero] using this

/-! ### Casts -/

def castD (M : Mach) (to_ from_ : ETy) : Den :=
  match from_, to_ with
  | .num false _, .num false _ => fun S => .ok S
  | .num false _, .num true s => (ldD (factor s)).seq (step M .mulI)
  | .num true s, .num false _ => (ldD (factor s)).seq (step M .divI)
  | .num true s, .num true s' =>
    if s' = s then fun S => .ok S
    else if s' > s then (ldD (factor (s' - s))).seq (step M .mulI)
    else (ldD (factor (s - s'))).seq (step M .divI)
  | .bool, .num _ _ => step M .castIB
  | _, _ => fun S => .ok S

theorem emitCast_ext (M : Mach) (c : CS) (to_ from_ : ETy) : Ext M c (emitCast c to_ from_) (castD M to_ from_) := by
  have hl : ∀ v o, Ext M c ((c.load v).emit o) ((ldD v).seq (step M o)) :=
    fun v o => (Ext.load M c v).trans (Ext.emit M _ o)
  cases from_ with
  | num d s =>
    cases to_ with
    | num d' s' =>
      cases d <;> cases d'
      · exact Ext.refl M c
      · exact hl _ _
      · exact hl _ _
      · simp only [emitCast, castD]
        split
        · exact Ext.refl M c
        · split
          · exact hl _ _
          · exact hl _ _
    | _ => cases d <;> exact Ext.refl M c
  | bool =>
    cases to_ with
    | num d' s' => exact Ext.emit M c _
    | _ => exact Ext.refl M c
  | _ => exact Ext.refl M c

theorem truncTo_id {s k : Nat} (z : ℤ) (h : s ≤ k) : truncTo k ((z : ℚ) / 10 ^ s) = z / 10 ^ s := by
  unfold truncTo
  rw [pow_split h z]
  have p : (10 : ℚ) ^ k ≠ 0 := by positivity
  rw [div_mul_cancel₀ _ p]
  have := tr_div (z * 10 ^ (k - s)) 1
  rw [Int.tdiv_one, Int.cast_one, div_one] at this
  rw [this]

theorem truncTo_cut {s k : Nat} (z : ℤ) (h : k ≤ s) :
    truncTo k ((z : ℚ) / 10 ^ s) = ((z.tdiv (10 ^ (s - k)) : ℤ) : ℚ) / 10 ^ k := by
  unfold truncTo
  have e : (z : ℚ) / 10 ^ s * 10 ^ k = (z : ℚ) / ((10 ^ (s - k) : ℤ) : ℚ) := by
    have e : (10 : ℚ) ^ s = 10 ^ (s - k) * 10 ^ k := by rw [← pow_add]; congr 1; omega
    push_cast
    rw [e]
    have p : (10 : ℚ) ^ k ≠ 0 := by positivity
    have p' : (10 : ℚ) ^ (s - k) ≠ 0 := by positivity
    field_simp
  rw [e, tr_div]

/-- What Sema accepts as a value for a column. -/
def Compat (c : Col) (t : ETy) : Prop :=
  match t, c.ty with
  | .bool, .bool => True
  | .str, .char _ _ => True
  | .date, .date => True
  | .date, .datetime => True
  | .num _ _, .int _ => True
  | .num _ _, .decimal _ => True
  | _, _ => False

theorem compat_of_ok {c : Col} {e : E} {dt : Bool} (h : valueOK c (.expr e dt) = true) : Compat c e.ty := by
  have h : (match e.ty, c.ty with
    | .bool, .bool => true
    | .str, .char _ _ => true
    | .date, .date => !dt
    | .date, .datetime => dt
    | .num _ _, .int _ => true
    | .num _ _, .decimal _ => true
    | _, _ => false) = true := h
  unfold Compat
  generalize e.ty = t at h ⊢
  generalize c.ty = u at h ⊢
  cases t <;> cases u <;> simp_all

attribute [local irreducible] factor

theorem cast_post {B : Prop} (M : Mach) {c : Col} {t : ETy} (hc : Compat c t) (hi : IntScale t)
    (h18 : c.digits - t.scale ≤ 18 ∧ t.scale - c.digits ≤ 18) {x : Slot} {o : Option SVal} (hx : Holds t x o) (S : List Slot) :
    Post B (fun y => Holds c.ety y (o.map (convert c))) S (castD M c.ety t (x :: S)) := by
  have numcase : ∀ d s, t = .num d s → ∀ d', c.ety = .num d' c.digits → (d' = false → c.digits = 0) →
      Post B (fun y => Holds c.ety y (o.map (convert c))) S (castD M c.ety t (x :: S)) := by
    intro d s ht d' hd' h0
    subst ht
    rw [hd']
    simp only [ETy.scale] at h18
    have hx' : HoldsN s x o := hx
    obtain ⟨x1, x2⟩ := x
    have up : s ≤ c.digits → ∀ y, HoldsN c.digits y o → HoldsN c.digits y (o.map (convert c)) := by
      intro hle y hy
      cases o with
      | none => exact hy
      | some v =>
        obtain ⟨h1, z, h2, h3⟩ := hx'
        have hv := h3 v rfl
        subst hv
        simp only [Option.map_some, convert]
        rw [truncTo_id z hle]; exact hy
    have down : c.digits ≤ s → ∀ z, x1 = .i z → HoldsN c.digits (.i (z.tdiv (10 ^ (s - c.digits))), x2) (o.map (convert c)) := by
      intro hle z hz
      obtain ⟨h1, z', h2, h3⟩ := hx'
      simp only at h1 h2
      rw [hz] at h2; cases h2
      refine ⟨by simp [h1], _, rfl, ?_⟩
      intro v hv
      cases o with
      | none => cases hv
      | some w =>
        have := h3 w rfl
        subst this
        simp only [Option.map_some, Option.some.injEq, convert] at hv
        rw [← hv, truncTo_cut z hle]
    obtain ⟨n, z, hz⟩ := hx'.split.1
    cases hz
    unfold castD
    cases d with
    | false =>
      have hs0 : s = 0 := hi
      subst hs0
      cases d' with
      | false =>
        rw [h0 rfl] at up ⊢
        exact ⟨_, rfl, up (by omega) _ hx'⟩
      | true =>
        have := mulF_post (B := B) M (k := c.digits) (by omega) hx' S
        rw [Nat.zero_add] at this
        exact this.mono (up (by omega))
    | true =>
      cases d' with
      | false =>
        have e0 := h0 rfl
        refine divF_post (by omega) S rfl ?_
        have := down (by omega) z rfl
        rw [e0] at this ⊢
        exact this
      | true =>
        simp only
        by_cases h1 : c.digits = s
        · rw [if_pos h1]
          exact ⟨_, rfl, up (by omega) _ (by rw [h1]; exact hx')⟩
        · rw [if_neg h1]
          by_cases h2 : c.digits > s
          · rw [if_pos h2]
            have := mulF_post (B := B) M (k := c.digits - s) (by omega) hx' S
            rw [show s + (c.digits - s) = c.digits by omega] at this
            exact this.mono (up (by omega))
          · rw [if_neg h2]
            exact divF_post (by omega) S rfl (down (by omega) z rfl)
  have same : c.ety = t → (∀ v, o = some v → convert c v = v) →
      castD M c.ety t = (fun S => .ok S) → Post B (fun y => Holds c.ety y (o.map (convert c))) S (castD M c.ety t (x :: S)) := by
    intro h1 h2 h3
    rw [h3]
    refine ⟨x, rfl, ?_⟩
    rw [h1]
    have : o.map (convert c) = o := by
      cases o with
      | none => rfl
      | some v => simp [h2 v rfl]
    rw [this]; exact hx
  unfold Compat at hc
  split at hc
  · rename_i h
    refine same (by simp [Col.ety, h]) ?_ (by simp [Col.ety, h, castD])
    intro v hv
    obtain ⟨b, -, rfl⟩ := hx.2 v hv
    rfl
  · rename_i h
    refine same (by simp [Col.ety, h]) ?_ (by simp [Col.ety, h, castD])
    intro v hv
    obtain ⟨t, -, h3⟩ := hx.2
    rw [h3 v hv]; rfl
  · rename_i h
    refine same (by simp [Col.ety, h]) ?_ (by simp [Col.ety, h, castD])
    intro v hv
    obtain ⟨t, -, h3⟩ := hx.2
    rw [h3 v hv]; rfl
  · rename_i h
    refine same (by simp [Col.ety, h]) ?_ (by simp [Col.ety, h, castD])
    intro v hv
    obtain ⟨t, -, h3⟩ := hx.2
    rw [h3 v hv]; rfl
  · rename_i d s p h
    exact numcase d s rfl false (by simp [Col.ety, Col.digits, h]) (by simp [Col.digits, h])
  · rename_i d s p h
    exact numcase d s rfl true (by simp [Col.ety, Col.digits, h]) (by simp)
  · exact hc.elim

end Mutable.Ins
