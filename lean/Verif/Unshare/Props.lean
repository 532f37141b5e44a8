import Verif.Unshare.Lemmas
/-!
# C74: `unsharable_shared_ptr` — every object is owned, or was destroyed exactly once

For every program with finitely many variables of the two pointer types, and every sequence of statements.
-/
namespace Mutable.Unshare
variable {ι κ : Type} [DecidableEq ι] [DecidableEq κ] [Fintype ι] [Fintype κ]

/-- Some variable refers to the object. -/
def Held (s : St ι κ) (o : ℕ) : Prop := (∃ i, get s i = some o) ∨ ∃ u, s.un u = some o

theorem Inv.congr {s : St ι κ} {e x e' x' : ℕ → ℕ} (h : Inv s e x) (he : ∀ y, e' y = e y) (hx : ∀ y, x' y = x y) : Inv s e' x' := by
  rw [funext he, funext hx]; exact h

/-- The invariant between the statements. -/
abbrev Ok (s : St ι κ) : Prop := Inv s (fun _ => 0) (fun _ => 0)

theorem Ok.sh {s : St ι κ} (h : Ok s) : Inv s (fun y => (fun _ => 0) y + ind none y) (fun _ => 0) :=
  h.congr (fun y => by simp [ind]) fun _ => rfl

theorem Ok.un {s : St ι κ} (h : Ok s) : Inv s (fun _ => 0) (fun y => (fun _ => 0) y + ind none y) :=
  h.congr (fun _ => rfl) fun y => by simp [ind]

theorem new_ok {s : St ι κ} (h : Ok s) :
    Inv (newBlock { s with nobj := s.nobj + 1 } (some s.nobj)) (fun y => (fun _ => 0) y + ind (some s.nblk) y) (fun _ => 0) := by
  have h1 : Inv { s with nobj := s.nobj + 1 } (fun _ => 0) (fun y => (fun _ => 0) y + ind (some s.nobj) y) := by
    refine ⟨h.cnt, h.blk, fun o => ?_⟩
    have := h.law o
    simp only [made, ind, Option.some.injEq] at this ⊢
    split_ifs at this ⊢ <;> omega
  exact inv_newBlock h1

theorem inc_ok {s : St ι κ} (h : Ok s) (y : ι) : Inv (inc s (s.sh y)) (fun z => (fun _ => 0) z + ind (s.sh y) z) (fun _ => 0) :=
  inv_inc h fun c hc => by obtain ⟨B, hB⟩ := live h hc; rw [hB]; simp

theorem adopt_ok {s : St ι κ} (h : Ok s) (u : κ) :
    Inv (newBlock { s with un := Function.update s.un u none } (s.un u)) (fun y => (fun _ => 0) y + ind (some s.nblk) y) (fun _ => 0) :=
  inv_newBlock (s := { s with un := Function.update s.un u none }) (inv_setUn u h.un)

theorem unshare_eq {s : St ι κ} {i : ι} {b : ℕ} {B : Block} (hi : s.sh i = some b) (hB : s.blk b = some B) (h1 : B.count = 1) :
    reset (disarm s (s.sh i)) i = { s with sh := Function.update s.sh i none, blk := Function.update s.blk b none } := by
  simp [reset, disarm, takeOver, dec, hi, hB, h1, destroy]

theorem unshare_ok {s : St ι κ} (h : Ok s) {i : ι} {b : ℕ} {B : Block} (hi : s.sh i = some b) (hB : s.blk b = some B) (h1 : B.count = 1) :
    Inv { s with sh := Function.update s.sh i none, blk := Function.update s.blk b none } (fun _ => 0) (fun y => (fun _ => 0) y + ind B.obj y) := by
  have h2 := inv_setSh i h.sh
  rw [hi] at h2
  exact inv_free (s := { s with sh := Function.update s.sh i none }) h2 hB h1

theorem ok_step {s : St ι κ} (h : Ok s) (op : Op ι κ) : Ok (step s op) := by
  cases op with
  | make i => exact inv_takeOver (new_ok h)
  | copy d y => exact inv_takeOver (inc_ok h y)
  | move d y => exact inv_takeOver (inv_setSh y h.sh)
  | reset i => exact inv_takeOver h.sh
  | moveUn d y => exact inv_assignUn (inv_setUn y h.un)
  | dropUn u => exact inv_assignUn h.un
  | adopt i u => exact inv_takeOver (adopt_ok h u)
  | unshare u i =>
    simp only [step, unshare]
    split_ifs with h1 h2
    · exact inv_assignUn h.un
    · exact h
    · cases hi : s.sh i with
      | none => simp [useCount, hi] at h1
      | some b =>
        obtain ⟨B, hB⟩ := live h hi
        have hc : B.count = 1 := by simp [useCount, hi, hB] at h1 h2; omega
        have hg : get s i = B.obj := by simp [get, hi, hB]
        have := unshare_eq hi hB hc
        rw [hi] at this
        rw [Option.getD_some, this, hg]
        exact inv_assignUn (unshare_ok h hi hB hc)

theorem ok_run (ops : List (Op ι κ)) : Ok (run ops : St ι κ) := by
  unfold run
  have : ∀ s : St ι κ, Ok s → Ok (ops.foldl step s) := by
    induction ops with
    | nil => exact fun s h => h
    | cons op ops ih => exact fun s h => ih _ (ok_step h op)
  exact this _ inv_init

theorem get_some {s : St ι κ} {i : ι} {o : ℕ} (hg : get s i = some o) : ∃ b B, s.sh i = some b ∧ s.blk b = some B ∧ B.obj = some o := by
  cases hi : s.sh i with
  | none => simp [get, hi] at hg
  | some b =>
    cases hB : s.blk b with
    | none => simp [get, hi, hB] at hg
    | some B => exact ⟨b, B, rfl, hB, by simpa [get, hi, hB] using hg⟩

/-- An object has at most one block, and none if it is held by a `std::unique_ptr`. -/
theorem same_block {s : St ι κ} (h : Ok s) {i j : ι} {o b c : ℕ} (hi : get s i = some o) (hj : get s j = some o) (hb : s.sh i = some b)
    (hc : s.sh j = some c) : b = c := by
  obtain ⟨b', B, h1, h2, h3⟩ := get_some hi
  obtain ⟨c', C, k1, k2, k3⟩ := get_some hj
  rw [h1] at hb; rw [k1] at hc; cases hb; cases hc
  by_contra hne
  have u := add_le_bsum s.blk s.nblk _ _ o hne (h.blk _ _ h2).2.2 (h.blk _ _ k2).2.2
  have v := h.law o
  rw [h2, k2] at u
  simp [ind, h3, k3] at u
  simp only [made] at v
  split_ifs at v <;> omega

theorem some_holder {s : St ι κ} (h : Ok s) {b : ℕ} {B : Block} (hB : s.blk b = some B) : ∃ i, s.sh i = some b := by
  have u := h.cnt b
  rw [hB] at u
  have v := (h.blk _ _ hB).1
  simp only [ctr] at u
  have : 0 < cnt s.sh b := by omega
  rw [cnt_eq_card, Finset.card_pos] at this
  obtain ⟨i, hi⟩ := this
  exact ⟨i, by simpa using hi⟩

/-! ## The claims -/

/-- Whatever the program did: an object some variable refers to was not destroyed; an object no variable refers to was destroyed, once. -/
theorem C74_lifetime (ops : List (Op ι κ)) (o : ℕ) :
    (Held (run ops : St ι κ) o → o < (run ops : St ι κ).nobj ∧ (run ops : St ι κ).del o = 0) ∧
    (¬ Held (run ops : St ι κ) o → (run ops : St ι κ).del o = if o < (run ops : St ι κ).nobj then 1 else 0) := by
  have h := ok_run (ι := ι) (κ := κ) ops
  generalize (run ops : St ι κ) = s at h ⊢
  have L := h.law o
  constructor
  · rintro (⟨i, hi⟩ | ⟨u, hu⟩)
    · obtain ⟨b, B, h1, h2, h3⟩ := get_some hi
      have v := le_bsum s.blk s.nblk b o (h.blk _ _ h2).2.2
      rw [h2] at v
      simp [ind, h3] at v
      simp only [made] at L
      split_ifs at L with hlt
      · exact ⟨hlt, by omega⟩
      · omega
    · have v := le_cnt s.un u o
      rw [hu] at v
      simp only [ind, if_true] at v
      simp only [made] at L
      split_ifs at L with hlt
      · exact ⟨hlt, by omega⟩
      · omega
  · intro hn
    have z1 : cnt s.un o = 0 := Finset.sum_eq_zero fun u _ => by
      unfold ind; rw [if_neg]; exact fun hu => hn (Or.inr ⟨u, hu⟩)
    have z2 : bsum s.blk s.nblk o = 0 := Finset.sum_eq_zero fun b _ => by
      unfold ind
      rw [if_neg]
      intro hb
      cases hB : s.blk b with
      | none => rw [hB] at hb; cases hb
      | some B =>
        rw [hB] at hb
        obtain ⟨i, hi⟩ := some_holder h hB
        exact hn (Or.inl ⟨i, by simpa [get, hi, hB] using hb⟩)
    simp only [made] at L
    omega

/-- An object held by a `std::unique_ptr` is held by no other variable. -/
theorem C74_exclusive (ops : List (Op ι κ)) (u : κ) (o : ℕ) (hu : (run ops : St ι κ).un u = some o) :
    (∀ i, get (run ops : St ι κ) i ≠ some o) ∧ ∀ v, (run ops : St ι κ).un v = some o → v = u := by
  have h := ok_run (ι := ι) (κ := κ) ops
  generalize (run ops : St ι κ) = s at h hu ⊢
  have L := h.law o
  have v := le_cnt s.un u o
  rw [hu] at v
  simp only [ind, if_true] at v
  have m : made s.nobj o ≤ 1 := by unfold made; split_ifs <;> omega
  refine ⟨fun i hi => ?_, fun w hw => ?_⟩
  · obtain ⟨b, B, h1, h2, h3⟩ := get_some hi
    have v := le_bsum s.blk s.nblk b o (h.blk _ _ h2).2.2
    rw [h2] at v
    simp [ind, h3] at v
    omega
  · by_contra hne
    have := two_le_cnt hne hw hu
    omega

/-- `use_count()` is the number of variables that refer to the object. -/
theorem C74_use_count (ops : List (Op ι κ)) (i : ι) (o : ℕ) (hi : get (run ops : St ι κ) i = some o) :
    useCount (run ops : St ι κ) i = (Finset.univ.filter fun j => get (run ops : St ι κ) j = some o).card := by
  have h := ok_run (ι := ι) (κ := κ) ops
  generalize (run ops : St ι κ) = s at h hi ⊢
  obtain ⟨b, B, h1, h2, h3⟩ := get_some hi
  have u := h.cnt b
  rw [h2] at u
  simp only [ctr] at u
  have e : (Finset.univ.filter fun j => get s j = some o) = Finset.univ.filter fun j => s.sh j = some b := by
    ext j
    simp only [Finset.mem_filter, Finset.mem_univ, true_and]
    constructor
    · intro hj
      obtain ⟨c, C, k1, k2, k3⟩ := get_some hj
      rw [k1, same_block h hj hi k1 h1]
    · intro hj
      simpa [get, hj, h2] using h3
  rw [e, ← cnt_eq_card]
  simp only [useCount, h1, h2]
  omega

/-- What the statements do to the variables. -/
theorem C74_effects (ops : List (Op ι κ)) :
    (∀ h, (∀ j, get (make (run ops : St ι κ) h) j = if j = h then some (run ops : St ι κ).nobj else get (run ops : St ι κ) j) ∧
      (make (run ops : St ι κ) h).un = (run ops : St ι κ).un) ∧
    (∀ d y, (∀ j, get (copy (run ops : St ι κ) d y) j = if j = d then get (run ops : St ι κ) y else get (run ops : St ι κ) j) ∧
      (copy (run ops : St ι κ) d y).un = (run ops : St ι κ).un) ∧
    (∀ d y, (∀ j, get (move (run ops : St ι κ) d y) j =
        if j = d then get (run ops : St ι κ) y else if j = y then none else get (run ops : St ι κ) j) ∧
      (move (run ops : St ι κ) d y).un = (run ops : St ι κ).un) ∧
    (∀ h, (∀ j, get (reset (run ops : St ι κ) h) j = if j = h then none else get (run ops : St ι κ) j) ∧
      (reset (run ops : St ι κ) h).un = (run ops : St ι κ).un) ∧
    (∀ h u, (∀ j, get (adopt (run ops : St ι κ) h u) j = if j = h then (run ops : St ι κ).un u else get (run ops : St ι κ) j) ∧
      ∀ v, (adopt (run ops : St ι κ) h u).un v = if v = u then none else (run ops : St ι κ).un v) ∧
    (∀ d y, (∀ j, get (moveUn (run ops : St ι κ) d y) j = get (run ops : St ι κ) j) ∧
      ∀ v, (moveUn (run ops : St ι κ) d y).un v =
        if v = d then (run ops : St ι κ).un y else if v = y then none else (run ops : St ι κ).un v) := by
  have h := ok_run (ι := ι) (κ := κ) ops
  generalize (run ops : St ι κ) = s at h ⊢
  have hn : s.blk s.nblk = none := by
    cases hB : s.blk s.nblk with
    | none => rfl
    | some B => exact absurd (h.blk _ _ hB).2.2 (lt_irrefl _)
  have fresh : ∀ (t : St ι κ) (o : Option ℕ), t.sh = s.sh → t.blk = s.blk → t.nblk = s.nblk → ∀ j, get (newBlock t o) j = get s j := by
    intro t o e1 e2 e3 j
    simp only [get, newBlock, e1, e2, e3]
    cases hj : s.sh j with
    | none => rfl
    | some c =>
      by_cases hc : c = s.nblk
      · obtain ⟨B, hB⟩ := live h hj
        rw [hc, hn] at hB
        cases hB
      · simp only [Function.update_of_ne hc]
  refine ⟨fun i => ⟨fun j => ?_, un_takeOver _ _ _⟩, fun d y => ⟨fun j => ?_, (un_takeOver _ _ _).trans (un_inc _ _)⟩,
    fun d y => ⟨fun j => ?_, un_takeOver _ _ _⟩, fun i => ⟨fun j => ?_, un_takeOver _ _ _⟩, fun i u => ⟨fun j => ?_, fun v => ?_⟩,
    fun d y => ⟨fun j => ?_, fun v => ?_⟩⟩
  · unfold make
    rw [get_takeOver (new_ok h), fresh { s with nobj := s.nobj + 1 } _ rfl rfl rfl]
    simp [deref, newBlock]
  · unfold copy
    rw [get_takeOver (inc_ok h y), get_inc, ← get_inc s (s.sh y) y, get_eq_deref (inc s (s.sh y)) y, sh_inc]
  · unfold move
    rw [get_takeOver (inv_setSh y h.sh), get_eq_deref s y]
    by_cases hj : j = y
    · subst hj
      simp [deref, get]
    · simp [get, hj, deref, Function.update_of_ne hj]
  · unfold reset
    rw [get_takeOver h.sh]
    simp [deref]
  · unfold adopt
    rw [get_takeOver (adopt_ok h u), fresh { s with un := Function.update s.un u none } _ rfl rfl rfl]
    simp [deref, newBlock]
  · unfold adopt
    rw [un_takeOver]
    simp [newBlock, Function.update_apply]
  · unfold moveUn assignUn
    rw [get_destroy]
    rfl
  · unfold moveUn assignUn
    rw [un_destroy]
    simp only [Function.update_apply]

/-- Unsharing: it throws, changing nothing, exactly if another variable refers to the object; otherwise the object is the unique pointer's,
and the variable is null.  The other variables keep their objects. -/
theorem C74_unshare (ops : List (Op ι κ)) (u : κ) (i : ι) (o : ℕ) (hi : get (run ops : St ι κ) i = some o) :
    ((∃ j, j ≠ i ∧ get (run ops : St ι κ) j = some o) → unshare (run ops : St ι κ) u i = none) ∧
    ((∀ j, j ≠ i → get (run ops : St ι κ) j ≠ some o) → ∃ t, unshare (run ops : St ι κ) u i = some t ∧
      (∀ j, get t j = if j = i then none else get (run ops : St ι κ) j) ∧
      (∀ v, t.un v = if v = u then some o else (run ops : St ι κ).un v)) := by
  have C := C74_use_count ops i o hi
  have h := ok_run (ι := ι) (κ := κ) ops
  generalize (run ops : St ι κ) = s at h hi C ⊢
  obtain ⟨b, B, h1, h2, h3⟩ := get_some hi
  have hc : useCount s i = B.count := by simp [useCount, h1, h2]
  constructor
  · rintro ⟨j, hj, hjo⟩
    have : 1 < useCount s i := by
      rw [C]
      exact Finset.one_lt_card.mpr ⟨i, by simp [hi], j, by simp [hjo], hj.symm⟩
    unfold unshare
    rw [if_neg (by omega), if_pos this]
  · intro hno
    have : useCount s i = 1 := by
      rw [C, Finset.card_eq_one]
      refine ⟨i, ?_⟩
      ext j
      simp only [Finset.mem_filter, Finset.mem_univ, true_and, Finset.mem_singleton]
      exact ⟨fun hj => by_contra fun hne => hno j hne hj, fun e => e ▸ hi⟩
    unfold unshare
    rw [if_neg (by omega), if_neg (by omega), unshare_eq h1 h2 (by omega)]
    refine ⟨_, rfl, fun j => ?_, fun v => ?_⟩
    · unfold assignUn
      rw [get_destroy]
      by_cases hj : j = i
      · subst hj; simp [get]
      · simp only [get, Function.update_of_ne hj, if_neg hj]
        cases hs : s.sh j with
        | none => rfl
        | some c =>
          by_cases hcb : c = b
          · subst hcb
            exact absurd (by simpa [get, hs, h2] using h3) (hno j hj)
          · simp only [Function.update_of_ne hcb]
    · unfold assignUn
      rw [un_destroy]
      simp only [Function.update_apply, hi]

/-- Unsharing a null pointer: if it does not throw, the unique pointer is null, and the other variables keep their objects. -/
theorem C74_unshare_null (ops : List (Op ι κ)) (u : κ) (i : ι) (hi : get (run ops : St ι κ) i = none) (t : St ι κ)
    (ht : unshare (run ops : St ι κ) u i = some t) :
    (∀ j, get t j = get (run ops : St ι κ) j) ∧ ∀ v, t.un v = if v = u then none else (run ops : St ι κ).un v := by
  have h := ok_run (ι := ι) (κ := κ) ops
  generalize (run ops : St ι κ) = s at h hi ht ⊢
  unfold unshare at ht
  split_ifs at ht with c1 c2
  · cases ht
    refine ⟨fun j => ?_, fun v => ?_⟩
    · unfold assignUn; rw [get_destroy]; rfl
    · unfold assignUn; rw [un_destroy]; simp only [Function.update_apply]
  · cases hs : s.sh i with
    | none => simp [useCount, hs] at c1
    | some b =>
      obtain ⟨B, hB⟩ := live h hs
      have hc : B.count = 1 := by simp [useCount, hs, hB] at c1 c2; omega
      have ho : B.obj = none := by simpa [get, hs, hB] using hi
      have hcnt := h.cnt b
      rw [hB] at hcnt
      simp only [ctr] at hcnt
      rw [unshare_eq hs hB hc] at ht
      cases ht
      refine ⟨fun j => ?_, fun v => ?_⟩
      · unfold assignUn
        rw [get_destroy]
        by_cases hj : j = i
        · subst hj; rw [hi]; simp [get]
        · simp only [get, Function.update_of_ne hj]
          cases hsj : s.sh j with
          | none => rfl
          | some c =>
            by_cases hcb : c = b
            · subst hcb
              have := two_le_cnt hj hsj hs
              omega
            · simp only [Function.update_of_ne hcb]
      · unfold assignUn
        rw [un_destroy]
        simp only [Function.update_apply, hi]

/-- After the last variable is gone, nothing leaks: when all variables are null, every object that was created was destroyed once. -/
theorem C74_no_leak (ops : List (Op ι κ)) (h1 : ∀ i, get (run ops : St ι κ) i = none) (h2 : ∀ u, (run ops : St ι κ).un u = none) (o : ℕ)
    (ho : o < (run ops : St ι κ).nobj) : (run ops : St ι κ).del o = 1 := by
  rw [(C74_lifetime ops o).2, if_pos ho]
  rintro (⟨i, hi⟩ | ⟨u, hu⟩)
  · rw [h1] at hi; cases hi
  · rw [h2] at hu; cases hu

/-- A null pointer can be "not exclusive": constructed from a null pointer, the variable has a control block, and a copy shares it.
The comment of the code says there is "nothing to unshare" in a null pointer. -/
theorem C74_bug_null :
    let s : St (Fin 2) (Fin 1) := run [.adopt 0 0, .copy 1 0]
    get s 0 = none ∧ get s 1 = none ∧ unshare s 0 0 = none := by
  refine ⟨rfl, rfl, rfl⟩

/-! A program that shares, fails to unshare, unshares, and shares again. -/
def prog : List (Op (Fin 2) (Fin 2)) :=
  [.make 0, .copy 1 0, .unshare 0 0, .reset 1, .unshare 0 0, .make 1, .move 0 1, .unshare 1 0, .moveUn 0 1, .adopt 1 0]

example : (run prog).nobj = 2 ∧ get (run prog) 1 = some 1 ∧ (run prog).del 0 = 1 ∧ (run prog).del 1 = 0 := by decide
example : Held (run prog) 1 := Or.inl ⟨1, by decide⟩
example : (run (prog.take 5)).un 0 = some 0 ∧ get (run (prog.take 3)) 0 = some 0 ∧ useCount (run (prog.take 3)) 0 = 2 := by decide

end Mutable.Unshare
