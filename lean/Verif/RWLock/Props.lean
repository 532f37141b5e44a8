import Verif.RWLock.Inv
/-! C18, C19: mutual exclusion and atomic upgrade of `reader_writer_mutex`. -/
namespace Mutable.RW
variable {T : Type} [DecidableEq T] [Fintype T]

/-! ### Specification -/

/-- Thread `t` owns a read lock (also while it waits in `upgrade()`). -/
def HoldsRead (s : State T) (t : T) : Prop := s.loc t = .holdR ∨ s.loc t = .sleepU ∨ s.loc t = .wokenU

/-- Thread `t` owns the write lock. -/
def HoldsWrite (s : State T) (t : T) : Prop := s.loc t = .holdW

/-- Any action is allowed. -/
def Any : Act T → Prop := fun _ => True

theorem holdsRead_iff (s : State T) (t : T) : HoldsRead s t ↔ pRA (s.loc t) = true := by
  unfold HoldsRead; cases s.loc t <;> simp [pRA]

theorem holdsWrite_iff (s : State T) (t : T) : HoldsWrite s t ↔ pHW (s.loc t) = true := by
  unfold HoldsWrite; cases s.loc t <;> simp [pHW]

theorem inv_excl {s : State T} (h : Inv s) (t u : T) (ht : HoldsWrite s t) (hne : u ≠ t) :
    ¬ HoldsRead s u ∧ ¬ HoldsWrite s u := by
  rw [holdsWrite_iff] at ht
  have h1 := cnt_pos ht
  have hw : s.m.writerActive = true := by
    rw [← h.wa] at h1
    cases hu : s.m.writerActive <;> simp [hu, b2n] at h1 ⊢
  constructor
  · intro hr
    rw [holdsRead_iff] at hr
    have := cnt_pos hr
    rw [← h.ra] at this
    have := h.ex hw; omega
  · intro hw'
    rw [holdsWrite_iff] at hw'
    have := cnt_two hne hw' ht
    rw [← h.wa] at this
    rcases b2n_bool s.m.writerActive with h | h <;> omega

/-- C18: with fewer than 65536 threads, in every reachable state (any interleaving of all operations, including
spurious wake-ups) no assertion has failed, and the owner of the write lock excludes all other owners. -/
theorem C18_mutual_exclusion (hc : Fintype.card T < 65536) {s : State T} (h : Reach Any s) :
    s.failed = false ∧ ∀ t u, HoldsWrite s t → u ≠ t → ¬ HoldsRead s u ∧ ¬ HoldsWrite s u :=
  ⟨(inv_reach hc h).ok, fun t u => inv_excl (inv_reach hc h) t u⟩

/-! A non-trivial reachable state: thread 0 owns the write lock while thread 1 sleeps in `lock_read`. -/
example : ∃ s : State (Fin 2), Reach Any s ∧ HoldsWrite s 0 ∧ s.loc 1 = .sleepR :=
  ⟨_, .step (.step .init trivial (.lockWrite (t := 0) rfl rfl)) trivial (.lockRead (t := 1) rfl rfl), by
    unfold HoldsWrite; decide, by decide⟩

/-- Two readers may own the lock at the same time. -/
example : ∃ s : State (Fin 2), Reach Any s ∧ HoldsRead s 0 ∧ HoldsRead s 1 :=
  ⟨_, .step (.step .init trivial (.lockRead (t := 0) rfl rfl)) trivial (.lockRead (t := 1) rfl rfl), by
    unfold HoldsRead; decide, by unfold HoldsRead; decide⟩

/-! ### The counters are 16 bits wide: with 65536 readers exclusion fails -/

/-- The first `k` threads own read locks. -/
def manyReaders (k : Nat) : State (Fin 65537) :=
  ⟨{ readersActive := k % 65536 }, fun i => if i.val < k then .holdR else .idle, false⟩

theorem manyReaders_reach : ∀ k, k ≤ 65536 → Reach Any (manyReaders k)
  | 0, _ => by
    have : manyReaders 0 = init (Fin 65537) := by simp [manyReaders, init]
    rw [this]; exact .init
  | k + 1, hk => by
    have ih := manyReaders_reach k (by omega)
    have ht : k < 65537 := by omega
    have := Reach.step ih (P := Any) trivial (Step.lockRead (t := ⟨k, ht⟩) rfl (by simp [manyReaders]))
    have e : (manyReaders k).waitRead (manyReaders k).m.requestRead ⟨k, ht⟩ = manyReaders (k + 1) := by
      unfold State.waitRead
      have : (manyReaders k).m.requestRead.canAcquireRead = true := rfl
      rw [if_pos this]
      simp [State.orFail, Internal.acquireRead, this, Internal.requestRead, manyReaders, State.goto,
        Internal.canAcquireRead, inc16, dec16]
      funext i
      by_cases h : i = ⟨k, ht⟩
      · subst h; simp
      · rw [Function.update_of_ne h]
        have : i.val ≠ k := fun h' => h (Fin.ext h')
        by_cases h2 : i.val < k
        · rw [if_pos h2, if_pos (by omega)]
        · rw [if_neg h2, if_neg (by omega)]
    rwa [e] at this

/-- C18 (limit, a defect of the code): with 65537 threads a writer can own the lock together with readers, because
the reader counter is a `uint16_t` that wraps around. -/
theorem C18_counter_overflow : ∃ s : State (Fin 65537), Reach Any s ∧ ∃ t u, HoldsWrite s t ∧ u ≠ t ∧ HoldsRead s u := by
  have h := manyReaders_reach 65536 (le_refl _)
  have h2 := Reach.step h (P := Any) trivial
    (Step.lockWrite (t := ⟨65536, by omega⟩) rfl (by simp [manyReaders]))
  refine ⟨_, h2, ⟨65536, by omega⟩, ⟨0, by omega⟩, ?_, by simp, ?_⟩
  · simp [HoldsWrite, State.waitWrite, Internal.requestWrite, Internal.canAcquireWrite, manyReaders, State.orFail,
      Internal.acquireWrite, inc16, State.goto]
  · simp only [HoldsRead, State.waitWrite, Internal.requestWrite, Internal.canAcquireWrite, manyReaders, State.orFail,
      Internal.acquireWrite, inc16, State.goto]
    left
    simp [Function.update]

/-! ### C19 -/

/-- An execution: an infinite sequence of states from the initial one; each step is an action or a pause. -/
def Exec (σ : Nat → State T) : Prop :=
  σ 0 = init T ∧ ∀ k, σ (k + 1) = σ k ∨ ∃ t a, Step (σ k) t a (σ (k + 1))

theorem exec_reach {σ : Nat → State T} (h : Exec σ) (k : Nat) : Reach Any (σ k) := by
  induction k with
  | zero => rw [h.1]; exact .init
  | succ k ih =>
    rcases h.2 k with e | ⟨t, a, hs⟩
    · rw [e]; exact ih
    · exact .step ih trivial hs

/-- C19: if thread `t` owns its read lock throughout `[i, j)` and owns the write lock at `j` (its `upgrade()` returned
true), then no other thread owned the write lock at any time in `[i, j]`. -/
theorem C19_upgrade_is_atomic (hc : Fintype.card T < 65536) {σ : Nat → State T} (h : Exec σ) {t : T} {i j : Nat}
    (hr : ∀ k, i ≤ k → k < j → HoldsRead (σ k) t) (hw : HoldsWrite (σ j) t) :
    ∀ k, i ≤ k → k ≤ j → ∀ u, u ≠ t → ¬ HoldsWrite (σ k) u := by
  intro k h1 h2 u hne hu
  have inv := inv_reach hc (exec_reach h k)
  rcases Nat.lt_or_eq_of_le h2 with h2 | rfl
  · exact (inv_excl inv u t hu (Ne.symm hne)).1 (hr k h1 h2)
  · exact (inv_excl inv u t hu (Ne.symm hne)).2 hw

/-- C19: of two threads that own read locks at the same time `i`, at most one can reach the write lock by upgrading
without releasing its read lock first. -/
theorem C19_at_most_one_upgrade (hc : Fintype.card T < 65536) {σ : Nat → State T} (h : Exec σ) {t u : T} (hne : t ≠ u)
    {i j k : Nat} (hij : i ≤ j) (hik : i ≤ k)
    (hrt : ∀ l, i ≤ l → l < j → HoldsRead (σ l) t) (hwt : HoldsWrite (σ j) t)
    (hru : ∀ l, i ≤ l → l < k → HoldsRead (σ l) u) (hwu : HoldsWrite (σ k) u) : False := by
  rcases Nat.lt_or_ge j k with h1 | h1
  · exact (inv_excl (inv_reach hc (exec_reach h j)) t u hwt (Ne.symm hne)).1 (hru j hij h1)
  · rcases Nat.lt_or_eq_of_le h1 with h1 | rfl
    · exact (inv_excl (inv_reach hc (exec_reach h k)) u t hwu hne).1 (hrt k hik h1)
    · exact (inv_excl (inv_reach hc (exec_reach h k)) t u hwt (Ne.symm hne)).2 hwu

/-- Whether some thread is waiting in `upgrade()`. -/
def Upgrading (s : State T) (u : T) : Prop := s.loc u = .sleepU ∨ s.loc u = .wokenU

theorem upgrading_iff (s : State T) (t : T) : Upgrading s t ↔ pUP (s.loc t) = true := by
  unfold Upgrading; cases s.loc t <;> simp [pUP]

/-- C19: `upgrade()` fails (leaving everything unchanged, the caller keeping its read lock) exactly when another thread
is already upgrading; otherwise the caller obtains the write lock at once if it is the only reader, and waits if not. -/
theorem C19_upgrade_outcome (hc : Fintype.card T < 65536) {s s' : State T} (h : Reach Any s) {t : T}
    (hs : Step s t .upgrade s') :
    ((∃ u, Upgrading s u) → s' = s ∧ HoldsRead s' t) ∧
    ((¬ ∃ u, Upgrading s u) → (∀ u, HoldsRead s u → u = t) → HoldsWrite s' t) ∧
    ((¬ ∃ u, Upgrading s u) → (∃ u, HoldsRead s u ∧ u ≠ t) → Upgrading s' t) := by
  have inv := inv_reach hc h
  cases hs with
  | upgrade _ hl =>
    have up := inv.up
    refine ⟨?_, ?_, ?_⟩
    · rintro ⟨u, hu⟩
      rw [upgrading_iff] at hu
      have := cnt_pos hu
      have hup : s.m.wantsUpgrade = true := by
        rw [← up] at this
        cases hu : s.m.wantsUpgrade <;> simp [hu, b2n] at this ⊢
      simp [Internal.tryRequestUpgrade, hup, HoldsRead, hl]
    all_goals
      intro hno
      have hup : s.m.wantsUpgrade = false := by
        cases hu : s.m.wantsUpgrade with
        | false => rfl
        | true =>
          rw [hu] at up
          obtain ⟨u, h⟩ := cnt_exists (p := pUP) (loc := s.loc) (by rw [← up]; decide)
          exact absurd ⟨u, (upgrading_iff s u).2 h⟩ hno
      have hpos : 0 < s.m.readersActive := by rw [inv.ra]; exact cnt_pos (t := t) (by simp [hl, pRA])
      have hwa : s.m.writerActive = false := by
        cases hw : s.m.writerActive with
        | false => rfl
        | true => have := inv.ex hw; omega
      have b2 := cnt_le pWW s.loc
      have a2 := cnt_update pWW s.loc t .sleepU
      have b2' := cnt_le pWW (Function.update s.loc t .sleepU)
      simp only [hl, pWW, b2n, if_true, if_false, Bool.false_eq_true] at a2
      have r2 := inv.ww
      have i1 : inc16 s.m.writersWaiting = s.m.writersWaiting + 1 := by unfold inc16; omega
      have d1 : dec16 (s.m.writersWaiting + 1) = s.m.writersWaiting := by unfold dec16; omega
      have d11 : dec16 1 = 0 := rfl
    · intro hall
      have hone : s.m.readersActive = 1 := by
        rw [inv.ra]
        refine Nat.le_antisymm ?_ (by rw [← inv.ra]; exact hpos)
        unfold cnt
        rw [Finset.card_le_one]
        intro a ha b hb
        simp only [Finset.mem_filter, Finset.mem_univ, true_and, ← holdsRead_iff] at ha hb
        rw [hall a ha, hall b hb]
      simp [Internal.tryRequestUpgrade, hup, Internal.requestWrite, i1, State.waitUpgrade, Internal.canUpgrade, hwa,
        hone, Internal.upgradeLock, Internal.releaseRead, Internal.acquireWrite, Internal.canAcquireWrite, d1, d11,
        State.orFail, State.goto, HoldsWrite]
    · rintro ⟨u, hu, hne⟩
      have h2 : 2 ≤ s.m.readersActive := by
        rw [inv.ra]
        exact cnt_two hne ((holdsRead_iff s u).1 hu) (by simp [hl, pRA])
      have hn1 : (s.m.readersActive == 1) = false := by simp; omega
      simp [Internal.tryRequestUpgrade, hup, Internal.requestWrite, i1, State.waitUpgrade, Internal.canUpgrade, hwa,
        hn1, State.goto, Upgrading]

/-- An execution in which thread 0 upgrades while thread 1 waits for the write lock. -/
example : ∃ s s' : State (Fin 2), Reach Any s ∧ HoldsRead s 0 ∧ s.loc 1 = .sleepW ∧ Step s 0 .upgrade s' ∧ HoldsWrite s' 0 :=
  ⟨_, _, .step (.step .init trivial (.lockRead (t := 0) rfl rfl)) trivial (.lockWrite (t := 1) rfl rfl),
    by unfold HoldsRead; decide, by decide, .upgrade rfl (by decide), by unfold HoldsWrite; decide⟩

end Mutable.RW
