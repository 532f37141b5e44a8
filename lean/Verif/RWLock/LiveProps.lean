import Verif.RWLock.Live
import Mathlib.Tactic.FinCases
import Mathlib.Data.Fin.VecNotation
/-! C20: wake-ups of `reader_writer_mutex`. -/
namespace Mutable.RW
variable {T : Type} [DecidableEq T] [Fintype T]

/-- Programs that never call `upgrade()`. -/
def NoUpgrade : Act T → Prop := fun a => a ≠ .upgrade
/-- Programs that never call the blocking `lock_write()` (but may use `try_lock_write()` and `upgrade()`). -/
def NoLockWrite : Act T → Prop := fun a => a ≠ .lockWrite

/-- Threads waiting in `upgrade()` stem from an `upgrade` action. -/
theorem noU_reach {s : State T} (h : Reach NoUpgrade s) : ∀ u, s.loc u ≠ .sleepU ∧ s.loc u ≠ .wokenU := by
  induction h with
  | init => intro u; simp [init]
  | @step s s' t a hr ha hs ih =>
    have key : ∀ (m l), l ≠ .sleepU → l ≠ .wokenU → ∀ u, (s.goto m t l).loc u ≠ .sleepU ∧ (s.goto m t l).loc u ≠ .wokenU := by
      intro m l h1 h2 u
      by_cases e : u = t
      · subst e; simp [h1, h2]
      · rw [goto_loc_ne e]; exact ih u
    cases hs with
    | upgrade => exact absurd rfl ha
    | recheckU _ hl => exact absurd hl (ih t).2
    | lockRead _ hl =>
      unfold State.waitRead; split
      · unfold State.orFail; split
        · exact key _ _ (by simp) (by simp)
        · exact ih
      · exact key _ _ (by simp) (by simp)
    | recheckR _ hl =>
      unfold State.waitRead; split
      · unfold State.orFail; split
        · exact key _ _ (by simp) (by simp)
        · exact ih
      · exact key _ _ (by simp) (by simp)
    | tryRead _ hl =>
      split
      · unfold State.orFail; split
        · exact key _ _ (by simp) (by simp)
        · exact ih
      · exact ih
    | lockWrite _ hl =>
      unfold State.waitWrite; split
      · unfold State.orFail; split
        · exact key _ _ (by simp) (by simp)
        · exact ih
      · exact key _ _ (by simp) (by simp)
    | recheckW _ hl =>
      unfold State.waitWrite; split
      · unfold State.orFail; split
        · exact key _ _ (by simp) (by simp)
        · exact ih
      · exact key _ _ (by simp) (by simp)
    | tryWrite _ hl =>
      split
      · unfold State.orFail; split
        · exact key _ _ (by simp) (by simp)
        · exact ih
      · exact ih
    | unlockRead _ hl =>
      split
      · exact ih
      · unfold State.afterReleaseRead
        split
        · exact ih
        · split
          · exact key _ _ (by simp) (by simp)
          · split
            · exact key _ _ (by simp) (by simp)
            · exact key _ _ (by simp) (by simp)
    | unlockWrite _ hl =>
      split
      · split
        · exact ih
        · unfold State.afterReleaseWrite
          split
          · exact key _ _ (by simp) (by simp)
          · split
            · exact key _ _ (by simp) (by simp)
            · exact key _ _ (by simp) (by simp)
      · exact ih
    | notifyNone _ hl h => exact key _ _ (by simp) (by simp)
    | notifyOne u _ hl h =>
      intro w
      by_cases e : w = t
      · subst e; simp
      · rw [goto_loc_ne e]
        by_cases e2 : w = u
        · subst e2
          rcases h with h | h
          · simp [h, wakeW]
          · exact absurd h (ih w).1
        · rw [goto_loc_ne e2]; exact ih w
    | notifyAll _ hl =>
      intro w
      by_cases e : w = t
      · subst e; simp
      · rw [goto_loc_ne e]
        have := ih w
        revert this; simp only; cases s.loc w <;> simp [wakeR]
    | spuriousW _ h =>
      rcases h with h | h
      · exact key _ _ (by simp [h, wakeW]) (by simp [h, wakeW])
      · exact absurd h (ih t).1
    | spuriousR _ h => exact key _ _ (by simp [h, wakeR]) (by simp [h, wakeR])

/-- Threads waiting in `lock_write()` stem from a `lockWrite` action. -/
theorem noW_reach {s : State T} (h : Reach NoLockWrite s) : ∀ u, s.loc u ≠ .sleepW ∧ s.loc u ≠ .wokenW := by
  induction h with
  | init => intro u; simp [init]
  | @step s s' t a hr ha hs ih =>
    have key : ∀ (m l), l ≠ .sleepW → l ≠ .wokenW → ∀ u, (s.goto m t l).loc u ≠ .sleepW ∧ (s.goto m t l).loc u ≠ .wokenW := by
      intro m l h1 h2 u
      by_cases e : u = t
      · subst e; simp [h1, h2]
      · rw [goto_loc_ne e]; exact ih u
    have upc : ∀ m u, (s.waitUpgrade m t).loc u ≠ .sleepW ∧ (s.waitUpgrade m t).loc u ≠ .wokenW := by
      intro m
      unfold State.waitUpgrade
      split
      · exact ih
      · unfold State.orFail; split
        · exact key _ _ (by simp) (by simp)
        · exact ih
      · exact key _ _ (by simp) (by simp)
    cases hs with
    | lockWrite => exact absurd rfl ha
    | recheckW _ hl => exact absurd hl (ih t).2
    | upgrade _ hl =>
      split
      · exact ih
      · exact upc _
    | recheckU _ hl => exact upc _
    | lockRead _ hl =>
      unfold State.waitRead; split
      · unfold State.orFail; split
        · exact key _ _ (by simp) (by simp)
        · exact ih
      · exact key _ _ (by simp) (by simp)
    | recheckR _ hl =>
      unfold State.waitRead; split
      · unfold State.orFail; split
        · exact key _ _ (by simp) (by simp)
        · exact ih
      · exact key _ _ (by simp) (by simp)
    | tryRead _ hl =>
      split
      · unfold State.orFail; split
        · exact key _ _ (by simp) (by simp)
        · exact ih
      · exact ih
    | tryWrite _ hl =>
      split
      · unfold State.orFail; split
        · exact key _ _ (by simp) (by simp)
        · exact ih
      · exact ih
    | unlockRead _ hl =>
      split
      · exact ih
      · unfold State.afterReleaseRead
        split
        · exact ih
        · split
          · exact key _ _ (by simp) (by simp)
          · split
            · exact key _ _ (by simp) (by simp)
            · exact key _ _ (by simp) (by simp)
    | unlockWrite _ hl =>
      split
      · split
        · exact ih
        · unfold State.afterReleaseWrite
          split
          · exact key _ _ (by simp) (by simp)
          · split
            · exact key _ _ (by simp) (by simp)
            · exact key _ _ (by simp) (by simp)
      · exact ih
    | notifyNone _ hl h => exact key _ _ (by simp) (by simp)
    | notifyOne u _ hl h =>
      intro w
      by_cases e : w = t
      · subst e; simp
      · rw [goto_loc_ne e]
        by_cases e2 : w = u
        · subst e2
          rcases h with h | h
          · exact absurd h (ih w).1
          · simp [h, wakeW]
        · rw [goto_loc_ne e2]; exact ih w
    | notifyAll _ hl =>
      intro w
      by_cases e : w = t
      · subst e; simp
      · rw [goto_loc_ne e]
        have := ih w
        revert this; simp only; cases s.loc w <;> simp [wakeR]
    | spuriousW _ h =>
      rcases h with h | h
      · exact absurd h (ih t).1
      · exact key _ _ (by simp [h, wakeW]) (by simp [h, wakeW])
    | spuriousR _ h => exact key _ _ (by simp [h, wakeR]) (by simp [h, wakeR])

theorem live_init : LiveR (init T) ∧ LiveW (init T) ∧ LiveU (init T) := by
  refine ⟨?_, ?_, ?_⟩ <;> · rintro ⟨t, ht⟩ _; simp [init] at ht

theorem liveR_reach {P : Act T → Prop} (hc : Fintype.card T < 65536) {s : State T} (h : Reach P s) : LiveR s := by
  induction h with
  | init => exact live_init.1
  | @step s s' t a hr ha hs ih =>
    have hi := inv_reach hc hr
    have hi' := inv_reach hc (.step hr ha hs)
    exact liveR_step hi hi' ih (move_of_step hs hi'.ok)

theorem liveW_reach (hc : Fintype.card T < 65536) {s : State T} (h : Reach NoUpgrade s) : LiveW s := by
  induction h with
  | init => exact live_init.2.1
  | @step s s' t a hr ha hs ih =>
    have hi := inv_reach hc hr
    have hi' := inv_reach hc (.step hr ha hs)
    exact liveW_step hi hi' (noU_reach hr) ih (move_of_step hs hi'.ok)

theorem liveU_reach (hc : Fintype.card T < 65536) {s : State T} (h : Reach NoLockWrite s) : LiveU s := by
  induction h with
  | init => exact live_init.2.2
  | @step s s' t a hr ha hs ih =>
    have hi := inv_reach hc hr
    have hi' := inv_reach hc (.step hr ha hs)
    exact liveU_step hi (noW_reach hr) (fun u => (noW_reach (.step hr ha hs) u).1) ih (move_of_step hs hi'.ok)

/-- C20 (partial: programs that mix `upgrade()` with blocking `lock_write()` are excluded; for those the property is
false, see `C20_lost_wakeup`): whenever a sleeping thread could be granted the lock, a wake-up is pending. -/
theorem C20_no_lost_wakeup_partial (hc : Fintype.card T < 65536) {s : State T}
    (h : Reach NoUpgrade s ∨ Reach NoLockWrite s) (t : T) (hg : Grantable s t) : ∃ u, Pending s u := by
  have hR : LiveR s := by
    rcases h with h | h
    · exact liveR_reach hc h
    · exact liveR_reach hc h
  rcases hg with ⟨h1, h2⟩ | ⟨h1, h2⟩ | ⟨h1, h2⟩
  · obtain ⟨u, hu⟩ := hR ⟨t, h1⟩ h2
    exact ⟨u, by simp [Pending, hu]⟩
  · rcases h with h | h
    · obtain ⟨u, hu⟩ := liveW_reach hc h ⟨t, h1⟩ h2
      exact ⟨u, by rcases hu with hu | hu <;> simp [Pending, hu]⟩
    · exact absurd h1 (noW_reach h t).1
  · rcases h with h | h
    · exact absurd h1 (noU_reach h t).1
    · obtain ⟨u, hu⟩ := liveU_reach hc h ⟨t, h1⟩ h2
      exact ⟨u, by simp [Pending, hu]⟩

/-- C20 for readers, without restriction: a reader never sleeps while a read lock can be granted and no
`notify_readers` is on its way. -/
theorem C20_readers (hc : Fintype.card T < 65536) {s : State T} (h : Reach Any s) (t : T) (h1 : s.loc t = .sleepR)
    (h2 : s.m.canAcquireRead = true) : ∃ u, s.loc u = .notifyR := liveR_reach hc h ⟨t, h1⟩ h2

/-- C20 (same restriction): no deadlock.  If no thread owns a lock outside a waiting `upgrade()` and no thread is
about to run inside the mutex, then no thread is waiting at all. -/
theorem C20_deadlock_free_partial (hc : Fintype.card T < 65536) {s : State T}
    (h : Reach NoUpgrade s ∨ Reach NoLockWrite s) (hh : ∀ t, s.loc t ≠ .holdR ∧ s.loc t ≠ .holdW)
    (hp : ∀ u, ¬ Pending s u) (t : T) : s.loc t = .idle := by
  have hi : Inv s := by
    rcases h with h | h
    · exact inv_reach hc h
    · exact inv_reach hc h
  have ng : ∀ t, ¬ Grantable s t := fun t hg => by
    obtain ⟨u, hu⟩ := C20_no_lost_wakeup_partial hc h t hg
    exact hp u hu
  have hwa : s.m.writerActive = false := by
    have h0 : cnt pHW s.loc = 0 := by
      by_contra hne
      obtain ⟨u, hu⟩ := cnt_exists (p := pHW) (loc := s.loc) (by omega)
      exact (hh u).2 ((holdsWrite_iff s u).2 hu)
    have := hi.wa
    rcases b2n_bool s.m.writerActive with h | h
    · exact h.2
    · omega
  -- nobody upgrades
  have hU : ∀ u, s.loc u ≠ .sleepU := by
    intro u hu
    have h1 : cnt pRA s.loc = cnt pUP s.loc := by
      unfold cnt; congr 1; apply Finset.filter_congr
      intro x _
      have := hh x; have hx := hp x
      revert this hx; unfold Pending; cases s.loc x <;> simp [pRA, pUP]
    have h2 : 0 < cnt pUP s.loc := cnt_pos (t := u) (by simp [hu, pUP])
    have h3 : 0 < cnt pWW s.loc := cnt_pos (t := u) (by simp [hu, pWW])
    have := hi.up
    refine ng u (.inr (.inr ⟨hu, (canUpgrade_iff _).2 ⟨?_, ?_, hwa, ?_⟩⟩))
    · rcases b2n_bool s.m.wantsUpgrade with h | h
      · omega
      · exact h.2
    · rw [hi.ww]; exact h3
    · rw [hi.ra, h1, ← this]
      rcases b2n_bool s.m.wantsUpgrade with h | h <;> omega
  have hra : s.m.readersActive = 0 := by
    rw [hi.ra]
    by_contra hne
    obtain ⟨u, hu⟩ := cnt_exists (p := pRA) (loc := s.loc) (by omega)
    have h1 := hh u; have h2 := hp u; have h3 := hU u
    revert h1 h2 h3 hu; unfold Pending; cases s.loc u <;> simp [pRA]
  have hW : ∀ u, s.loc u ≠ .sleepW := fun u hu =>
    ng u (.inr (.inl ⟨hu, by simp [Internal.canAcquireWrite, hwa, hra]⟩))
  have hww : s.m.writersWaiting = 0 := by
    rw [hi.ww]
    by_contra hne
    obtain ⟨u, hu⟩ := cnt_exists (p := pWW) (loc := s.loc) (by omega)
    have h1 := hW u; have h2 := hp u; have h3 := hU u
    revert h1 h2 h3 hu; unfold Pending; cases s.loc u <;> simp [pWW]
  have hup : s.m.wantsUpgrade = false := by
    rcases b2n_bool s.m.wantsUpgrade with h | h
    · exact h.2
    · exfalso
      have := hi.up
      obtain ⟨u, hu⟩ := cnt_exists (p := pUP) (loc := s.loc) (by omega)
      have h2 := hp u; have h3 := hU u
      revert h2 h3 hu; unfold Pending; cases s.loc u <;> simp [pUP]
  have hR : ∀ u, s.loc u ≠ .sleepR := fun u hu =>
    ng u (.inl ⟨hu, by simp [Internal.canAcquireRead, hwa, hww, hup]⟩)
  have h1 := hh t; have h2 := hp t; have h3 := hU t; have h4 := hW t; have h5 := hR t
  revert h1 h2 h3 h4 h5; unfold Pending; cases s.loc t <;> simp

/-- A state to which the partial theorem applies: a writer sleeps, the reader has released, the wake-up is pending. -/
example : ∃ s : State (Fin 2), Reach NoUpgrade s ∧ Grantable s 1 :=
  ⟨_, .step (.step (.step .init (by simp [NoUpgrade]) (.lockRead (t := 0) rfl rfl))
      (by simp [NoUpgrade]) (.lockWrite (t := 1) rfl rfl)) (by simp [NoUpgrade]) (.unlockRead (t := 0) rfl (by decide)),
    by unfold Grantable; decide⟩

/-! ### The lost wake-up -/

/-- Every thread except the upgrader `A` is outside the lock or waits; `A` sleeps although it could upgrade. -/
structure Stuck (A : T) (s : State T) : Prop where
  a : s.loc A = .sleepU
  others : ∀ u, u ≠ A → s.loc u = .idle ∨ s.loc u = .sleepR ∨ s.loc u = .wokenR ∨ s.loc u = .sleepW ∨ s.loc u = .wokenW
  ra : s.m.readersActive = 1
  wa : s.m.writerActive = false
  up : s.m.wantsUpgrade = true

omit [Fintype T] in
theorem stuck_step {A : T} {s s' : State T} {t : T} {a : Act T} (h : Stuck A s) (hs : Step s t a s')
    (hsp : ¬ (a = .spurious ∧ t = A)) : Stuck A s' := by
  have gotoS : ∀ m l, t ≠ A → (l = .sleepR ∨ l = .sleepW ∨ l = .wokenR ∨ l = .wokenW) → m.readersActive = s.m.readersActive →
      m.writerActive = s.m.writerActive → m.wantsUpgrade = s.m.wantsUpgrade → Stuck A (s.goto m t l) := by
    intro m l hne hl e1 e2 e3
    refine ⟨?_, ?_, by simp [State.goto, e1, h.ra], by simp [State.goto, e2, h.wa], by simp [State.goto, e3, h.up]⟩
    · simp [State.goto, Function.update_of_ne (Ne.symm hne), h.a]
    · intro u hu
      by_cases e : u = t
      · subst e; simp [State.goto]; rcases hl with rfl | rfl | rfl | rfl <;> simp
      · simp only [State.goto, Function.update_of_ne e]; exact h.others u hu
  have tne : ∀ l, s.loc t = l → l ≠ .sleepU → t ≠ A := by
    rintro l hl hne rfl; rw [h.a] at hl; exact hne hl.symm
  have bad : ∀ l, s.loc t = l → (l = .holdR ∨ l = .holdW ∨ l = .notifyR ∨ l = .notifyW ∨ l = .wokenU) → False := by
    intro l hl hb
    have hne : t ≠ A := tne l hl (by rcases hb with rfl | rfl | rfl | rfl | rfl <;> simp)
    have := h.others t hne
    rw [hl] at this
    rcases hb with rfl | rfl | rfl | rfl | rfl <;> simp at this
  have cr : ∀ m : Internal, m.wantsUpgrade = true → m.canAcquireRead = false := by
    intro m hm; simp [Internal.canAcquireRead, hm]
  have cw : ∀ m : Internal, m.readersActive = 1 → m.canAcquireWrite = false := by
    intro m hm; simp [Internal.canAcquireWrite, hm]
  cases hs with
  | lockRead _ hl =>
    unfold State.waitRead
    rw [cr _ (show s.m.requestRead.wantsUpgrade = true from h.up)]
    exact gotoS _ _ (tne _ hl (by simp)) (by simp) rfl rfl rfl
  | recheckR _ hl =>
    unfold State.waitRead
    rw [cr _ h.up]
    exact gotoS _ _ (tne _ hl (by simp)) (by simp) rfl rfl rfl
  | lockWrite _ hl =>
    unfold State.waitWrite
    rw [cw _ (show s.m.requestWrite.readersActive = 1 from h.ra)]
    exact gotoS _ _ (tne _ hl (by simp)) (by simp) rfl rfl rfl
  | recheckW _ hl =>
    unfold State.waitWrite
    rw [cw _ h.ra]
    exact gotoS _ _ (tne _ hl (by simp)) (by simp) rfl rfl rfl
  | tryRead _ hl => rw [cr _ h.up]; exact h
  | tryWrite _ hl => rw [cw _ h.ra]; exact h
  | upgrade _ hl => exact (bad _ hl (by simp)).elim
  | unlockRead _ hl => exact (bad _ hl (by simp)).elim
  | unlockWrite _ hl => exact (bad _ hl (by simp)).elim
  | recheckU _ hl => exact (bad _ hl (by simp)).elim
  | notifyNone _ hl => exact (bad _ hl (by simp)).elim
  | notifyOne u _ hl => exact (bad _ hl (by simp)).elim
  | notifyAll _ hl => exact (bad _ hl (by simp)).elim
  | spuriousW _ hl =>
    have hne : t ≠ A := fun e => hsp ⟨rfl, e⟩
    rcases hl with hl | hl
    · exact gotoS _ _ hne (by simp [hl, wakeW]) rfl rfl rfl
    · have := h.others t hne; rw [hl] at this; simp at this
  | spuriousR _ hl => exact gotoS _ _ (tne _ hl (by simp)) (by simp [hl, wakeR]) rfl rfl rfl

/-- States reachable from `s` without a spurious wake-up of thread `A`. -/
inductive ReachFrom (A : T) (s : State T) : State T → Prop
  | refl : ReachFrom A s s
  | step {s' s'' : State T} {t : T} {a : Act T} : ReachFrom A s s' → ¬ (a = .spurious ∧ t = A) → Step s' t a s'' →
      ReachFrom A s s''

/-- An explicit state of three threads. -/
def st (m : Internal) (a b c : Loc) : State (Fin 3) := ⟨m, ![a, b, c], false⟩

theorem reach_st {s s' : State (Fin 3)} {t a} {m : Internal} {x y z : Loc} (h : Reach Any s) (hs : Step s t a s')
    (hm : s'.m = m) (hf : s'.failed = false) (h0 : s'.loc 0 = x) (h1 : s'.loc 1 = y) (h2 : s'.loc 2 = z) :
    Reach Any (st m x y z) := by
  have e : s' = st m x y z := by
    obtain ⟨m', l, f⟩ := s'
    simp only at hm hf h0 h1 h2
    subst hm hf h0 h1 h2
    unfold st
    congr 1
    funext i
    fin_cases i <;> rfl
  rw [← e]; exact .step h trivial hs

/-- C20 (defect of the code): with three threads `A`, `B`, `C` there is a reachable state in which `A` waits in
`upgrade()` although the lock is available to it, nobody owns any lock besides `A`, no wake-up is pending, and from
which, whatever all threads do, `A` sleeps forever unless the operating system wakes it spuriously. -/
theorem C20_lost_wakeup : ∃ s : State (Fin 3), Reach Any s ∧ Grantable s 0 ∧ (∀ u, ¬ Pending s u) ∧
    (∀ u, u ≠ 0 → ¬ HoldsRead s u ∧ ¬ HoldsWrite s u) ∧ ∀ s', ReachFrom 0 s s' → s'.loc 0 = .sleepU := by
  have r0 : Reach Any (st {} .idle .idle .idle) := by
    have : st {} .idle .idle .idle = init (Fin 3) := by
      unfold st init; congr 1; funext i; fin_cases i <;> rfl
    rw [this]; exact .init
  have r1 : Reach Any (st { readersActive := 1 } .holdR .idle .idle) :=
    reach_st r0 (.lockRead (t := 0) rfl rfl) (by decide) (by decide) (by decide) (by decide) (by decide)
  have r2 : Reach Any (st { readersActive := 2 } .holdR .holdR .idle) :=
    reach_st r1 (.lockRead (t := 1) rfl rfl) (by decide) (by decide) (by decide) (by decide) (by decide)
  have r3 : Reach Any (st { readersActive := 2, writersWaiting := 1 } .holdR .holdR .sleepW) :=
    reach_st r2 (.lockWrite (t := 2) rfl rfl) (by decide) (by decide) (by decide) (by decide) (by decide)
  have r4 : Reach Any (st { readersActive := 2, writersWaiting := 2, wantsUpgrade := true } .sleepU .holdR .sleepW) :=
    reach_st r3 (.upgrade (t := 0) rfl rfl) (by decide) (by decide) (by decide) (by decide) (by decide)
  have r5 : Reach Any (st { readersActive := 1, writersWaiting := 2, wantsUpgrade := true } .sleepU .notifyW .sleepW) :=
    reach_st r4 (.unlockRead (t := 1) rfl rfl) (by decide) (by decide) (by decide) (by decide) (by decide)
  have r6 : Reach Any (st { readersActive := 1, writersWaiting := 2, wantsUpgrade := true } .sleepU .idle .wokenW) :=
    reach_st r5 (.notifyOne (t := 1) 2 rfl rfl (by decide)) (by decide) (by decide) (by decide) (by decide) (by decide)
  have r7 : Reach Any (st { readersActive := 1, writersWaiting := 2, wantsUpgrade := true } .sleepU .idle .sleepW) :=
    reach_st r6 (.recheckW (t := 2) rfl rfl) (by decide) (by decide) (by decide) (by decide) (by decide)
  refine ⟨_, r7, ?_, ?_, ?_, ?_⟩
  · unfold Grantable; decide
  · unfold Pending; decide
  · unfold HoldsRead HoldsWrite; decide
  · intro s' hs
    refine Stuck.a (A := 0) ?_
    induction hs with
    | refl => exact ⟨by decide, by decide, by decide, by decide, by decide⟩
    | step _ hsp hs ih => exact stuck_step ih hs hsp

end Mutable.RW
