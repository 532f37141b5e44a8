import Verif.RWLock.Props
/-! Liveness invariants of `reader_writer_mutex` (used by C20). -/
namespace Mutable.RW
variable {T : Type} [DecidableEq T] [Fintype T]

/-- Thread `t` sleeps although the lock is available to it. -/
def Grantable (s : State T) (t : T) : Prop :=
  (s.loc t = .sleepR ∧ s.m.canAcquireRead = true) ∨ (s.loc t = .sleepW ∧ s.m.canAcquireWrite = true) ∨
  (s.loc t = .sleepU ∧ s.m.canUpgrade = some true)

/-- Thread `u` is about to run inside the mutex: it was woken, or is about to notify. -/
def Pending (s : State T) (u : T) : Prop :=
  s.loc u = .wokenR ∨ s.loc u = .wokenW ∨ s.loc u = .wokenU ∨ s.loc u = .notifyR ∨ s.loc u = .notifyW

/-- The invariant behind C20 for readers; it holds without restrictions. -/
def LiveR (s : State T) : Prop :=
  (∃ t, s.loc t = .sleepR) → s.m.canAcquireRead = true → ∃ u, s.loc u = .notifyR

def LiveW (s : State T) : Prop :=
  (∃ t, s.loc t = .sleepW) → s.m.canAcquireWrite = true → ∃ u, s.loc u = .notifyW ∨ s.loc u = .wokenW

def LiveU (s : State T) : Prop :=
  (∃ t, s.loc t = .sleepU) → s.m.canUpgrade = some true → ∃ u, s.loc u = .notifyW

theorem goto_loc_ne {s : State T} {m t l u} (h : u ≠ t) : (s.goto m t l).loc u = s.loc u := by
  simp [State.goto, Function.update_of_ne h]
@[simp] theorem goto_loc_self {s : State T} {m t l} : (s.goto m t l).loc t = l := by simp [State.goto]
@[simp] theorem goto_m {s : State T} {m t l} : (s.goto m t l).m = m := rfl

theorem exists_goto {s : State T} {m t l} {l' : Loc} (h : ∃ u, (s.goto m t l).loc u = l') (hne : l ≠ l') :
    ∃ u, s.loc u = l' := by
  obtain ⟨u, hu⟩ := h
  by_cases e : u = t
  · subst e; simp at hu; exact absurd hu hne
  · exact ⟨u, by rwa [goto_loc_ne e] at hu⟩

theorem exists_goto' {s : State T} {m t l} {P : Loc → Prop} (h : ∃ u, P (s.loc u)) (hne : ¬ P (s.loc t)) :
    ∃ u, P ((s.goto m t l).loc u) := by
  obtain ⟨u, hu⟩ := h
  by_cases e : u = t
  · subst e; exact absurd hu hne
  · exact ⟨u, by rwa [goto_loc_ne e]⟩

theorem liveR_goto {s : State T} {m t l} (h : LiveR s) (h1 : l = .sleepR → m.canAcquireRead = false)
    (h2 : m.canAcquireRead = true → s.m.canAcquireRead = true ∨ l = .notifyR ∨ ∀ u, s.loc u ≠ .sleepR)
    (h3 : s.loc t ≠ .notifyR) : LiveR (s.goto m t l) := by
  intro he hcan
  have hl : l ≠ .sleepR := fun e => by rw [goto_m, h1 e] at hcan; cases hcan
  have he' := exists_goto he hl
  rcases h2 hcan with h2 | rfl | h2
  · exact exists_goto' (P := (· = .notifyR)) (h he' h2) h3
  · exact ⟨t, by simp⟩
  · obtain ⟨u, hu⟩ := he'; exact absurd hu (h2 u)

theorem liveW_goto {s : State T} {m t l} (h : LiveW s) (h1 : l = .sleepW → m.canAcquireWrite = false)
    (h2 : m.canAcquireWrite = true → s.m.canAcquireWrite = true ∨ (l = .notifyW ∨ l = .wokenW) ∨ ∀ u, s.loc u ≠ .sleepW)
    (h3 : (s.loc t ≠ .notifyW ∧ s.loc t ≠ .wokenW) ∨ m.canAcquireWrite = false ∨ ∀ u, s.loc u ≠ .sleepW) :
    LiveW (s.goto m t l) := by
  intro he hcan
  have hl : l ≠ .sleepW := fun e => by rw [goto_m, h1 e] at hcan; cases hcan
  have he' := exists_goto he hl
  rcases h2 hcan with h2 | h2 | h2
  · rcases h3 with h3 | h3 | h3
    · exact exists_goto' (P := fun l => l = .notifyW ∨ l = .wokenW) (h he' h2) (by simp [h3])
    · rw [goto_m, h3] at hcan; cases hcan
    · obtain ⟨u, hu⟩ := he'; exact absurd hu (h3 u)
  · exact ⟨t, by simpa using h2⟩
  · obtain ⟨u, hu⟩ := he'; exact absurd hu (h2 u)

theorem liveU_goto {s : State T} {m t l} (h : LiveU s) (h1 : l = .sleepU → m.canUpgrade ≠ some true)
    (h2 : m.canUpgrade = some true → s.m.canUpgrade = some true ∨ l = .notifyW ∨ ∀ u, s.loc u ≠ .sleepU)
    (h3 : s.loc t ≠ .notifyW ∨ m.canUpgrade ≠ some true ∨ ∀ u, s.loc u ≠ .sleepU) :
    LiveU (s.goto m t l) := by
  intro he hcan
  have hl : l ≠ .sleepU := fun e => h1 e hcan
  have he' := exists_goto he hl
  rcases h2 hcan with h2 | rfl | h2
  · rcases h3 with h3 | h3 | h3
    · exact exists_goto' (P := (· = .notifyW)) (h he' h2) h3
    · exact absurd hcan h3
    · obtain ⟨u, hu⟩ := he'; exact absurd hu (h3 u)
  · exact ⟨t, by simp⟩
  · obtain ⟨u, hu⟩ := he'; exact absurd hu (h2 u)

/-- How the code moves: every step leads to a failure, stays, or is a `goto`; the cases carry what the liveness proofs
need. -/
inductive Move (s : State T) (t : T) : State T → Prop
  | stay : Move s t s
  | gotR (m) : m.readersActive = inc16 s.m.readersActive → m.writersWaiting = s.m.writersWaiting →
      m.writerActive = s.m.writerActive → m.wantsUpgrade = s.m.wantsUpgrade → s.m.canAcquireRead = true →
      (s.loc t = .idle ∨ s.loc t = .wokenR) → Move s t (s.goto m t .holdR)
  | sleepR (m) : m.canAcquireRead = false → m.canAcquireWrite = s.m.canAcquireWrite → m.canUpgrade = s.m.canUpgrade →
      (s.loc t = .idle ∨ s.loc t = .wokenR) → Move s t (s.goto m t .sleepR)
  | gotW (m l) : m.writerActive = true → (s.loc t = .idle ∨ s.loc t = .wokenW ∨ s.loc t = .wokenU ∨ s.loc t = .holdR) →
      l = .holdW → Move s t (s.goto m t l)
  | sleepW (m) : m.canAcquireWrite = false → m.writerActive = s.m.writerActive → m.wantsUpgrade = s.m.wantsUpgrade →
      (m.writersWaiting = inc16 s.m.writersWaiting ∨ m.writersWaiting = s.m.writersWaiting) →
      (s.loc t = .idle ∨ s.loc t = .wokenW) → Move s t (s.goto m t .sleepW)
  | sleepU (m) : m.canUpgrade = some false → m.wantsUpgrade = true → m.writerActive = s.m.writerActive →
      m.readersActive = s.m.readersActive → (s.loc t = .holdR ∨ s.loc t = .wokenU) → Move s t (s.goto m t .sleepU)
  | relR (m l) : m.writersWaiting = s.m.writersWaiting → m.writerActive = s.m.writerActive →
      m.wantsUpgrade = s.m.wantsUpgrade → s.loc t = .holdR →
      (l = .notifyW ∨ (l = .idle ∧ ¬ (m.wantsUpgrade = true ∧ m.readersActive = 1) ∧
        ¬ (m.readersActive = 0 ∧ m.writersWaiting ≠ 0))) → Move s t (s.goto m t l)
  | relW (m l) : m = { s.m with writerActive := false } → s.m.writerActive = true → s.loc t = .holdW →
      ((l = .notifyW ∧ m.writersWaiting ≠ 0) ∨ (l = .notifyR ∧ m.writersWaiting = 0) ∨
       (l = .idle ∧ m.writersWaiting = 0 ∧ m.readersWaiting = 0)) → Move s t (s.goto m t l)
  | notifyNone : s.loc t = .notifyW → (∀ u, s.loc u ≠ .sleepW ∧ s.loc u ≠ .sleepU) → Move s t (s.goto s.m t .idle)
  | notifyOne (u) : s.loc t = .notifyW → (s.loc u = .sleepW ∨ s.loc u = .sleepU) →
      Move s t ((s.goto s.m u (wakeW (s.loc u))).goto s.m t .idle)
  | notifyAll : s.loc t = .notifyR →
      Move s t (({ s with loc := fun u => wakeR (s.loc u) } : State T).goto s.m t .idle)
  | spuriousW : (s.loc t = .sleepW ∨ s.loc t = .sleepU) → Move s t (s.goto s.m t (wakeW (s.loc t)))
  | spuriousR : s.loc t = .sleepR → Move s t (s.goto s.m t (wakeR (s.loc t)))

theorem Internal.acquireRead_eq {m m' : Internal} (h : m.acquireRead = some m') :
    m.canAcquireRead = true ∧ m' = { m with readersWaiting := dec16 m.readersWaiting, readersActive := inc16 m.readersActive } := by
  unfold Internal.acquireRead at h
  split at h
  · rename_i hc; simp at hc; simp at h; exact ⟨hc.1, h.symm⟩
  · simp at h

theorem Internal.acquireWrite_eq {m m' : Internal} (h : m.acquireWrite = some m') :
    m'.writerActive = true := by
  unfold Internal.acquireWrite at h
  split at h
  · simp at h; subst h; rfl
  · simp at h

theorem Internal.upgradeLock_eq {m m' : Internal} (h : m.upgradeLock = some m') : m'.writerActive = true := by
  unfold Internal.upgradeLock at h
  split at h
  · split at h
    · simp at h
    · split at h
      · simp at h
      · rename_i hm
        split at h
        · simp at h; subst h; exact Internal.acquireWrite_eq hm
        · simp at h
  · simp at h

theorem move_of_step {s s' : State T} {t : T} {a : Act T} (hs : Step s t a s') (hf : s'.failed = false) : Move s t s' := by
  have readCase : ∀ m, m = s.m ∨ m = s.m.requestRead → (s.loc t = .idle ∨ s.loc t = .wokenR) →
      (s.waitRead m t).failed = false → Move s t (s.waitRead m t) := by
    intro m hm hl hf
    have e1 : m.readersActive = s.m.readersActive := by rcases hm with rfl | rfl <;> rfl
    have e2 : m.writersWaiting = s.m.writersWaiting := by rcases hm with rfl | rfl <;> rfl
    have e3 : m.writerActive = s.m.writerActive := by rcases hm with rfl | rfl <;> rfl
    have e4 : m.wantsUpgrade = s.m.wantsUpgrade := by rcases hm with rfl | rfl <;> rfl
    unfold State.waitRead at hf ⊢
    split at hf <;> rename_i hc
    · rw [if_pos hc]
      cases ha : m.acquireRead with
      | none => simp [ha, State.orFail, State.fail] at hf
      | some m' =>
        obtain ⟨h1, rfl⟩ := Internal.acquireRead_eq ha
        exact .gotR _ (by simp [e1]) (by simp [e2]) (by simp [e3]) (by simp [e4])
          (by rw [← h1]; simp [Internal.canAcquireRead, e2, e3, e4]) hl
    · rw [if_neg hc]
      exact .sleepR _ (by simpa using hc) (by simp [Internal.canAcquireWrite, e1, e3])
        (by simp [Internal.canUpgrade, e1, e2, e3, e4]) hl
  have writeCase : ∀ m, m = s.m ∨ m = s.m.requestWrite → (s.loc t = .idle ∨ s.loc t = .wokenW) →
      (s.waitWrite m t).failed = false → Move s t (s.waitWrite m t) := by
    intro m hm hl hf
    unfold State.waitWrite at hf ⊢
    split at hf <;> rename_i hc
    · rw [if_pos hc]
      cases ha : m.acquireWrite with
      | none => simp [ha, State.orFail, State.fail] at hf
      | some m' =>
        exact .gotW _ _ (Internal.acquireWrite_eq ha) (by rcases hl with h | h <;> simp [h]) rfl
    · rw [if_neg hc]
      exact .sleepW _ (by simpa using hc) (by rcases hm with rfl | rfl <;> rfl) (by rcases hm with rfl | rfl <;> rfl)
        (by rcases hm with rfl | rfl <;> simp [Internal.requestWrite]) hl
  have upCase : ∀ m, (m = s.m ∧ s.loc t = .wokenU) ∨ (s.m.tryRequestUpgrade = some m ∧ s.loc t = .holdR) →
      (s.waitUpgrade m t).failed = false → Move s t (s.waitUpgrade m t) := by
    intro m hm hf
    have hl : s.loc t = .holdR ∨ s.loc t = .wokenU := by
      rcases hm with h | h
      · exact .inr h.2
      · exact .inl h.2
    have hm' : m.writerActive = s.m.writerActive ∧ m.readersActive = s.m.readersActive := by
      rcases hm with ⟨rfl, -⟩ | ⟨h, -⟩
      · exact ⟨rfl, rfl⟩
      · unfold Internal.tryRequestUpgrade at h
        split at h
        · simp at h
        · simp at h; subst h; exact ⟨rfl, rfl⟩
    unfold State.waitUpgrade at hf ⊢
    cases hc : m.canUpgrade with
    | none => simp [hc, State.fail] at hf
    | some b =>
      cases b with
      | true =>
        simp only [hc] at hf ⊢
        cases ha : m.upgradeLock with
        | none => simp [ha, State.orFail, State.fail] at hf
        | some m' =>
          exact .gotW _ _ (Internal.upgradeLock_eq ha) (by rcases hl with h | h <;> simp [h]) rfl
      | false =>
        refine .sleepU _ hc ?_ hm'.1 hm'.2 hl
        unfold Internal.canUpgrade at hc
        split at hc
        · rename_i h; simp at h; exact h.1
        · simp at hc
  cases hs with
  | lockRead _ hl => exact readCase _ (.inr rfl) (.inl hl) hf
  | recheckR _ hl => exact readCase _ (.inl rfl) (.inr hl) hf
  | tryRead _ hl =>
    have := readCase _ (.inr rfl) (.inl hl)
    unfold State.waitRead at this
    have e : s.m.requestRead.canAcquireRead = s.m.canAcquireRead := rfl
    rw [e] at this
    split
    · rename_i hcan; simp only [hcan, if_true] at this hf; exact this hf
    · exact .stay
  | lockWrite _ hl => exact writeCase _ (.inr rfl) (.inl hl) hf
  | recheckW _ hl => exact writeCase _ (.inl rfl) (.inr hl) hf
  | tryWrite _ hl =>
    have := writeCase _ (.inr rfl) (.inl hl)
    unfold State.waitWrite at this
    have e : s.m.requestWrite.canAcquireWrite = s.m.canAcquireWrite := rfl
    rw [e] at this
    split
    · rename_i hcan; simp only [hcan, if_true] at this hf; exact this hf
    · exact .stay
  | upgrade _ hl =>
    cases hm : s.m.tryRequestUpgrade with
    | none => exact .stay
    | some m => simp only [hm] at hf; exact upCase m (.inr ⟨hm, hl⟩) hf
  | recheckU _ hl => exact upCase _ (.inl ⟨rfl, hl⟩) hf
  | unlockRead _ hl =>
    cases hm : s.m.releaseRead with
    | none => simp [hm, State.fail] at hf
    | some m =>
      have e : m = { s.m with readersActive := dec16 s.m.readersActive } := by
        unfold Internal.releaseRead at hm
        split at hm
        · simp at hm; exact hm.symm
        · simp at hm
      simp only [hm] at hf ⊢
      unfold State.afterReleaseRead at hf ⊢
      split at hf
      · simp [State.fail] at hf
      · rename_i h0
        rw [if_neg h0]
        split
        · exact .relR _ _ (by simp [e]) (by simp [e]) (by simp [e]) hl (.inl rfl)
        · rename_i h1
          split
          · exact .relR _ _ (by simp [e]) (by simp [e]) (by simp [e]) hl (.inl rfl)
          · rename_i h2
            refine .relR _ _ (by simp [e]) (by simp [e]) (by simp [e]) hl (.inr ⟨rfl, ?_, ?_⟩)
            · simpa using h1
            · simpa using h2
  | unlockWrite _ hl =>
    split at hf
    · rename_i h0
      rw [if_pos h0]
      cases hm : s.m.releaseWrite with
      | none => simp [hm, State.fail] at hf
      | some m =>
        have e : s.m.writerActive = true ∧ m = { s.m with writerActive := false } := by
          unfold Internal.releaseWrite at hm
          split at hm
          · rename_i h; simp at hm h; exact ⟨h.1, hm.symm⟩
          · simp at hm
        simp only
        unfold State.afterReleaseWrite
        split
        · rename_i h1; exact .relW _ _ e.2 e.1 hl (.inl ⟨rfl, by simpa using h1⟩)
        · rename_i h1
          have h1' : m.writersWaiting = 0 := by simpa using h1
          split
          · exact .relW _ _ e.2 e.1 hl (.inr (.inl ⟨rfl, h1'⟩))
          · rename_i h2
            exact .relW _ _ e.2 e.1 hl (.inr (.inr ⟨rfl, h1', by simpa [h1'] using h2⟩))
    · simp [State.fail] at hf
  | notifyNone _ hl h => exact .notifyNone hl h
  | notifyOne u _ hl h => exact .notifyOne u hl h
  | notifyAll _ hl => exact .notifyAll hl
  | spuriousW _ h => exact .spuriousW h
  | spuriousR _ h => exact .spuriousR h

theorem liveR_step {s s' : State T} {t : T} (hi : Inv s) (hi' : Inv s') (h : LiveR s) (hm : Move s t s') : LiveR s' := by
  cases hm with
  | stay => exact h
  | gotR m e1 e2 e3 e4 hc hl =>
    refine liveR_goto h (by simp) (fun _ => .inl hc) (by rcases hl with h | h <;> simp [h])
  | sleepR m hc e1 e2 hl =>
    exact liveR_goto h (fun _ => hc) (by simp [hc]) (by rcases hl with h | h <;> simp [h])
  | gotW m l e1 hl e2 =>
    subst e2
    exact liveR_goto h (by simp) (by simp [Internal.canAcquireRead, e1]) (by rcases hl with h | h | h | h <;> simp [h])
  | sleepW m hc e1 e2 e3 hl =>
    refine liveR_goto h (by simp) (fun hcan => ?_) (by rcases hl with h | h <;> simp [h])
    exfalso
    have := hi'.ww
    have hp : 0 < cnt pWW (s.goto m t .sleepW).loc := cnt_pos (t := t) (by simp [pWW])
    rw [← this] at hp
    simp [Internal.canAcquireRead] at hcan hp
    omega
  | sleepU m hc e1 e2 e3 hl =>
    exact liveR_goto h (by simp) (by simp [Internal.canAcquireRead, e1]) (by rcases hl with h | h <;> simp [h])
  | relR m l e1 e2 e3 hl hn =>
    refine liveR_goto h (by rcases hn with rfl | ⟨rfl, -⟩ <;> simp) (fun hcan => .inl ?_) (by simp [hl])
    simpa [Internal.canAcquireRead, e1, e2, e3] using hcan
  | relW m l e1 e2 hl hn =>
    refine liveR_goto h (by rcases hn with ⟨rfl, -⟩ | ⟨rfl, -⟩ | ⟨rfl, -⟩ <;> simp) (fun hcan => ?_) (by simp [hl])
    rcases hn with ⟨-, hn⟩ | ⟨rfl, -⟩ | ⟨-, -, hn⟩
    · simp [Internal.canAcquireRead] at hcan; omega
    · simp
    · right; right
      intro u hu
      have : 0 < cnt pRW s.loc := cnt_pos (t := u) (by simp [hu, pRW])
      rw [← hi.rw] at this
      rw [e1] at hn; simp at hn; omega
  | notifyNone hl _ => exact liveR_goto h (by simp) (fun h => .inl h) (by simp [hl])
  | notifyOne u hl hu =>
    have hne : t ≠ u := by rintro rfl; rw [hl] at hu; simp at hu
    refine liveR_goto (liveR_goto h ?_ (fun h => .inl h) ?_) (by simp) (fun h => .inl h) ?_
    · rcases hu with hu | hu <;> simp [hu, wakeW]
    · rcases hu with hu | hu <;> simp [hu]
    · rw [goto_loc_ne hne, hl]; simp
  | notifyAll hl =>
    rintro ⟨u, hu⟩ -
    exfalso
    by_cases e : u = t
    · subst e; simp at hu
    · rw [goto_loc_ne e] at hu
      revert hu; simp only; cases s.loc u <;> simp [wakeR]
  | spuriousW hu =>
    refine liveR_goto h ?_ (fun h => .inl h) ?_
    · rcases hu with hu | hu <;> simp [hu, wakeW]
    · rcases hu with hu | hu <;> simp [hu]
  | spuriousR hu => exact liveR_goto h (by simp [hu, wakeR]) (fun h => .inl h) (by simp [hu])

theorem no_sleepW {s : State T} (hi : Inv s) (h : s.m.writersWaiting = 0) (u : T) :
    s.loc u ≠ .sleepW ∧ s.loc u ≠ .sleepU := by
  rw [hi.ww] at h
  have := cnt_zero h u
  constructor <;> intro e <;> simp [e, pWW] at this

theorem liveW_step {s s' : State T} {t : T} (hi : Inv s) (hi' : Inv s') (hno : ∀ u, s.loc u ≠ .sleepU ∧ s.loc u ≠ .wokenU)
    (h : LiveW s) (hm : Move s t s') : LiveW s' := by
  cases hm with
  | stay => exact h
  | gotR m e1 e2 e3 e4 hc hl =>
    have hp : 0 < cnt pRA (s.goto m t .holdR).loc := cnt_pos (t := t) (by simp [pRA])
    rw [← hi'.ra] at hp
    have hf : m.canAcquireWrite = false := by
      simp [Internal.canAcquireWrite]; intro _; simp at hp; omega
    exact liveW_goto h (by simp) (by simp [hf]) (.inr (.inl hf))
  | sleepR m hc e1 e2 hl =>
    exact liveW_goto h (by simp) (fun hh => .inl (by rw [← e1]; exact hh)) (.inl (by rcases hl with h | h <;> simp [h]))
  | gotW m l e1 hl e2 =>
    subst e2
    have hf : m.canAcquireWrite = false := by simp [Internal.canAcquireWrite, e1]
    exact liveW_goto h (by simp) (by simp [hf]) (.inr (.inl hf))
  | sleepW m hc e1 e2 e3 hl => exact liveW_goto h (fun _ => hc) (by simp [hc]) (.inr (.inl hc))
  | sleepU m hc e1 e2 e3 hl =>
    refine liveW_goto h (by simp) (fun hh => .inl ?_) (.inl ?_)
    · simpa [Internal.canAcquireWrite, e2, e3] using hh
    · rcases hl with h | h <;> simp [h]
  | relR m l e1 e2 e3 hl hn =>
    refine liveW_goto h (by rcases hn with rfl | ⟨rfl, -⟩ <;> simp) (fun hcan => ?_) (.inl (by simp [hl]))
    rcases hn with rfl | ⟨rfl, -, h2⟩
    · simp
    · right; right; intro u
      simp [Internal.canAcquireWrite] at hcan
      refine (no_sleepW hi ?_ u).1
      rw [← e1]; by_contra hne; exact h2 ⟨hcan.2, hne⟩
  | relW m l e1 e2 hl hn =>
    refine liveW_goto h (by rcases hn with ⟨rfl, -⟩ | ⟨rfl, -⟩ | ⟨rfl, -⟩ <;> simp) (fun hcan => ?_) (.inl (by simp [hl]))
    rcases hn with ⟨rfl, hn⟩ | ⟨rfl, hn⟩ | ⟨-, hn, -⟩
    · simp
    · right; right; intro u; exact (no_sleepW hi (by rw [e1] at hn; exact hn) u).1
    · right; right; intro u; exact (no_sleepW hi (by rw [e1] at hn; exact hn) u).1
  | notifyNone hl hn => exact liveW_goto h (by simp) (fun h => .inl h) (.inr (.inr fun u => (hn u).1))
  | notifyOne u hl hu =>
    have hne : u ≠ t := by rintro rfl; rw [hl] at hu; simp at hu
    intro _ _
    refine ⟨u, .inr ?_⟩
    rw [goto_loc_ne hne, goto_loc_self]
    rcases hu with hu | hu
    · simp [hu, wakeW]
    · exact absurd hu (hno u).1
  | notifyAll hl =>
    rintro ⟨u, hu⟩ hcan
    have hut : u ≠ t := by rintro rfl; simp at hu
    rw [goto_loc_ne hut] at hu
    have hu' : s.loc u = .sleepW := by revert hu; simp only; cases s.loc u <;> simp [wakeR]
    obtain ⟨w, hw⟩ := h ⟨u, hu'⟩ hcan
    have hwt : w ≠ t := by rintro rfl; rw [hl] at hw; simp at hw
    refine ⟨w, ?_⟩
    rw [goto_loc_ne hwt]
    rcases hw with hw | hw <;> simp [hw, wakeR]
  | spuriousW hu =>
    rcases hu with hu | hu
    · exact liveW_goto h (by simp [hu, wakeW]) (fun h => .inl h) (.inl (by simp [hu]))
    · exact liveW_goto h (by simp [hu, wakeW]) (fun h => .inl h) (.inl (by simp [hu]))
  | spuriousR hu => exact liveW_goto h (by simp [hu, wakeR]) (fun h => .inl h) (.inl (by simp [hu]))

theorem canUpgrade_iff (m : Internal) : m.canUpgrade = some true ↔
    m.wantsUpgrade = true ∧ 0 < m.writersWaiting ∧ m.writerActive = false ∧ m.readersActive = 1 := by
  unfold Internal.canUpgrade
  split
  · rename_i h; simp at h; simp [h]
  · rename_i h; simp at h; simp; intro h1 h2; have := h h1; omega

theorem liveU_step {s s' : State T} {t : T} (hi : Inv s)
    (hno : ∀ u, s.loc u ≠ .sleepW ∧ s.loc u ≠ .wokenW) (hno' : ∀ u, s'.loc u ≠ .sleepW)
    (h : LiveU s) (hm : Move s t s') : LiveU s' := by
  cases hm with
  | stay => exact h
  | gotR m e1 e2 e3 e4 hc hl =>
    have hf : m.canUpgrade ≠ some true := by
      rw [Ne, canUpgrade_iff]; simp [Internal.canAcquireRead] at hc; rw [e4]; simp [hc]
    exact liveU_goto h (by simp) (fun h => absurd h hf) (.inr (.inl hf))
  | sleepR m hc e1 e2 hl =>
    exact liveU_goto h (by simp) (fun hh => .inl (by rw [← e2]; exact hh)) (.inl (by rcases hl with h | h <;> simp [h]))
  | gotW m l e1 hl e2 =>
    subst e2
    have hf : m.canUpgrade ≠ some true := by rw [Ne, canUpgrade_iff]; simp [e1]
    exact liveU_goto h (by simp) (fun h => absurd h hf) (.inr (.inl hf))
  | sleepW m hc e1 e2 e3 hl =>
    exact absurd goto_loc_self (hno' t)
  | sleepU m hc e1 e2 e3 hl =>
    have hf : m.canUpgrade ≠ some true := by simp [hc]
    exact liveU_goto h (fun _ => hf) (fun h => absurd h hf) (.inr (.inl hf))
  | relR m l e1 e2 e3 hl hn =>
    refine liveU_goto h (by rcases hn with rfl | ⟨rfl, -⟩ <;> simp) (fun hcan => ?_) (.inl (by simp [hl]))
    rw [canUpgrade_iff] at hcan
    rcases hn with rfl | ⟨rfl, h2, -⟩
    · simp
    · exact absurd ⟨hcan.1, hcan.2.2.2⟩ h2
  | relW m l e1 e2 hl hn =>
    refine liveU_goto h (by rcases hn with ⟨rfl, -⟩ | ⟨rfl, -⟩ | ⟨rfl, -⟩ <;> simp) (fun hcan => ?_) (.inl (by simp [hl]))
    rw [canUpgrade_iff] at hcan
    have := hi.ex e2
    rw [e1] at hcan; simp at hcan; omega
  | notifyNone hl hn => exact liveU_goto h (by simp) (fun h => .inl h) (.inr (.inr fun u => (hn u).2))
  | notifyOne u hl hu =>
    have hne : u ≠ t := by rintro rfl; rw [hl] at hu; simp at hu
    have hu : s.loc u = .sleepU := by
      rcases hu with hu | hu
      · exact absurd hu (hno u).1
      · exact hu
    rintro ⟨w, hw⟩ _
    exfalso
    have hwt : w ≠ t := by rintro rfl; simp at hw
    rw [goto_loc_ne hwt] at hw
    have hwu : w ≠ u := by rintro rfl; simp [hu, wakeW] at hw
    rw [goto_loc_ne hwu] at hw
    have := cnt_two (p := pUP) (loc := s.loc) hwu (by simp [hw, pUP]) (by simp [hu, pUP])
    rw [← hi.up] at this
    rcases b2n_bool s.m.wantsUpgrade with h | h <;> omega
  | notifyAll hl =>
    rintro ⟨u, hu⟩ hcan
    have hut : u ≠ t := by rintro rfl; simp at hu
    rw [goto_loc_ne hut] at hu
    have hu' : s.loc u = .sleepU := by revert hu; simp only; cases s.loc u <;> simp [wakeR]
    obtain ⟨w, hw⟩ := h ⟨u, hu'⟩ hcan
    have hwt : w ≠ t := by rintro rfl; rw [hl] at hw; simp at hw
    refine ⟨w, ?_⟩
    rw [goto_loc_ne hwt]
    simp [hw, wakeR]
  | spuriousW hu =>
    rcases hu with hu | hu
    · exact liveU_goto h (by simp [hu, wakeW]) (fun h => .inl h) (.inl (by simp [hu]))
    · exact liveU_goto h (by simp [hu, wakeW]) (fun h => .inl h) (.inl (by simp [hu]))
  | spuriousR hu => exact liveU_goto h (by simp [hu, wakeR]) (fun h => .inl h) (.inl (by simp [hu]))

end Mutable.RW
