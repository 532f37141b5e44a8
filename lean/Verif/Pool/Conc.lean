import Verif.Pool.Inv
/-! Invariants of the thread-safe pool. -/
namespace Mutable.Pool
open RW (Loc Act)
variable {T V : Type} [DecidableEq T]

/-- How a thread's position in the mutex may change by a step inside the mutex. -/
def LocStep (l l' : Loc) : Bool :=
  match l, l' with
  | .sleepR, .wokenR | .sleepU, .wokenU | .sleepW, .wokenW | .wokenR, .sleepR | .wokenR, .holdR | .wokenU, .sleepU
  | .wokenU, .holdW | .wokenW, .sleepW | .wokenW, .holdW | .notifyW, .idle | .notifyR, .idle => true
  | _, _ => l = l'

theorem LocStep.refl (l : Loc) : LocStep l l = true := by cases l <;> rfl

theorem goto_loc (s : RW.State T) (m : RW.Internal) (t u : T) (l : Loc) :
    (s.goto m t l).loc u = if u = t then l else s.loc u := by
  simp [RW.State.goto, Function.update_apply]

theorem orFail_loc {s : RW.State T} {r : Option RW.Internal} {t : T} {l : Loc} (hf : (s.orFail r t l).failed = false)
    (h0 : s.failed = false) (u : T) : (s.orFail r t l).loc u = if u = t then l else s.loc u := by
  unfold RW.State.orFail at hf ⊢
  cases r with
  | none => simp [RW.State.fail] at hf
  | some m => exact goto_loc s m t u l

theorem waitRead_loc {s : RW.State T} {m : RW.Internal} {t : T} (h0 : s.failed = false)
    (hf : (s.waitRead m t).failed = false) (u : T) :
    if u = t then (s.waitRead m t).loc u = .holdR ∨ (s.waitRead m t).loc u = .sleepR
    else (s.waitRead m t).loc u = s.loc u := by
  unfold RW.State.waitRead at hf ⊢
  by_cases h : m.canAcquireRead = true
  · rw [if_pos h] at hf ⊢; rw [orFail_loc hf h0]; split <;> simp_all
  · rw [if_neg h] at hf ⊢; rw [goto_loc]; split <;> simp_all

theorem waitWrite_loc {s : RW.State T} {m : RW.Internal} {t : T} (h0 : s.failed = false)
    (hf : (s.waitWrite m t).failed = false) (u : T) :
    if u = t then (s.waitWrite m t).loc u = .holdW ∨ (s.waitWrite m t).loc u = .sleepW
    else (s.waitWrite m t).loc u = s.loc u := by
  unfold RW.State.waitWrite at hf ⊢
  by_cases h : m.canAcquireWrite = true
  · rw [if_pos h] at hf ⊢; rw [orFail_loc hf h0]; split <;> simp_all
  · rw [if_neg h] at hf ⊢; rw [goto_loc]; split <;> simp_all

theorem waitUpgrade_loc {s : RW.State T} {m : RW.Internal} {t : T} (h0 : s.failed = false)
    (hf : (s.waitUpgrade m t).failed = false) (u : T) :
    if u = t then (s.waitUpgrade m t).loc u = .holdW ∨ (s.waitUpgrade m t).loc u = .sleepU
    else (s.waitUpgrade m t).loc u = s.loc u := by
  unfold RW.State.waitUpgrade at hf ⊢
  generalize m.canUpgrade = r at hf ⊢
  rcases r with _ | _ | _
  · simp [RW.State.fail] at hf
  · simp only; rw [goto_loc]; split <;> simp_all
  · simp only at hf ⊢; rw [orFail_loc hf h0]; split <;> simp_all

/-- Steps inside the mutex. -/
theorem inside_loc {s s' : RW.State T} {t : T} {a : Act T} (ha : a = .recheck ∨ a = .spurious ∨ ∃ u, a = .notify u)
    (h : RW.Step s t a s') (hf : s'.failed = false) (u : T) : LocStep (s.loc u) (s'.loc u) = true := by
  cases h with
  | recheckR h0 hl =>
    have := waitRead_loc h0 hf u
    by_cases hu : u = t
    · subst hu; simp only [if_true] at this; rcases this with h | h <;> rw [h, hl] <;> rfl
    · simp only [hu, if_false] at this; rw [this]; exact LocStep.refl _
  | recheckW h0 hl =>
    have := waitWrite_loc h0 hf u
    by_cases hu : u = t
    · subst hu; simp only [if_true] at this; rcases this with h | h <;> rw [h, hl] <;> rfl
    · simp only [hu, if_false] at this; rw [this]; exact LocStep.refl _
  | recheckU h0 hl =>
    have := waitUpgrade_loc h0 hf u
    by_cases hu : u = t
    · subst hu; simp only [if_true] at this; rcases this with h | h <;> rw [h, hl] <;> rfl
    · simp only [hu, if_false] at this; rw [this]; exact LocStep.refl _
  | notifyNone h0 hl _ =>
    rw [goto_loc]; split
    · next hu => subst hu; rw [hl]; rfl
    · exact LocStep.refl _
  | notifyOne w h0 hl hw =>
    rw [goto_loc, goto_loc]; split
    · next hu => subst hu; rw [hl]; rfl
    · split
      · next hu => subst hu; rcases hw with h | h <;> rw [h] <;> rfl
      · exact LocStep.refl _
  | notifyAll h0 hl =>
    rw [goto_loc]; split
    · next hu => subst hu; rw [hl]; rfl
    · simp only; cases s.loc u <;> rfl
  | spuriousW h0 hl =>
    rw [goto_loc]; split
    · next hu => subst hu; rcases hl with h | h <;> rw [h] <;> rfl
    · exact LocStep.refl _
  | spuriousR h0 hl =>
    rw [goto_loc]; split
    · next hu => subst hu; rw [hl]; rfl
    · exact LocStep.refl _
  | _ => simp at ha

theorem lockRead_loc {s s' : RW.State T} {t : T} (h : RW.Step s t .lockRead s') (hf : s'.failed = false) (u : T) :
    if u = t then s'.loc u = .holdR ∨ s'.loc u = .sleepR else s'.loc u = s.loc u := by
  cases h with | lockRead h0 hl => exact waitRead_loc h0 hf u

theorem upgrade_loc {s s' : RW.State T} {t : T} (h : RW.Step s t .upgrade s') (hf : s'.failed = false)
    (hw : s.m.wantsUpgrade = false) (u : T) :
    if u = t then s'.loc u = .holdW ∨ s'.loc u = .sleepU else s'.loc u = s.loc u := by
  cases h with
  | upgrade h0 hl =>
    simp only [RW.Internal.tryRequestUpgrade, hw, Bool.false_eq_true, if_false] at hf ⊢
    exact waitUpgrade_loc h0 hf u

theorem refused_eq {s s' : RW.State T} {t : T} (h : RW.Step s t .upgrade s') (hw : s.m.wantsUpgrade = true) :
    s' = s := by
  cases h with
  | upgrade h0 hl => simp [RW.Internal.tryRequestUpgrade, hw]

theorem unlockRead_loc {s s' : RW.State T} {t : T} (h : RW.Step s t .unlockRead s') (hf : s'.failed = false) (u : T) :
    if u = t then s'.loc u = .notifyW ∨ s'.loc u = .idle else s'.loc u = s.loc u := by
  cases h with
  | unlockRead h0 hl =>
    generalize s.m.releaseRead = r at hf ⊢
    cases r with
    | none => simp [RW.State.fail] at hf
    | some m =>
      simp only [RW.State.afterReleaseRead] at hf ⊢
      split at hf
      · simp [RW.State.fail] at hf
      · next h1 =>
        rw [if_neg h1]
        split at hf
        · next h2 => rw [if_pos h2, goto_loc]; split <;> simp_all
        · next h2 =>
          rw [if_neg h2]
          split at hf
          · next h3 => rw [if_pos h3, goto_loc]; split <;> simp_all
          · next h3 => rw [if_neg h3, goto_loc]; split <;> simp_all

theorem unlockWrite_loc {s s' : RW.State T} {t : T} (h : RW.Step s t .unlockWrite s') (hf : s'.failed = false) (u : T) :
    if u = t then s'.loc u = .notifyW ∨ s'.loc u = .notifyR ∨ s'.loc u = .idle else s'.loc u = s.loc u := by
  cases h with
  | unlockWrite h0 hl =>
    split at hf
    · next hra =>
      rw [if_pos hra]
      generalize s.m.releaseWrite = r at hf ⊢
      cases r with
      | none => simp [RW.State.fail] at hf
      | some m =>
        simp only [RW.State.afterReleaseWrite] at hf ⊢
        split at hf
        · next h2 => rw [if_pos h2, goto_loc]; split <;> simp_all
        · next h2 =>
          rw [if_neg h2]
          split at hf
          · next h3 => rw [if_pos h3, goto_loc]; split <;> simp_all
          · next h3 => rw [if_neg h3, goto_loc]; split <;> simp_all
    · simp [RW.State.fail] at hf

/-- Where a thread is in the mutex fits where it is in `operator()`. -/
def Fits : Pc V → Loc → Prop
  | .out, l => l = .idle
  | .finding _, l => l = .sleepR ∨ l = .wokenR ∨ l = .holdR
  | .missed _, l | .giveUp _, l => l = .holdR
  | .upgrading _, l => l = .sleepU ∨ l = .wokenU ∨ l = .holdW
  | .again _, l | .unlocking, l => l = .notifyW ∨ l = .notifyR ∨ l = .idle
  | .leaving, l => l = .holdR ∨ l = .holdW

theorem Fits.step {p : Pc V} {l l' : Loc} (h : Fits p l) (hs : LocStep l l' = true) : Fits p l' := by
  cases p <;> simp only [Fits] at h ⊢ <;> (try rcases h with rfl | rfl | rfl) <;> (try rcases h with rfl | rfl) <;>
    (try subst h) <;> revert hs <;> cases l' <;> simp [LocStep]

/-- Thread `t` has seen that `v` is absent and has not inserted it yet. -/
def Absent (p : Pc V) (v : V) : Prop := p = .missed v ∨ p = .upgrading v

structure PInv (eq : V → V → Bool) (s : State T V) : Prop where
  rw : RW.Reach RW.NoLockWrite s.rw
  fits : ∀ t, Fits (s.pc t) (s.rw.loc t)
  cnt : s.core.CntInv
  key : s.core.KeyInv eq
  abs : ∀ t v, Absent (s.pc t) v → s.core.find eq v = none

variable [Fintype T]

theorem abs_same {eq : V → V → Bool} {c c' : Core V} (h : Core.SameKeys c c') {v : V} (hv : c.find eq v = none) :
    c'.find eq v = none := by
  refine Core.find_none_of fun n e he => ?_
  obtain ⟨e', h1, h2⟩ := Core.val_of_map h.1.symm he
  rw [← h2]; exact Core.find_none hv h1

theorem fits_at {s : State T V} {t : T} {p : Pc V} {rw' : RW.State T} (h : ∀ u, Fits (s.pc u) (s.rw.loc u))
    (hl : ∀ u, u ≠ t → rw'.loc u = s.rw.loc u) (ht : Fits p (rw'.loc t)) (u : T) :
    Fits (Function.update s.pc t p u) (rw'.loc u) := by
  by_cases hu : u = t
  · subst hu; rw [Function.update_self]; exact ht
  · rw [Function.update_of_ne hu, hl u hu]; exact h u

theorem abs_at {eq : V → V → Bool} {s : State T V} {t : T} {p : Pc V} {c : Core V}
    (h : ∀ u v, u ≠ t → Absent (s.pc u) v → c.find eq v = none)
    (ht : ∀ v, Absent p v → c.find eq v = none) (u : T) (v : V) (hu : Absent (Function.update s.pc t p u) v) :
    c.find eq v = none := by
  by_cases hut : u = t
  · subst hut; rw [Function.update_self] at hu; exact ht v hu
  · rw [Function.update_of_ne hut] at hu; exact h u v hut hu

theorem find_give {eq : V → V → Bool} {c : Core V} (v : V) (n : Nat) {w : V} (h : c.find eq w = none) :
    (c.give v n).find eq w = none :=
  abs_same (c := c) (c' := c.upd n inc32) (Core.same_upd c n inc32) h

theorem inv_step {eq : V → V → Bool} (he : Core.IsEqv eq) (hc : Fintype.card T < 65536) {s s' : State T V} {t : T}
    (h : PInv eq s) (hs : Step eq s t s') : PInv eq s' := by
  cases hs with
  | @call v rw' hp hr =>
    have hrr := RW.Reach.step h.rw (by simp [RW.NoLockWrite]) hr
    have hl := lockRead_loc hr (RW.inv_reach hc hrr).ok
    refine ⟨hrr, fits_at h.fits (fun u hu => by simpa [hu] using hl u) ?_, h.cnt, h.key,
      abs_at (fun u v _ => h.abs u v) (by simp [Absent])⟩
    have := hl t; simp only [if_true] at this
    simp only [Fits]; rcases this with h | h <;> simp [h]
  | @inside rw' a ha hr =>
    have hrr := RW.Reach.step h.rw (by rintro rfl; simp at ha) hr
    exact ⟨hrr, fun u => (h.fits u).step (inside_loc ha hr (RW.inv_reach hc hrr).ok u), h.cnt, h.key, h.abs⟩
  | @found v n hp hl hf =>
    obtain ⟨h1, h2, _⟩ := Core.give_found h.cnt h.key hf
    refine ⟨h.rw, fits_at h.fits (fun _ _ => rfl) (.inl hl), h1, h2,
      abs_at (fun u w _ hw => find_give v n (h.abs u w hw)) (by simp [Absent])⟩
  | @miss v hp hl hf =>
    refine ⟨h.rw, fits_at h.fits (fun _ _ => rfl) hl, h.cnt, h.key, abs_at (fun u v _ => h.abs u v) ?_⟩
    rintro w (hw | hw) <;> cases hw; exact hf
  | @upgrade v rw' hp hw hr =>
    have hrr := RW.Reach.step h.rw (by simp [RW.NoLockWrite]) hr
    have hl := upgrade_loc hr (RW.inv_reach hc hrr).ok hw
    refine ⟨hrr, fits_at h.fits (fun u hu => by simpa [hu] using hl u) ?_, h.cnt, h.key,
      abs_at (fun u v _ => h.abs u v) ?_⟩
    · have := hl t; simp only [if_true] at this
      simp only [Fits]; rcases this with h | h <;> simp [h]
    · rintro w (hw | hw) <;> cases hw; exact h.abs t v (.inl hp)
  | @refused v rw' hp hw hr =>
    have hrr := RW.Reach.step h.rw (by simp [RW.NoLockWrite]) hr
    have e := refused_eq hr hw
    subst e
    refine ⟨hrr, fits_at h.fits (fun u hu => rfl) ?_, h.cnt, h.key,
      abs_at (fun u v _ => h.abs u v) (by simp [Absent])⟩
    have := h.fits t; rw [hp] at this; exact this
  | @giveUp v rw' hp hr =>
    have hrr := RW.Reach.step h.rw (by simp [RW.NoLockWrite]) hr
    have hl := unlockRead_loc hr (RW.inv_reach hc hrr).ok
    refine ⟨hrr, fits_at h.fits (fun u hu => by simpa [hu] using hl u) ?_, h.cnt, h.key,
      abs_at (fun u v _ => h.abs u v) (by simp [Absent])⟩
    have := hl t; simp only [if_true] at this
    simp only [Fits]; rcases this with h | h <;> simp [h]
  | @retry v rw' hp hr =>
    have hrr := RW.Reach.step h.rw (by simp [RW.NoLockWrite]) hr
    have hl := lockRead_loc hr (RW.inv_reach hc hrr).ok
    refine ⟨hrr, fits_at h.fits (fun u hu => by simpa [hu] using hl u) ?_, h.cnt, h.key,
      abs_at (fun u v _ => h.abs u v) (by simp [Absent])⟩
    have := hl t; simp only [if_true] at this
    simp only [Fits]; rcases this with h | h <;> simp [h]
  | @insert v hp hl =>
    obtain ⟨h1, h2, _⟩ := Core.give_new he h.cnt h.key (h.abs t v (.inr hp))
    refine ⟨h.rw, fits_at h.fits (fun _ _ => rfl) (.inr hl), h1, h2, abs_at (fun u w hu hw => ?_) (by simp [Absent])⟩
    -- nobody else can be between its unsuccessful search and its insertion
    exfalso
    have hex := RW.inv_excl (RW.inv_reach hc h.rw) t u hl hu
    have hfu := h.fits u
    rcases hw with hw | hw <;> rw [hw] at hfu <;> simp only [Fits] at hfu
    · exact hex.1 (.inl hfu)
    · rcases hfu with h | h | h
      · exact hex.1 (.inr (.inl h))
      · exact hex.1 (.inr (.inr h))
      · exact hex.2 h
  | @unlockR rw' hp hr =>
    have hrr := RW.Reach.step h.rw (by simp [RW.NoLockWrite]) hr
    have hl := unlockRead_loc hr (RW.inv_reach hc hrr).ok
    refine ⟨hrr, fits_at h.fits (fun u hu => by simpa [hu] using hl u) ?_, h.cnt, h.key,
      abs_at (fun u v _ => h.abs u v) (by simp [Absent])⟩
    have := hl t; simp only [if_true] at this
    simp only [Fits]; rcases this with h | h <;> simp [h]
  | @unlockW rw' hp hr =>
    have hrr := RW.Reach.step h.rw (by simp [RW.NoLockWrite]) hr
    have hl := unlockWrite_loc hr (RW.inv_reach hc hrr).ok
    refine ⟨hrr, fits_at h.fits (fun u hu => by simpa [hu] using hl u) ?_, h.cnt, h.key,
      abs_at (fun u v _ => h.abs u v) (by simp [Absent])⟩
    have := hl t; simp only [if_true] at this
    simp only [Fits]; exact this
  | return_ hp hl =>
    exact ⟨h.rw, fits_at h.fits (fun _ _ => rfl) hl, h.cnt, h.key, abs_at (fun u v _ => h.abs u v) (by simp [Absent])⟩
  | @op o c' ho =>
    obtain ⟨h1, h2⟩ := Core.op_inv h.cnt ho
    exact ⟨h.rw, h.fits, h1, h.key.same h2, fun u v hv => abs_same h2 (h.abs u v hv)⟩

theorem inv_reach {eq : V → V → Bool} (he : Core.IsEqv eq) (hc : Fintype.card T < 65536) {s : State T V}
    (h : Reach eq s) : PInv eq s := by
  induction h with
  | init =>
    exact ⟨.init, fun _ => rfl, (Core.init_inv eq).1, (Core.init_inv eq).2, by simp [Absent]⟩
  | step _ hs ih => exact inv_step he hc ih hs

/-- A step keeps all pooled values. -/
theorem keeps_step {eq : V → V → Bool} (he : Core.IsEqv eq) {s s' : State T V} {t : T} (h : PInv eq s)
    (hs : Step eq s t s') : s.core.Keeps s'.core := by
  cases hs with
  | found hp hl hf => exact (Core.give_found h.cnt h.key hf).2.2
  | insert hp hl => exact (Core.give_new he h.cnt h.key (h.abs t _ (.inr hp))).2.2
  | op o ho => exact (Core.op_inv h.cnt ho).2.keeps
  | _ => exact Core.Keeps.refl _

end Mutable.Pool
