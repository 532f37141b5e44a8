import Verif.RWLock.Model
/-! The counting invariant of `reader_writer_mutex`. -/
namespace Mutable.RW
variable {T : Type} [DecidableEq T] [Fintype T]

/-- number of threads in a class of locations -/
def cnt (p : Loc → Bool) (loc : T → Loc) : Nat := (Finset.univ.filter fun t => p (loc t) = true).card

def b2n (b : Bool) : Nat := if b then 1 else 0

theorem cnt_update (p : Loc → Bool) (loc : T → Loc) (t : T) (l : Loc) :
    cnt p (Function.update loc t l) + b2n (p (loc t)) = cnt p loc + b2n (p l) := by
  have h : ∀ loc' : T → Loc, cnt p loc' = (((Finset.univ.erase t).filter fun u => p (loc' u) = true).card) + b2n (p (loc' t)) := by
    intro loc'
    unfold cnt b2n
    conv_lhs => rw [← Finset.insert_erase (Finset.mem_univ t)]
    rw [Finset.filter_insert]
    split
    · rw [Finset.card_insert_of_notMem (by simp)]
    · simp
  rw [h (Function.update loc t l), h loc]
  have e : ((Finset.univ.erase t).filter fun u => p (Function.update loc t l u) = true) =
      ((Finset.univ.erase t).filter fun u => p (loc u) = true) := by
    apply Finset.filter_congr
    intro u hu
    rw [Function.update_of_ne (Finset.ne_of_mem_erase hu)]
  rw [e]; simp; omega

theorem cnt_map (p : Loc → Bool) (f : Loc → Loc) (loc : T → Loc) (h : ∀ l, p (f l) = p l) :
    cnt p (fun t => f (loc t)) = cnt p loc := by
  unfold cnt; simp [h]

theorem cnt_le (p : Loc → Bool) (loc : T → Loc) : cnt p loc ≤ Fintype.card T := Finset.card_le_univ _

theorem cnt_pos {p : Loc → Bool} {loc : T → Loc} {t : T} (h : p (loc t) = true) : 0 < cnt p loc :=
  Finset.card_pos.2 ⟨t, by simp [h]⟩

theorem cnt_zero {p : Loc → Bool} {loc : T → Loc} (h : cnt p loc = 0) (t : T) : p (loc t) = false := by
  cases hp : p (loc t) with
  | false => rfl
  | true => have := cnt_pos (loc := loc) hp; omega

theorem cnt_two {p : Loc → Bool} {loc : T → Loc} {t u : T} (hne : t ≠ u) (h : p (loc t) = true) (h' : p (loc u) = true) :
    2 ≤ cnt p loc := by
  have : ({t, u} : Finset T).card = 2 := Finset.card_pair hne
  rw [← this]
  apply Finset.card_le_card
  intro x hx
  simp at hx
  rcases hx with rfl | rfl <;> simp [*]

theorem cnt_exists {p : Loc → Bool} {loc : T → Loc} (h : 0 < cnt p loc) : ∃ t, p (loc t) = true := by
  obtain ⟨t, ht⟩ := Finset.card_pos.1 h
  exact ⟨t, by simpa using ht⟩

def pRW : Loc → Bool | .sleepR | .wokenR => true | _ => false
def pWW : Loc → Bool | .sleepW | .wokenW | .sleepU | .wokenU => true | _ => false
def pRA : Loc → Bool | .holdR | .sleepU | .wokenU => true | _ => false
def pHW : Loc → Bool | .holdW => true | _ => false
def pUP : Loc → Bool | .sleepU | .wokenU => true | _ => false

/-- The counting invariant. -/
structure Inv (s : State T) : Prop where
  ok : s.failed = false
  rw : s.m.readersWaiting = cnt pRW s.loc
  ww : s.m.writersWaiting = cnt pWW s.loc
  ra : s.m.readersActive = cnt pRA s.loc
  wa : b2n s.m.writerActive = cnt pHW s.loc
  up : b2n s.m.wantsUpgrade = cnt pUP s.loc
  ex : s.m.writerActive = true → s.m.readersActive = 0

theorem cnt_init (p : Loc → Bool) (h : p .idle = false) : cnt p (fun _ : T => Loc.idle) = 0 := by
  simp [cnt, h]

theorem inv_init : Inv (init T) := by
  constructor <;> simp [init, cnt_init _ (show pRW .idle = false from rfl), cnt_init _ (show pWW .idle = false from rfl),
    cnt_init _ (show pRA .idle = false from rfl), cnt_init _ (show pHW .idle = false from rfl),
    cnt_init _ (show pUP .idle = false from rfl), b2n]

/-- the invariant for a move of one thread, from arithmetic on counters -/
theorem inv_goto {s : State T} {m : Internal} {t : T} {l : Loc} (h : Inv s)
    (e1 : m.readersWaiting + b2n (pRW (s.loc t)) = s.m.readersWaiting + b2n (pRW l))
    (e2 : m.writersWaiting + b2n (pWW (s.loc t)) = s.m.writersWaiting + b2n (pWW l))
    (e3 : m.readersActive + b2n (pRA (s.loc t)) = s.m.readersActive + b2n (pRA l))
    (e4 : b2n m.writerActive + b2n (pHW (s.loc t)) = b2n s.m.writerActive + b2n (pHW l))
    (e5 : b2n m.wantsUpgrade + b2n (pUP (s.loc t)) = b2n s.m.wantsUpgrade + b2n (pUP l))
    (e6 : m.writerActive = true → m.readersActive = 0) : Inv (s.goto m t l) := by
  have a1 := cnt_update pRW s.loc t l
  have a2 := cnt_update pWW s.loc t l
  have a3 := cnt_update pRA s.loc t l
  have a4 := cnt_update pHW s.loc t l
  have a5 := cnt_update pUP s.loc t l
  have := h.rw; have := h.ww; have := h.ra; have := h.wa; have := h.up
  constructor <;> simp only [State.goto]
  · exact h.ok
  · omega
  · omega
  · omega
  · omega
  · omega
  · exact e6

theorem b2n_bool (b : Bool) : b2n b = 0 ∧ b = false ∨ b2n b = 1 ∧ b = true := by cases b <;> simp [b2n]

theorem waitRead_inv {s : State T} (hc : Fintype.card T < 65536) (h : Inv s) (m : Internal) (t : T)
    (hm : (s.loc t = .idle ∧ m = s.m.requestRead) ∨ (s.loc t = .wokenR ∧ m = s.m)) : Inv (s.waitRead m t) := by
  have r1 := h.rw; have r3 := h.ra
  have a1 := cnt_update pRW s.loc t .sleepR
  have a3 := cnt_update pRA s.loc t .holdR
  have b1 := cnt_le pRW s.loc
  have b1' := cnt_le pRW (Function.update s.loc t .sleepR)
  have b3 := cnt_le pRA s.loc
  have b3' := cnt_le pRA (Function.update s.loc t .holdR)
  rcases hm with ⟨hl, rfl⟩ | ⟨hl, rfl⟩
  · simp only [hl, pRW, pRA, b2n, if_true, if_false, Bool.false_eq_true] at a1 a3
    have i1 : inc16 s.m.readersWaiting = s.m.readersWaiting + 1 := by unfold inc16; omega
    have i3 : inc16 s.m.readersActive = s.m.readersActive + 1 := by unfold inc16; omega
    have d1 : dec16 (s.m.readersWaiting + 1) = s.m.readersWaiting := by unfold dec16; omega
    unfold State.waitRead
    split
    · rename_i hcan
      have : Internal.acquireRead s.m.requestRead =
          some { s.m with readersActive := s.m.readersActive + 1 } := by
        rw [Internal.acquireRead, hcan]; simp [Internal.requestRead, i1, i3, d1]
      rw [this]
      simp [Internal.canAcquireRead, Internal.requestRead] at hcan
      refine inv_goto h ?_ ?_ ?_ ?_ ?_ ?_ <;> simp [hl, pRW, pWW, pRA, pHW, pUP, b2n, hcan]
    · refine inv_goto h ?_ ?_ ?_ ?_ ?_ ?_ <;> simp [hl, pRW, pWW, pRA, pHW, pUP, b2n, Internal.requestRead, i1]
      exact h.ex
  · simp only [hl, pRW, pRA, b2n, if_true, if_false, Bool.false_eq_true] at a1 a3
    have i3 : inc16 s.m.readersActive = s.m.readersActive + 1 := by unfold inc16; omega
    have p1 : 0 < s.m.readersWaiting := by rw [r1]; exact cnt_pos (t := t) (by simp [hl, pRW])
    have d1 : dec16 s.m.readersWaiting + 1 = s.m.readersWaiting := by unfold dec16; omega
    unfold State.waitRead
    split
    · rename_i hcan
      have hcan' := hcan
      simp [Internal.canAcquireRead] at hcan'
      have : Internal.acquireRead s.m =
          some { s.m with readersWaiting := dec16 s.m.readersWaiting, readersActive := s.m.readersActive + 1 } := by
        simp only [Internal.acquireRead, hcan, i3]; simp [p1]
      rw [this]
      refine inv_goto h ?_ ?_ ?_ ?_ ?_ ?_ <;> simp [hl, pRW, pWW, pRA, pHW, pUP, b2n, d1, hcan']
    · refine inv_goto h ?_ ?_ ?_ ?_ ?_ h.ex <;> simp [hl, pRW, pWW, pRA, pHW, pUP, b2n]

theorem waitWrite_inv {s : State T} (hc : Fintype.card T < 65536) (h : Inv s) (m : Internal) (t : T)
    (hm : (s.loc t = .idle ∧ m = s.m.requestWrite) ∨ (s.loc t = .wokenW ∧ m = s.m)) : Inv (s.waitWrite m t) := by
  have r2 := h.ww
  have a2 := cnt_update pWW s.loc t .sleepW
  have b2 := cnt_le pWW s.loc
  have b2' := cnt_le pWW (Function.update s.loc t .sleepW)
  rcases hm with ⟨hl, rfl⟩ | ⟨hl, rfl⟩
  · simp only [hl, pWW, b2n, if_true, if_false, Bool.false_eq_true] at a2
    have i1 : inc16 s.m.writersWaiting = s.m.writersWaiting + 1 := by unfold inc16; omega
    have d1 : dec16 (s.m.writersWaiting + 1) = s.m.writersWaiting := by unfold dec16; omega
    unfold State.waitWrite
    split
    · rename_i hcan
      have : Internal.acquireWrite s.m.requestWrite = some { s.m with writerActive := true } := by
        rw [Internal.acquireWrite, hcan]; simp [Internal.requestWrite, i1, d1]
      rw [this]
      simp [Internal.canAcquireWrite, Internal.requestWrite] at hcan
      refine inv_goto h ?_ ?_ ?_ ?_ ?_ ?_ <;> simp [hl, pRW, pWW, pRA, pHW, pUP, b2n, hcan]
    · refine inv_goto h ?_ ?_ ?_ ?_ ?_ ?_ <;> simp [hl, pRW, pWW, pRA, pHW, pUP, b2n, Internal.requestWrite, i1]
      exact h.ex
  · have p1 : 0 < s.m.writersWaiting := by rw [r2]; exact cnt_pos (t := t) (by simp [hl, pWW])
    have d1 : dec16 s.m.writersWaiting + 1 = s.m.writersWaiting := by unfold dec16; omega
    unfold State.waitWrite
    split
    · rename_i hcan
      have : Internal.acquireWrite s.m =
          some { s.m with writersWaiting := dec16 s.m.writersWaiting, writerActive := true } := by
        simp only [Internal.acquireWrite, hcan]; simp [p1]
      rw [this]
      simp [Internal.canAcquireWrite] at hcan
      refine inv_goto h ?_ ?_ ?_ ?_ ?_ ?_ <;> simp [hl, pRW, pWW, pRA, pHW, pUP, b2n, d1, hcan]
    · refine inv_goto h ?_ ?_ ?_ ?_ ?_ h.ex <;> simp [hl, pRW, pWW, pRA, pHW, pUP, b2n]

theorem waitUpgrade_inv {s : State T} (hc : Fintype.card T < 65536) (h : Inv s) (m : Internal) (t : T)
    (hm : (s.loc t = .holdR ∧ s.m.tryRequestUpgrade = some m) ∨ (s.loc t = .wokenU ∧ m = s.m)) :
    Inv (s.waitUpgrade m t) := by
  have r2 := h.ww; have r3 := h.ra
  have a2 := cnt_update pWW s.loc t .sleepU
  have b2 := cnt_le pWW s.loc
  have b2' := cnt_le pWW (Function.update s.loc t .sleepU)
  have b3 := cnt_le pRA s.loc
  rcases hm with ⟨hl, hm⟩ | ⟨hl, rfl⟩
  · simp only [hl, pWW, b2n, if_true, if_false, Bool.false_eq_true] at a2
    have i1 : inc16 s.m.writersWaiting = s.m.writersWaiting + 1 := by unfold inc16; omega
    have d1 : dec16 (s.m.writersWaiting + 1) = s.m.writersWaiting := by unfold dec16; omega
    have hup : s.m.wantsUpgrade = false := by
      cases hu : s.m.wantsUpgrade <;> simp [Internal.tryRequestUpgrade, hu] at hm ⊢
    simp [Internal.tryRequestUpgrade, hup, Internal.requestWrite, i1] at hm
    subst hm
    unfold State.waitUpgrade
    have hcu : Internal.canUpgrade { s.m with wantsUpgrade := true, writersWaiting := s.m.writersWaiting + 1 } =
        some (!s.m.writerActive && s.m.readersActive == 1) := by simp [Internal.canUpgrade]
    rw [hcu]
    cases hcan : (!s.m.writerActive && s.m.readersActive == 1) with
    | true =>
      simp at hcan
      have : Internal.upgradeLock { s.m with wantsUpgrade := true, writersWaiting := s.m.writersWaiting + 1 } =
          some { s.m with wantsUpgrade := false, readersActive := 0, writerActive := true } := by
        have d11 : dec16 1 = 0 := rfl
        simp [Internal.upgradeLock, Internal.canUpgrade, hcan, Internal.releaseRead, Internal.acquireWrite,
          Internal.canAcquireWrite, d1, d11]
      simp only [this]
      refine inv_goto h ?_ ?_ ?_ ?_ ?_ ?_ <;> simp [hl, pRW, pWW, pRA, pHW, pUP, b2n, hcan, hup]
    | false =>
      refine inv_goto h ?_ ?_ ?_ ?_ ?_ ?_ <;> simp [hl, pRW, pWW, pRA, pHW, pUP, b2n, hup]
      exact h.ex
  · have p1 : 0 < s.m.writersWaiting := by rw [r2]; exact cnt_pos (t := t) (by simp [hl, pWW])
    have d1 : dec16 s.m.writersWaiting + 1 = s.m.writersWaiting := by unfold dec16; omega
    have hup : s.m.wantsUpgrade = true := by
      have : 0 < cnt pUP s.loc := cnt_pos (t := t) (by simp [hl, pUP])
      rw [← h.up] at this
      cases hu : s.m.wantsUpgrade <;> simp [hu, b2n] at this ⊢
    have hcu : Internal.canUpgrade s.m = some (!s.m.writerActive && s.m.readersActive == 1) := by
      simp [Internal.canUpgrade, hup, p1]
    unfold State.waitUpgrade
    rw [hcu]
    cases hcan : (!s.m.writerActive && s.m.readersActive == 1) with
    | true =>
      simp at hcan
      have : Internal.upgradeLock s.m =
          some { s.m with wantsUpgrade := false, readersActive := 0, writerActive := true,
                          writersWaiting := dec16 s.m.writersWaiting } := by
        simp [Internal.upgradeLock, hcu, hcan, Internal.releaseRead, Internal.acquireWrite,
          Internal.canAcquireWrite, p1, dec16]
      simp only [this]
      refine inv_goto h ?_ ?_ ?_ ?_ ?_ ?_ <;> simp [hl, pRW, pWW, pRA, pHW, pUP, b2n, hcan, hup, d1]
    | false =>
      refine inv_goto h ?_ ?_ ?_ ?_ ?_ h.ex <;> simp [hl, pRW, pWW, pRA, pHW, pUP, b2n]

theorem inv_same {s : State T} {t : T} {l : Loc} (h : Inv s)
    (e1 : pRW (s.loc t) = pRW l) (e2 : pWW (s.loc t) = pWW l) (e3 : pRA (s.loc t) = pRA l)
    (e4 : pHW (s.loc t) = pHW l) (e5 : pUP (s.loc t) = pUP l) : Inv (s.goto s.m t l) := by
  refine inv_goto h ?_ ?_ ?_ ?_ ?_ h.ex <;> simp [*]

theorem inv_step {s s' : State T} (hc : Fintype.card T < 65536) {t : T} {a : Act T} (h : Inv s) (hs : Step s t a s') :
    Inv s' := by
  cases hs with
  | lockRead _ hl => exact waitRead_inv hc h _ t (.inl ⟨hl, rfl⟩)
  | recheckR _ hl => exact waitRead_inv hc h _ t (.inr ⟨hl, rfl⟩)
  | lockWrite _ hl => exact waitWrite_inv hc h _ t (.inl ⟨hl, rfl⟩)
  | recheckW _ hl => exact waitWrite_inv hc h _ t (.inr ⟨hl, rfl⟩)
  | tryRead _ hl =>
    have := waitRead_inv hc h _ t (.inl ⟨hl, rfl⟩)
    unfold State.waitRead at this
    have e : s.m.requestRead.canAcquireRead = s.m.canAcquireRead := rfl
    rw [e] at this
    split
    · rename_i hcan; simpa [hcan] using this
    · exact h
  | tryWrite _ hl =>
    have := waitWrite_inv hc h _ t (.inl ⟨hl, rfl⟩)
    unfold State.waitWrite at this
    have e : s.m.requestWrite.canAcquireWrite = s.m.canAcquireWrite := rfl
    rw [e] at this
    split
    · rename_i hcan; simpa [hcan] using this
    · exact h
  | upgrade _ hl =>
    cases hm : s.m.tryRequestUpgrade with
    | none => exact h
    | some m => exact waitUpgrade_inv hc h m t (.inl ⟨hl, hm⟩)
  | recheckU _ hl => exact waitUpgrade_inv hc h _ t (.inr ⟨hl, rfl⟩)
  | unlockRead _ hl =>
    have p3 : 0 < s.m.readersActive := by rw [h.ra]; exact cnt_pos (t := t) (by simp [hl, pRA])
    have b3 := cnt_le pRA s.loc
    have r3 := h.ra
    have hw : s.m.writerActive = false := by
      cases hw : s.m.writerActive with
      | false => rfl
      | true => have := h.ex hw; omega
    have d3 : dec16 s.m.readersActive + 1 = s.m.readersActive := by unfold dec16; omega
    have hm : s.m.releaseRead = some { s.m with readersActive := dec16 s.m.readersActive } := by
      simp [Internal.releaseRead, p3, hw]
    simp only [hm]
    unfold State.afterReleaseRead
    have key : ∀ l, (l = .notifyW ∨ l = .idle) → Inv (s.goto { s.m with readersActive := dec16 s.m.readersActive } t l) := by
      rintro l (rfl | rfl) <;>
      · refine inv_goto h ?_ ?_ ?_ ?_ ?_ ?_ <;> simp [hl, pRW, pWW, pRA, pHW, pUP, b2n, d3, hw]
    split
    · rename_i hf
      exfalso
      simp at hf
      have hu := h.up
      rw [hf.1] at hu
      obtain ⟨u, hu⟩ := cnt_exists (p := pUP) (loc := s.loc) (by rw [← hu]; decide)
      have : 0 < s.m.writersWaiting := by
        rw [h.ww]; refine cnt_pos (t := u) ?_
        revert hu; cases s.loc u <;> simp [pUP, pWW]
      omega
    · split
      · exact key _ (.inl rfl)
      · split
        · exact key _ (.inl rfl)
        · exact key _ (.inr rfl)
  | unlockWrite _ hl =>
    have hw : s.m.writerActive = true := by
      have : 0 < cnt pHW s.loc := cnt_pos (t := t) (by simp [hl, pHW])
      rw [← h.wa] at this
      cases hu : s.m.writerActive <;> simp [hu, b2n] at this ⊢
    have h0 := h.ex hw
    have hm : s.m.releaseWrite = some { s.m with writerActive := false } := by
      simp [Internal.releaseWrite, h0, hw]
    rw [if_pos (by simp [h0]), hm]
    simp only
    have key : ∀ l, (l = .notifyW ∨ l = .idle ∨ l = .notifyR) → Inv (s.goto { s.m with writerActive := false } t l) := by
      rintro l (rfl | rfl | rfl) <;>
      · refine inv_goto h ?_ ?_ ?_ ?_ ?_ ?_ <;> simp [hl, pRW, pWW, pRA, pHW, pUP, b2n, hw]
    unfold State.afterReleaseWrite
    split
    · exact key _ (.inl rfl)
    · split
      · exact key _ (.inr (.inr rfl))
      · exact key _ (.inr (.inl rfl))
  | notifyNone _ hl _ => exact inv_same h (by simp [hl, pRW]) (by simp [hl, pWW]) (by simp [hl, pRA]) (by simp [hl, pHW]) (by simp [hl, pUP])
  | notifyOne u _ hl hu =>
    have h1 : Inv (s.goto s.m u (wakeW (s.loc u))) := by
      rcases hu with hu | hu <;> exact inv_same h (by simp [hu, wakeW, pRW]) (by simp [hu, wakeW, pWW])
        (by simp [hu, wakeW, pRA]) (by simp [hu, wakeW, pHW]) (by simp [hu, wakeW, pUP])
    have hne : t ≠ u := by rintro rfl; rw [hl] at hu; simp at hu
    have e : (s.goto s.m u (wakeW (s.loc u))).loc t = .notifyW := by simp [State.goto, Function.update_of_ne hne, hl]
    exact inv_same h1 (by simp [e, pRW]) (by simp [e, pWW]) (by simp [e, pRA]) (by simp [e, pHW]) (by simp [e, pUP])
  | notifyAll _ hl =>
    have h1 : Inv ({ s with loc := fun u => wakeR (s.loc u) } : State T) := by
      constructor
      · exact h.ok
      · rw [h.rw]; exact (cnt_map pRW wakeR s.loc (by intro l; cases l <;> rfl)).symm
      · rw [h.ww]; exact (cnt_map pWW wakeR s.loc (by intro l; cases l <;> rfl)).symm
      · rw [h.ra]; exact (cnt_map pRA wakeR s.loc (by intro l; cases l <;> rfl)).symm
      · rw [h.wa]; exact (cnt_map pHW wakeR s.loc (by intro l; cases l <;> rfl)).symm
      · rw [h.up]; exact (cnt_map pUP wakeR s.loc (by intro l; cases l <;> rfl)).symm
      · exact h.ex
    exact inv_same h1 (by simp [hl, wakeR, pRW]) (by simp [hl, wakeR, pWW])
        (by simp [hl, wakeR, pRA]) (by simp [hl, wakeR, pHW]) (by simp [hl, wakeR, pUP])
  | spuriousW _ hu =>
    rcases hu with hu | hu <;> exact inv_same h (by simp [hu, wakeW, pRW]) (by simp [hu, wakeW, pWW])
        (by simp [hu, wakeW, pRA]) (by simp [hu, wakeW, pHW]) (by simp [hu, wakeW, pUP])
  | spuriousR _ hu =>
    exact inv_same h (by simp [hu, wakeR, pRW]) (by simp [hu, wakeR, pWW])
        (by simp [hu, wakeR, pRA]) (by simp [hu, wakeR, pHW]) (by simp [hu, wakeR, pUP])

theorem inv_reach {P : Act T → Prop} (hc : Fintype.card T < 65536) {s : State T} (h : Reach P s) : Inv s := by
  induction h with
  | init => exact inv_init
  | step _ _ hs ih => exact inv_step hc ih hs

end Mutable.RW
