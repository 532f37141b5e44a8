import Verif.Pool.Conc
import Mathlib.Logic.Relation
/-! C39: interning. -/
namespace Mutable.Pool
variable {V : Type}

/-! ### Specification -/

/-- `c` is the content of a pool, with all its handles, after some history: of a single-threaded pool, or of a
thread-safe pool used by fewer than 65536 threads under any schedule. -/
def History (eq : V → V → Bool) (c : Core V) : Prop :=
  Reach1 eq c ∨ ∃ n, n < 65536 ∧ ∃ s : State (Fin n) V, Reach eq s ∧ s.core = c

/-- The object a live, non-null handle points to (its address). -/
def Core.obj (c : Core V) (i : Nat) : Option Nat := (c.handle i).bind Handle.ref

/-- The live handles that point to the same object as handle `i`. -/
def Core.sharers (c : Core V) (i : Nat) : Finset Nat :=
  (Finset.range c.slots.length).filter fun j => c.obj j = c.obj i

theorem history_inv {eq : V → V → Bool} (he : Core.IsEqv eq) {c : Core V} (h : History eq c) :
    c.CntInv ∧ c.KeyInv eq := by
  rcases h with h | ⟨n, hn, s, hs, rfl⟩
  · exact Core.reach1_inv he h
  · have := inv_reach he (by simpa using hn) hs
    exact ⟨this.cnt, this.key⟩

theorem obj_some {c : Core V} {i n : Nat} : c.obj i = some n ↔ ∃ o, c.handle i = some ⟨o, some n⟩ := by
  unfold Core.obj
  rcases c.handle i with _ | ⟨o, r⟩
  · simp
  · simp only [Option.bind_some, Option.some.injEq, Handle.mk.injEq]
    constructor
    · rintro rfl; exact ⟨o, rfl, rfl⟩
    · rintro ⟨_, _, h⟩; exact h

theorem value_obj (c : Core V) (i : Nat) : c.value i = (c.obj i).bind fun n => (c.tab[n]?).map Node.val := by
  unfold Core.value Core.obj
  rcases c.handle i with _ | ⟨o, _ | n⟩ <;> rfl

theorem count_obj (c : Core V) (i : Nat) :
    c.count i = ((c.obj i).bind fun n => (c.tab[n]?).map Node.cnt).getD 0 := by
  unfold Core.count Core.obj
  rcases c.handle i with _ | ⟨o, _ | n⟩ <;> rfl

/-! ### Interning -/

/-- C39: two calls of `operator()` in any history return the same object exactly if their arguments are equal. -/
theorem C39_same_object {eq : V → V → Bool} (he : Core.IsEqv eq) {c : Core V} (h : History eq c) {v w : V} {m n : Nat}
    (hv : (v, m) ∈ c.got) (hw : (w, n) ∈ c.got) : m = n ↔ eq v w = true := by
  obtain ⟨_, hk⟩ := history_inv he h
  obtain ⟨a, ha, hav⟩ := hk.got v m hv
  obtain ⟨b, hb, hbw⟩ := hk.got w n hw
  constructor
  · rintro rfl
    rw [ha] at hb; cases hb
    exact he.trans _ _ _ (he.symm _ _ hav) hbw
  · intro hvw
    exact hk.uniq m n a b ha hb (he.trans _ _ _ hav (he.trans _ _ _ hvw (he.symm _ _ hbw)))

/-- C39: `==` of two handles (comparison of the addresses) is equality of the values. -/
theorem C39_handles_equal {eq : V → V → Bool} (he : Core.IsEqv eq) {c : Core V} (h : History eq c) {i j : Nat} {x y : V}
    (hx : c.value i = some x) (hy : c.value j = some y) : c.obj i = c.obj j ↔ eq x y = true := by
  obtain ⟨_, hk⟩ := history_inv he h
  rw [value_obj] at hx hy
  simp only [Option.bind_eq_some_iff, Option.map_eq_some_iff] at hx hy
  obtain ⟨m, hm, a, ha, rfl⟩ := hx
  obtain ⟨n, hn, b, hb, rfl⟩ := hy
  rw [hm, hn, Option.some.injEq]
  constructor
  · rintro rfl
    rw [ha] at hb; cases hb; exact he.refl _
  · exact hk.uniq m n a b ha hb

/-- C39: every handle that is not null has a value: pooled objects are never freed under a live handle. -/
theorem C39_no_dangling {eq : V → V → Bool} (he : Core.IsEqv eq) {c : Core V} (h : History eq c) {i n : Nat}
    (hi : c.obj i = some n) : ∃ x, c.value i = some x := by
  obtain ⟨hc, _⟩ := history_inv he h
  obtain ⟨o, ho⟩ := obj_some.1 hi
  have := hc.refs i _ n ho rfl
  exact ⟨_, by rw [value_obj, hi, Option.bind_some, List.getElem?_eq_getElem this]; rfl⟩

/-- A call of `operator()` with argument `v` produces its result between `c` and `c'`: exactly one new handle, whose
value is equal to `v`; all other handles are as before. -/
def Returned (eq : V → V → Bool) (v : V) (c c' : Core V) : Prop :=
  ∃ n x, c'.handle c.slots.length = some ⟨false, some n⟩ ∧ c'.value c.slots.length = some x ∧ eq x v = true ∧
    c'.got = c.got ++ [(v, n)] ∧ ∀ i, i ≠ c.slots.length → c'.handle i = c.handle i

theorem returned_found {eq : V → V → Bool} {c : Core V} (hc : c.CntInv) (hk : c.KeyInv eq) {v : V} {n : Nat}
    (h : c.find eq v = some n) : Returned eq v c (c.give v n) := by
  obtain ⟨e, h1, h2⟩ := Core.find_some h
  have hh : (c.give v n).handle c.slots.length = some ⟨false, some n⟩ := by
    change ((c.upd n inc32).push _).handle _ = _
    rw [Core.handle_push]; exact if_pos rfl
  obtain ⟨e', h3, h4⟩ := (Core.give_found hc hk h).2.2 n e h1
  refine ⟨n, e.val, hh, ?_, h2, rfl, fun i hi => ?_⟩
  · rw [value_obj, Core.obj, hh]
    simp [h3, h4]
  · change ((c.upd n inc32).push _).handle _ = _
    rw [Core.handle_push]; exact if_neg hi

theorem returned_new {eq : V → V → Bool} (he : Core.IsEqv eq) {c : Core V} {v : V} :
    Returned eq v c ((c.emplace v).give v c.tab.length) := by
  have hh : ((c.emplace v).give v c.tab.length).handle c.slots.length = some ⟨false, some c.tab.length⟩ := by
    change (((c.emplace v).upd _ inc32).push _).handle _ = _
    rw [Core.handle_push]; exact if_pos rfl
  refine ⟨c.tab.length, v, hh, ?_, he.refl v, rfl, fun i hi => ?_⟩
  · rw [value_obj, Core.obj, hh]
    simp only [Option.bind_some]
    change ((((c.emplace v).upd c.tab.length inc32)).tab[c.tab.length]?).map Node.val = some v
    rw [Core.tab_upd]
    simp [Core.emplace]
  · change (((c.emplace v).upd _ inc32).push _).handle _ = _
    rw [Core.handle_push]; exact if_neg hi

/-- C39: the result of `operator()` has a value equal to the argument (single-threaded pool). -/
theorem C39_result {eq : V → V → Bool} (he : Core.IsEqv eq) {c : Core V} (h : Reach1 eq c) (v : V) :
    Returned eq v c (c.intern eq v) := by
  obtain ⟨hc, hk⟩ := Core.reach1_inv he h
  unfold Core.intern
  generalize hf : c.find eq v = r
  cases r with
  | some n => exact returned_found hc hk hf
  | none => exact returned_new he

/-- Thread `t` is executing `operator()(v)` and has not constructed its result yet. -/
def Calling {T : Type} (s : State T V) (t : T) (v : V) : Prop :=
  s.pc t = .finding v ∨ s.pc t = .missed v ∨ s.pc t = .upgrading v ∨ s.pc t = .giveUp v ∨ s.pc t = .again v

/-- C39: in a thread-safe pool a call `operator()(v)` goes on, whatever the others do, until it has constructed a
handle with a value equal to `v`; only then does it leave the lock and return. -/
theorem C39_result_concurrent {T : Type} [DecidableEq T] [Fintype T] {eq : V → V → Bool} (he : Core.IsEqv eq)
    (hn : Fintype.card T < 65536) {s s' : State T V} (h : Reach eq s) {t u : T} (hs : Step eq s u s') {v : V}
    (hc : Calling s t v) : Calling s' t v ∨ (u = t ∧ s'.pc t = .leaving ∧ Returned eq v s.core s'.core) := by
  have hi := inv_reach he hn h
  by_cases hut : u = t
  · subst hut
    cases hs with
    | call w hp => simp [Calling, hp] at hc
    | inside a ha hr => exact .inl hc
    | @found w n hp hl hf =>
      simp only [Calling, hp, Pc.finding.injEq, reduceCtorEq, or_false] at hc
      subst hc
      exact .inr ⟨rfl, by simp [State.at_], returned_found hi.cnt hi.key hf⟩
    | @insert w hp hl =>
      simp only [Calling, hp, Pc.upgrading.injEq, reduceCtorEq, or_false, false_or] at hc
      subst hc
      exact .inr ⟨rfl, by simp [State.at_], returned_new he⟩
    | unlockR hp hr => simp [Calling, hp] at hc
    | unlockW hp hr => simp [Calling, hp] at hc
    | return_ hp hl => simp [Calling, hp] at hc
    | op o ho => exact .inl hc
    | miss hp hl hf => left; simpa [Calling, hp, State.at_] using hc
    | upgrade hp hw hr => left; simpa [Calling, hp] using hc
    | refused hp hw hr => left; simpa [Calling, hp] using hc
    | giveUp hp hr => left; simpa [Calling, hp] using hc
    | retry hp hr => left; simpa [Calling, hp] using hc
  · left
    have : s'.pc t = s.pc t := by
      cases hs <;> first | rfl | simp [State.at_, Function.update_of_ne (Ne.symm hut)]
    simpa [Calling, this] using hc

/-- C39: in a thread-safe pool, the value behind a handle never changes while the handle is not reassigned, whatever
the threads do in between. -/
theorem C39_value_stable {T : Type} [DecidableEq T] [Fintype T] {eq : V → V → Bool} (he : Core.IsEqv eq)
    (hn : Fintype.card T < 65536) {s s' : State T V} (h : Reach eq s)
    (hs : Relation.ReflTransGen (fun a b => ∃ t, Step eq a t b) s s') {i : Nat} {x : V}
    (hx : s.core.value i = some x) (hi : s'.core.handle i = s.core.handle i) : s'.core.value i = some x := by
  have hk : Reach eq s' ∧ s.core.Keeps s'.core := by
    clear hi
    induction hs with
    | refl => exact ⟨h, .refl _⟩
    | tail _ h2 ih =>
      obtain ⟨t, ht⟩ := h2
      exact ⟨.step ih.1 ht, ih.2.trans (keeps_step he (inv_reach he hn ih.1) ht)⟩
  rw [value_obj] at hx ⊢
  have ho : s'.core.obj i = s.core.obj i := by simp [Core.obj, hi]
  rw [ho]
  simp only [Option.bind_eq_some_iff, Option.map_eq_some_iff] at hx ⊢
  obtain ⟨n, hn, a, ha, rfl⟩ := hx
  obtain ⟨a', h1, h2⟩ := hk.2 n a ha
  exact ⟨n, hn, a', h1, h2⟩

/-- C39: `size()` is the number of different values interned: the pooled values are pairwise unequal, each is equal to
some argument of `operator()`, and each argument is equal to one of them. -/
theorem C39_size {eq : V → V → Bool} (he : Core.IsEqv eq) {c : Core V} (h : History eq c) :
    (c.tab.map Node.val).Pairwise (fun a b => eq a b = false) ∧
    (∀ a ∈ c.tab.map Node.val, ∃ v n, (v, n) ∈ c.got ∧ eq a v = true) ∧
    (∀ v n, (v, n) ∈ c.got → ∃ a ∈ c.tab.map Node.val, eq a v = true) := by
  obtain ⟨_, hk⟩ := history_inv he h
  refine ⟨?_, ?_, ?_⟩
  · rw [List.pairwise_iff_getElem]
    intro i j hi hj hij
    by_contra hne
    simp only [Bool.not_eq_false] at hne
    simp only [List.length_map] at hi hj
    simp only [List.getElem_map] at hne
    have := hk.uniq i j _ _ (List.getElem?_eq_getElem hi) (List.getElem?_eq_getElem hj) hne
    omega
  · intro a ha
    obtain ⟨e, he1, rfl⟩ := List.mem_map.1 ha
    obtain ⟨n, hn⟩ := List.mem_iff_getElem?.1 he1
    obtain ⟨v, hv⟩ := hk.src n (List.getElem?_eq_some_iff.1 hn).1
    obtain ⟨e', h1, h2⟩ := hk.got v n hv
    rw [hn] at h1; cases h1
    exact ⟨v, n, hv, h2⟩
  · intro v n hv
    obtain ⟨e, h1, h2⟩ := hk.got v n hv
    exact ⟨e.val, List.mem_map_of_mem (List.mem_of_getElem? h1), h2⟩

/-! ### Reference counts -/

theorem live_eq_card (c : Core V) {n : Nat} {i : Nat} (hi : c.obj i = some n) : c.live n = (c.sharers i).card := by
  have key : ∀ (l : List (Option Handle)), l.countP (refsTo n) =
      ((Finset.range l.length).filter fun j => ((l[j]?).join).bind Handle.ref = some n).card := by
    intro l
    induction l using List.reverseRecOn with
    | nil => rfl
    | append_singleton l a ih =>
      rw [List.countP_append, ih, List.length_append, List.length_singleton, Finset.range_add_one,
        Finset.filter_insert]
      have hcongr : (Finset.range l.length).filter (fun j => (((l ++ [a])[j]?).join).bind Handle.ref = some n) =
          (Finset.range l.length).filter (fun j => ((l[j]?).join).bind Handle.ref = some n) :=
        Finset.filter_congr fun j hj => by rw [List.getElem?_append_left (Finset.mem_range.1 hj)]
      rw [hcongr]
      have hl : (l ++ [a])[l.length]? = some a := by simp
      rw [hl]
      rcases a with _ | ⟨o, r⟩
      · simp [refsTo]
      · by_cases hr : r = some n
        · subst hr
          simp only [Option.join_some, Option.bind_some, if_true]
          rw [Finset.card_insert_of_notMem (by simp)]
          simp [refsTo]
        · simp [refsTo, hr]
  unfold Core.live Core.sharers
  rw [key, hi]; rfl

/-- C39: `count()` is the number of live handles that refer to the same object, modulo 2^32 (the width of the
counter); so it is exact for fewer than 2^32 handles. -/
theorem C39_count {eq : V → V → Bool} (he : Core.IsEqv eq) {c : Core V} (h : History eq c) {i n : Nat}
    (hi : c.obj i = some n) : c.count i = (c.sharers i).card % 4294967296 := by
  obtain ⟨hc, _⟩ := history_inv he h
  obtain ⟨o, ho⟩ := obj_some.1 hi
  have hn := hc.refs i _ n ho rfl
  rw [count_obj, hi, Option.bind_some, List.getElem?_eq_getElem hn]
  simp only [Option.map_some, Option.getD_some]
  rw [hc.cnt n _ (List.getElem?_eq_getElem hn), live_eq_card c hi]

/-- C39: with fewer than 2^32 handles on an object, destroying a handle never underflows its counter. -/
theorem C39_no_underflow {eq : V → V → Bool} (he : Core.IsEqv eq) {c : Core V} (h : History eq c) {i : Nat} {a : Handle}
    (ha : c.handle i = some a) (hs : (c.sharers i).card < 4294967296) : ∃ c', c.destroy i = some c' ∧
      c'.handle i = none ∧ (∀ j, j ≠ i → c'.handle j = c.handle j) := by
  obtain ⟨hc, _⟩ := history_inv he h
  obtain ⟨hil, _⟩ := Core.handle_lt ha
  unfold Core.destroy
  rw [ha]; simp only
  rcases hr : a.ref with _ | n
  · exact ⟨_, rfl, by rw [Core.handle_put _ _ _ _ hil]; simp, fun j hj => by
      rw [Core.handle_put _ _ _ _ hil]; exact if_neg (Ne.symm hj)⟩
  · simp only
    have hi : c.obj i = some n := by simp [Core.obj, ha, hr]
    have hn := hc.refs i a n ha hr
    have hcnt := hc.cnt n _ (List.getElem?_eq_getElem hn)
    rw [live_eq_card c hi, Nat.mod_eq_of_lt hs] at hcnt
    have hpos : 0 < (c.sharers i).card := Finset.card_pos.2 ⟨i, by
      simp [Core.sharers]; omega⟩
    rw [List.getElem?_eq_getElem hn]
    simp only
    rw [if_pos (by omega)]
    exact ⟨_, rfl, by rw [Core.handle_put _ _ _ _ (by exact hil)]; simp, fun j hj => by
      rw [Core.handle_put _ _ _ _ (by exact hil), if_neg (Ne.symm hj)]; rfl⟩

/-- C39: a copied handle refers to the same object, and no other handle changes. -/
theorem C39_copy {c c' : Core V} {i : Nat} {o : Bool} (h : c.copy i o = some c') :
    c'.obj c.slots.length = c.obj i ∧ ∀ j, j ≠ c.slots.length → c'.handle j = c.handle j := by
  unfold Core.copy at h
  split at h
  · cases h
  · next a ha =>
    have key : ∀ {c'}, c.construct o a.ref = some c' →
        c'.obj c.slots.length = c.obj i ∧ ∀ j, j ≠ c.slots.length → c'.handle j = c.handle j := by
      intro c' h
      unfold Core.construct at h
      split at h
      · next n hr =>
        cases h
        refine ⟨?_, fun j hj => ?_⟩
        · simp [Core.obj, Core.handle_push, Core.upd, ha, hr]
        · rw [Core.handle_push]; exact if_neg hj
      · next hr =>
        split at h
        · cases h
          refine ⟨?_, fun j hj => ?_⟩
          · simp [Core.obj, Core.handle_push, ha, hr]
          · rw [Core.handle_push]; exact if_neg hj
        · cases h
    split at h
    · exact key h
    · split at h
      · exact key h
      · cases h

/-- C39: a moved handle takes over the object, leaves the source null, and no other handle changes. -/
theorem C39_move {c c' : Core V} {i : Nat} {o : Bool} (h : c.move i o = some c') :
    c'.obj c.slots.length = c.obj i ∧ c'.obj i = none ∧
    ∀ j, j ≠ c.slots.length → j ≠ i → c'.handle j = c.handle j := by
  unfold Core.move at h
  split at h
  · cases h
  · next a ha =>
    obtain ⟨hil, _⟩ := Core.handle_lt ha
    split at h
    · cases h
      refine ⟨?_, ?_, fun j hj hji => ?_⟩
      · simp [Core.obj, Core.handle_push, Core.put, ha]
      · have : i ≠ (c.put i (some ⟨a.opt, none⟩)).slots.length := by simp [Core.put]; omega
        simp only [Core.obj, Core.handle_push, this, if_false, Core.handle_put _ _ _ _ hil, if_true]
        rfl
      · have : j ≠ (c.put i (some ⟨a.opt, none⟩)).slots.length := by simpa [Core.put] using hj
        simp only [Core.handle_push, this, if_false, Core.handle_put _ _ _ _ hil, if_neg (Ne.symm hji)]
    · cases h

/-- C39: after the assignment `i = j` handle `i` refers to the object of `j`, and no other handle changes. -/
theorem C39_assign {c c' : Core V} {i j : Nat} (h : c.assign i j = some c') :
    c'.obj i = c.obj j ∧ ∀ k, k ≠ i → c'.handle k = c.handle k := by
  unfold Core.assign at h
  split at h
  · cases h
  · next a ha =>
    obtain ⟨hil, _⟩ := Core.handle_lt ha
    simp only [Option.bind_eq_some_iff] at h
    obtain ⟨c1, h1, c2, h2, h3⟩ := h
    obtain ⟨p1, p2⟩ := C39_copy h1
    have hlen : c1.handle i = some a := by rw [p2 i (by omega)]; exact ha
    unfold Core.swap at h2
    rw [hlen] at h2
    rcases hb : c1.handle c.slots.length with _ | b
    · rw [hb] at h2; cases h2
    · rw [hb] at h2
      simp only at h2
      obtain ⟨hL, _⟩ := Core.handle_lt hb
      obtain ⟨hI, _⟩ := Core.handle_lt hlen
      split at h2
      · cases h2
        have hfin : ∀ k, c'.handle k = if c.slots.length = k then none else
            ((c1.put i (some ⟨a.opt, b.ref⟩)).put c.slots.length (some ⟨b.opt, a.ref⟩)).handle k := by
          intro k
          unfold Core.destroy at h3
          split at h3
          · cases h3
          · split at h3
            · cases h3
              rw [Core.handle_put _ _ _ _ (by simpa [Core.put] using hL)]
            · split at h3
              · cases h3
              · split at h3
                · cases h3
                  rw [Core.handle_put _ _ _ _ (by simpa [Core.put, Core.upd] using hL)]; rfl
                · cases h3
        have hput : ∀ k, c.slots.length ≠ k →
            ((c1.put i (some ⟨a.opt, b.ref⟩)).put c.slots.length (some ⟨b.opt, a.ref⟩)).handle k =
              if i = k then some ⟨a.opt, b.ref⟩ else c1.handle k := by
          intro k hk
          rw [Core.handle_put _ _ _ _ (by simpa [Core.put] using hL), if_neg hk, Core.handle_put _ _ _ _ hI]
        constructor
        · have hb' : c1.obj c.slots.length = b.ref := by simp [Core.obj, hb]
          rw [← p1, hb']
          unfold Core.obj
          rw [hfin i, if_neg (by omega), hput i (by omega), if_pos rfl]; rfl
        · intro k hk
          rw [hfin k]
          by_cases hkl : c.slots.length = k
          · rw [if_pos hkl]
            unfold Core.handle
            rw [List.getElem?_eq_none_iff.2 (by omega)]; rfl
          · rw [if_neg hkl, hput k hkl, if_neg (Ne.symm hk), p2 k (Ne.symm hkl)]
      · cases h2

/-! ### Liveness -/

/-- Thread `t` waits in a condition variable of the pool's mutex. -/
def Asleep {T : Type} (s : State T V) (t : T) : Prop :=
  s.rw.loc t = .sleepR ∨ s.rw.loc t = .sleepU ∨ s.rw.loc t = .sleepW

/-- C39: no deadlock and no failed assertion.  Whenever some thread is inside `operator()`, some thread inside
`operator()` is awake and can go on (a step that changes its own position). -/
theorem C39_no_deadlock {T : Type} [DecidableEq T] [Fintype T] {eq : V → V → Bool} (he : Core.IsEqv eq)
    (hn : Fintype.card T < 65536) {s : State T V} (h : Reach eq s) :
    s.rw.failed = false ∧ ((∃ t, s.pc t ≠ .out) → ∃ u s', s.pc u ≠ .out ∧ ¬ Asleep s u ∧ Step eq s u s' ∧
      (s'.pc u ≠ s.pc u ∨ s'.rw.loc u ≠ s.rw.loc u)) := by
  have hi := inv_reach he hn h
  have hok := (RW.inv_reach hn hi.rw).ok
  refine ⟨hok, ?_⟩
  have hnoW := RW.noW_reach hi.rw
  -- an awake thread inside `operator()` can go on
  have go : ∀ u, s.pc u ≠ .out → ¬ Asleep s u → ∃ s', Step eq s u s' ∧
      (s'.pc u ≠ s.pc u ∨ s'.rw.loc u ≠ s.rw.loc u) := by
    intro u hu ha
    have hf := h |> fun _ => hi.fits u
    have notif : s.rw.loc u = .notifyW ∨ s.rw.loc u = .notifyR → ∃ s', Step eq s u s' ∧
        (s'.pc u ≠ s.pc u ∨ s'.rw.loc u ≠ s.rw.loc u) := by
      rintro (hl | hl)
      · by_cases hex : ∃ w, s.rw.loc w = .sleepW ∨ s.rw.loc w = .sleepU
        · obtain ⟨w, hw⟩ := hex
          exact ⟨_, .inside (.notify (some w)) (.inr (.inr ⟨_, rfl⟩)) (.notifyOne w hok hl hw), .inr (by
            simp [goto_loc, hl])⟩
        · refine ⟨_, .inside (.notify none) (.inr (.inr ⟨_, rfl⟩)) (.notifyNone hok hl fun w => ?_), .inr (by
            simp [goto_loc, hl])⟩
          exact ⟨fun hw => hex ⟨w, .inl hw⟩, fun hw => hex ⟨w, .inr hw⟩⟩
      · exact ⟨_, .inside (.notify none) (.inr (.inr ⟨_, rfl⟩)) (.notifyAll hok hl), .inr (by simp [goto_loc, hl])⟩
    rcases hp : s.pc u with _ | v | v | v | v | v | _ | _ <;> rw [hp] at hf <;> simp only [Fits] at hf
    · exact absurd hp hu
    · rcases hf with hl | hl | hl
      · exact absurd (.inl hl) ha
      · refine ⟨_, .inside .recheck (.inl rfl) (.recheckR hok hl), .inr ?_⟩
        have := waitRead_loc (m := s.rw.m) (t := u) hok
          (RW.inv_reach hn (RW.Reach.step hi.rw (by simp [RW.NoLockWrite]) (.recheckR hok hl))).ok u
        simp only [if_true] at this
        rw [hl]; rcases this with h | h <;> rw [h] <;> simp
      · rcases hfd : s.core.find eq v with _ | n
        · exact ⟨_, .miss hp hl hfd, .inl (by simp [State.at_])⟩
        · exact ⟨_, .found hp hl hfd, .inl (by simp [State.at_])⟩
    · rcases hw : s.rw.m.wantsUpgrade with _ | _
      · exact ⟨_, .upgrade hp hw (.upgrade hok hf), .inl (by simp)⟩
      · exact ⟨_, .refused hp hw (.upgrade hok hf), .inl (by simp)⟩
    · rcases hf with hl | hl | hl
      · exact absurd (.inr (.inl hl)) ha
      · refine ⟨_, .inside .recheck (.inl rfl) (.recheckU hok hl), .inr ?_⟩
        have := waitUpgrade_loc (m := s.rw.m) (t := u) hok
          (RW.inv_reach hn (RW.Reach.step hi.rw (by simp [RW.NoLockWrite]) (.recheckU hok hl))).ok u
        simp only [if_true] at this
        rw [hl]; rcases this with h | h <;> rw [h] <;> simp
      · exact ⟨_, .insert hp hl, .inl (by simp [State.at_])⟩
    · exact ⟨_, .giveUp hp (.unlockRead hok hf), .inl (by simp)⟩
    · rcases hf with hl | hl | hl
      · exact hp ▸ notif (.inl hl)
      · exact hp ▸ notif (.inr hl)
      · exact ⟨_, .retry hp (.lockRead hok hl), .inl (by simp)⟩
    · rcases hf with hl | hl
      · exact ⟨_, .unlockR hp (.unlockRead hok hl), .inl (by simp)⟩
      · exact ⟨_, .unlockW hp (.unlockWrite hok hl), .inl (by simp)⟩
    · rcases hf with hl | hl | hl
      · exact hp ▸ notif (.inl hl)
      · exact hp ▸ notif (.inr hl)
      · exact ⟨_, .return_ hp hl, .inl (by simp [State.at_])⟩
  -- some thread inside is awake
  rintro ⟨t, ht⟩
  by_contra hno
  have asleep : ∀ u, s.pc u ≠ .out → Asleep s u := fun u hu => by
    by_contra ha
    obtain ⟨s', h1, h2⟩ := go u hu ha
    exact hno ⟨u, s', hu, ha, h1, h2⟩
  have cases_ : ∀ u, s.rw.loc u = .idle ∨ Asleep s u := fun u => by
    by_cases hu : s.pc u = .out
    · left; have := hi.fits u; rw [hu] at this; exact this
    · exact .inr (asleep u hu)
  have hidle : ∀ u, s.rw.loc u = .idle :=
    RW.C20_deadlock_free_partial hn (.inr hi.rw)
      (fun u => by
        rcases cases_ u with h | h | h | h <;> rw [h] <;> simp)
      (fun u => by
        unfold RW.Pending
        rcases cases_ u with h | h | h | h <;> rw [h] <;> simp)
  rcases asleep t ht with h | h | h <;> rw [hidle t] at h <;> cases h

/-! ### Non-trivial instances -/

theorem nat_eqv : Core.IsEqv (fun a b : Nat => a == b) :=
  ⟨by simp, fun a b h => by simpa using (beq_iff_eq.1 h).symm, fun a b c h h' => by simpa using (beq_iff_eq.1 h).trans (beq_iff_eq.1 h')⟩

/-- Interning 5, 7, 5, copying the third handle, destroying the first. -/
def demo : Core Nat :=
  (((((({} : Core Nat).intern (fun a b => a == b) 5).intern (fun a b => a == b) 7).intern
    (fun a b => a == b) 5).copy 2 true).bind fun c => c.destroy 0).getD {}

theorem demo_history : History (fun a b : Nat => a == b) demo := by
  refine .inl ?_
  have h3 := Reach1.intern (eq := fun a b : Nat => a == b) 5 (.intern 7 (.intern 5 .init))
  exact .op (.destroy 0) (.op (.copy 2 true) h3 rfl) rfl

example : demo.obj 0 = none ∧ demo.obj 1 = some 1 ∧ demo.obj 2 = some 0 ∧ demo.obj 3 = some 0 ∧
    demo.value 3 = some 5 ∧ demo.count 3 = 2 ∧ demo.count 1 = 1 := by decide
example : demo.obj 2 = demo.obj 3 ↔ (5 == 5) = true :=
  C39_handles_equal nat_eqv demo_history (by decide) (by decide)

/-- Two threads: both searched for the same value and missed it, and only one may upgrade. -/
example : ∃ s : State (Fin 2) Nat, Reach (fun a b => a == b) s ∧ s.pc 0 = .upgrading 5 ∧ s.pc 1 = .giveUp 5 :=
  ⟨_, .step (.step (.step (.step (.step (.step .init
      (.call (t := 0) 5 rfl (.lockRead rfl rfl)))
      (.call (t := 1) 5 rfl (.lockRead rfl (by decide))))
      (.miss (t := 0) (v := 5) rfl (by decide) rfl))
      (.miss (t := 1) (v := 5) rfl (by decide) rfl))
      (.upgrade (t := 0) (v := 5) rfl (by decide) (.upgrade rfl (by decide))))
      (.refused (t := 1) (v := 5) rfl (by decide) (.upgrade rfl (by decide))), rfl, rfl⟩

/-! ### The counter wraps around -/

/-- One object with `k + 1` handles. -/
def many (k : Nat) : Core Nat :=
  ⟨[⟨5, (k + 1) % 4294967296⟩], List.replicate (k + 1) (some ⟨false, some 0⟩), [(5, 0)]⟩

theorem many_reach : ∀ k, Reach1 (fun a b : Nat => a == b) (many k)
  | 0 => Reach1.intern 5 .init
  | k + 1 => by
    refine .op (.copy 0 false) (many_reach k) ?_
    change (many k).copy 0 false = _
    have : (many k).handle 0 = some ⟨false, some 0⟩ := by simp [many, Core.handle]
    unfold Core.copy
    rw [this]
    simp only [if_true, Core.construct, Core.upd, Core.push, many, inc32]
    rw [List.replicate_succ' (n := k + 1)]
    simp

/-- C39 (limit, a defect of the code): after 2^32 copies the counter of an object is 0 although handles exist, and
destroying any of them fails the assertion. -/
theorem C39_count_overflow : ∃ c : Core Nat, History (fun a b : Nat => a == b) c ∧ c.obj 0 = some 0 ∧ c.count 0 = 0 ∧
    c.destroy 0 = none := by
  have hh : ∀ k, (many k).handle 0 = some ⟨false, some 0⟩ := fun k => by simp [many, Core.handle, List.replicate_succ]
  have ht : ∀ k, (many k).tab[0]? = some ⟨5, (k + 1) % 4294967296⟩ := fun k => rfl
  have key : ∀ k, (k + 1) % 4294967296 = 0 → (many k).obj 0 = some 0 ∧ (many k).count 0 = 0 ∧
      (many k).destroy 0 = none := by
    intro k hk
    refine ⟨by simp [Core.obj, hh], ?_, ?_⟩
    · rw [count_obj, Core.obj, hh, Option.bind_some, Option.bind_some, ht, Option.map_some, Option.getD_some]; exact hk
    · unfold Core.destroy; rw [hh]; simp only; rw [ht]; simp only; rw [hk]; rfl
  exact ⟨many 4294967295, .inl (many_reach _), key 4294967295 (by norm_num)⟩

end Mutable.Pool
