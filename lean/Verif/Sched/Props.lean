import Verif.Sched.Model
import Mathlib.Data.List.Basic
/-!
# C32: serial transaction execution
-/
namespace Mutable.Sched

/-! ### Specification -/

/-- Between commands of different transactions, the earlier transaction has been committed or aborted. -/
def Serial (log : List Event) : Prop :=
  ∀ l1 l2 l3 c d, log = l1 ++ .exec c :: l2 ++ .exec d :: l3 → c.txn ≠ d.txn → Event.stop c.txn ∈ l2

/-- The commands of a transaction that have been executed, in order. -/
def executed (log : List Event) (t : Txn) : List Cmd :=
  log.filterMap fun e => match e with
    | .exec c => if c.txn = t then some c else none
    | .stop _ => none

/-! ### Serial execution -/

/-- `running` is what the log says. -/
structure Inv (s : S) : Prop where
  serial : Serial s.log
  open_ : ∀ l1 l2 c, s.log = l1 ++ .exec c :: l2 → Event.stop c.txn ∈ l2 ∨ s.running = some c.txn

theorem serial_append_exec {log : List Event} {d : Cmd} (h : Serial log)
    (ho : ∀ l1 l2 c, log = l1 ++ .exec c :: l2 → c.txn ≠ d.txn → Event.stop c.txn ∈ l2) : Serial (log ++ [.exec d]) := by
  intro l1 l2 l3 c e heq hne
  rcases List.eq_nil_or_concat l3 with rfl | ⟨l3', x, rfl⟩
  · have heq' : log ++ [.exec d] = (l1 ++ .exec c :: l2) ++ [.exec e] := by simpa using heq
    obtain ⟨h1, h2⟩ := List.append_inj' heq' rfl
    obtain rfl : d = e := by simpa using h2
    exact ho l1 l2 c h1 hne
  · have heq' : log ++ [.exec d] = (l1 ++ .exec c :: l2 ++ .exec e :: l3') ++ [x] := by simpa using heq
    obtain ⟨h1, -⟩ := List.append_inj' heq' rfl
    exact h l1 l2 l3' c e h1 hne

theorem serial_append_stop {log : List Event} {t : Txn} (h : Serial log) : Serial (log ++ [.stop t]) := by
  intro l1 l2 l3 c e heq hne
  rcases List.eq_nil_or_concat l3 with rfl | ⟨l3', x, rfl⟩
  · have heq' : log ++ [.stop t] = (l1 ++ .exec c :: l2) ++ [.exec e] := by simpa using heq
    obtain ⟨-, h2⟩ := List.append_inj' heq' rfl
    simp at h2
  · have heq' : log ++ [.stop t] = (l1 ++ .exec c :: l2 ++ .exec e :: l3') ++ [x] := by simpa using heq
    obtain ⟨h1, -⟩ := List.append_inj' heq' rfl
    exact h l1 l2 l3' c e h1 hne

theorem split_append_singleton {log l1 l2 : List Event} {x : Event} {c : Cmd} (h : log ++ [x] = l1 ++ .exec c :: l2) :
    (l2 = [] ∧ x = .exec c ∧ log = l1) ∨ ∃ l2', l2 = l2' ++ [x] ∧ log = l1 ++ .exec c :: l2' := by
  rcases List.eq_nil_or_concat l2 with rfl | ⟨l2', y, rfl⟩
  · obtain ⟨h1, h2⟩ := List.append_inj' h rfl
    exact Or.inl ⟨rfl, by simpa using h2, h1⟩
  · right
    have h' : log ++ [x] = (l1 ++ .exec c :: l2') ++ [y] := by simpa using h
    obtain ⟨h1, h2⟩ := List.append_inj' h' rfl
    obtain rfl : x = y := by simpa using h2
    exact ⟨l2', by simp, h1⟩

theorem pop_cons {s : S} {c q} (h : s.queue = c :: q) : (pop s).log = s.log ++ [.exec c] ∧
    (pop s).running = (if s.running.isNone then some c.txn else s.running) ∧ (pop s).queue = q ∧ (pop s).current = some c ∧
    (pop s).submitted = s.submitted ∧ (pop s).closed = s.closed ∧ (pop s).answers = s.answers := by
  unfold pop; rw [h]; simp

theorem pop_inv {s : S} (I : Inv s) (hp : canPop s = true) : Inv (pop s) := by
  unfold canPop at hp
  cases hq : s.queue with
  | nil => rw [hq] at hp; simp at hp
  | cons c q =>
    rw [hq] at hp
    simp only [Bool.or_eq_true, decide_eq_true_eq] at hp
    obtain ⟨e1, e2, -⟩ := pop_cons hq
    have hr : (pop s).running = some c.txn := by
      rw [e2]; split
      · rfl
      · next h => exact hp.resolve_left h
    refine ⟨?_, ?_⟩
    · rw [e1]
      refine serial_append_exec I.serial fun l1 l2 d heq hne => (I.open_ l1 l2 d heq).resolve_right fun h => ?_
      rcases hp with hp | hp
      · rw [h] at hp; simp at hp
      · rw [h] at hp; exact hne (by simpa using hp)
    · intro l1 l2 d heq
      rw [e1] at heq
      rcases split_append_singleton heq with ⟨rfl, h, -⟩ | ⟨l2', rfl, h⟩
      · obtain rfl : c = d := by simpa using h
        exact Or.inr hr
      · rcases I.open_ l1 l2' d h with h1 | h1
        · left; simp [h1]
        · right
          rw [hr]
          rcases hp with hp | hp
          · rw [h1] at hp; simp at hp
          · rw [← hp, h1]

theorem finish_same (s : S) (b : Bool) : (finish s b).log = s.log ∧ (finish s b).running = s.running ∧ (finish s b).queue = s.queue ∧
    (finish s b).submitted = s.submitted ∧ (finish s b).closed = s.closed ∧ (finish s b).startTime = s.startTime ∧ (finish s b).nextTime = s.nextTime := by
  unfold finish; split <;> simp

theorem push_same (s : S) (c : Cmd) (b : Bool) : (push s c b).log = s.log ∧ (push s c b).running = s.running ∧ (push s c b).current = s.current ∧
    (push s c b).closed = s.closed ∧ (push s c b).startTime = s.startTime ∧ (push s c b).nextTime = s.nextTime := by
  unfold push; split <;> simp

theorem stop_inv {s : S} (I : Inv s) {t} (hr : s.running = some t) : Inv (stop s t) := by
  refine ⟨serial_append_stop I.serial, fun l1 l2 c heq => ?_⟩
  rcases split_append_singleton heq with ⟨-, h, -⟩ | ⟨l2', rfl, h⟩
  · simp at h
  · left
    rcases I.open_ l1 l2' c h with h1 | h1
    · simp [h1]
    · rw [hr] at h1
      obtain rfl : t = c.txn := by simpa using h1
      simp

theorem reach_inv {b s} (h : Reach b s) : Inv s := by
  induction h with
  | init => exact ⟨by intro l1 l2 l3 c d h; simp at h, by intro l1 l2 c h; simp at h⟩
  | step _ st ih =>
    cases st with
    | push c =>
      obtain ⟨e1, e2, -⟩ := push_same _ c b
      exact ⟨by rw [e1]; exact ih.serial, by rw [e1, e2]; exact ih.open_⟩
    | pop _ hp => exact pop_inv ih hp
    | finish a _ =>
      obtain ⟨e1, e2, -⟩ := finish_same _ a
      exact ⟨by rw [e1]; exact ih.serial, by rw [e1, e2]; exact ih.open_⟩
    | stop t hr => exact stop_inv ih hr
    | close => exact ⟨ih.serial, ih.open_⟩

/-- In every history of any number of sessions, commands of different transactions never interleave: between commands of
two transactions, the first one has been committed or aborted — whatever the undefined comparison in `push` yields. -/
theorem C32_serial {b s} (h : Reach b s) : Serial s.log := (reach_inv h).serial

/-! ### Submission order -/

/-- The commands of transaction `t`. -/
def ofTxn (t : Txn) (l : List Cmd) : List Cmd := l.filter fun c => c.txn = t

theorem executed_append_exec (log : List Event) (c : Cmd) (t : Txn) :
    executed (log ++ [.exec c]) t = executed log t ++ (if c.txn = t then [c] else []) := by
  unfold executed; rw [List.filterMap_append]; by_cases h : c.txn = t <;> simp [h]

theorem executed_append_stop (log : List Event) (u t : Txn) : executed (log ++ [.stop u]) t = executed log t := by
  unfold executed; rw [List.filterMap_append]; simp

theorem order_inv {s} (h : Reach false s) (t : Txn) :
    (s.closed = false → executed s.log t ++ ofTxn t s.queue = ofTxn t s.submitted) ∧
    (s.closed = true → s.queue = []) ∧ executed s.log t <+: ofTxn t s.submitted := by
  induction h with
  | init => simp [executed, ofTxn]
  | @step s s' _ st ih =>
    obtain ⟨h1, h2, h3⟩ := ih
    cases st with
    | push c =>
      unfold push
      cases hc : s.closed with
      | true => simp only [if_true]; exact ⟨by simp [hc], fun _ => h2 hc, h3⟩
      | false =>
        have hq : (if decide (s.running = some c.txn) && (decide (s.queue = []) || false) then c :: s.queue
            else if (decide (s.queue = []) || !false) then s.queue ++ [c] else s.queue.take 1 ++ c :: s.queue.drop 1) = s.queue ++ [c] := by
          split
          · next h => simp at h; simp [h.2]
          · simp
        simp only [Bool.false_eq_true, if_false]
        rw [hq]
        have := h1 hc
        refine ⟨fun _ => ?_, by simp [hc], h3.trans ?_⟩
        · simp only [ofTxn, List.filter_append] at this ⊢; rw [← List.append_assoc, this]
        · simp only [ofTxn, List.filter_append]; exact List.prefix_append _ _
    | pop _ hp =>
      cases hq : s.queue with
      | nil => unfold canPop at hp; rw [hq] at hp; simp at hp
      | cons c q =>
        obtain ⟨e1, -, e3, -, e5, e6, -⟩ := pop_cons hq
        have hc : s.closed = false := by
          cases hc : s.closed
          · rfl
          · have := h2 hc; rw [hq] at this; simp at this
        have h4 := h1 hc
        rw [hq] at h4
        rw [e1, e3, e5, e6, executed_append_exec]
        have h5 : executed s.log t ++ (if c.txn = t then [c] else []) ++ ofTxn t q = ofTxn t s.submitted := by
          rw [← h4]; by_cases hct : c.txn = t <;> simp [ofTxn, hct]
        exact ⟨fun _ => h5, by simp [hc], by rw [← h5]; exact List.prefix_append _ _⟩
    | finish b _ =>
      obtain ⟨e1, -, e3, e4, e5, -⟩ := finish_same s b
      rw [e1, e3, e4, e5]; exact ⟨h1, h2, h3⟩
    | stop u _ =>
      have e : (stop s u).log = s.log ++ [.stop u] := rfl
      rw [e, executed_append_stop]; exact ⟨h1, h2, h3⟩
    | close => exact ⟨by simp [close], by simp [close], h3⟩

/-- The commands of a transaction are executed in the order of their submission and none is left out or executed twice
(up to the ones still queued, or dropped by shutting down), if the undefined comparison in `push` yields false. -/
theorem C32_submission_order_partial {s} (h : Reach false s) (t : Txn) :
    executed s.log t <+: ofTxn t s.submitted ∧ (s.closed = false → executed s.log t ++ ofTxn t s.queue = ofTxn t s.submitted) :=
  ⟨(order_inv h t).2.2, (order_inv h t).1⟩

/-- If the undefined comparison yields true, a transaction's commands may be executed in the wrong order. -/
theorem C32_order_depends_on_undefined_behaviour :
    ∃ s, Reach true s ∧ ofTxn 1 s.submitted = [⟨1, 0⟩, ⟨1, 1⟩, ⟨1, 2⟩] ∧ executed s.log 1 = [⟨1, 0⟩, ⟨1, 2⟩] := by
  refine ⟨_, .step (.step (.step (.step (.step (.step .init (.push ⟨1, 0⟩)) (.pop rfl rfl)) (.push ⟨1, 1⟩)) (.push ⟨1, 2⟩)) (.finish true (by decide))) (.pop (by decide) (by decide)), by decide, by decide⟩

/-! ### Start times -/

/-- Start times are assigned in the order in which transactions first execute: the transactions' serial order. -/
structure TInv (s : S) : Prop where
  lt : ∀ t n, s.startTime t = some n → n < s.nextTime
  ex : ∀ t, executed s.log t ≠ [] ↔ ∃ n, s.startTime t = some n
  ord : ∀ l1 l2 l3 c d, s.log = l1 ++ .exec c :: l2 ++ .exec d :: l3 → c.txn ≠ d.txn → executed (l1 ++ .exec c :: l2) d.txn = [] →
    ∃ m n, s.startTime c.txn = some m ∧ s.startTime d.txn = some n ∧ m < n

theorem TInv.of_eq {s s' : S} (I : TInv s) (h1 : s'.log = s.log) (h2 : s'.startTime = s.startTime) (h3 : s'.nextTime = s.nextTime) : TInv s' :=
  ⟨by rw [h2, h3]; exact I.lt, by rw [h1, h2]; exact I.ex, by rw [h1, h2]; exact I.ord⟩

theorem executed_ne_nil {log : List Event} {c : Cmd} (h : Event.exec c ∈ log) : executed log c.txn ≠ [] := by
  intro h0
  have : c ∈ executed log c.txn := by
    unfold executed; rw [List.mem_filterMap]; exact ⟨_, h, by simp⟩
  rw [h0] at this; simp at this

theorem times_inv {b s} (h : Reach b s) : TInv s := by
  induction h with
  | init => exact ⟨by simp, by simp [executed], by intro l1 l2 l3 c d h; simp at h⟩
  | @step s s' _ st ih =>
    cases st with
    | push c => obtain ⟨e1, -, -, -, e2, e3⟩ := push_same s c b; exact ih.of_eq e1 e2 e3
    | finish a _ => obtain ⟨e1, -, -, -, -, e2, e3⟩ := finish_same s a; exact ih.of_eq e1 e2 e3
    | close => exact ih.of_eq rfl rfl rfl
    | stop t _ =>
      refine ⟨ih.lt, fun u => ?_, fun l1 l2 l3 c d heq hne hex => ?_⟩
      · have e : (stop s t).log = s.log ++ [.stop t] := rfl
        rw [e, executed_append_stop]; exact ih.ex u
      · have e : s.log ++ [.stop t] = (l1 ++ .exec c :: l2) ++ .exec d :: l3 := by simpa [stop] using heq
        rcases split_append_singleton e with ⟨-, h, -⟩ | ⟨l3', rfl, h⟩
        · simp at h
        · exact ih.ord l1 l2 l3' c d (by simpa using h) hne hex
    | pop _ hp =>
      cases hq : s.queue with
      | nil => unfold canPop at hp; rw [hq] at hp; simp at hp
      | cons c q =>
        have e : (pop s).log = s.log ++ [.exec c] := (pop_cons hq).1
        cases hf : s.startTime c.txn with
        | none =>
          have e1 : (pop s).startTime = fun t => if t = c.txn then some s.nextTime else s.startTime t := by
            unfold pop; rw [hq]; simp [hf]
          have e2 : (pop s).nextTime = s.nextTime + 1 := by unfold pop; rw [hq]; simp [hf]
          refine ⟨?_, ?_, ?_⟩
          · intro t n; rw [e1, e2]; simp only
            split
            · intro h; simp at h; omega
            · intro h; have := ih.lt t n h; omega
          · intro t
            rw [e, e1, executed_append_exec]; simp only
            by_cases ht : t = c.txn
            · simp [ht]
            · rw [if_neg (fun h => ht h.symm), if_neg ht, List.append_nil]; exact ih.ex t
          · intro l1 l2 l3 a d heq hne hex
            rw [e] at heq
            have heq' : s.log ++ [.exec c] = (l1 ++ .exec a :: l2) ++ .exec d :: l3 := by simpa using heq
            rw [e1]; simp only
            rcases split_append_singleton heq' with ⟨-, h, hl⟩ | ⟨l3', rfl, hl⟩
            · obtain rfl : c = d := by simpa using h
              obtain ⟨m, hm⟩ := (ih.ex a.txn).1 (executed_ne_nil (by rw [hl]; simp))
              exact ⟨m, s.nextTime, by rw [if_neg hne, hm], by simp, ih.lt _ _ hm⟩
            · obtain ⟨m, n, h1, h2, h3⟩ := ih.ord l1 l2 l3' a d (by simpa using hl) hne hex
              refine ⟨m, n, ?_, ?_, h3⟩
              · rw [if_neg (fun h => by rw [h, hf] at h1; simp at h1), h1]
              · rw [if_neg (fun h => by rw [h, hf] at h2; simp at h2), h2]
        | some k =>
          have e1 : (pop s).startTime = s.startTime := by unfold pop; rw [hq]; simp [hf]
          have e2 : (pop s).nextTime = s.nextTime := by unfold pop; rw [hq]; simp [hf]
          refine ⟨by rw [e1, e2]; exact ih.lt, ?_, ?_⟩
          · intro t
            rw [e, e1, executed_append_exec]
            by_cases ht : c.txn = t
            · subst ht; simp [hf]
            · rw [if_neg ht, List.append_nil]; exact ih.ex t
          · intro l1 l2 l3 a d heq hne hex
            rw [e] at heq
            have heq' : s.log ++ [.exec c] = (l1 ++ .exec a :: l2) ++ .exec d :: l3 := by simpa using heq
            rw [e1]
            rcases split_append_singleton heq' with ⟨-, h, hl⟩ | ⟨l3', rfl, hl⟩
            · obtain rfl : c = d := by simpa using h
              have := (ih.ex c.txn).2 ⟨k, hf⟩
              rw [hl] at this
              exact absurd hex this
            · exact ih.ord l1 l2 l3' a d (by simpa using hl) hne hex

/-- The start time of a transaction that first executes later is larger: multi-version visibility follows the serial order. -/
theorem C32_start_times {b s} (h : Reach b s) {l1 l2 l3 c d} (hl : s.log = l1 ++ .exec c :: l2 ++ .exec d :: l3)
    (hne : c.txn ≠ d.txn) (hfirst : executed (l1 ++ .exec c :: l2) d.txn = []) :
    ∃ m n, s.startTime c.txn = some m ∧ s.startTime d.txn = some n ∧ m < n :=
  (times_inv h).ord l1 l2 l3 c d hl hne hfirst

/-! ### Liveness -/

/-- **Found defect**: transaction 1 executes a command, transaction 2 submits one, transaction 1 submits a second one
and waits for it.  The second command of transaction 1 is queued behind the command of transaction 2, which must wait
for transaction 1: neither the worker nor, as long as it waits for its answer, transaction 1 can make a step. -/
theorem C32_deadlock : ∃ s, Reach false s ∧ s.queue = [⟨2, 0⟩, ⟨1, 1⟩] ∧ s.running = some 1 ∧ s.current = none ∧
    canPop s = false ∧ s.closed = false := by
  refine ⟨_, .step (.step (.step (.step (.step .init (.push ⟨1, 0⟩)) (.pop rfl rfl)) (.finish true (by decide))) (.push ⟨2, 0⟩)) (.push ⟨1, 1⟩), ?_⟩
  decide

/-- Executions of clients that use `autocommit`; `n` counts the steps of the worker and of clients that end their
transaction (not the submissions). -/
inductive ARun : S → Nat → S → Prop where
  | refl {s} : ARun s 0 s
  | push {s s' s'' n} : ARun s n s' → APush s' s'' → ARun s n s''
  | work {s s' s'' n} : ARun s n s' → AWork s' s'' → ARun s (n + 1) s''

/-- Invariant of `autocommit` clients. -/
structure AInv (s : S) : Prop where
  closed : s.closed = false
  uniq : ∀ c ∈ s.submitted, ∀ d ∈ s.submitted, c.txn = d.txn → c = d
  sub : ∀ c ∈ s.queue, c ∈ s.submitted
  ans : ∀ c b, (c, b) ∈ s.answers → c ∈ s.submitted
  qnew : ∀ c ∈ s.queue, ∀ b, (c, b) ∉ s.answers
  cur : ∀ c, s.current = some c → s.running = some c.txn ∧ c ∈ s.submitted ∧ c ∉ s.queue ∧ ∀ b, (c, b) ∉ s.answers
  run : ∀ t, s.running = some t → s.current = none → ∃ c b, (c, b) ∈ s.answers ∧ c.txn = t
  qnd : s.queue.Nodup
  all : ∀ c ∈ s.submitted, c ∈ s.queue ∨ s.current = some c ∨ ∃ b, (c, b) ∈ s.answers

theorem push_open {s : S} {c : Cmd} (hc : s.closed = false) : push s c false = { s with queue := s.queue ++ [c], submitted := s.submitted ++ [c] } := by
  unfold push
  rw [hc]
  have hq : (if decide (s.running = some c.txn) && (decide (s.queue = []) || false) then c :: s.queue
      else if (decide (s.queue = []) || !false) then s.queue ++ [c] else s.queue.take 1 ++ c :: s.queue.drop 1) = s.queue ++ [c] := by
    split
    · next h => simp at h; simp [h.2]
    · simp
  simp only [Bool.false_eq_true, if_false]
  rw [hq]

theorem AInv.push {s s'} (I : AInv s) (h : APush s s') : AInv s' := by
  cases h with
  | push c hc hn =>
    rw [push_open hc]
    have hcs : c ∉ s.submitted := fun h => hn c h rfl
    refine ⟨hc, ?_, ?_, ?_, ?_, ?_, I.run, ?_, ?_⟩
    · intro a ha d hd hadt
      simp only [List.mem_append, List.mem_singleton] at ha hd
      rcases ha with ha | rfl <;> rcases hd with hd | rfl
      · exact I.uniq a ha d hd hadt
      · exact absurd hadt (hn a ha)
      · exact absurd hadt.symm (hn d hd)
      · rfl
    · intro a ha
      simp only [List.mem_append, List.mem_singleton] at ha ⊢
      exact ha.imp (I.sub a) id
    · intro a b ha; simp [I.ans a b ha]
    · intro a ha b hab
      simp only [List.mem_append, List.mem_singleton] at ha
      rcases ha with ha | rfl
      · exact I.qnew a ha b hab
      · exact hcs (I.ans a b hab)
    · intro a ha
      obtain ⟨h1, h2, h3, h4⟩ := I.cur a ha
      refine ⟨h1, by simp [h2], ?_, h4⟩
      simp only [List.mem_append, List.mem_singleton, not_or]
      exact ⟨h3, fun h => hcs (h ▸ h2)⟩
    · simp only [List.nodup_append, List.mem_singleton]
      exact ⟨I.qnd, by simp, fun a ha b hb hab => hcs (hb ▸ hab ▸ I.sub a ha)⟩
    · intro a ha
      simp only [List.mem_append, List.mem_singleton] at ha ⊢
      rcases ha with ha | rfl
      · rcases I.all a ha with h | h | h
        · exact Or.inl (Or.inl h)
        · exact Or.inr (Or.inl h)
        · exact Or.inr (Or.inr h)
      · exact Or.inl (Or.inr rfl)

/-- In `autocommit` mode the worker only takes a command when no transaction is running. -/
theorem AInv.not_running {s : S} (I : AInv s) (hc : s.current = none) (hp : canPop s = true) :
    s.running = none ∧ ∃ c q, s.queue = c :: q := by
  unfold canPop at hp
  cases hq : s.queue with
  | nil => rw [hq] at hp; simp at hp
  | cons c q =>
    refine ⟨?_, c, q, rfl⟩
    rw [hq] at hp
    simp only [Bool.or_eq_true, decide_eq_true_eq, Option.isNone_iff_eq_none] at hp
    refine hp.resolve_right fun hr => ?_
    obtain ⟨d, b, h1, h2⟩ := I.run _ hr hc
    have hcq : c ∈ s.queue := by rw [hq]; simp
    have := I.uniq d (I.ans d b h1) c (I.sub c hcq) h2
    subst this
    exact I.qnew d hcq b h1

theorem AInv.stop_idle {s : S} (I : AInv s) {c b} (h1 : (c, b) ∈ s.answers) (h2 : s.running = some c.txn) : s.current = none := by
  cases hc : s.current with
  | none => rfl
  | some d =>
    obtain ⟨a1, a2, -, a4⟩ := I.cur d hc
    rw [h2] at a1
    have := I.uniq c (I.ans c b h1) d a2 (by simpa using a1)
    subst this
    exact absurd h1 (a4 b)

theorem AInv.work {s s'} (I : AInv s) (h : AWork s s') : AInv s' := by
  cases h with
  | pop hc hp =>
    obtain ⟨hr, c, q, hq⟩ := I.not_running hc hp
    obtain ⟨-, e2, e3, e4, e5, e6, e7⟩ := pop_cons hq
    have hnd := I.qnd
    rw [hq, List.nodup_cons] at hnd
    have hcq : c ∈ s.queue := by rw [hq]; simp
    refine ⟨by rw [e6]; exact I.closed, by rw [e5]; exact I.uniq, ?_, by rw [e7, e5]; exact I.ans, ?_, ?_, ?_, by rw [e3]; exact hnd.2, ?_⟩
    · rw [e3, e5]; intro a ha; exact I.sub a (by rw [hq]; simp [ha])
    · rw [e3, e7]; intro a ha; exact I.qnew a (by rw [hq]; simp [ha])
    · rw [e2, e3, e4, e5, e7]
      intro a ha
      obtain rfl : c = a := by simpa using ha
      exact ⟨by simp [hr], I.sub c hcq, hnd.1, I.qnew c hcq⟩
    · rw [e4]; simp
    · rw [e3, e4, e5, e7]
      intro a ha
      rcases I.all a ha with h | h | h
      · rw [hq, List.mem_cons] at h
        rcases h with rfl | h
        · exact Or.inr (Or.inl rfl)
        · exact Or.inl h
      · rw [hc] at h; simp at h
      · exact Or.inr (Or.inr h)
  | finish b hc =>
    cases hcur : s.current with
    | none => exact absurd hcur hc
    | some c =>
      obtain ⟨a1, a2, a3, a4⟩ := I.cur c hcur
      have e : finish s b = { s with current := none, answers := s.answers ++ [(c, b)] } := by unfold finish; rw [hcur]
      rw [e]
      refine ⟨I.closed, I.uniq, I.sub, ?_, ?_, by simp, ?_, I.qnd, ?_⟩
      · intro a b' h
        simp only [List.mem_append, List.mem_singleton, Prod.mk.injEq] at h
        rcases h with h | ⟨rfl, -⟩
        · exact I.ans a b' h
        · exact a2
      · intro a ha b' h
        simp only [List.mem_append, List.mem_singleton, Prod.mk.injEq] at h
        rcases h with h | ⟨rfl, -⟩
        · exact I.qnew a ha b' h
        · exact a3 ha
      · intro t ht _
        simp only at ht
        rw [a1] at ht
        exact ⟨c, b, by simp, by simpa using ht⟩
      · intro a ha
        rcases I.all a ha with h | h | ⟨b', h⟩
        · exact Or.inl h
        · rw [hcur] at h
          obtain rfl : c = a := by simpa using h
          exact Or.inr (Or.inr ⟨b, by simp⟩)
        · exact Or.inr (Or.inr ⟨b', by simp [h]⟩)
  | stop c b h1 h2 =>
    have hi := I.stop_idle h1 h2
    refine ⟨I.closed, I.uniq, I.sub, I.ans, I.qnew, ?_, by simp [stop], I.qnd, I.all⟩
    intro a ha
    have : s.current = some a := ha
    rw [hi] at this; simp at this

theorem areach_inv {s} (h : AReach s) : AInv s := by
  induction h with
  | init => exact ⟨rfl, by simp, by simp, by simp, by simp, by simp, by simp, by simp, by simp⟩
  | push _ h ih => exact ih.push h
  | work _ h ih => exact ih.work h

/-- The number of steps until the answer to `c`. -/
def rank (s : S) (c : Cmd) : Nat :=
  if s.current = some c then 1
  else 3 * s.queue.idxOf c + 2 + (if s.current.isSome then 2 else if s.running.isSome then 1 else 0)

theorem rank_push {s s'} (h : APush s s') {c : Cmd} (hc : c ∈ s.queue ∨ s.current = some c) : rank s' c = rank s c := by
  cases h with
  | push d hd hn =>
    rw [push_open hd]
    unfold rank
    simp only
    by_cases h : s.current = some c
    · rw [if_pos h, if_pos h]
    · rw [if_neg h, if_neg h, List.idxOf_append_of_mem (hc.resolve_right h)]

theorem rank_work {s s'} (I : AInv s) (h : AWork s s') {c : Cmd} (hc : c ∈ s.queue ∨ s.current = some c)
    (hn : ∀ b, (c, b) ∉ s'.answers) : rank s' c + 1 = rank s c := by
  cases h with
  | pop hcur hp =>
    obtain ⟨hr, d, q, hq⟩ := I.not_running hcur hp
    obtain ⟨-, e2, e3, e4, -, -, -⟩ := pop_cons hq
    have hmem := hc.resolve_right (by rw [hcur]; simp)
    unfold rank
    rw [e3, e4, hcur, hr, hq, List.idxOf_cons]
    by_cases h : d = c
    · subst h; simp
    · have hb : (d == c) = false := by simpa using h
      simp [h, hb]; omega
  | finish b hcur =>
    cases hcu : s.current with
    | none => exact absurd hcu hcur
    | some d =>
      have e : finish s b = { s with current := none, answers := s.answers ++ [(d, b)] } := by unfold finish; rw [hcu]
      rw [e] at hn ⊢
      have hdc : d ≠ c := by
        rintro rfl; exact hn b (by simp)
      obtain ⟨a1, -⟩ := I.cur d hcu
      unfold rank
      simp [hcu, hdc, a1]
  | stop d b h1 h2 =>
    have hi := I.stop_idle h1 h2
    unfold rank stop
    simp [hi, h2]

theorem mem_after {s' : S} {c : Cmd} (hn : ∀ b, (c, b) ∉ s'.answers) (I : AInv s') (hs : c ∈ s'.submitted) : c ∈ s'.queue ∨ s'.current = some c := by
  rcases I.all c hs with h | h | ⟨b, h⟩
  · exact Or.inl h
  · exact Or.inr h
  · exact absurd h (hn b)

theorem answers_mono {s s'} (h : AWork s s' ∨ APush s s') {x} (hx : x ∈ s.answers) : x ∈ s'.answers := by
  rcases h with h | h
  · cases h with
    | pop hc hp =>
      unfold pop; split <;> simpa using hx
    | finish b hc => unfold finish; split <;> simp [hx]
    | stop c b h1 h2 => exact hx
  · cases h with
    | push c hc _ => rw [push_open hc]; exact hx

theorem submitted_mono {s s'} (h : AWork s s' ∨ APush s s') {x} (hx : x ∈ s.submitted) : x ∈ s'.submitted := by
  rcases h with h | h
  · cases h with
    | pop hc hp => unfold pop; split <;> simpa using hx
    | finish b hc => rw [(finish_same s b).2.2.2.1]; exact hx
    | stop c b h1 h2 => exact hx
  · cases h with
    | push c hc _ => rw [push_open hc]; simp [hx]

theorem run_rank {s s' n} (h : ARun s n s') (hs : AReach s) {c : Cmd} (hc : c ∈ s.submitted) (hn : ∀ b, (c, b) ∉ s'.answers) :
    AReach s' ∧ c ∈ s'.submitted ∧ rank s' c + n = rank s c := by
  induction h with
  | refl => exact ⟨hs, hc, rfl⟩
  | push _ hp ih =>
    have hn' : ∀ b, (c, b) ∉ _ := fun b hb => hn b (answers_mono (Or.inr hp) hb)
    obtain ⟨h1, h2, h3⟩ := ih hn'
    have I := areach_inv h1
    exact ⟨.push h1 hp, submitted_mono (Or.inr hp) h2, by rw [rank_push hp (mem_after hn' I h2), h3]⟩
  | work _ hw ih =>
    have hn' : ∀ b, (c, b) ∉ _ := fun b hb => hn b (answers_mono (Or.inl hw) hb)
    obtain ⟨h1, h2, h3⟩ := ih hn'
    have I := areach_inv h1
    have := rank_work I hw (mem_after hn' I h2) hn
    exact ⟨.work h1 hw, submitted_mono (Or.inl hw) h2, by omega⟩

/-- With `autocommit` clients: as long as a submitted command is not answered, the worker or a client that got its answer
can make a step. -/
theorem C32_autocommit_no_deadlock_partial {s} (h : AReach s) {c : Cmd} (hc : c ∈ s.submitted) (hn : ∀ b, (c, b) ∉ s.answers) :
    ∃ s', AWork s s' := by
  have I := areach_inv h
  cases hcur : s.current with
  | some d => exact ⟨_, .finish true (by rw [hcur]; simp)⟩
  | none =>
    cases hr : s.running with
    | some t =>
      obtain ⟨d, b, h1, rfl⟩ := I.run t hr hcur
      exact ⟨_, .stop d b h1 hr⟩
    | none =>
      have hq := (mem_after hn I hc).resolve_right (by rw [hcur]; simp)
      refine ⟨_, .pop hcur ?_⟩
      unfold canPop
      cases hqq : s.queue with
      | nil => rw [hqq] at hq; simp at hq
      | cons d q => simp [hr]

/-- With `autocommit` clients: a submitted command is answered after at most three steps per queued command, however many
further commands are submitted in the meantime. -/
theorem C32_autocommit_answered_partial {s s' n} (hs : AReach s) {c : Cmd} (hc : c ∈ s.submitted) (hr : ARun s n s')
    (hn : 3 * s.queue.length + 3 ≤ n) : ∃ b, (c, b) ∈ s'.answers := by
  by_contra hno
  push Not at hno
  have h0 : ∀ b, (c, b) ∉ s.answers := by
    intro b hb
    clear hn
    have : (c, b) ∈ s'.answers := by
      induction hr with
      | refl => exact hb
      | push _ hp ih => exact answers_mono (Or.inr hp) (ih (fun b h => hno b (answers_mono (Or.inr hp) h)))
      | work _ hw ih => exact answers_mono (Or.inl hw) (ih (fun b h => hno b (answers_mono (Or.inl hw) h)))
    exact hno b this
  obtain ⟨-, -, h3⟩ := run_rank hr hs hc hno
  have h4 : rank s' c ≥ 1 := by unfold rank; split <;> omega
  have h5 : rank s c ≤ 3 * s.queue.length + 3 := by
    unfold rank
    split
    · omega
    · next h =>
      have hq := (mem_after h0 (areach_inv hs) hc).resolve_right h
      have := List.idxOf_lt_length_of_mem hq
      split
      · omega
      · split <;> omega
  omega

/-! ### No command is lost or answered twice -/

/-- The executions of the scheduler with any clients, including its shutdown; `pushed` are the commands handed to
`schedule_command` so far. -/
inductive Run (sentinelEq : Bool) : List Cmd → S → Prop where
  | init : Run sentinelEq [] {}
  | push {pushed s} (c) : Run sentinelEq pushed s → Run sentinelEq (pushed ++ [c]) (push s c sentinelEq)
  | pop {pushed s} : Run sentinelEq pushed s → s.current = none → canPop s = true → Run sentinelEq pushed (pop s)
  | finish {pushed s} (b) : Run sentinelEq pushed s → s.current ≠ none → Run sentinelEq pushed (finish s b)
  | stop {pushed s} (t) : Run sentinelEq pushed s → s.running = some t → Run sentinelEq pushed (stop s t)
  | close {pushed s} : Run sentinelEq pushed s → Run sentinelEq pushed (close s)

/-- At every point of every execution, each command handed to the scheduler is, exactly once, waiting in the queue, being
executed, or answered. -/
theorem C32_every_command_accounted {b pushed s} (h : Run b pushed s) :
    List.Perm pushed (s.answers.map Prod.fst ++ s.current.toList ++ s.queue) := by
  induction h with
  | init => exact .refl _
  | @push pushed s c _ ih =>
    unfold Mutable.Sched.push
    split
    · simp only [List.map_append, List.map_cons, List.map_nil]
      refine (ih.append_right [c]).trans ?_
      simp only [List.append_assoc]
      refine List.Perm.append_left _ ?_
      simp only [← List.append_assoc]
      exact (List.perm_append_comm).trans (by simp)
    · have hq : ∀ q : List Cmd, List.Perm (s.queue ++ [c]) q → List.Perm (pushed ++ [c]) (s.answers.map Prod.fst ++ s.current.toList ++ q) := by
        intro q hq
        refine (ih.append_right [c]).trans ?_
        rw [List.append_assoc]
        exact List.Perm.append_left _ hq
      simp only
      apply hq
      split
      · exact List.perm_append_comm
      · split
        · exact .refl _
        · refine (List.perm_append_comm).trans ?_
          have : List.Perm (c :: s.queue) (c :: (s.queue.take 1 ++ s.queue.drop 1)) := by rw [List.take_append_drop]
          exact this.trans List.perm_middle.symm
  | @pop pushed s _ h1 h2 ih =>
    unfold canPop at h2
    cases hq : s.queue with
    | nil => rw [hq] at h2; exact absurd h2 (by simp)
    | cons d q =>
      rw [h1, hq] at ih
      have hp : (Mutable.Sched.pop s).answers = s.answers ∧ (Mutable.Sched.pop s).current = some d ∧ (Mutable.Sched.pop s).queue = q := by
        simp [Mutable.Sched.pop, hq]
      rw [hp.1, hp.2.1, hp.2.2]
      simpa using ih
  | @finish pushed s x _ h1 ih =>
    cases hc : s.current with
    | none => exact absurd hc h1
    | some d =>
      rw [hc] at ih
      have hp : (Mutable.Sched.finish s x).answers = s.answers ++ [(d, x)] ∧ (Mutable.Sched.finish s x).current = none ∧
          (Mutable.Sched.finish s x).queue = s.queue := by simp [Mutable.Sched.finish, hc]
      rw [hp.1, hp.2.1, hp.2.2]
      simpa using ih
  | stop t _ _ ih => exact ih
  | @close pushed s _ ih =>
    refine ih.trans ?_
    simp only [Mutable.Sched.close, List.map_append, List.map_map, List.append_nil, List.append_assoc]
    refine List.Perm.append_left _ ?_
    have : s.queue.map (Prod.fst ∘ fun x => (x, false)) = s.queue := by simp [Function.comp_def]
    rw [this]
    exact List.perm_append_comm

/-- After the shutdown and the end of the command in execution, every command handed to the scheduler (also later ones)
has been answered exactly once. -/
theorem C32_all_answered_after_close {b pushed s} (h : Run b pushed s) (hc : s.closed = true) (hi : s.current = none) :
    List.Perm pushed (s.answers.map Prod.fst) := by
  have hq : s.closed = true → s.queue = [] := by
    clear hc hi
    induction h with
    | init => intro h; exact absurd h (by simp)
    | @push pushed s c _ ih =>
      unfold Mutable.Sched.push
      split
      · exact ih
      · next h => intro h'; exact absurd h' h
    | @pop pushed s _ h1 h2 ih =>
      intro h
      have hcl : (Mutable.Sched.pop s).closed = s.closed := by unfold Mutable.Sched.pop; split <;> rfl
      have := ih (hcl ▸ h)
      simp [canPop, this] at h2
    | @finish pushed s x _ _ ih =>
      rw [(finish_same s x).2.2.1]; intro h; refine ih ?_; unfold Mutable.Sched.finish at h; split at h <;> exact h
    | stop t _ _ ih => exact ih
    | close _ _ => intro _; rfl
  have := C32_every_command_accounted h
  rw [hi, hq hc] at this
  simpa using this

/-! ### Witness -/

/-- Two transactions; the second one executes after the first one has been committed. -/
example : ∃ s, Reach false s ∧ s.log = [.exec ⟨1, 0⟩, .stop 1, .exec ⟨2, 0⟩] := by
  refine ⟨_, .step (.step (.step (.step (.step (.step .init (.push ⟨1, 0⟩)) (.push ⟨2, 0⟩)) (.pop rfl rfl)) (.finish true (by decide))) (.stop 1 (by decide))) (.pop (by decide) (by decide)), by decide⟩

/-- Two `autocommit` clients. -/
example : ∃ s, AReach s ∧ s.submitted = [⟨1, 0⟩, ⟨2, 0⟩] ∧ s.answers = [(⟨1, 0⟩, true)] := by
  refine ⟨_, .work (.work (.push (.push .init (.push ⟨1, 0⟩ rfl (by decide))) (.push ⟨2, 0⟩ rfl (by decide))) (.pop rfl rfl)) (.finish true (by decide)), by decide, by decide⟩

/-- A shutdown with one command in execution and one in the queue; a third command comes too late. -/
example : ∃ s, Run false [⟨1, 0⟩, ⟨2, 0⟩, ⟨3, 0⟩] s ∧ s.closed = true ∧ s.current = none ∧
    s.answers = [(⟨2, 0⟩, false), (⟨1, 0⟩, true), (⟨3, 0⟩, false)] := by
  have h1 : Run false [⟨1, 0⟩, ⟨2, 0⟩] _ := .push ⟨2, 0⟩ (.push ⟨1, 0⟩ .init)
  exact ⟨_, .push ⟨3, 0⟩ (.finish true (.close (.pop h1 rfl rfl)) (by decide)), rfl, rfl, rfl⟩

end Mutable.Sched
