import Verif.MVCC.Model
import Verif.Sched.Props
import Verif.Schema.Props
/-!
# C42: multi-versioned visibility
-/
namespace Mutable.MVCC
open Mutable.SQL Mutable.CNF Mutable.Sched

/-! ### Specification -/

/-- A row version is visible at time `t`. -/
def Visible (t : Int) (r : Row) : Prop := r.tsBegin ≤ t ∧ (r.tsEnd > t ∨ r.tsEnd = -1)

instance (t : Int) (r : Row) : Decidable (Visible t r) := by unfold Visible; infer_instance

/-- What has been written to table `T`, in order, with the writing transactions. -/
def written (act : Cmd → Action) (log : List Event) (T : Nat) : List (Txn × Nat) :=
  log.flatMap fun e => match e with
    | .exec c => match act c with
      | .insert T' rows => if T' = T then rows.map fun d => (c.txn, d) else []
      | .select .. => []
    | .stop _ => []

/-- Transaction `t` has executed a command before any command of `u` (or `t = u`). -/
def StartsNoLater (log : List Event) (t u : Txn) : Prop :=
  ∃ l1 l2 c, log = l1 ++ .exec c :: l2 ∧ c.txn = t ∧ ∀ d, Event.exec d ∈ l1 → d.txn ≠ u

/-! ### The filter -/

theorem tsFilter_typed (Γ : Nat → Ty) : typeOf (tsTypes Γ) tsFilter = some .bool := by
  simp [typeOf, tsFilter, tsTypes, lBegin, lStart, lEnd, lInf]

theorem tsFilter_val (Γ : Nat → Ty) (t : Int) (r : Row) (u : Expr → K3) : sqlVal (tsTypes Γ) (atomVal t r u) tsFilter = .T ↔ Visible t r := by
  have h2 : typeOf (tsTypes Γ) lEnd ≠ some .bool := by simp [typeOf, lEnd, tsTypes]
  unfold tsFilter
  simp only [sqlVal, if_neg h2]
  simp only [atomVal, lBegin, lStart, lEnd, lInf, leafVal, Visible]
  by_cases h1 : r.tsBegin ≤ t <;> by_cases h2 : r.tsEnd > t <;> by_cases h3 : r.tsEnd = -1 <;>
    simp only [h1, h2, h3, if_true, if_false, K3.T_and, K3.T_or, K3.or_T, K3.F_and, K3.F_or, K3.and_F, true_and, false_and, or_true, or_false, reduceCtorEq]

/-- With the filter that multi-versioning adds, a scan of a multi-versioned table yields exactly the visible row versions
among the rows that satisfy the query's own filter. -/
theorem C42_filter_partial (Γ : Nat → Ty) {mv : Nat → Bool} {T : Nat} (hT : mv T = true) (F : CNF) (t : Int) (u : Row → Expr → K3) (tables : Nat → List Row) :
    scan t u tables (applyTS Γ mv (.base T F)) = (scan t u tables (.base T F)).filter fun r => decide (Visible t r) := by
  obtain ⟨c, hc, -, -, hv⟩ := C17_to_CNF_preserves_meaning (tsTypes Γ) tsFilter (tsFilter_typed Γ)
  simp only [applyTS, hT, if_true, hc, scan, List.filter_filter]
  apply List.filter_congr
  intro r _
  have h1 : CNF.val (atomVal t r (u r)) (CNF.and F c) = K3.and (CNF.val (atomVal t r (u r)) F) (CNF.val (atomVal t r (u r)) c) := cnf_and_val _ _ _
  have h2 := tsFilter_val Γ t r (u r)
  rw [← hv] at h2
  rw [h1, ← Bool.decide_and, decide_eq_decide, ← h2]
  generalize CNF.val (atomVal t r (u r)) F = a
  generalize CNF.val (atomVal t r (u r)) c = b
  cases a <;> cases b <;> simp [K3.and]

/-! ### Histories -/

/-- The row that a transaction writes. -/
def mkRow (mv : Bool) (st : Txn → Option Nat) (w : Txn × Nat) : Row :=
  if mv then ⟨((st w.1).getD 0 : Nat), -1, w.2⟩ else ⟨0, 0, w.2⟩

theorem written_append (act : Cmd → Action) (l1 l2 : List Event) (T : Nat) : written act (l1 ++ l2) T = written act l1 T ++ written act l2 T := by
  unfold written; rw [List.flatMap_append]

theorem mem_written {act : Cmd → Action} {log : List Event} {T : Nat} {w : Txn × Nat} (h : w ∈ written act log T) :
    ∃ c, Event.exec c ∈ log ∧ c.txn = w.1 := by
  unfold written at h
  obtain ⟨e, he, hw⟩ := List.mem_flatMap.1 h
  cases e with
  | stop t => simp at hw
  | exec c =>
    simp only at hw
    split at hw
    · split at hw
      · obtain ⟨d, -, rfl⟩ := List.mem_map.1 hw
        exact ⟨c, he, rfl⟩
      · simp at hw
    · simp at hw

/-- What is known of a reachable database. -/
structure DInv (Γ : Nat → Ty) (mv : Nat → Bool) (act : Cmd → Action) (d : Db) : Prop where
  reach : Reach false d.s
  tables : ∀ T, d.tables T = (written act d.s.log T).map (mkRow (mv T) d.s.startTime)
  results : ∀ c rs, (c, rs) ∈ d.results → ∃ src u l1 l2, ∃ t : Nat, act c = .select src u ∧ d.s.log = l1 ++ .exec c :: l2 ∧
    d.s.startTime c.txn = some t ∧
    rs = scan t u (fun T => (written act l1 T).map (mkRow (mv T) d.s.startTime)) (applyTS Γ mv src)

theorem map_mkRow_congr {act : Cmd → Action} {log : List Event} {T : Nat} {mv : Bool} {st st' : Txn → Option Nat}
    (h : ∀ c, Event.exec c ∈ log → st' c.txn = st c.txn) : (written act log T).map (mkRow mv st) = (written act log T).map (mkRow mv st') := by
  apply List.map_congr_left
  intro w hw
  obtain ⟨c, hc, hcw⟩ := mem_written hw
  unfold mkRow
  rw [← hcw, h c hc]

theorem started {s : S} (h : Reach false s) {c : Cmd} (hc : Event.exec c ∈ s.log) : ∃ n, s.startTime c.txn = some n :=
  ((times_inv h).ex c.txn).1 (executed_ne_nil hc)

theorem DInv.of_step {Γ mv act} {d : Db} {s' : S} (I : DInv Γ mv act d) (hr : Reach false s')
    (h2 : s'.log = d.s.log ∨ ∃ t, s'.log = d.s.log ++ [.stop t]) (h3 : s'.startTime = d.s.startTime) : DInv Γ mv act { d with s := s' } := by
  refine ⟨hr, ?_, ?_⟩
  · intro T
    rw [I.tables T]
    simp only [h3]
    rcases h2 with h2 | ⟨t, h2⟩
    · rw [h2]
    · rw [h2, written_append]; simp [written]
  · intro c rs h
    obtain ⟨src, u, l1, l2, t, g1, g2, g3, g4⟩ := I.results c rs h
    rcases h2 with h2 | ⟨x, h2⟩
    · exact ⟨src, u, l1, l2, t, g1, by simp only [h2, g2], by simp only [h3, g3], by simp only [h3]; exact g4⟩
    · exact ⟨src, u, l1, l2 ++ [.stop x], t, g1, by simp only [h2, g2, List.append_assoc, List.cons_append], by simp only [h3, g3], by simp only [h3]; exact g4⟩

theorem pop_startTime {s : S} {c q} (hq : s.queue = c :: q) (t : Txn) (n : Nat) (h : s.startTime t = some n) : (pop s).startTime t = some n := by
  unfold pop
  rw [hq]
  simp only
  split
  · next hf =>
    by_cases htc : t = c.txn
    · subst htc; rw [h] at hf; simp at hf
    · show (if t = c.txn then some s.nextTime else s.startTime t) = some n
      rw [if_neg htc]; exact h
  · exact h

theorem dreach_inv {Γ mv act} {d : Db} (h : DReach Γ mv act d) : DInv Γ mv act d := by
  induction h with
  | init => exact ⟨.init, by intro T; simp [written], by simp⟩
  | @step d d' _ st I =>
    cases st with
    | push c => exact I.of_step (.step I.reach (.push c)) (Or.inl (push_same _ c false).1) (push_same _ c false).2.2.2.2.1
    | finish b hc => exact I.of_step (.step I.reach (.finish b hc)) (Or.inl (finish_same _ b).1) (finish_same _ b).2.2.2.2.2.1
    | stop t ht => exact I.of_step (.step I.reach (.stop t ht)) (Or.inr ⟨t, rfl⟩) rfl
    | close => exact I.of_step (.step I.reach .close) (Or.inl rfl) rfl
    | pop c q t hc hp hq ht =>
      have hlog : (pop d.s).log = d.s.log ++ [.exec c] := (pop_cons hq).1
      have hst : ∀ e, Event.exec e ∈ d.s.log → (pop d.s).startTime e.txn = d.s.startTime e.txn := by
        intro e he
        obtain ⟨n, hn⟩ := started I.reach he
        rw [hn]; exact pop_startTime hq _ _ hn
      have htab : ∀ T, d.tables T = (written act d.s.log T).map (mkRow (mv T) (pop d.s).startTime) := by
        intro T; rw [I.tables T]; exact map_mkRow_congr hst
      have hres : ∀ c' rs, (c', rs) ∈ d.results → ∃ src u l1 l2, ∃ t : Nat, act c' = .select src u ∧ (pop d.s).log = l1 ++ .exec c' :: l2 ∧
          (pop d.s).startTime c'.txn = some t ∧
          rs = scan t u (fun T => (written act l1 T).map (mkRow (mv T) (pop d.s).startTime)) (applyTS Γ mv src) := by
        intro c' rs h
        obtain ⟨src, u, l1, l2, t', g1, g2, g3, g4⟩ := I.results c' rs h
        refine ⟨src, u, l1, l2 ++ [.exec c], t', g1, by rw [hlog, g2]; simp, pop_startTime hq _ _ g3, ?_⟩
        rw [g4]
        congr 1
        funext T
        exact map_mkRow_congr fun e he => hst e (by rw [g2]; simp [he])
      have hw : written act [.exec c] = fun T => match act c with
          | .insert T' rows => if T' = T then rows.map fun d => (c.txn, d) else []
          | .select .. => [] := by funext T; simp [written]
      unfold execute
      cases hact : act c with
      | insert T rows =>
        rw [hact] at hw
        refine ⟨.step I.reach (.pop hc hp), ?_, hres⟩
        intro T'
        simp only [hlog, written_append, hw]
        by_cases hT : T' = T
        · subst hT
          simp only [if_true, List.map_append, htab T']
          congr 1
          unfold insertRows mkRow
          rw [List.map_map]
          cases mv T' <;> simp [Function.comp_def, ht]
        · simp only [if_neg hT, if_neg (Ne.symm hT), List.append_nil]
          exact htab T'
      | select src u =>
        rw [hact] at hw
        refine ⟨.step I.reach (.pop hc hp), ?_, ?_⟩
        · intro T'
          simp only [hlog, written_append, hw, List.append_nil]
          exact htab T'
        · intro c' rs h
          simp only [List.mem_append, List.mem_singleton, Prod.mk.injEq] at h
          rcases h with h | ⟨rfl, rfl⟩
          · exact hres c' rs h
          · refine ⟨src, u, d.s.log, [], t, hact, hlog, ht, ?_⟩
            congr 1
            funext T
            exact htab T

theorem first_exec {log : List Event} {c : Cmd} (h : Event.exec c ∈ log) :
    ∃ l1 l2 e, log = l1 ++ .exec e :: l2 ∧ e.txn = c.txn ∧ executed l1 c.txn = [] := by
  induction log with
  | nil => simp at h
  | cons x l ih =>
    by_cases hx : ∃ e, x = .exec e ∧ e.txn = c.txn
    · obtain ⟨e, rfl, he⟩ := hx
      exact ⟨[], l, e, rfl, he, rfl⟩
    · have hl : Event.exec c ∈ l := by
        rcases List.mem_cons.1 h with rfl | h
        · exact absurd ⟨c, rfl, rfl⟩ hx
        · exact h
      obtain ⟨l1, l2, e, rfl, he, hn⟩ := ih hl
      refine ⟨x :: l1, l2, e, rfl, he, ?_⟩
      unfold executed at hn ⊢
      rw [List.filterMap_cons]
      cases x with
      | stop t => exact hn
      | exec e' =>
        have : e'.txn ≠ c.txn := fun h' => hx ⟨e', rfl, h'⟩
        simp only [this, if_false]
        exact hn

theorem executed_nil_iff {log : List Event} {u : Txn} : executed log u = [] ↔ ∀ d, Event.exec d ∈ log → d.txn ≠ u := by
  unfold executed
  rw [List.filterMap_eq_nil_iff]
  constructor
  · intro h d hd hu
    have := h _ hd
    simp [hu] at this
  · intro h e he
    cases e with
    | stop t => rfl
    | exec d => simp [h d he]

/-- The start times order the transactions by their first commands. -/
theorem start_order {s : S} (h : Reach false s) {l1 l2 : List Event} (hl : s.log = l1 ++ l2) {c w : Cmd} (hc : Event.exec c ∈ l1)
    (hw : Event.exec w ∈ l1) {m n : Nat} (hm : s.startTime w.txn = some m) (hn : s.startTime c.txn = some n) :
    m ≤ n ↔ StartsNoLater l1 w.txn c.txn := by
  by_cases hwc : w.txn = c.txn
  · rw [hwc, hn] at hm
    cases hm
    refine ⟨fun _ => ?_, fun _ => Nat.le_refl _⟩
    obtain ⟨a, b, e, rfl, he, hnil⟩ := first_exec hw
    exact ⟨a, b, e, rfl, he, by rw [← hwc]; exact executed_nil_iff.1 hnil⟩
  · constructor
    · intro hle
      obtain ⟨a, b, e, rfl, he, hnil⟩ := first_exec hw
      refine ⟨a, b, e, rfl, he, ?_⟩
      intro x hx hxc
      obtain ⟨a1, a2, rfl⟩ := List.append_of_mem hx
      obtain ⟨m', n', g1, g2, g3⟩ := (times_inv h).ord a1 a2 (b ++ l2) x e (by rw [hl]; simp) (by rw [hxc, he]; exact Ne.symm hwc) (by rw [he]; exact hnil)
      rw [hxc, hn] at g1
      rw [he, hm] at g2
      cases g1; cases g2
      omega
    · rintro ⟨a, b, e, rfl, he, hno⟩
      have hcb : Event.exec c ∈ b := by
        rcases List.mem_append.1 hc with h' | h'
        · exact absurd rfl (hno c h')
        · rcases List.mem_cons.1 h' with h' | h'
          · injection h' with h'
            subst h'
            exact absurd he.symm hwc
          · exact h'
      obtain ⟨b1, b2, f, rfl, hf, hbnil⟩ := first_exec hcb
      obtain ⟨m', n', g1, g2, g3⟩ := (times_inv h).ord a b1 (b2 ++ l2) e f (by rw [hl]; simp) (by rw [he, hf]; exact hwc) (by
        rw [hf, executed_nil_iff]
        intro x hx
        rcases List.mem_append.1 hx with hx | hx
        · exact hno x hx
        · rcases List.mem_cons.1 hx with hx | hx
          · injection hx with hx
            subst hx
            rw [he]; exact hwc
          · exact executed_nil_iff.1 hbnil x hx)
      rw [he, hm] at g1
      rw [hf, hn] at g2
      cases g1; cases g2
      omega

open Classical in
/-- In every history, a query on a multi-versioned table returns exactly the rows that satisfy its own filter among those
that were written before by transactions that started no later than the transaction of the query, in the order of writing. -/
theorem C42_snapshot_partial {Γ : Nat → Ty} {mv : Nat → Bool} {act : Cmd → Action} {d : Db} (h : DReach Γ mv act d) {c : Cmd} {rs : List Row} (hr : (c, rs) ∈ d.results)
    {T : Nat} {F : CNF} {u : Row → Expr → K3} (hact : act c = .select (.base T F) u) (hT : mv T = true) :
    ∃ l1 l2, ∃ t : Nat, d.s.log = l1 ++ .exec c :: l2 ∧ d.s.startTime c.txn = some t ∧
      rs = (((written act l1 T).filter fun w => decide (StartsNoLater (l1 ++ [.exec c]) w.1 c.txn)).map
        fun w => (⟨((d.s.startTime w.1).getD 0 : Nat), -1, w.2⟩ : Row)).filter fun r => decide (CNF.val (atomVal t r (u r)) F = .T) := by
  have I := dreach_inv h
  obtain ⟨src, u', l1, l2, t, g1, g2, g3, g4⟩ := I.results c rs hr
  rw [hact] at g1
  cases g1
  refine ⟨l1, l2, t, g2, g3, ?_⟩
  rw [g4, C42_filter_partial Γ hT]
  simp only [scan, List.filter_filter]
  rw [List.filter_map, List.filter_map, List.filter_filter]
  have hmk : mkRow (mv T) d.s.startTime = fun w => (⟨((d.s.startTime w.1).getD 0 : Nat), -1, w.2⟩ : Row) := by
    funext w; simp [mkRow, hT]
  rw [hmk]
  congr 1
  apply List.filter_congr
  intro w hw
  obtain ⟨e, he, hew⟩ := mem_written hw
  obtain ⟨m, hm⟩ := started I.reach (c := e) (by rw [g2]; simp [he])
  have hord := start_order I.reach (l1 := l1 ++ [.exec c]) (l2 := l2) (by rw [g2]; simp) (c := c) (w := e) (by simp) (by simp [he]) hm g3
  rw [hew] at hord hm
  simp only [Function.comp_apply]
  rw [Bool.and_comm]
  congr 1
  rw [decide_eq_decide, ← hord, hm]
  simp [Visible]

open Classical in
/-- Clients that submit no command of a transaction after its end: a query sees everything that was written before, no
matter by whom (the execution is serial). -/
theorem C42_serial_sees_all_writes_partial {Γ : Nat → Ty} {mv : Nat → Bool} {act : Cmd → Action} {d : Db} (h : DReach Γ mv act d)
    (hwell : ∀ l1 l2 x, d.s.log = l1 ++ Event.exec x :: l2 → Event.stop x.txn ∉ l1)
    {c : Cmd} {rs : List Row} (hr : (c, rs) ∈ d.results)
    {T : Nat} {F : CNF} {u : Row → Expr → K3} (hact : act c = .select (.base T F) u) (hT : mv T = true) :
    ∃ l1 l2, ∃ t : Nat, d.s.log = l1 ++ .exec c :: l2 ∧ rs = ((written act l1 T).map
        fun w => (⟨((d.s.startTime w.1).getD 0 : Nat), -1, w.2⟩ : Row)).filter fun r => decide (CNF.val (atomVal t r (u r)) F = .T) := by
  obtain ⟨l1, l2, t, g1, g2, g3⟩ := C42_snapshot_partial h hr hact hT
  refine ⟨l1, l2, t, g1, ?_⟩
  rw [g3]
  congr 2
  rw [List.filter_eq_self]
  intro w hw
  obtain ⟨e, he, hew⟩ := mem_written hw
  rw [decide_eq_true_eq, ← hew]
  obtain ⟨a, b, f, rfl, hf, hnil⟩ := first_exec he
  refine ⟨a, b ++ [.exec c], f, by simp, hf, ?_⟩
  intro x hx hxc
  by_cases hef : e.txn = c.txn
  · exact executed_nil_iff.1 hnil x hx (hxc.trans hef.symm)
  obtain ⟨a1, a2, rfl⟩ := List.append_of_mem hx
  have hs := C32_serial (dreach_inv h).reach a1 a2 (b ++ .exec c :: l2) x f (by rw [g1]; simp) (by rw [hxc, hf]; exact Ne.symm hef)
  refine hwell _ _ c g1 ?_
  rw [← hxc]
  simp [hs]

/-! ### Defects -/

/-- Nested queries are not filtered: they yield row versions that are not visible. -/
theorem C42_nested_queries_are_not_filtered (Γ : Nat → Ty) (mv : Nat → Bool) (s : Src) : applyTS Γ mv (.nested s) = .nested s := rfl

/-- An action: command 0 of a transaction inserts the transaction's number, command 1 selects. -/
def exAct (c : Cmd) : Action := if c.id = 0 then .insert 7 [c.txn] else if c.id = 1 then .select (.base 7 []) (fun _ _ => .N) else .select (.nested (.base 7 [])) (fun _ _ => .N)

def exTy : Nat → Ty := fun _ => .num

/-- Transaction 1 inserts, is stopped (say, aborted); transaction 2 inserts; then each selects, also by a nested query. -/
def exHist : List (Cmd) := [⟨1, 0⟩, ⟨2, 0⟩, ⟨1, 1⟩, ⟨2, 1⟩, ⟨1, 2⟩]

/-- Executes a command to the end and stops the transaction. -/
def exRun (d : Db) (c : Cmd) : Db :=
  let d1 : Db := { d with s := push d.s c false }
  let d2 := execute exTy (fun _ => true) exAct c (((pop d1.s).startTime c.txn).getD 0 : Nat) { d1 with s := pop d1.s }
  let d3 : Db := { d2 with s := finish d2.s true }
  { d3 with s := stop d3.s c.txn }

theorem exRun_reach {d : Db} {c : Cmd} (h : DReach exTy (fun _ => true) exAct d) (hq : d.s.queue = []) (hcur : d.s.current = none) (hrun : d.s.running = none)
    (hcl : d.s.closed = false) : DReach exTy (fun _ => true) exAct (exRun d c) ∧ (exRun d c).s.queue = [] ∧ (exRun d c).s.current = none ∧
      (exRun d c).s.running = none ∧ (exRun d c).s.closed = false := by
  have hpush : push d.s c false = { d.s with queue := [c], submitted := d.s.submitted ++ [c] } := by
    rw [push_open hcl, hq]; rfl
  have hex : ∀ (c : Cmd) (t : Int) (d : Db), (execute exTy (fun _ => true) exAct c t d).s = d.s := by
    intro c t d; unfold execute; split <;> rfl
  have hst : ∃ n, (pop (push d.s c false)).startTime c.txn = some n := by
    rw [hpush]; unfold pop
    simp only
    split
    · simp
    · next hh => simpa [Option.isNone_iff_eq_none, Option.ne_none_iff_exists'] using hh
  obtain ⟨n, hn⟩ := hst
  have h1 : DReach exTy (fun _ => true) exAct { d with s := push d.s c false } := .step h (.push c)
  have h2 := DReach.step h1 (.pop c [] n (by simp only; rw [hpush]; exact hcur) (by simp only; rw [hpush]; simp [canPop, hrun]) (by simp only; rw [hpush]) hn)
  have hp : (pop (push d.s c false)).current = some c ∧ (pop (push d.s c false)).running = some c.txn ∧ (pop (push d.s c false)).queue = [] ∧ (pop (push d.s c false)).closed = false := by
    rw [hpush]; unfold pop; simp [hrun, hcl]
  have h3 := DReach.step h2 (.finish true (by rw [hex]; simp only; rw [hp.1]; simp))
  have h4 := DReach.step h3 (.stop c.txn (by simp only; rw [(finish_same _ _).2.1, hex]; exact hp.2.1))
  unfold exRun
  simp only [hn, Option.getD_some]
  refine ⟨h4, ?_, ?_, rfl, ?_⟩
  · simp only [stop]; rw [(finish_same _ _).2.2.1, hex]; exact hp.2.2.1
  · simp only [stop]; rw [hex]; unfold finish; simp only [hp.1]
  · simp only [stop]; rw [(finish_same _ _).2.2.2.2.1, hex]; exact hp.2.2.2

def exDb : Db := exHist.foldl exRun {}

theorem exDb_reach : DReach exTy (fun _ => true) exAct exDb := by
  have : ∀ (l : List Cmd) (d : Db), DReach exTy (fun _ => true) exAct d → d.s.queue = [] → d.s.current = none → d.s.running = none → d.s.closed = false →
      DReach exTy (fun _ => true) exAct (l.foldl exRun d) := by
    intro l
    induction l with
    | nil => intro d h _ _ _ _; exact h
    | cons c l ih =>
      intro d h h1 h2 h3 h4
      obtain ⟨g, g1, g2, g3, g4⟩ := exRun_reach (c := c) h h1 h2 h3 h4
      exact ih _ g g1 g2 g3 g4
  exact this _ _ .init rfl rfl rfl rfl

/-- Transaction 1 does not see the row of transaction 2, which started later; transaction 2 sees both rows, although
transaction 1 may have been aborted (`abort` ends the transaction like `commit` and undoes nothing); the same query of
transaction 1 as a nested query also yields the invisible row of transaction 2. -/
theorem C42_aborted_rows_visible_and_nested_unfiltered : ∃ d, DReach exTy (fun _ => true) exAct d ∧
    (⟨1, 1⟩, [⟨0, -1, 1⟩]) ∈ d.results ∧ (⟨2, 1⟩, [⟨0, -1, 1⟩, ⟨1, -1, 2⟩]) ∈ d.results ∧
    (⟨1, 2⟩, [⟨0, -1, 1⟩, ⟨1, -1, 2⟩]) ∈ d.results ∧ Event.stop 1 ∈ d.s.log ∧ ¬ Visible 0 ⟨1, -1, 2⟩ :=
  ⟨exDb, exDb_reach, by decide +kernel⟩

open Mutable.Schema in
/-- Without an alias, the filter's attribute is found in the schema of the scan; with an alias that differs from the table's
name it is not (the stack machine builder then reaches `M_unreachable("identifier not found")`). -/
theorem C42_alias_not_found (table : String) (attrs : List String) (hattr : "$ts_begin" ∉ attrs) :
    has (scanSchema none table attrs) (tsBeginIdent table) = .ok true ∧
    ∀ a, a ≠ table → has (scanSchema (some a) table attrs) (tsBeginIdent table) = .ok false := by
  constructor
  · rw [(C41_has _ _).1]
    have : ids (scanSchema none table attrs) = (attrs ++ ["$ts_begin", "$ts_end"]).map fun a => (⟨some table, a⟩ : Ident) := by
      simp [ids, scanSchema]
    have h2 : ((attrs ++ ["$ts_begin", "$ts_end"]).map fun a => (⟨some table, a⟩ : Ident)).count ⟨some table, "$ts_begin"⟩ = 1 := by
      rw [List.count_map_of_injective (f := fun a => (⟨some table, a⟩ : Ident)) _ (by intro a b h; simpa using h) "$ts_begin", List.count_append,
        List.count_eq_zero_of_not_mem hattr]
      decide
    rw [this, tsBeginIdent, h2]
  · intro a ha
    rw [(C41_has _ _).2.1]
    simp only [ids, scanSchema, tsBeginIdent, List.map_map, List.mem_map, Function.comp_apply, Option.getD_some, Ident.mk.injEq,
      Option.some.injEq, not_exists, not_and]
    intro _ _ h
    exact absurd h ha

/-! ### Non-vacuity -/

example : applyTS exTy (fun _ => true) (.base 7 []) ≠ .base 7 [] := by
  intro h
  have h2 := congrArg (fun s => match s with | .base _ F => F.length | .nested _ => 0) h
  revert h2
  decide +kernel

end Mutable.MVCC
