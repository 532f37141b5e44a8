/-!
# Model of `SerialScheduler` (src/catalog/SerialScheduler.{hpp,cpp}, src/catalog/Scheduler.cpp)

All accesses to the queue happen under its mutex, so every operation of the queue is one atomic step; the worker thread
waits in `pop` until its wake-up condition holds (a step that is not enabled).  Transactions are identified by their id,
commands by a number.  Executing a command is abstract: it ends with an arbitrary answer (`Sema` may reject it).

`push` evaluates `std::find_if(command_list_.rend(), command_list_.rbegin(), …)` (SerialScheduler.cpp:51-53): the
arguments are swapped.  On an empty list the range is empty.  On a non-empty list the comparison dereferences `rend()`
(undefined behaviour); the parameter `sentinelEq` is the unknown result of that comparison.  If it is false, the
iterator is incremented, which wraps around to `rbegin()` and ends the search.
-/
namespace Mutable.Sched

abbrev Txn := Nat

/-- A queued command (`queued_command`, Scheduler.hpp:39): its transaction and an identity. -/
structure Cmd where
  txn : Txn
  id : Nat
deriving DecidableEq

/-- What is observable: a command is handed to the execution, a transaction is committed or aborted. -/
inductive Event where
  | exec (c : Cmd)
  | stop (t : Txn)
deriving DecidableEq

/-- `CommandQueue` (SerialScheduler.hpp:17-28), the worker thread's current command, the answers given and the events. -/
structure S where
  queue : List Cmd := []
  running : Option Txn := none
  closed : Bool := false
  current : Option Cmd := none
  answers : List (Cmd × Bool) := []
  log : List Event := []
  startTime : Txn → Option Nat := fun _ => none
  nextTime : Nat := 0
  submitted : List Cmd := []

/-- `push` (SerialScheduler.cpp:39-63). -/
def push (s : S) (c : Cmd) (sentinelEq : Bool) : S :=
  if s.closed then { s with answers := s.answers ++ [(c, false)] } else
  let found := decide (s.queue = []) || sentinelEq   -- `it == command_list_.rend()`
  let atRbegin := decide (s.queue = []) || !sentinelEq -- `it == command_list_.rbegin()`
  let queue :=
    if decide (s.running = some c.txn) && found then c :: s.queue
    else if atRbegin then s.queue ++ [c]
    else s.queue.take 1 ++ c :: s.queue.drop 1
  { s with queue := queue, submitted := s.submitted ++ [c] }

/-- The wake-up condition of `pop` with a non-empty queue (SerialScheduler.cpp:12-25). -/
def canPop (s : S) : Bool :=
  match s.queue with
  | [] => false
  | c :: _ => s.running.isNone || decide (s.running = some c.txn)

/-- `pop` (SerialScheduler.cpp:27-36) and the assignment of the start time (SerialScheduler.cpp:138-139). -/
def pop (s : S) : S :=
  match s.queue with
  | [] => s
  | c :: q =>
    let fresh := (s.startTime c.txn).isNone
    { s with queue := q, running := if s.running.isNone then some c.txn else s.running, current := some c,
             log := s.log ++ [.exec c],
             startTime := if fresh then fun t => if t = c.txn then some s.nextTime else s.startTime t else s.startTime,
             nextTime := if fresh then s.nextTime + 1 else s.nextTime }

/-- The worker answers the current command (SerialScheduler.cpp:149-158). -/
def finish (s : S) (b : Bool) : S :=
  match s.current with
  | none => s
  | some c => { s with current := none, answers := s.answers ++ [(c, b)] }

/-- `stop_transaction` (SerialScheduler.cpp:83-89), called by `commit` and `abort`. -/
def stop (s : S) (t : Txn) : S := { s with running := none, log := s.log ++ [.stop t] }

/-- `close` (SerialScheduler.cpp:65-75). -/
def close (s : S) : S := { s with closed := true, queue := [], answers := s.answers ++ s.queue.map (·, false) }

/-- One step of the system: any number of clients and one worker thread. -/
inductive Step (sentinelEq : Bool) : S → S → Prop where
  | push {s} (c) : Step sentinelEq s (push s c sentinelEq)
  | pop {s} : s.current = none → canPop s = true → Step sentinelEq s (pop s)
  | finish {s} (b) : s.current ≠ none → Step sentinelEq s (finish s b)
  | stop {s} (t) : s.running = some t → Step sentinelEq s (stop s t) -- `M_insist(&t == running_transaction_)`
  | close {s} : Step sentinelEq s (close s)

/-- The reachable states. -/
inductive Reach (sentinelEq : Bool) : S → Prop where
  | init : Reach sentinelEq {}
  | step {s s'} : Reach sentinelEq s → Step sentinelEq s s' → Reach sentinelEq s'

/-! ### Clients that use `autocommit` (Scheduler.cpp:8-22): one command per transaction, which is ended after the answer. -/

/-- A client submits the only command of a new transaction. -/
inductive APush : S → S → Prop where
  | push {s} (c) : s.closed = false → (∀ d ∈ s.submitted, d.txn ≠ c.txn) → APush s (push s c false)

/-- The worker makes a step, or a client that has got its answer ends its transaction. -/
inductive AWork : S → S → Prop where
  | pop {s} : s.current = none → canPop s = true → AWork s (pop s)
  | finish {s} (b) : s.current ≠ none → AWork s (finish s b)
  | stop {s} (c b) : (c, b) ∈ s.answers → s.running = some c.txn → AWork s (stop s c.txn)

/-- Reachable states with `autocommit` clients (no shutdown). -/
inductive AReach : S → Prop where
  | init : AReach {}
  | push {s s'} : AReach s → APush s s' → AReach s'
  | work {s s'} : AReach s → AWork s s' → AReach s'

end Mutable.Sched
