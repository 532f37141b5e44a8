import Verif.Common
import Mathlib.Data.Fintype.Card
/-! Model of `reader_writer_mutex` (include/mutable/util/reader_writer_lock.hpp) used by any set of threads. -/
namespace Mutable.RW

/-- `++x` on `uint16_t`. -/
def inc16 (x : Nat) : Nat := (x + 1) % 65536
/-- `--x` on `uint16_t`. -/
def dec16 (x : Nat) : Nat := (x + 65535) % 65536

/-- `reader_writer_mutex_internal`, the members.  reader_writer_lock.hpp:18-38. -/
structure Internal where
  readersWaiting : Nat := 0
  writersWaiting : Nat := 0
  readersActive : Nat := 0
  writerActive : Bool := false
  wantsUpgrade : Bool := false
  deriving DecidableEq, Repr

namespace Internal

/-- reader_writer_lock.hpp:41 -/
def requestRead (m : Internal) : Internal := { m with readersWaiting := inc16 m.readersWaiting }
/-- reader_writer_lock.hpp:43 -/
def requestWrite (m : Internal) : Internal := { m with writersWaiting := inc16 m.writersWaiting }
/-- `try_request_upgrade`; `none` is `false`.  reader_writer_lock.hpp:45-56 -/
def tryRequestUpgrade (m : Internal) : Option Internal :=
  if m.wantsUpgrade then none else some ({ m with wantsUpgrade := true } : Internal).requestWrite

/-- reader_writer_lock.hpp:58-61 -/
def canAcquireRead (m : Internal) : Bool := !m.wantsUpgrade && !m.writerActive && m.writersWaiting == 0
/-- reader_writer_lock.hpp:63 -/
def canAcquireWrite (m : Internal) : Bool := !m.writerActive && m.readersActive == 0
/-- `can_upgrade_lock`; `none` is a failed `M_insist`.  reader_writer_lock.hpp:65-69 -/
def canUpgrade (m : Internal) : Option Bool :=
  if m.wantsUpgrade && decide (m.writersWaiting > 0) then some (!m.writerActive && m.readersActive == 1) else none

/-- reader_writer_lock.hpp:71-77; `none` is a failed `M_insist`, here and below. -/
def acquireRead (m : Internal) : Option Internal :=
  if m.canAcquireRead && decide (m.readersWaiting > 0) then
    some { m with readersWaiting := dec16 m.readersWaiting, readersActive := inc16 m.readersActive }
  else none
/-- reader_writer_lock.hpp:78-84 -/
def acquireWrite (m : Internal) : Option Internal :=
  if m.canAcquireWrite && decide (m.writersWaiting > 0) then
    some { m with writersWaiting := dec16 m.writersWaiting, writerActive := true }
  else none
/-- reader_writer_lock.hpp:86-91 -/
def releaseRead (m : Internal) : Option Internal :=
  if decide (m.readersActive > 0) && !m.writerActive then some { m with readersActive := dec16 m.readersActive }
  else none
/-- reader_writer_lock.hpp:93-98 -/
def releaseWrite (m : Internal) : Option Internal :=
  if m.writerActive && m.readersActive == 0 then some { m with writerActive := false } else none
/-- reader_writer_lock.hpp:100-107 -/
def upgradeLock (m : Internal) : Option Internal :=
  if m.canUpgrade = some true then
    match releaseRead { m with wantsUpgrade := false } with
    | none => none
    | some m' =>
      match acquireWrite m' with
      | none => none
      | some m'' => if m''.readersActive == 0 then some m'' else none
  else none

end Internal

/-- Where a thread is with respect to one mutex.  `sleepX` is inside `wait` on a condition variable and not notified,
`wokenX` is notified (or spuriously woken) and about to evaluate the wait predicate, `notifyX` has left the critical
section of an unlock and is about to call `notify_writer`/`notify_readers`.  `U` is a waiting `upgrade()`, whose thread
still owns its read lock. -/
inductive Loc
  | idle | sleepR | wokenR | sleepW | wokenW | sleepU | wokenU | holdR | holdW | notifyR | notifyW
  deriving DecidableEq, Repr

/-- State of the mutex and all threads `T`.  `failed` records a failed `M_insist`. -/
structure State (T : Type) where
  m : Internal
  loc : T → Loc
  failed : Bool

/-- The atomic actions of a thread.  Each critical section guarded by `mutex_` is one action (it contains no wait);
waiting on a condition variable and being woken are separate actions. -/
inductive Act (T : Type)
  | lockRead | lockWrite | tryRead | tryWrite | upgrade | unlockRead | unlockWrite
  | recheck                        -- a woken thread evaluates its wait predicate
  | notify (target : Option T)     -- notify_one / notify_all after leaving the critical section
  | spurious                       -- a spurious wake-up

variable {T : Type} [DecidableEq T]

/-- Thread `t` moves to `l`. -/
def State.goto (s : State T) (m : Internal) (t : T) (l : Loc) : State T :=
  { s with m := m, loc := Function.update s.loc t l }

/-- Thread `t` failed an assertion. -/
def State.fail (s : State T) : State T := { s with failed := true }

/-- Result of `r` or a failed assertion. -/
def State.orFail (s : State T) (r : Option Internal) (t : T) (l : Loc) : State T :=
  match r with
  | some m => s.goto m t l
  | none => s.fail

/-- The predicate check and acquisition of `lock_read`.  reader_writer_lock.hpp:144-146 -/
def State.waitRead (s : State T) (m : Internal) (t : T) : State T :=
  if m.canAcquireRead then s.orFail m.acquireRead t .holdR else s.goto m t .sleepR

/-- The predicate check and acquisition of `lock_write`.  reader_writer_lock.hpp:153-155 -/
def State.waitWrite (s : State T) (m : Internal) (t : T) : State T :=
  if m.canAcquireWrite then s.orFail m.acquireWrite t .holdW else s.goto m t .sleepW

/-- The predicate check and upgrade of `upgrade`.  reader_writer_lock.hpp:198-200 -/
def State.waitUpgrade (s : State T) (m : Internal) (t : T) : State T :=
  match m.canUpgrade with
  | none => s.fail
  | some true => s.orFail m.upgradeLock t .holdW
  | some false => s.goto m t .sleepU

/-- Wakes a thread waiting on `cv_writers_`. -/
def wakeW : Loc → Loc
  | .sleepW => .wokenW
  | .sleepU => .wokenU
  | l => l

/-- Wakes a thread waiting on `cv_readers_`. -/
def wakeR : Loc → Loc
  | .sleepR => .wokenR
  | l => l

/-- `unlock_read` after `release_read_lock`.  reader_writer_lock.hpp:204-218 -/
def State.afterReleaseRead (s : State T) (m : Internal) (t : T) : State T :=
  if m.wantsUpgrade && m.writersWaiting == 0 then s.fail
  else if m.wantsUpgrade && m.readersActive == 1 then s.goto m t .notifyW
  else if m.readersActive == 0 && m.writersWaiting != 0 then s.goto m t .notifyW
  else s.goto m t .idle

/-- `unlock_write` after `release_write_lock`.  reader_writer_lock.hpp:224-233 -/
def State.afterReleaseWrite (s : State T) (m : Internal) (t : T) : State T :=
  if m.writersWaiting != 0 then s.goto m t .notifyW
  else if m.writersWaiting == 0 && m.readersWaiting != 0 then s.goto m t .notifyR
  else s.goto m t .idle

/-- One atomic action of thread `t`.  A thread calls an unlock or upgrade only when it owns the corresponding lock
(the contract of the class), and takes no step after an assertion failed.
`lockRead` :139-147, `lockWrite` :149-156, `tryRead` :158-166, `tryWrite` :168-176, `upgrade` :191-202,
`unlockRead` :204-218, `unlockWrite` :220-234 of reader_writer_lock.hpp. -/
inductive Step (s : State T) (t : T) : Act T → State T → Prop
  | lockRead : s.failed = false → s.loc t = .idle → Step s t .lockRead (s.waitRead s.m.requestRead t)
  | lockWrite : s.failed = false → s.loc t = .idle → Step s t .lockWrite (s.waitWrite s.m.requestWrite t)
  | tryRead : s.failed = false → s.loc t = .idle → Step s t .tryRead
      (if s.m.canAcquireRead then s.orFail s.m.requestRead.acquireRead t .holdR else s)
  | tryWrite : s.failed = false → s.loc t = .idle → Step s t .tryWrite
      (if s.m.canAcquireWrite then s.orFail s.m.requestWrite.acquireWrite t .holdW else s)
  | upgrade : s.failed = false → s.loc t = .holdR → Step s t .upgrade
      (match s.m.tryRequestUpgrade with
       | none => s      -- returns false, the read lock stays held
       | some m => s.waitUpgrade m t)
  | unlockRead : s.failed = false → s.loc t = .holdR → Step s t .unlockRead
      (match s.m.releaseRead with
       | none => s.fail
       | some m => s.afterReleaseRead m t)
  | unlockWrite : s.failed = false → s.loc t = .holdW → Step s t .unlockWrite
      (if s.m.readersActive == 0 then
        match s.m.releaseWrite with
        | none => s.fail
        | some m => s.afterReleaseWrite m t
       else s.fail)
  | recheckR : s.failed = false → s.loc t = .wokenR → Step s t .recheck (s.waitRead s.m t)
  | recheckW : s.failed = false → s.loc t = .wokenW → Step s t .recheck (s.waitWrite s.m t)
  | recheckU : s.failed = false → s.loc t = .wokenU → Step s t .recheck (s.waitUpgrade s.m t)
  | notifyNone : s.failed = false → s.loc t = .notifyW → (∀ u, s.loc u ≠ .sleepW ∧ s.loc u ≠ .sleepU) →
      Step s t (.notify none) (s.goto s.m t .idle)
  | notifyOne (u : T) : s.failed = false → s.loc t = .notifyW → (s.loc u = .sleepW ∨ s.loc u = .sleepU) →
      Step s t (.notify (some u)) ((s.goto s.m u (wakeW (s.loc u))).goto s.m t .idle)
  | notifyAll : s.failed = false → s.loc t = .notifyR →
      Step s t (.notify none) (({ s with loc := fun u => wakeR (s.loc u) } : State T).goto s.m t .idle)
  | spuriousW : s.failed = false → (s.loc t = .sleepW ∨ s.loc t = .sleepU) →
      Step s t .spurious (s.goto s.m t (wakeW (s.loc t)))
  | spuriousR : s.failed = false → s.loc t = .sleepR → Step s t .spurious (s.goto s.m t (wakeR (s.loc t)))

/-- The initial state: nobody holds or waits for the lock. -/
def init (T : Type) : State T := ⟨{}, fun _ => .idle, false⟩

/-- States reachable by actions satisfying `P`, in any interleaving. -/
inductive Reach (P : Act T → Prop) : State T → Prop
  | init : Reach P (init T)
  | step {s s' : State T} {t : T} {a : Act T} : Reach P s → P a → Step s t a s' → Reach P s'

end Mutable.RW
