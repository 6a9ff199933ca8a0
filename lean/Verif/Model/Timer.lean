/-!
# Model of `mbqc_scheduling/src/timer.rs`

A transition system with three kinds of actors: the owner of the `Timer` (calls `start` and finally
drops it), the threads spawned by `start`, and the clock. Every access to the mutex is a step of its
own. `Condvar::wait_timeout_while` is modelled by its source in the standard library
(`library/std/src/sync/poison/condvar.rs`): read the clock once at the beginning, then loop: test the
condition, compare the elapsed time with the duration, otherwise `wait_timeout`, which releases the
mutex and goes to sleep in one step. A sleeping thread may wake up at any time (notification, timeout
or spuriously) and then has to acquire the mutex again. Not modelled: failing to spawn a thread, and
poisoned mutexes (no modelled step panics).
-/

namespace Verif

/-- Where a thread spawned by `start` is, timer.rs:64-76. -/
inductive TimerPhase where
  /-- 68: about to lock the mutex for the first time. -/
  | spawned
  /-- 67: inside `wait_timeout_while`, holds the mutex, has not read the clock yet. -/
  | entered
  /-- Holds the mutex, about to test the condition; `start` is the instant read on entry. -/
  | testing (start : Nat)
  /-- In `wait_timeout`, does not hold the mutex. -/
  | sleeping (start : Nat)
  /-- Woken up, about to re-acquire the mutex. -/
  | woken (start : Nat)
  /-- 73: `wait_timeout_while` has returned with this `timed_out`; the guard `_lock` is alive. -/
  | returned (timedOut : Bool)
  /-- 76: about to drop the guard at the end of the closure. -/
  | leaving
  /-- The thread has ended. -/
  | ended
  deriving DecidableEq, Repr

structure TimerThread where
  duration : Nat
  phase : TimerPhase
  deriving DecidableEq, Repr

/-- Where the owner is. The phases after `alive` are those of `drop`, timer.rs:94-101. -/
inductive OwnerPhase where
  | alive
  /-- 96: about to lock the mutex. -/
  | dropLock
  /-- 96: holds the mutex, about to store `true`. -/
  | dropStore
  /-- 96: has stored, still holds the mutex. -/
  | dropUnlock
  /-- 97: about to call `notify_all`. -/
  | dropNotify
  /-- 98-100: about to join the thread whose handle is stored, if any. -/
  | dropJoin
  | dropped
  deriving DecidableEq, Repr

/-- Who holds the mutex. -/
inductive Holder where
  | owner
  | thread (i : Nat)
  deriving DecidableEq, Repr

/-- `Timer`, timer.rs:41-47, with its threads and the clock. `dropping` is the content of the mutex;
`handle` is the index of the thread whose `JoinHandle` is stored. -/
structure TimerSys where
  now : Nat
  finished : Bool
  dropping : Bool
  lock : Option Holder
  owner : OwnerPhase
  handle : Option Nat
  threads : List TimerThread
  deriving DecidableEq, Repr

/-- `Timer::new`, timer.rs:51-57, at the instant `now`. -/
def TimerSys.new (now : Nat) : TimerSys := ⟨now, false, false, none, .alive, none, []⟩

inductive TimerAction where
  /-- The owner calls `start`. -/
  | start (duration : Nat)
  /-- The owner lets go of the timer: `drop` begins. -/
  | drop
  /-- The next step of the owner inside `drop`. -/
  | owner
  /-- The next step of thread `i`. -/
  | thread (i : Nat)
  /-- The sleeping thread `i` wakes up, for whatever reason. -/
  | wake (i : Nat)
  /-- Time passes. -/
  | tick (n : Nat)
  deriving DecidableEq, Repr

namespace TimerSys

/-- Thread `i` continues in phase `p`. -/
def goto (s : TimerSys) (i : Nat) (t : TimerThread) (p : TimerPhase) : TimerSys :=
  { s with threads := s.threads.set i { t with phase := p } }

/-- One step of thread `i`, timer.rs:64-76; `none`: it cannot take a step now. -/
def threadStep (s : TimerSys) (i : Nat) : Option TimerSys :=
  match s.threads[i]? with
  | none => none
  | some t =>
    match t.phase with
    | .spawned =>
      match s.lock with
      | none => some { s.goto i t .entered with lock := some (.thread i) }
      | some _ => none
    | .entered => some (s.goto i t (.testing s.now))
    | .testing start =>
      if s.dropping then some (s.goto i t (.returned false))
      else if t.duration < s.now - start then some (s.goto i t (.returned true))
      else some { s.goto i t (.sleeping start) with lock := none }
    | .sleeping _ => none
    | .woken start =>
      match s.lock with
      | none => some { s.goto i t (.testing start) with lock := some (.thread i) }
      | some _ => none
    | .returned timedOut =>
      if timedOut then some { s.goto i t .leaving with finished := true }
      else some (s.goto i t .leaving)
    | .leaving => some { s.goto i t .ended with lock := none }
    | .ended => none

/-- `notify_all`: every sleeping thread wakes up. -/
def notifyAll (s : TimerSys) : TimerSys :=
  { s with threads := s.threads.map fun t =>
      match t.phase with
      | .sleeping start => { t with phase := .woken start }
      | _ => t }

/-- The next step of `drop`, timer.rs:94-101; `none`: the owner is not in `drop` or has to wait. -/
def ownerStep (s : TimerSys) : Option TimerSys :=
  match s.owner with
  | .alive => none
  | .dropLock =>
    match s.lock with
    | none => some { s with owner := .dropStore, lock := some .owner }
    | some _ => none
  | .dropStore => some { s with owner := .dropUnlock, dropping := true }
  | .dropUnlock => some { s with owner := .dropNotify, lock := none }
  | .dropNotify => some { s.notifyAll with owner := .dropJoin }
  | .dropJoin =>
    match s.handle with
    | none => some { s with owner := .dropped }
    | some i =>
      match s.threads[i]? with
      | some ⟨_, .ended⟩ => some { s with owner := .dropped }
      | _ => none
  | .dropped => none

/-- One action; `none`: not possible in this state. -/
def step (s : TimerSys) : TimerAction → Option TimerSys
  | .start d =>
    match s.owner with
    | .alive => some { s with handle := some s.threads.length,
                              threads := s.threads ++ [⟨d, .spawned⟩] }
    | _ => none
  | .drop =>
    match s.owner with
    | .alive => some { s with owner := .dropLock }
    | _ => none
  | .owner => s.ownerStep
  | .thread i => s.threadStep i
  | .wake i =>
    match s.threads[i]? with
    | some t =>
      match t.phase with
      | .sleeping start => some (s.goto i t (.woken start))
      | _ => none
    | none => none
  | .tick n => some { s with now := s.now + n }

/-- A sequence of actions, all of them possible. -/
def exec (s : TimerSys) : List TimerAction → Option TimerSys
  | [] => some s
  | a :: as =>
    match s.step a with
    | some s' => exec s' as
    | none => none

end TimerSys
end Verif
