import Verif.Model.Threaded
/-!
# Model of the locking in `mbqc_scheduling/src/search/threaded.rs`

A finer transition system than the one in `Verif.Model.Threaded`: here acquiring a mutex, working
under it and releasing it are separate steps, and asking the timer happens after the lock is released,
so other tasks can run in between. `best_memory` and `results` are two mutexes; a guard that is a
temporary lives until the end of its statement, the two guards bound by `let` in `task` live until the
end of the function and are dropped in reverse order. A task that wants a mutex which is not free
cannot take a step. The critical sections themselves are one step each: nobody else can look at the
data in the meantime.
-/

namespace Verif
namespace Search
namespace Threaded

/-- Where a task is, threaded.rs:106-240. A phase `free t` is outside of all locks; what it does next
is determined by `t`. -/
inductive Phase (σ : Type) where
  /-- No lock is held. -/
  | free (t : TaskState σ)
  /-- Inside the `debug!` at 117-121: holds `best_memory`. -/
  | logB (sched : Scheduler Partitioner) (init : Option (List Nat)) (rng : σ)
  /-- After the `debug!`, no lock is held. -/
  | logged (sched : Scheduler Partitioner) (init : Option (List Nat)) (rng : σ)
  /-- 196-197: holds `best_memory`, about to copy it. -/
  | startB (sched : Scheduler Partitioner) (init : Option (List Nat)) (rng : σ)
  /-- 196-197: has copied, still holds `best_memory`. -/
  | startedB (loc : Loc) (rng : σ) (wasInit : Bool)
  /-- 168-171: the iteration is done, an update is due, no lock is held. -/
  | updWant (loc : Loc) (rng : σ) (wasInit : Bool)
  /-- 172: holds `best_memory`, about to exchange. -/
  | updB (loc : Loc) (rng : σ) (wasInit : Bool)
  /-- 178: has exchanged, still holds `best_memory`. -/
  | updDoneB (loc : Loc) (rng : σ) (wasInit : Bool)
  /-- 180: no lock is held, about to ask the timer. -/
  | updAsk (loc : Loc) (rng : σ) (wasInit : Bool)
  /-- 142: holds `best_memory`, wants `results`. -/
  | mergeB (loc : Loc)
  /-- 144: holds both, about to merge. -/
  | mergeBR (loc : Loc)
  /-- 158: has merged, holds both. -/
  | mergedBR
  /-- 158: has dropped the guard of `results`, still holds `best_memory`. -/
  | mergedB

/-- The pool with its two mutexes: contents and owners. -/
structure Fine (σ : Type) where
  best : List Nat
  results : MappedPaths
  lockB : Option Nat
  lockR : Option Nat
  phases : List (Phase σ)

/-- Continue in a phase. -/
def Fine.goto {σ : Type} (f : Fine σ) (i : Nat) (p : Phase σ) : Fine σ :=
  { f with phases := f.phases.set i p }

/-- Acquire `best_memory` and continue in a phase; `none`: it is not free. -/
def Fine.acquireB {σ : Type} (f : Fine σ) (i : Nat) (p : Phase σ) : Option (Fine σ) :=
  match f.lockB with
  | none => some { f.goto i p with lockB := some i }
  | some _ => none

/-- Acquire `results` and continue in a phase; `none`: it is not free. -/
def Fine.acquireR {σ : Type} (f : Fine σ) (i : Nat) (p : Phase σ) : Option (Fine σ) :=
  match f.lockR with
  | none => some { f.goto i p with lockR := some i }
  | some _ => none

/-- One step of task `i`, threaded.rs:106-240 (242-308); `none`: it cannot take a step now, because it
waits for a mutex or has returned. `trace`: whether debug messages are enabled (the arguments of
`debug!` are not evaluated otherwise). `timerBit`: the answer of `timer.finished()`. -/
def fineStep {F σ : Type} [FloatOps F] (mode : Mode F σ) (prof : Profile) (trace : Bool) (f : Fine σ)
    (i : Nat) (timerBit : Bool) : R (Option (Fine σ)) :=
  match f.phases[i]? with
  | none => pure none
  | some (.free (.ready sched init rng)) =>
    if trace then pure (f.acquireB i (.logB sched init rng))
    else pure (f.acquireB i (.startB sched init rng))
  | some (.logB sched init rng) => pure (some { f.goto i (.logged sched init rng) with lockB := none })
  | some (.logged sched init rng) => pure (f.acquireB i (.startB sched init rng))
  | some (.startB sched init rng) =>
    pure (some (f.goto i (.startedB (startLoc sched init f.best) rng init.isSome)))
  | some (.startedB loc rng wasInit) =>
    pure (some { f.goto i (.free (.running loc rng 0 wasInit)) with lockB := none })
  | some (.free (.running loc rng counter wasInit)) => do
    let (loc', rng', stop) ← modeIter mode prof loc rng
    if stop then
      let loc'' ← finishLoop loc' counter wasInit
      pure (some (f.goto i (.free (.finishing loc''))))
    else if counter = updateInterval then pure (some (f.goto i (.updWant loc' rng' wasInit)))
    else pure (some (f.goto i (.free (.running loc' rng' (counter + 1) wasInit))))
  | some (.updWant loc rng wasInit) => pure (f.acquireB i (.updB loc rng wasInit))
  | some (.updB loc rng wasInit) =>
    let ex := exchange f.best loc.best
    pure (some { f.goto i (.updDoneB { loc with best := ex.2 } rng wasInit) with best := ex.1 })
  | some (.updDoneB loc rng wasInit) =>
    pure (some { f.goto i (.updAsk loc rng wasInit) with lockB := none })
  | some (.updAsk loc rng wasInit) =>
    if timerBit then pure (some (f.goto i (.free (.finishing loc))))
    else pure (some (f.goto i (.free (.running loc rng 1 wasInit))))
  | some (.free (.finishing loc)) =>
    if loc.results.isEmpty then pure (some (f.goto i (.free .done)))
    else pure (f.acquireB i (.mergeB loc))
  | some (.mergeB loc) => pure (f.acquireR i (.mergeBR loc))
  | some (.mergeBR loc) =>
    let r := mergeLoop 0 f.best loc.best loc.results f.results
    pure (some { f.goto i .mergedBR with best := r.1, results := r.2 })
  | some .mergedBR => pure (some { f.goto i .mergedB with lockR := none })
  | some .mergedB => pure (some { f.goto i (.free .done) with lockB := none })
  | some (.free .done) => pure none

/-- A sequence of attempts: which task tries to take a step and what the timer answers. -/
def fineRun {F σ : Type} [FloatOps F] (mode : Mode F σ) (prof : Profile) (trace : Bool) :
    Fine σ → List (Nat × Bool) → R (Fine σ)
  | f, [] => pure f
  | f, m :: ms => do
    let r ← fineStep mode prof trace f m.1 m.2
    match r with
    | some f' => fineRun mode prof trace f' ms
    | none => fineRun mode prof trace f ms

/-- The pool right after spawning, threaded.rs:45-46, 60-100: both mutexes are free. -/
def initFine {σ : Type} (prof : Profile) (taskBound : Int) (seeds : Nat → σ)
    (s : Scheduler Partitioner) (numBits : Nat) : R (Fine σ) := do
  let tasks ← spawn prof taskBound seeds s
  pure ⟨List.replicate (numBits + 1) usizeMax, [], none, none, tasks.map .free⟩

/-- All tasks have returned. -/
def Fine.finished {σ : Type} (f : Fine σ) : Bool :=
  f.phases.all fun p => match p with | .free .done => true | _ => false

/-- `threaded::search`, as in `searchThreaded`, on the level of locks. -/
def searchFine {F σ : Type} [FloatOps F] (mode : Mode F σ) (prof : Profile) (trace : Bool)
    (hashIter : MappedPaths → MappedPaths) (taskBound : Int) (seeds : Nat → σ)
    (steps : List (Nat × Bool)) (spacialGraph : List (List Nat)) (timeOrdering : OrderGraph) :
    R (Option (List Path)) := do
  let scheduler ← mkScheduler spacialGraph timeOrdering
  let f ← initFine prof taskBound seeds scheduler spacialGraph.length
  let f' ← fineRun mode prof trace f steps
  if f'.finished then do
    let out ← postprocess hashIter spacialGraph.length f'.results
    pure (some out)
  else pure none

end Threaded
end Search
end Verif
